import Verif.Pool.Fetch
import Verif.Relay.Lemmas
/-!
# C187: what `SubscribeMany` hands over

The machine of `subMany` (pool.go:414-581) for its events: the table of ids seen, with the time each was last heard of; the sweeps that drop old entries from it; queues of accepted events; reconnections and the `since` they ask for. (`Verif.Pool.SubMany` is about how it ends.)

Simplifications: a message's arrival and its check are one action (the check is one operation of the map, pool.go:494); taking an event and handing it over are one action; the sweep looks at one entry and deletes it in two actions, as it does in the code (pool.go:545-549), but compares with the time of that
action instead of the (earlier) one at which the sweep began; `valid` stands for all of: the message parses, matches the filter, its signature is good; the clock never goes back; the contexts are not cancelled.
-/

set_option autoImplicit false

namespace GoNostr.Live
open GoNostr.Fetch (Msg)

/-- `seenAlreadyDropTick` (pool.go:20), in seconds. -/
def dropTick : Int := 60

/-- A worker: its events accepted but not handed over, if it is subscribed; whether it has got an EOSE; the entry its sweep is about to delete (pool.go:447-577). -/
structure Worker where
  queue : Option (List Msg)
  eosed : Bool
  sweep : Option Bytes
  deriving DecidableEq, Repr

/-- Shared state: the clock; `seenAlready`; the filters' `since`; workers; what the consumer got. The rest is history: ids heard of with the time, messages accepted, accepted messages lost with their connection, and the `since` of each subscription request. -/
structure State where
  now : Int
  seen : Bytes → Option Int
  since : Option Int
  workers : List Worker
  emitted : List Msg
  heard : List (Bytes × Int)
  accepted : List Msg
  lost : List Msg
  asked : List (Nat × Option Int)

/-- pool.go:421-449: `n` workers; the caller's `since`. -/
def init (n : Nat) (now : Int) (since : Option Int) : State := ⟨now, fun _ => none, since, List.replicate n ⟨none, false, none⟩, [], [], [], [], []⟩

/-- The atomic actions. -/
inductive Lab
  /-- time goes by -/
  | wait (d : Nat)
  /-- worker `i` is connected and subscribes (pool.go:484-503) -/
  | subscribe (i : Nat)
  /-- its subscription gets a message (relay.go:236-242, pool.go:493-499) -/
  | recv (i : Nat) (m : Msg)
  /-- an EOSE (pool.go:505-512) -/
  | eose (i : Nat)
  /-- one of its accepted events is handed over (pool.go:519, 532-541; goroutines compete, so any of them) -/
  | take (i j : Nat)
  /-- its sweep finds an old entry (pool.go:542-546) -/
  | mark (i : Nat) (x : Bytes)
  /-- and deletes it (pool.go:547) -/
  | delete (i : Nat)
  /-- its connection breaks (pool.go:520-530) -/
  | broken (i : Nat)
  /-- its relay closes the subscription; after an AUTH it may subscribe again (pool.go:551-565) -/
  | closed (i : Nat)
  deriving DecidableEq, Repr

/-- Assignment to one component of the state. -/
def State.setW (s : State) (i : Nat) (w : Worker) : State := { s with workers := s.workers.set i w }

/-- One action; `none` if it is not possible. -/
def step (s : State) : Lab → Option State
  | .wait d => some { s with now := s.now + d }
  | .subscribe i => match s.workers[i]? with
    | some w => if w.queue = none then some { s.setW i { w with queue := some [] } with asked := s.asked ++ [(i, s.since)] } else none
    | none => none
  | .recv i m => match s.workers[i]? with
    | some w => match w.queue with
      | some q =>
        let s' := { s with seen := fun x => if x = m.xid then some s.now else s.seen x, heard := s.heard ++ [(m.xid, s.now)] }
        if s.seen m.xid = none ∧ m.valid = true then some { s'.setW i { w with queue := some (q ++ [m]) } with accepted := s.accepted ++ [m] } else some s'
      | none => none
    | none => none
  | .eose i => match s.workers[i]? with
    | some w => if w.queue ≠ none then some (s.setW i { w with eosed := true }) else none
    | none => none
  | .take i j => match s.workers[i]? with
    | some w => match w.queue with
      | some q => match q[j]? with
        | some m => some { s.setW i { w with queue := some (q.eraseIdx j) } with emitted := s.emitted ++ [m] }
        | none => none
      | none => none
    | none => none
  | .mark i x => match s.workers[i]? with
    | some w => match s.seen x with
      | some v => if w.eosed = true ∧ w.sweep = none ∧ v < s.now - dropTick then some (s.setW i { w with sweep := some x }) else none
      | none => none
    | none => none
  | .delete i => match s.workers[i]? with
    | some w => match w.sweep with
      | some x => some { s.setW i { w with sweep := none } with seen := fun y => if y = x then none else s.seen y }
      | none => none
    | none => none
  | .broken i => match s.workers[i]? with
    | some w => match w.queue with
      | some q => some { s.setW i { w with queue := none } with since := some s.now, lost := s.lost ++ q }
      | none => none
    | none => none
  | .closed i => match s.workers[i]? with
    | some w => match w.queue with
      | some q => some { s.setW i { w with queue := none } with lost := s.lost ++ q }
      | none => none
    | none => none

/-- A run. -/
def run (s : State) : List Lab → Option State
  | [] => some s
  | l :: ls => match step s l with
    | none => none
    | some s' => run s' ls

/-! ### Specification -/

/-- Specification: when the id was heard of, in order. -/
def times (s : State) (x : Bytes) : List Int := (s.heard.filter (fun h => h.1 == x)).map (·.2)

/-- Specification: never more than a minute from one time to the next. -/
def Close : List Int → Prop
  | a :: b :: l => b - a ≤ 60 ∧ Close (b :: l)
  | _ => True

/-- Specification: the times at which a relay sent a message with that id. -/
def arrivals (x : Bytes) : Int → List Lab → List Int
  | _, [] => []
  | now, .wait d :: ls => arrivals x (now + d) ls
  | now, .recv _ m :: ls => if m.xid = x then now :: arrivals x now ls else arrivals x now ls
  | now, _ :: ls => arrivals x now ls

/-- Specification: when some relay's connection broke last; before that, what the caller wanted. -/
def lastBreak : Int → Option Int → List Lab → Option Int
  | _, since, [] => since
  | now, since, .wait d :: ls => lastBreak (now + d) since ls
  | now, _, .broken _ :: ls => lastBreak now (some now) ls
  | now, since, _ :: ls => lastBreak now since ls

/-- Specification: accepted by a relay's subscription and still to be handed over. -/
def Waiting (s : State) (m : Msg) : Prop := ∃ w ∈ s.workers, ∃ q, w.queue = some q ∧ m ∈ q

/-! ### Proofs -/

/-- Split a transition into its cases. -/
macro "live_cases" h:ident : tactic => `(tactic| (
  simp only [step, State.setW] at $h:ident
  (repeat' split at $h:ident) <;> (try simp only [reduceCtorEq, Option.some.injEq] at $h:ident) <;> (try subst $h:ident)))

theorem run_inv {P : State → Prop} (hs : ∀ s l s', P s → step s l = some s' → P s') : ∀ {ls : List Lab} {s s' : State}, P s → run s ls = some s' → P s'
  | [], s, s', hp, h => by simp only [run, Option.some.injEq] at h; exact h ▸ hp
  | l :: ls, s, s', hp, h => by
    simp only [run] at h
    cases h1 : step s l with
    | none => rw [h1] at h; cases h
    | some s1 => rw [h1] at h; exact run_inv hs (hs _ _ _ hp h1) h

theorem close_snoc {l : List Int} {a b : Int} : Close (l ++ [a, b]) ↔ Close (l ++ [a]) ∧ b - a ≤ 60 := by
  induction l with
  | nil => simp [Close]
  | cons c l ih =>
    cases l with
    | nil => simp [Close]; 
    | cons d l => simp only [List.cons_append, Close] at ih ⊢; rw [ih]; exact and_assoc.symm

/-- The last time. -/
theorem close_push {l : List Int} {b : Int} (h : Close (l ++ [b])) : Close l ∧ ∀ a, l.getLast? = some a → b - a ≤ 60 := by
  rcases List.eq_nil_or_concat l with rfl | ⟨l', a, rfl⟩
  · exact ⟨trivial, by simp⟩
  · rw [List.concat_eq_append] at h ⊢
    rw [List.append_assoc] at h
    obtain ⟨h1, h2⟩ := close_snoc.1 h
    refine ⟨h1, ?_⟩
    intro c hc
    simp at hc
    omega

/-- Invariant of the proofs; models no code: as long as an id is heard of often enough, its entry is current or it is late already. -/
structure SeenInv (x : Bytes) (s : State) : Prop where
  late : Close (times s x) → ∀ a, (times s x).getLast? = some a → a ≤ s.now ∧ (s.seen x = some a ∨ a + 60 < s.now)
  sweep : Close (times s x) → ∀ w ∈ s.workers, w.sweep = some x → ∀ a, (times s x).getLast? = some a → a + 60 < s.now
  swept : ∀ w ∈ s.workers, w.sweep = some x → times s x ≠ []
  value : ∀ v, s.seen x = some v → (times s x).getLast? = some v
  acc : Close (times s x) → (s.accepted.filter (fun m => m.xid == x)).length ≤ 1
  heard : (times s x) = [] → s.accepted.filter (fun m => m.xid == x) = []

theorem times_push (s : State) (x : Bytes) (t : Int) (y : Bytes) : ((s.heard ++ [(y, t)]).filter (fun h => h.1 == x)).map (·.2) = times s x ++ (if y = x then [t] else []) := by
  by_cases h : y = x <;> simp [times, List.filter_append, h]

theorem sweep_set {ws : List Worker} {i : Nat} {w w1 : Worker} {x : Bytes} (hw : ws[i]? = some w) (he : w1.sweep = w.sweep) :
    ∀ w' ∈ ws.set i w1, w'.sweep = some x → ∃ w0 ∈ ws, w0.sweep = some x := by
  intro w' hw' hx
  rcases List.mem_or_eq_of_mem_set hw' with h1 | rfl
  · exact ⟨w', h1, hx⟩
  · exact ⟨w, List.mem_of_getElem? hw, he ▸ hx⟩

theorem seenInv_step (x : Bytes) {s : State} {l : Lab} {s' : State} (I : SeenInv x s) (h : step s l = some s') : SeenInv x s' := by
  obtain ⟨hl, hsw, hne, hv, ha, hh⟩ := I
  cases l with
  | wait d =>
    live_cases h
    refine ⟨?_, ?_, hne, hv, ha, hh⟩
    · intro hc a hla
      obtain ⟨h1, h2⟩ := hl hc a hla
      refine ⟨by simp only; omega, h2.imp id (fun h => by simp only; omega)⟩
    · intro hc w hw hx a hla
      have := hsw hc w hw hx a hla
      simp only; omega
  | subscribe i =>
    live_cases h
    rename_i w hw hq
    refine ⟨hl, ?_, ?_, hv, ha, hh⟩
    · intro hc w' hw' hx
      obtain ⟨w0, h0, hx0⟩ := sweep_set hw (by rfl) w' hw' hx
      exact hsw hc w0 h0 hx0
    · intro w' hw' hx
      obtain ⟨w0, h0, hx0⟩ := sweep_set hw (by rfl) w' hw' hx
      exact hne w0 h0 hx0
  | recv i m =>
    have key : ∀ (ws : List Worker) (acc : List Msg), (∀ w ∈ ws, ∃ w0 ∈ s.workers, w.sweep = w0.sweep) → (acc = s.accepted ∨ s.seen m.xid = none ∧ acc = s.accepted ++ [m]) →
        SeenInv x { s with seen := fun y => if y = m.xid then some s.now else s.seen y, heard := s.heard ++ [(m.xid, s.now)], workers := ws, accepted := acc } := by
      intro ws acc hws hacc
      by_cases hx : m.xid = x
      · have ht : times { s with seen := fun y => if y = m.xid then some s.now else s.seen y, heard := s.heard ++ [(m.xid, s.now)], workers := ws, accepted := acc } x = times s x ++ [s.now] := by
          simp only [times] ; rw [times_push]; simp [hx, times]
        refine ⟨?_, ?_, fun _ _ _ => by simp [ht], ?_, ?_, ?_⟩ <;> rw [ht]
        · intro hc a hla
          simp at hla
          subst hla
          exact ⟨Int.le_refl _, Or.inl (by simp [hx])⟩
        · intro hc w hw hwx a hla
          obtain ⟨w0, hw0, he⟩ := hws w hw
          obtain ⟨hc1, hc2⟩ := close_push hc
          cases hlast : (times s x).getLast? with
          | some b =>
            have h1 := hsw hc1 w0 hw0 (he ▸ hwx) b hlast
            have h2 := hc2 b hlast
            omega
          | none => exact absurd (List.getLast?_eq_none_iff.1 hlast) (hne w0 hw0 (he ▸ hwx))
        · intro v hvx
          simp [hx] at hvx
          simp [hvx]
        · intro hc
          obtain ⟨hc1, hc2⟩ := close_push hc
          rcases hacc with rfl | ⟨hn, rfl⟩
          · exact ha hc1
          · cases hlast : (times s x).getLast? with
            | some b =>
              obtain ⟨h1, h2⟩ := hl hc1 b hlast
              have h3 := hc2 b hlast
              rcases h2 with h2 | h2
              · rw [hx] at hn; rw [hn] at h2; cases h2
              · omega
            | none =>
              simp only
              rw [List.filter_append, hh (List.getLast?_eq_none_iff.1 hlast)]
              simp [hx]
        · simp
      · have ht : times { s with seen := fun y => if y = m.xid then some s.now else s.seen y, heard := s.heard ++ [(m.xid, s.now)], workers := ws, accepted := acc } x = times s x := by
          simp only [times] ; rw [times_push]; simp [hx, times]
        have hac : acc.filter (fun m => m.xid == x) = s.accepted.filter (fun m => m.xid == x) := by
          rcases hacc with rfl | ⟨_, rfl⟩
          · rfl
          · simp [List.filter_append, hx]
        have hx' : x ≠ m.xid := fun h => hx h.symm
        refine ⟨?_, ?_, ?_, ?_, ?_, ?_⟩ <;> rw [ht]
        · simpa [hx'] using hl
        · intro hc w hw hwx
          obtain ⟨w0, hw0, he⟩ := hws w hw
          exact hsw hc w0 hw0 (he ▸ hwx)
        · intro w hw hwx
          obtain ⟨w0, hw0, he⟩ := hws w hw
          exact hne w0 hw0 (he ▸ hwx)
        · simpa [hx'] using hv
        · simpa [hac] using ha
        · simpa [hac] using hh
    live_cases h
    · rename_i w hw _ q hq hc
      refine key _ _ ?_ (Or.inr ⟨hc.1, rfl⟩)
      intro w' hw'
      rcases List.mem_or_eq_of_mem_set hw' with h1 | rfl
      · exact ⟨w', h1, rfl⟩
      · exact ⟨w, List.mem_of_getElem? hw, rfl⟩
    · exact key s.workers s.accepted (fun w hw => ⟨w, hw, rfl⟩) (Or.inl rfl)
  | eose i =>
    live_cases h
    rename_i w hw hq
    refine ⟨hl, ?_, ?_, hv, ha, hh⟩
    · intro hc w' hw' hx
      obtain ⟨w0, h0, hx0⟩ := sweep_set hw (by rfl) w' hw' hx
      exact hsw hc w0 h0 hx0
    · intro w' hw' hx
      obtain ⟨w0, h0, hx0⟩ := sweep_set hw (by rfl) w' hw' hx
      exact hne w0 h0 hx0
  | take i j =>
    live_cases h
    rename_i w hw _ q hq _ m hm
    refine ⟨hl, ?_, ?_, hv, ha, hh⟩
    · intro hc w' hw' hx
      obtain ⟨w0, h0, hx0⟩ := sweep_set hw (by rfl) w' hw' hx
      exact hsw hc w0 h0 hx0
    · intro w' hw' hx
      obtain ⟨w0, h0, hx0⟩ := sweep_set hw (by rfl) w' hw' hx
      exact hne w0 h0 hx0
  | mark i y =>
    live_cases h
    rename_i w hw _ v hsv hcond
    refine ⟨hl, ?_, ?sw, hv, ha, hh⟩
    case sw =>
      intro w' hw' hx
      rcases List.mem_or_eq_of_mem_set hw' with h1 | rfl
      · exact hne w' h1 hx
      · simp only [Option.some.injEq] at hx
        subst hx
        intro he
        have := hv v hsv
        rw [show times s y = [] from he] at this
        simp at this
    intro hc w' hw' hx a hla
    rcases List.mem_or_eq_of_mem_set hw' with h1 | rfl
    · exact hsw hc w' h1 hx a hla
    · simp only [Option.some.injEq] at hx
      subst hx
      have h1 := hv v hsv
      have : (times s y).getLast? = some a := hla
      rw [h1] at this
      simp only [Option.some.injEq] at this
      have := hcond.2.2
      simp only [dropTick] at this ⊢
      omega
  | delete i =>
    live_cases h
    rename_i w hw _ y hy
    refine ⟨?_, ?_, ?_, ?_, ha, hh⟩
    · intro hc a hla
      obtain ⟨h1, h2⟩ := hl hc a hla
      refine ⟨h1, ?_⟩
      by_cases hxy : x = y
      · subst hxy
        exact Or.inr (hsw hc w (List.mem_of_getElem? hw) hy a hla)
      · simpa [hxy] using h2
    · intro hc w' hw' hx
      rcases List.mem_or_eq_of_mem_set hw' with h1 | rfl
      · exact hsw hc w' h1 hx
      · simp at hx
    · intro w' hw' hx
      rcases List.mem_or_eq_of_mem_set hw' with h1 | rfl
      · exact hne w' h1 hx
      · simp at hx
    · intro v hvx
      by_cases hxy : x = y
      · simp [hxy] at hvx
      · simp [hxy] at hvx; exact hv v hvx
  | broken i =>
    live_cases h
    rename_i w hw _ q hq
    refine ⟨hl, ?_, ?_, hv, ha, hh⟩
    · intro hc w' hw' hx
      obtain ⟨w0, h0, hx0⟩ := sweep_set hw (by rfl) w' hw' hx
      exact hsw hc w0 h0 hx0
    · intro w' hw' hx
      obtain ⟨w0, h0, hx0⟩ := sweep_set hw (by rfl) w' hw' hx
      exact hne w0 h0 hx0
  | closed i =>
    live_cases h
    rename_i w hw _ q hq
    refine ⟨hl, ?_, ?_, hv, ha, hh⟩
    · intro hc w' hw' hx
      obtain ⟨w0, h0, hx0⟩ := sweep_set hw (by rfl) w' hw' hx
      exact hsw hc w0 h0 hx0
    · intro w' hw' hx
      obtain ⟨w0, h0, hx0⟩ := sweep_set hw (by rfl) w' hw' hx
      exact hne w0 h0 hx0

/-- Auxiliary function of the proofs; models no code: how many such messages a worker has in its queue. -/
def inQueue (p : Msg → Bool) (w : Worker) : Nat := match w.queue with
  | some q => q.countP p
  | none => 0

/-- Auxiliary function of the proofs; models no code: handed over, waiting or lost. -/
def total (p : Msg → Bool) (s : State) : Nat := s.emitted.countP p + (s.workers.map (inQueue p)).sum + s.lost.countP p

theorem countP_eraseIdx (p : Msg → Bool) : ∀ (q : List Msg) (j : Nat) (m : Msg), q[j]? = some m → (q.eraseIdx j).countP p + [m].countP p = q.countP p
  | [], j, m, h => by simp at h
  | a :: q, 0, m, h => by
    simp at h; subst h
    simp [List.countP_cons]
  | a :: q, j + 1, m, h => by
    have ih := countP_eraseIdx p q j m (by simpa using h)
    simp only [List.eraseIdx_cons_succ, List.countP_cons] at ih ⊢
    omega

theorem total_step (p : Msg → Bool) {s : State} {l : Lab} {s' : State} (I : total p s = s.accepted.countP p) (h : step s l = some s') : total p s' = s'.accepted.countP p := by
  unfold total at I ⊢
  have set_ : ∀ (i : Nat) (w w' : Worker), s.workers[i]? = some w → ((s.workers.set i w').map (inQueue p)).sum + inQueue p w = (s.workers.map (inQueue p)).sum + inQueue p w' :=
    fun i w w' hw => Sub.sum_set (inQueue p) s.workers i w w' hw
  cases l with
  | wait d => live_cases h; exact I
  | subscribe i =>
    live_cases h
    rename_i w hw hq
    have h2 := set_ i w { w with queue := some [] } hw
    simp only [inQueue, hq, List.countP_nil] at h2
    simp only at I ⊢
    omega
  | recv i m =>
    live_cases h
    · rename_i w hw _ q hq hc
      have h2 := set_ i w { w with queue := some (q ++ [m]) } hw
      simp only [inQueue, hq, List.countP_append] at h2 I ⊢
      omega
    · exact I
  | eose i =>
    live_cases h
    rename_i w hw hq
    have h2 := set_ i w { w with eosed := true } hw
    have h3 : inQueue p { w with eosed := true } = inQueue p w := rfl
    rw [h3] at h2
    simp only at I ⊢
    omega
  | take i j =>
    live_cases h
    rename_i w hw _ q hq _ m hm
    have h2 := set_ i w { w with queue := some (q.eraseIdx j) } hw
    have h3 := countP_eraseIdx p q j m hm
    simp only [inQueue, hq, List.countP_append] at h2 I ⊢
    omega
  | mark i y =>
    live_cases h
    rename_i w hw _ v hsv hcond
    have h2 := set_ i w { w with sweep := some y } hw
    have h3 : inQueue p { w with sweep := some y } = inQueue p w := rfl
    rw [h3] at h2
    simp only at I ⊢
    omega
  | delete i =>
    live_cases h
    rename_i w hw _ y hy
    have h2 := set_ i w { w with sweep := none } hw
    have h3 : inQueue p { w with sweep := none } = inQueue p w := rfl
    rw [h3] at h2
    simp only at I ⊢
    omega
  | broken i =>
    live_cases h
    rename_i w hw _ q hq
    have h2 := set_ i w { w with queue := none } hw
    simp only [inQueue, hq, List.countP_append] at h2 I ⊢
    omega
  | closed i =>
    live_cases h
    rename_i w hw _ q hq
    have h2 := set_ i w { w with queue := none } hw
    simp only [inQueue, hq, List.countP_append] at h2 I ⊢
    omega

theorem sum_zero : ∀ (l : List Nat), (∀ k ∈ l, k = 0) → l.sum = 0
  | [], _ => rfl
  | a :: l, h => by
    rw [List.sum_cons, h a (List.mem_cons_self ..), sum_zero l (fun k hk => h k (List.mem_cons_of_mem _ hk))]

theorem run_inv' {P : State → Prop} : ∀ {ls : List Lab} {s s' : State}, (∀ l ∈ ls, ∀ s s', P s → step s l = some s' → P s') → P s → run s ls = some s' → P s'
  | [], s, s', _, hp, h => by simp only [run, Option.some.injEq] at h; exact h ▸ hp
  | l :: ls, s, s', hs, hp, h => by
    simp only [run] at h
    cases h1 : step s l with
    | none => rw [h1] at h; cases h
    | some s1 => rw [h1] at h; exact run_inv' (fun l' hl' => hs l' (List.mem_cons_of_mem _ hl')) (hs l (List.mem_cons_self ..) _ _ hp h1) h

theorem run_append : ∀ (ls ls' : List Lab) (s s' : State), run s (ls ++ ls') = some s' → ∃ s1, run s ls = some s1 ∧ run s1 ls' = some s'
  | [], ls', s, s', h => ⟨s, rfl, h⟩
  | l :: ls, ls', s, s', h => by
    simp only [List.cons_append, run] at h ⊢
    cases h1 : step s l with
    | none => rw [h1] at h; cases h
    | some s1 => rw [h1] at h; simpa only [h1] using run_append ls ls' s1 s' h

theorem times_run (x : Bytes) : ∀ (ls : List Lab) (s s' : State), run s ls = some s' → times s' x = times s x ++ arrivals x s.now ls
  | [], s, s', h => by simp only [run, Option.some.injEq] at h; subst h; simp [arrivals]
  | l :: ls, s, s', h => by
    simp only [run] at h
    cases h1 : step s l with
    | none => rw [h1] at h; cases h
    | some s1 =>
      rw [h1] at h
      have ih := times_run x ls s1 s' h
      rw [ih]
      cases l with
      | recv i m =>
        have : times s1 x = times s x ++ (if m.xid = x then [s.now] else []) ∧ s1.now = s.now := by
          live_cases h1 <;> exact ⟨times_push s x s.now m.xid, rfl⟩
        rw [this.1, this.2]
        by_cases hx : m.xid = x <;> simp [arrivals, hx]
      | _ => live_cases h1 <;> rfl

theorem since_run : ∀ (ls : List Lab) (s s' : State), run s ls = some s' → s'.since = lastBreak s.now s.since ls
  | [], s, s', h => by simp only [run, Option.some.injEq] at h; subst h; simp [lastBreak]
  | l :: ls, s, s', h => by
    simp only [run] at h
    cases h1 : step s l with
    | none => rw [h1] at h; cases h
    | some s1 =>
      rw [h1] at h
      rw [since_run ls s1 s' h]
      cases l <;> live_cases h1 <;> rfl

theorem seenInv_init (x : Bytes) (n : Nat) (t : Int) (since : Option Int) : SeenInv x (init n t since) := by
  refine ⟨?_, ?_, ?_, ?_, ?_, ?_⟩
  · intro _ a h; simp [times, init] at h
  · intro _ w hw h; simp only [init] at hw; rw [List.eq_of_mem_replicate hw] at h; cases h
  · intro w hw h; simp only [init] at hw; rw [List.eq_of_mem_replicate hw] at h; cases h
  · intro v h; simp [init] at h
  · intro _; simp [init]
  · intro _; simp [init]

theorem total_run (p : Msg → Bool) {n : Nat} {t : Int} {since : Option Int} {ls : List Lab} {s : State} (h : run (init n t since) ls = some s) : total p s = s.accepted.countP p := by
  refine run_inv (fun s l s' => total_step p) ?_ h
  simp only [total, init, List.map_replicate, List.countP_nil, inQueue]
  simp

/-- Invariant of the proofs; models no code: every accepted message was received and is valid. -/
theorem accepted_src {n : Nat} {t : Int} {since : Option Int} {ls : List Lab} {s : State} (h : run (init n t since) ls = some s) :
    ∀ m ∈ s.accepted, m.valid = true ∧ ∃ i, Lab.recv i m ∈ ls := by
  refine run_inv' (P := fun s => ∀ m ∈ s.accepted, m.valid = true ∧ ∃ i, Lab.recv i m ∈ ls) ?_ (by intro m hm; simp [init] at hm) h
  intro l hl s s' I hs m hm
  cases l with
  | recv i m' =>
    live_cases hs
    · rename_i hc
      rcases List.mem_append.1 hm with h1 | h1
      · exact I m h1
      · simp at h1; subst h1; exact ⟨hc.2, i, hl⟩
    · exact I m hm
  | _ => live_cases hs <;> exact I m hm

theorem emitted_accepted {n : Nat} {t : Int} {since : Option Int} {ls : List Lab} {s : State} (h : run (init n t since) ls = some s) : ∀ m ∈ s.emitted, m ∈ s.accepted := by
  intro m hm
  have h1 := total_run (fun m' => m' == m) h
  have h2 : 0 < s.emitted.countP (fun m' => m' == m) := List.countP_pos_iff.2 ⟨m, hm, by simp⟩
  have h3 : 0 < s.accepted.countP (fun m' => m' == m) := by unfold total at h1; omega
  obtain ⟨m', h4, h5⟩ := List.countP_pos_iff.1 h3
  simp at h5
  exact h5 ▸ h4

/-- C187: among the messages handed over, ids are counted as the quick reader reads them. -/
theorem emitted_le {n : Nat} {t : Int} {since : Option Int} {ls : List Lab} {s : State} (h : run (init n t since) ls = some s)
    (hx : ∀ i m, Lab.recv i m ∈ ls → m.valid = true → m.xid = m.id) (x : Bytes) :
    s.emitted.countP (fun m => m.id == x) ≤ (s.accepted.filter (fun m => m.xid == x)).length := by
  have h1 : s.emitted.countP (fun m => m.id == x) = s.emitted.countP (fun m => m.xid == x) := by
    apply List.countP_congr
    intro m hm
    obtain ⟨hv, i, hi⟩ := accepted_src h m (emitted_accepted h m hm)
    rw [hx i m hi hv]
  have h2 := total_run (fun m => m.xid == x) h
  unfold total at h2
  rw [h1, ← List.countP_eq_length_filter]
  omega

/-- C187: as long as, once sent, an event is sent again by some relay at least every minute or not at all, it is handed over at most once, whatever the relays, the breaks and the sweeps. The ids of valid messages are those the quick reader finds (C17-C20 say when). Missing from the English property: the hypothesis on the times; see `C187_twice`. -/
theorem C187_once_partial {n : Nat} {t : Int} {since : Option Int} {ls : List Lab} {s : State} (h : run (init n t since) ls = some s)
    (hx : ∀ i m, Lab.recv i m ∈ ls → m.valid = true → m.xid = m.id) (x : Bytes) (hc : Close (arrivals x t ls)) :
    s.emitted.countP (fun m => m.id == x) ≤ 1 := by
  have I : SeenInv x s := run_inv (fun s l s' => seenInv_step x) (seenInv_init x n t since) h
  have ht := times_run x ls _ _ h
  have : times s x = arrivals x t ls := by rw [ht]; simp [times, init]
  exact Nat.le_trans (emitted_le h hx x) (I.acc (by rw [this]; exact hc))

/-- C187: and until some relay has sent an EOSE, an event is handed over at most once whenever its copies come. -/
theorem C187_once_before_eose {n : Nat} {t : Int} {since : Option Int} {ls : List Lab} {s : State} (h : run (init n t since) ls = some s)
    (hx : ∀ i m, Lab.recv i m ∈ ls → m.valid = true → m.xid = m.id) (he : ∀ i, Lab.eose i ∉ ls) (x : Bytes) :
    s.emitted.countP (fun m => m.id == x) ≤ 1 := by
  refine Nat.le_trans (emitted_le h hx x) ?_
  have := run_inv' (ls := ls) (s := init n t since) (s' := s)
    (P := fun s => (∀ w ∈ s.workers, w.eosed = false ∧ w.sweep = none) ∧ (s.accepted.filter (fun m => m.xid == x)).length ≤ 1 ∧ (s.seen x = none → s.accepted.filter (fun m => m.xid == x) = []))
    ?_ ⟨?_, by simp [init], by simp [init]⟩ h
  · exact this.2.1
  · intro l hl s s' I hs
    obtain ⟨hw0, ha, hn⟩ := I
    have hset : ∀ (i : Nat) (w w' : Worker), s.workers[i]? = some w → w'.eosed = w.eosed → w'.sweep = w.sweep → ∀ v ∈ s.workers.set i w', v.eosed = false ∧ v.sweep = none := by
      intro i w w' hw h1 h2 v hv
      rcases List.mem_or_eq_of_mem_set hv with h3 | rfl
      · exact hw0 v h3
      · rw [h1, h2]; exact hw0 w (List.mem_of_getElem? hw)
    cases l with
    | eose i => exact absurd hl (he i)
    | wait d => live_cases hs; exact ⟨hw0, ha, hn⟩
    | subscribe i => live_cases hs; rename_i w hw _; exact ⟨hset i w _ hw rfl rfl, ha, hn⟩
    | take i j => live_cases hs; rename_i w hw _ q hq _ m hm; exact ⟨hset i w _ hw rfl rfl, ha, hn⟩
    | broken i => live_cases hs; rename_i w hw _ q hq; exact ⟨hset i w _ hw rfl rfl, ha, hn⟩
    | closed i => live_cases hs; rename_i w hw _ q hq; exact ⟨hset i w _ hw rfl rfl, ha, hn⟩
    | mark i y =>
      live_cases hs
      rename_i w hw _ v hsv hcond
      rw [(hw0 w (List.mem_of_getElem? hw)).1] at hcond
      exact absurd hcond.1 (by decide)
    | delete i =>
      live_cases hs
      rename_i w hw _ y hy
      rw [(hw0 w (List.mem_of_getElem? hw)).2] at hy
      cases hy
    | recv i m =>
      live_cases hs
      · rename_i w hw _ q hq hc
        refine ⟨hset i w _ hw rfl rfl, ?_, ?_⟩
        · by_cases hmx : m.xid = x
          · simp only
            rw [List.filter_append, hn (hmx ▸ hc.1)]
            simp [hmx]
          · simpa [List.filter_append, hmx] using ha
        · by_cases hmx : m.xid = x
          · simp [hmx]
          · have : x ≠ m.xid := fun h => hmx h.symm
            simpa [List.filter_append, hmx, this] using hn
      · refine ⟨hw0, ha, ?_⟩
        intro hs
        by_cases hmx : x = m.xid
        · simp [hmx] at hs
        · simp [hmx] at hs; exact hn hs
  · intro w hw; simp only [init] at hw; rw [List.eq_of_mem_replicate hw]; exact ⟨rfl, rfl⟩

/-- C187: the first message with an id, if valid, is handed over, or still waits, or was lost with its subscription. Missing from the English property: that it was the first; see `C187_forged_first`. -/
theorem C187_first_kept_partial {n : Nat} {t : Int} {since : Option Int} {pre post : List Lab} {i : Nat} {m : Msg} {s : State} (h : run (init n t since) (pre ++ .recv i m :: post) = some s)
    (hv : m.valid = true) (hf : arrivals m.xid t pre = []) : m ∈ s.emitted ∨ Waiting s m ∨ m ∈ s.lost := by
  obtain ⟨s1, h1, h2⟩ := run_append pre _ _ _ h
  have I : SeenInv m.xid s1 := run_inv (fun s l s' => seenInv_step m.xid) (seenInv_init m.xid n t since) h1
  have ht : times s1 m.xid = [] := by rw [times_run m.xid pre _ _ h1, show (init n t since).now = t from rfl, hf]; simp [times, init]
  have hn : s1.seen m.xid = none := by
    cases hs : s1.seen m.xid with
    | none => rfl
    | some v => have := I.value v hs; rw [ht] at this; simp at this
  simp only [run] at h2
  cases h3 : step s1 (.recv i m) with
  | none => rw [h3] at h2; cases h2
  | some s2 =>
    rw [h3] at h2
    have ha : m ∈ s2.accepted := by
      live_cases h3
      · simp
      · rename_i hc; exact absurd ⟨hn, hv⟩ hc
    have hb : m ∈ s.accepted := by
      refine run_inv (P := fun s => m ∈ s.accepted) ?_ ha h2
      intro s l s' hm hs
      cases l <;> live_cases hs <;> first | exact hm | exact List.mem_append_left _ hm
    have hc := total_run (fun m' => m' == m) h
    have hd : 0 < s.accepted.countP (fun m' => m' == m) := List.countP_pos_iff.2 ⟨m, hb, by simp⟩
    unfold total at hc
    by_cases h4 : m ∈ s.emitted
    · exact Or.inl h4
    by_cases h5 : m ∈ s.lost
    · exact Or.inr (Or.inr h5)
    refine Or.inr (Or.inl ?_)
    have h6 : s.emitted.countP (fun m' => m' == m) = 0 := List.countP_eq_zero.2 (fun a ha he => h4 (by simp at he; exact he ▸ ha))
    have h7 : s.lost.countP (fun m' => m' == m) = 0 := List.countP_eq_zero.2 (fun a ha he => h5 (by simp at he; exact he ▸ ha))
    have h8 : 0 < (s.workers.map (inQueue (fun m' => m' == m))).sum := by omega
    apply Classical.byContradiction
    intro hno
    have h9 : (s.workers.map (inQueue (fun m' => m' == m))).sum = 0 := by
      apply sum_zero
      intro k hk
      obtain ⟨w, hw, rfl⟩ := List.mem_map.1 hk
      unfold inQueue
      split
      · rename_i q hq
        exact List.countP_eq_zero.2 (fun a ha he => hno ⟨w, hw, q, hq, by simp at he; exact he ▸ ha⟩)
      · rfl
    omega

/-- C187: a relay is asked, at each subscription, for what came after the last break of any relay, its own or another's; for what the caller wanted if none broke yet. -/
theorem C187_asked {n : Nat} {t : Int} {since : Option Int} {pre : List Lab} {i : Nat} {s : State} (h : run (init n t since) (pre ++ [.subscribe i]) = some s) :
    s.asked.getLast? = some (i, lastBreak t since pre) := by
  obtain ⟨s1, h1, h2⟩ := run_append pre _ _ _ h
  have hs := since_run pre _ _ h1
  simp only [run] at h2
  cases h3 : step s1 (.subscribe i) with
  | none => rw [h3] at h2; cases h2
  | some s2 =>
    rw [h3] at h2
    simp only [Option.some.injEq] at h2
    subst h2
    live_cases h3
    simp only [List.getLast?_append, List.getLast?_singleton, Option.some_or, hs]
    rfl

/-! ### Witnesses -/

/-- Auxiliary: an event for the examples. -/
def ev : Msg := ⟨b! "a", b! "a", true⟩

/-- Auxiliary: two copies within the minute, with an EOSE and a sweep of another id. -/
def often : List Lab := [.subscribe 0, .subscribe 1, .recv 0 ⟨b! "z", b! "z", true⟩, .eose 0, .wait 40, .recv 0 ev, .take 0 1, .wait 40, .recv 1 ev, .mark 0 (b! "z"), .delete 0, .wait 40, .recv 1 ev]

/-- Non-vacuity of C187_once_partial. -/
example : ((run (init 2 1000 none) often).map (·.emitted)) = some [ev] ∧ arrivals (b! "a") 1000 often = [1040, 1080, 1120] := by decide +kernel

/-- Non-vacuity of C187_once_before_eose: the copies are an hour apart. -/
example : ((run (init 2 1000 none) [.subscribe 0, .recv 0 ev, .take 0 0, .wait 3600, .subscribe 1, .recv 1 ev]).map (·.emitted)) = some [ev] := by decide +kernel

/-- Non-vacuity of C187_first_kept_partial. -/
example : ((run (init 1 1000 none) ([.subscribe 0] ++ .recv 0 ev :: [.take 0 0])).map (·.emitted)) = some [ev] := by decide +kernel

/-- Non-vacuity of C187_asked: a relay that comes back. -/
example : ((run (init 1 1000 (some 5)) ([.subscribe 0, .wait 7, .broken 0] ++ [.subscribe 0])).map (·.asked)) = some [(0, some 5), (0, some 1007)] := by decide +kernel

/-- C187: an event is handed over twice if a second relay sends its copy more than a minute after the first. -/
theorem C187_twice : ((run (init 2 1000 none) [.subscribe 0, .subscribe 1, .recv 0 ev, .take 0 0, .eose 0, .wait 61, .mark 0 (b! "a"), .delete 0, .recv 1 ev, .take 1 0]).map (·.emitted)) = some [ev, ev] := by decide +kernel

/-- C187: a relay that sends a forged copy first keeps the event of another relay from being handed over. -/
theorem C187_forged_first : ((run (init 2 1000 none) [.subscribe 0, .subscribe 1, .recv 0 { ev with valid := false }, .recv 1 ev]).map (fun s => (s.emitted, s.lost, s.workers.map (·.queue)))) = some ([], [], [some [], some []]) := by decide +kernel

/-- C187: a relay that is reached only after another one's connection broke is never asked for what the caller wanted: everything since 5, here. -/
theorem C187_late_relay : ((run (init 2 1000 (some 5)) [.subscribe 0, .wait 7, .broken 0, .subscribe 1]).map (·.asked)) = some [(0, some 5), (1, some 1007)] := by decide +kernel

end GoNostr.Live
