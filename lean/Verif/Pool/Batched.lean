import Verif.Pool.FetchTheorems
/-!
# `BatchedSubManyEose` and `QuerySingle` (pool.go:731-787)

`BatchedSubManyEose` starts, for every directed filter, `subManyEoseNonOverwriteCheckDuplicate` with one url; all share one
table of ids. What the calls do is `Verif.Pool.Fetch` with one worker for every filter and this one table (the closing
goroutine of a call only closes its channel, so it is merged here with the forwarder seeing the closed channel; the context
of a call ends with its worker, which makes no difference to the others). On top there are a forwarding goroutine for each
filter and one closing goroutine.
-/

set_option autoImplicit false

namespace GoNostr.Batched
open GoNostr.Fetch (Msg Worker)

/-- Where a forwarding goroutine is (pool.go:759-777): at `range`, at the `select` with an event, returned. -/
inductive FPc
  | idle
  | hold (m : Msg)
  | left
  deriving DecidableEq, Repr

/-- `out` is what the consumer received; `dropped` (history) what a forwarder held when it gave up. -/
structure State where
  core : Fetch.State
  fw : List FPc
  wg : Nat
  closerRan : Bool
  closes : Nat
  crashed : Bool
  out : List Msg
  dropped : List Msg
  deriving DecidableEq, Repr

/-- pool.go:752-758: `n` directed filters. -/
def init (n : Nat) : State where
  core := Fetch.init n
  fw := List.replicate n .idle
  wg := n
  closerRan := false
  closes := 0
  crashed := false
  out := []
  dropped := []

/-- The atomic actions of the machine; its step function says which lines each of them is. -/
inductive Lab
  /-- an action of the calls; `inner (.emit i)` is a forwarder receiving from its channel -/
  | inner (l : Fetch.Lab)
  /-- the consumer receives -/
  | give (i : Nat)
  /-- the forwarder sees the end of the context -/
  | drop (i : Nat)
  /-- the forwarder sees its channel closed -/
  | fin (i : Nat)
  | close
  deriving DecidableEq, Repr

/-- One atomic action. -/
def step (handler : Bool) (s : State) : Lab → Option State
  | .inner .closer => none
  -- pool.go:759 (`range`)
  | .inner (.emit i) => match s.fw[i]?, s.core.workers[i]? with
    | some .idle, some w => match w.pc with
      | .emit m => match Fetch.step handler s.core (.emit i) with
        | some c => some { s with core := c, fw := s.fw.set i (.hold m) }
        | none => none
      | _ => none
    | _, _ => none
  | .inner l => match Fetch.step handler s.core l with
    | some c => some { s with core := c }
    | none => none
  -- pool.go:770-771
  | .give i => match s.fw[i]? with
    | some (.hold m) => if s.closes = 0 then some { s with out := s.out ++ [m], fw := s.fw.set i .idle } else some { s with crashed := true }
    | _ => none
  -- pool.go:772-774
  | .drop i => match s.fw[i]? with
    | some (.hold m) => if s.core.ctxDone then some { s with fw := s.fw.set i .left, wg := s.wg - 1, dropped := m :: s.dropped } else none
    | _ => none
  -- pool.go:777, after 617-622
  | .fin i => match s.fw[i]?, s.core.workers[i]? with
    | some .idle, some w => match w.pc with
      | .done _ => some { s with fw := s.fw.set i .left, wg := s.wg - 1 }
      | _ => none
    | _, _ => none
  -- pool.go:781-784
  | .close => if s.closerRan = false ∧ s.wg = 0 then
      (if s.closes = 0 then some { s with closerRan := true, closes := 1 } else some { s with closerRan := true, crashed := true })
    else none

/-- A schedule: the actions one after the other. -/
def run (handler : Bool) (s : State) : List Lab → Option State
  | [] => some s
  | l :: ls => match step handler s l with
    | none => none
    | some s' => run handler s' ls

/-- The actions of the calls in a run. -/
def inners : List Lab → List Fetch.Lab
  | [] => []
  | .inner l :: ls => l :: inners ls
  | _ :: ls => inners ls

/-! ## Facts -/

theorem core_step {hd : Bool} {s s' : State} {l : Lab} (h : step hd s l = some s') :
    (∃ k, l = .inner k ∧ k ≠ .closer ∧ Fetch.step hd s.core k = some s'.core) ∨ ((∀ k, l ≠ .inner k) ∧ s'.core = s.core) := by
  cases l with
  | inner k =>
    left
    refine ⟨k, rfl, ?_⟩
    cases k with
    | closer => simp [step] at h
    | emit i =>
      refine ⟨by simp, ?_⟩
      simp only [step] at h
      (repeat' split at h) <;> (try cases h)
      rename_i hx
      exact hx
    | _ =>
      refine ⟨by simp, ?_⟩
      simp only [step] at h
      split at h
      · rename_i hx; cases h; exact hx
      · cases h
  | _ =>
    right
    refine ⟨by simp, ?_⟩
    simp only [step] at h
    (repeat' split at h) <;> (try cases h) <;> rfl

/-- The calls in a run are a run of `Verif.Pool.Fetch` with one worker for each filter. -/
theorem core_run {hd : Bool} : ∀ (ls : List Lab) (s s' : State), run hd s ls = some s' →
    Fetch.run hd s.core (inners ls) = some s'.core ∧ Fetch.Lab.closer ∉ inners ls
  | [], s, s', h => by simp only [run, Option.some.injEq] at h; subst h; exact ⟨rfl, by simp [inners]⟩
  | l :: ls, s, s', h => by
    simp only [run] at h
    split at h
    · cases h
    · rename_i s1 h1
      obtain ⟨i1, i2⟩ := core_run ls s1 s' h
      rcases core_step h1 with ⟨k, rfl, k1, k2⟩ | ⟨k1, k2⟩
      · refine ⟨by simp only [inners, Fetch.run, k2]; exact i1, ?_⟩
        simp only [inners, List.mem_cons, not_or]
        exact ⟨fun hk => k1 hk.symm, i2⟩
      · cases l with
        | inner k => exact absurd rfl (k1 k)
        | _ => simp only [inners]; rw [← k2]; exact ⟨i1, i2⟩

theorem run_inv {hd : Bool} {P : State → Prop} (hs : ∀ s l s', P s → step hd s l = some s' → P s') :
    ∀ (ls : List Lab) (s s' : State), P s → run hd s ls = some s' → P s'
  | [], s, s', hp, h => by simp only [run, Option.some.injEq] at h; exact h ▸ hp
  | l :: ls, s, s', hp, h => by
    simp only [run] at h
    split at h
    · cases h
    · rename_i s1 h1
      exact run_inv hs ls s1 s' (hs s l s1 hp h1) h

theorem run_append {hd : Bool} : ∀ (l1 l2 : List Lab) (s s1 : State), run hd s l1 = some s1 → run hd s (l1 ++ l2) = run hd s1 l2
  | [], _, s, s1, h => by simp only [run, Option.some.injEq] at h; subst h; rfl
  | l :: l1, l2, s, s1, h => by
    simp only [run, List.cons_append] at h ⊢
    split at h
    · cases h
    · rename_i s2 h2
      exact run_append l1 l2 s2 s1 h

/-- Auxiliary function of the proofs; models no code. -/
def FPc.running : FPc → Nat
  | .left => 0
  | _ => 1

/-- Auxiliary function of the proofs; models no code. -/
def FPc.weight (x : Bytes) : FPc → Nat
  | .hold m => if m.xid = x then 1 else 0
  | _ => 0

/-- Everything the calls emitted was handed on, is held, or was dropped; the counter counts the forwarders still running; a
forwarder that returned has seen the end of its worker or of the context. -/
structure Inv (s : State) : Prop where
  flow : ∀ x, Fetch.cnt x s.core.emitted = Fetch.cnt x s.out + (s.fw.map (FPc.weight x)).sum + Fetch.cnt x s.dropped
  mem : ∀ m, (m ∈ s.out ∨ (∃ i : Nat, s.fw[i]? = some (.hold m))) → m ∈ s.core.emitted
  wg : s.wg = (s.fw.map FPc.running).sum
  len : s.fw.length = s.core.workers.length
  closes : s.closes = if s.closerRan then 1 else 0
  ended : s.closerRan = true → s.wg = 0
  calm : s.core.closes = 0
  ok : s.crashed = false
  gone : ∀ i : Nat, s.fw[i]? = some .left → s.core.ctxDone = true ∨ ∃ w e, s.core.workers[i]? = some w ∧ w.pc = .done e
  kept : s.core.ctxDone = false → s.dropped = []

/-- What the actions of the calls other than handing over an event leave alone. -/
theorem core_other {hd : Bool} {c c' : Fetch.State} {k : Fetch.Lab} (h : Fetch.step hd c k = some c') (h1 : k ≠ .closer) (h2 : ∀ i, k ≠ .emit i) :
    c'.emitted = c.emitted ∧ c'.closes = c.closes ∧ c'.workers.length = c.workers.length ∧ (c.ctxDone = true → c'.ctxDone = true) ∧
    ∀ (i : Nat) w e, c.workers[i]? = some w → w.pc = .done e → ∃ w', c'.workers[i]? = some w' ∧ w'.pc = .done e := by
  simp only [Fetch.step, Fetch.State.finish, Fetch.State.setW] at h
  (repeat' split at h) <;> (try simp only [reduceCtorEq, Option.some.injEq] at h) <;> (try subst h)
  all_goals first
    | contradiction
    | (exact absurd rfl (h2 _))
    | (refine ⟨rfl, rfl, by simp, by simp, ?_⟩
       intro i w e hw hp
       simp only [List.getElem?_set]
       grind)

theorem step_inv {hd : Bool} {s s' : State} {l : Lab} (hi : Inv s) (h : step hd s l = some s') : Inv s' := by
  obtain ⟨f, me, wg, len, cl, en, ca, ok, go, ke⟩ := hi
  have q1 := fun x => Sub.sum_set (FPc.weight x) s.fw
  have q2 := Sub.sum_set FPc.running s.fw
  cases l with
  | inner k =>
    by_cases hc : k = .closer
    · subst hc; simp [step] at h
    by_cases hm : ∃ i, k = .emit i
    · obtain ⟨i, rfl⟩ := hm
      simp only [step] at h
      split at h
      case h_2 => cases h
      rename_i w hf hw
      split at h
      case h_2 => cases h
      rename_i m hp
      split at h
      case h_2 => cases h
      rename_i c hc'
      cases h
      simp only [Fetch.step, hw, hp, ca, if_true, Option.some.injEq] at hc'
      subst hc'
      constructor
      · intro x
        have := f x
        have := q1 x i .idle (.hold m) hf
        simp only [Fetch.cnt_snoc, FPc.weight] at *
        omega
      · intro m' hm'
        rcases hm' with hm' | ⟨j, hj⟩
        · exact List.mem_append_left _ (me m' (.inl hm'))
        · simp only [List.getElem?_set] at hj
          split at hj
          · split at hj
            · cases hj; exact List.mem_append_right _ (by simp)
            · cases hj
          · exact List.mem_append_left _ (me m' (.inr ⟨j, hj⟩))
      · have := q2 i .idle (.hold m) hf
        simp only [FPc.running] at *
        omega
      · simp [len]
      · exact cl
      · exact en
      · rfl
      · exact ok
      · intro j hj
        simp only [List.getElem?_set] at hj ⊢
        by_cases hij : i = j
        · subst hij
          rw [if_pos rfl] at hj
          split at hj <;> cases hj
        · rw [if_neg hij] at hj ⊢
          exact go j hj
      · exact ke
    · have hne : ∀ i, k ≠ .emit i := fun i hk => hm ⟨i, hk⟩
      have h' : ∃ c, Fetch.step hd s.core k = some c ∧ s' = { s with core := c } := by
        cases k with
        | closer => exact absurd rfl hc
        | emit i => exact absurd rfl (hne i)
        | _ =>
          simp only [step] at h
          split at h
          · rename_i c hx; cases h; exact ⟨c, hx, rfl⟩
          · cases h
      obtain ⟨c, hc1, rfl⟩ := h'
      obtain ⟨e1, e2, e3, e4, e5⟩ := core_other hc1 hc hne
      constructor
      · intro x; rw [e1]; exact f x
      · intro m hm'; rw [e1]; exact me m hm'
      · exact wg
      · simp only [e3]; exact len
      · exact cl
      · exact en
      · simp only [e2]; exact ca
      · exact ok
      · intro i hi
        rcases go i hi with g | ⟨w, e, g1, g2⟩
        · exact .inl (e4 g)
        · obtain ⟨w', g3, g4⟩ := e5 i w e g1 g2
          exact .inr ⟨w', e, g3, g4⟩
      · intro hx
        refine ke ?_
        cases hd' : s.core.ctxDone with
        | false => rfl
        | true => rw [e4 hd'] at hx; cases hx
  | give i =>
    simp only [step] at h
    split at h
    case h_2 => cases h
    rename_i m hf
    have hz : s.closes = 0 := by
      rw [cl]
      split
      · rename_i hr
        have := q2 i (.hold m) .left hf
        have := en hr
        simp only [FPc.running] at *
        omega
      · rfl
    rw [if_pos hz] at h
    cases h
    constructor
    · intro x
      have := f x
      have := q1 x i (.hold m) .idle hf
      simp only [Fetch.cnt_snoc, FPc.weight] at *
      omega
    · intro m' hm'
      rcases hm' with hm' | ⟨j, hj⟩
      · rcases List.mem_append.1 hm' with hm' | hm'
        · exact me m' (.inl hm')
        · simp only [List.mem_singleton] at hm'; subst hm'; exact me m' (.inr ⟨i, hf⟩)
      · simp only [List.getElem?_set] at hj
        split at hj
        · split at hj <;> cases hj
        · exact me m' (.inr ⟨j, hj⟩)
    · have := q2 i (.hold m) .idle hf
      simp only [FPc.running] at *
      omega
    · simp [len]
    · exact cl
    · exact en
    · exact ca
    · exact ok
    · intro j hj
      simp only [List.getElem?_set] at hj
      split at hj
      · split at hj <;> cases hj
      · exact go j hj
    · exact ke
  | drop i =>
    simp only [step] at h
    split at h
    case h_2 => cases h
    rename_i m hf
    split at h
    case isFalse => cases h
    rename_i hd'
    cases h
    have hr := q2 i (.hold m) .left hf
    constructor
    · intro x
      have := f x
      have := q1 x i (.hold m) .left hf
      simp only [Fetch.cnt_cons, FPc.weight] at *
      omega
    · intro m' hm'
      rcases hm' with hm' | ⟨j, hj⟩
      · exact me m' (.inl hm')
      · simp only [List.getElem?_set] at hj
        split at hj
        · split at hj <;> cases hj
        · exact me m' (.inr ⟨j, hj⟩)
    · simp only [FPc.running] at *
      omega
    · simp [len]
    · exact cl
    · intro hx
      have := en hx
      simp only
      omega
    · exact ca
    · exact ok
    · intro j hj
      exact .inl hd'
    · intro hx
      simp only [hd'] at hx
      cases hx
  | fin i =>
    simp only [step] at h
    split at h
    case h_2 => cases h
    rename_i w hf hw
    split at h
    case h_2 => cases h
    rename_i e hp
    cases h
    have hr := q2 i .idle .left hf
    constructor
    · intro x
      have := f x
      have := q1 x i .idle .left hf
      simp only [FPc.weight] at *
      omega
    · intro m' hm'
      rcases hm' with hm' | ⟨j, hj⟩
      · exact me m' (.inl hm')
      · simp only [List.getElem?_set] at hj
        split at hj
        · split at hj <;> cases hj
        · exact me m' (.inr ⟨j, hj⟩)
    · simp only [FPc.running] at *
      omega
    · simp [len]
    · exact cl
    · intro hx
      have := en hx
      simp only
      omega
    · exact ca
    · exact ok
    · intro j hj
      simp only [List.getElem?_set] at hj
      split at hj
      · rename_i hij; subst hij; exact .inr ⟨w, e, hw, hp⟩
      · exact go j hj
    · exact ke
  | close =>
    simp only [step] at h
    split at h
    case isFalse => cases h
    rename_i hx
    rw [cl, hx.1] at h
    simp only [Bool.false_eq_true, if_false, if_true, Option.some.injEq] at h
    subst h
    exact ⟨f, me, wg, len, rfl, fun _ => hx.2, ca, ok, go, ke⟩

theorem init_inv (n : Nat) : Inv (init n) := by
  constructor <;> simp [init, Fetch.init, Fetch.cnt, FPc.weight, FPc.running, List.getElem?_replicate]

theorem reach {hd : Bool} {n : Nat} {ls : List Lab} {s : State} (h : run hd (init n) ls = some s) : Inv s :=
  run_inv (fun _ _ _ => step_inv) ls _ _ (init_inv n) h

/-! ## C152 -/

/-- **C152** (at most once). However many of the relays return an event and however often, whatever the schedule, the
consumer never receives two events under one raw id. -/
theorem C152_at_most_once {hd : Bool} {n : Nat} {ls : List Lab} {s : State} (h : run hd (init n) ls = some s) :
    (s.out.map Msg.xid).Nodup := by
  obtain ⟨h1, _⟩ := core_run ls _ _ h
  have hc := Fetch.run_inv' (P := Fetch.CountInv) (fun _ _ _ => Fetch.countInv_step) (Fetch.countInv_init n) h1
  refine Fetch.cnt_le_nodup _ (fun x => ?_)
  have := hc x
  have := (reach h).flow x
  split at * <;> omega

/-- **C152** (nothing invented). Everything received was sent by a relay in a message that parses, matches the filter for
that relay and is authentic. -/
theorem C152_only_received {hd : Bool} {n : Nat} {ls : List Lab} {s : State} (h : run hd (init n) ls = some s) :
    ∀ m ∈ s.out, m ∈ s.core.received ∧ m.valid = true := by
  obtain ⟨h1, _⟩ := core_run ls _ _ h
  exact fun m hm => Fetch.C32_only_received h1 m ((reach h).mem m (.inl hm))

/-- **C152** (safety). The channel is closed at most once, nothing is sent on it afterwards, and when it is closed every
forwarder has returned. -/
theorem C152_closed_once {hd : Bool} {n : Nat} {ls : List Lab} {s : State} (h : run hd (init n) ls = some s) :
    s.crashed = false ∧ s.closes ≤ 1 ∧ (s.closes = 1 → ∀ p ∈ s.fw, p = .left) := by
  have hi := reach h
  refine ⟨hi.ok, by rw [hi.closes]; split <;> omega, fun hc p hp => ?_⟩
  have hr : s.closerRan = true := by
    have := hi.closes
    cases hx : s.closerRan with
    | true => rfl
    | false => rw [hx] at this; simp at this; omega
  have hz : (s.fw.map FPc.running).sum = 0 := by rw [← hi.wg]; exact hi.ended hr
  obtain ⟨i, hi', rfl⟩ := List.getElem_of_mem hp
  have := Sub.sum_set FPc.running s.fw i _ .left (List.getElem?_eq_getElem hi')
  cases hq : s.fw[i] with
  | left => rfl
  | _ => rw [hq] at this; simp only [FPc.running] at *; omega

/-- **C152** (nothing after closing). -/
theorem C152_nothing_after_close {hd : Bool} {n : Nat} {ls ls' : List Lab} {s s' : State} (h : run hd (init n) ls = some s)
    (hc : s.closes = 1) (h' : run hd s ls' = some s') : s'.out = s.out := by
  have key : ∀ (ls' : List Lab) (t t' : State), Inv t → t.closerRan = true → run hd t ls' = some t' → t'.out = t.out := by
    intro ls'
    induction ls' with
    | nil => intro t t' _ _ h; simp only [run, Option.some.injEq] at h; rw [h]
    | cons l ls' ih =>
      intro t t' hi hr h
      simp only [run] at h
      split at h
      · cases h
      · rename_i t1 h1
        have hi1 := step_inv hi h1
        have hz : (t.fw.map FPc.running).sum = 0 := by rw [← hi.wg]; exact hi.ended hr
        have : t1.closerRan = true ∧ t1.out = t.out := by
          cases l with
          | inner k =>
            cases k <;> simp only [step] at h1 <;> (repeat' split at h1) <;> (try cases h1) <;> exact ⟨hr, rfl⟩
          | give i =>
            simp only [step] at h1
            split at h1
            case h_2 => cases h1
            rename_i m hf
            have := Sub.sum_set FPc.running t.fw i (.hold m) .left hf
            simp only [FPc.running] at *
            omega
          | drop i => simp only [step] at h1; (repeat' split at h1) <;> (try cases h1) <;> exact ⟨hr, rfl⟩
          | fin i => simp only [step] at h1; (repeat' split at h1) <;> (try cases h1) <;> exact ⟨hr, rfl⟩
          | close => simp only [step, hr] at h1; simp at h1
        rw [ih t1 t' hi1 this.1 h, this.2]
  have hi := reach h
  refine key ls' s s' hi ?_ h'
  have := hi.closes
  cases hx : s.closerRan with
  | true => rfl
  | false => rw [hx] at this; simp at this; omega

theorem no_cancel {hd : Bool} : ∀ (ls : List Fetch.Lab) (c c' : Fetch.State), (∀ l ∈ ls, l ≠ .cancel ∧ l ≠ .closer) → c.ctxDone = false →
    Fetch.run hd c ls = some c' → c'.ctxDone = false :=
  Fetch.run_inv (P := fun c => c.ctxDone = false) (Q := fun l => l ≠ .cancel ∧ l ≠ .closer) (by
    intro c l c' hq hp h
    simp only [Fetch.step, Fetch.State.finish, Fetch.State.setW] at h
    (repeat' split at h) <;> (try simp only [reduceCtorEq, Option.some.injEq] at h) <;> (try subst h)
    all_goals first
      | contradiction
      | exact hp
      | exact absurd rfl hq.1
      | exact absurd rfl hq.2)

theorem closer_keeps {hd : Bool} (c : Fetch.State) : ∀ (k : Nat) (c' : Fetch.State), Fetch.run hd c (List.replicate k .closer) = some c' →
    c'.received = c.received ∧ c'.late = c.late := by
  intro k c' h
  refine Fetch.run_inv (P := fun t => t.received = c.received ∧ t.late = c.late) (Q := fun l => l = .closer) ?_ _ c c' ?_ ⟨rfl, rfl⟩ h
  · rintro t l t' rfl hp h
    simp only [Fetch.step] at h
    (repeat' split at h) <;> (try simp only [reduceCtorEq, Option.some.injEq] at h) <;> (try subst h) <;> exact hp
  · intro l hl; exact List.eq_of_mem_replicate hl

theorem sum_left {x : Bytes} : ∀ l : List FPc, (∀ p ∈ l, p = .left) → (l.map (FPc.weight x)).sum = 0
  | [], _ => rfl
  | p :: l, h => by
    have := h p List.mem_cons_self
    subst this
    simp only [List.map_cons, List.sum_cons, FPc.weight, sum_left l (fun p hp => h p (List.mem_cons_of_mem _ hp))]

/-- **C152** (none lost, partial). If the caller does not cancel and every relay ends its answer with EOSE (no CLOSED, no lost
connection), then once the channel is closed the consumer received every id that some relay sent - provided all copies of it
are valid (parse, are authentic, and match the filter for the relay they came from) and none arrived after the EOSE of its
relay. Missing: the provisos (`C152_other_filter_suppresses`, and `C32_live_copy_suppresses`), and relays that end with
CLOSED. -/
theorem C152_complete_partial {hd : Bool} {n : Nat} {ls : List Lab} {s : State} (h : run hd (init n) ls = some s)
    (ho : ∀ l, .inner l ∈ ls → Fetch.Orderly l) (hcl : s.closes = 1) (x : Bytes) (hx : ∃ m ∈ s.core.received, m.xid = x)
    (hv : ∀ m ∈ s.core.received, m.xid = x → m.valid = true) (hl : x ∉ s.core.late) : ∃ m ∈ s.out, m.xid = x := by
  obtain ⟨h1, h2⟩ := core_run ls _ _ h
  have hin : ∀ l ∈ inners ls, Fetch.Orderly l := by
    intro l hl
    refine ho l ?_
    clear ho h h1 h2
    induction ls with
    | nil => simp [inners] at hl
    | cons a ls ih =>
      cases a with
      | inner k =>
        simp only [inners, List.mem_cons] at hl
        rcases hl with rfl | hl
        · exact List.mem_cons_self
        · exact List.mem_cons_of_mem _ (ih hl)
      | _ => exact List.mem_cons_of_mem _ (ih hl)
  have hctx : s.core.ctxDone = false := no_cancel _ _ _ (fun l hl => ⟨fun hc => (by rw [hc] at hl; exact hin _ hl), fun hc => h2 (hc ▸ hl)⟩) rfl h1
  have hi := reach h
  have hleft := (C152_closed_once h).2.2 hcl
  have hdone : ∀ w ∈ s.core.workers, ∃ e, w.pc = .done e := by
    intro w hw
    obtain ⟨i, hi', rfl⟩ := List.getElem_of_mem hw
    have hf : i < s.fw.length := by rw [hi.len]; exact hi'
    have hfi : s.fw[i]? = some .left := by rw [List.getElem?_eq_getElem hf, hleft _ (List.getElem_mem hf)]
    rcases hi.gone i hfi with g | ⟨w, e, g1, g2⟩
    · rw [hctx] at g; cases g
    · rw [List.getElem?_eq_getElem hi'] at g1
      cases g1
      exact ⟨e, g2⟩
  obtain ⟨k, s2, _, g1, g2, g3⟩ := Fetch.C33_closes_when_all_done h1 hdone
  obtain ⟨k1, k2⟩ := closer_keeps _ _ _ g1
  obtain ⟨m, m1, m2⟩ := Fetch.C32_complete_partial ((Fetch.run_append _ _ _ _ h1).trans g1) (by
      intro l hl
      rcases List.mem_append.1 hl with hl | hl
      · exact hin l hl
      · rw [List.eq_of_mem_replicate hl]; trivial) g2 x (by rw [k1]; exact hx) (by rw [k1]; exact hv) (by rw [k2]; exact hl)
  rw [g3] at m1
  refine Fetch.cnt_pos ?_
  have hf := hi.flow x
  rw [sum_left _ hleft, hi.kept hctx, Fetch.cnt_nil] at hf
  obtain ⟨j, hj, rfl⟩ := List.getElem_of_mem m1
  have := Fetch.cnt_erase x s.core.emitted j _ (List.getElem?_eq_getElem hj)
  rw [if_pos m2] at this
  omega

/-- Actions of the library alone, as in `Fetch.Internal`. -/
def Internal (o : Nat → Bool × Bool × Bool) : Lab → Prop
  | .inner l => Fetch.Internal o l
  | .give _ => False
  | _ => True

theorem lift {hd : Bool} {o : Nat → Bool × Bool × Bool} : ∀ (ls : List Fetch.Lab) (s : State) (c : Fetch.State),
    (∀ l ∈ ls, Fetch.Internal o l ∧ l ≠ .closer) → Fetch.run hd s.core ls = some c → run hd s (ls.map .inner) = some { s with core := c }
  | [], s, c, _, h => by simp only [Fetch.run, Option.some.injEq] at h; subst h; rfl
  | l :: ls, s, c, hl, h => by
    simp only [Fetch.run] at h
    split at h
    · cases h
    · rename_i c1 h1
      have h2 : step hd s (.inner l) = some { s with core := c1 } := by
        have := hl l List.mem_cons_self
        cases l with
        | emit i => exact absurd this.1 (by simp [Fetch.Internal])
        | closer => exact absurd rfl this.2
        | _ => simp only [step, h1]
      simp only [List.map_cons, run, h2]
      exact lift ls { s with core := c1 } c (fun l hl' => hl l (List.mem_cons_of_mem _ hl')) h

/-- With a cancelled context and all workers returned, all forwarders return. -/
theorem forwarders_exit {hd : Bool} {o : Nat → Bool × Bool × Bool} : ∀ (k : Nat) (s : State), Inv s → (s.fw.map FPc.running).sum = k → s.core.ctxDone = true →
    (∀ (i : Nat) w, s.core.workers[i]? = some w → ∃ e, w.pc = .done e) →
    ∃ ls s', (∀ l ∈ ls, Internal o l) ∧ run hd s ls = some s' ∧ s'.wg = 0 ∧ s'.closerRan = s.closerRan ∧ s'.out = s.out := by
  intro k
  induction k with
  | zero => intro s hi hk _ _; exact ⟨[], s, by simp, rfl, by rw [hi.wg]; exact hk, rfl, rfl⟩
  | succ k ih =>
    intro s hi hk hc hd'
    have : ∃ (i : Nat) (p : FPc), s.fw[i]? = some p ∧ p ≠ .left := by
      apply Classical.byContradiction
      intro hn
      have hz : ∀ l : List FPc, (∀ p ∈ l, p = .left) → (l.map FPc.running).sum = 0 := by
        intro l
        induction l with
        | nil => simp
        | cons p l ih =>
          intro h
          have hp := h p List.mem_cons_self
          subst hp
          simp [FPc.running, ih (fun p hp => h p (List.mem_cons_of_mem _ hp))]
      rw [hz s.fw (fun p hp => ?_)] at hk
      · omega
      · obtain ⟨i, hi', rfl⟩ := List.getElem_of_mem hp
        exact Classical.byContradiction fun hx => hn ⟨i, _, List.getElem?_eq_getElem hi', hx⟩
    obtain ⟨i, p, hp, hne⟩ := this
    have hlt : i < s.core.workers.length := by
      rw [← hi.len]
      rcases Nat.lt_or_ge i s.fw.length with hx | hx
      · exact hx
      · rw [List.getElem?_eq_none hx] at hp; cases hp
    have q := Sub.sum_set FPc.running s.fw i p .left hp
    obtain ⟨l, s1, l1, l2, l3, l4, l5, l6⟩ : ∃ l s1, Internal o l ∧ step hd s l = some s1 ∧ s1.fw = s.fw.set i .left ∧ s1.core = s.core ∧
        s1.closerRan = s.closerRan ∧ s1.out = s.out := by
      cases p with
      | left => exact absurd rfl hne
      | hold m => exact ⟨.drop i, { s with fw := s.fw.set i .left, wg := s.wg - 1, dropped := m :: s.dropped }, trivial, by simp only [step, hp, hc, if_true], rfl, rfl, rfl, rfl⟩
      | idle =>
        obtain ⟨e, he⟩ := hd' i _ (List.getElem?_eq_getElem hlt)
        exact ⟨.fin i, { s with fw := s.fw.set i .left, wg := s.wg - 1 }, trivial, by simp only [step, hp, List.getElem?_eq_getElem hlt, he], rfl, rfl, rfl, rfl⟩
    obtain ⟨ls, s2, g1, g2, g3, g4, g5⟩ := ih s1 (step_inv hi l2) (by
      rw [l3]
      have : p.running = 1 := by cases p <;> simp_all [FPc.running]
      simp only [FPc.running] at q this
      omega) (by rw [l4]; exact hc) (by rw [l4]; exact hd')
    refine ⟨l :: ls, s2, ?_, by simp only [run, l2]; exact g2, g3, g4.trans l5, g5.trans l6⟩
    intro a ha
    rcases List.mem_cons.1 ha with rfl | ha
    · exact l1
    · exact g1 a ha

/-- **C152** (cancellation ends it). After a cancellation, from every reachable state and however the blocking calls turn out,
the library alone - without the consumer reading and without any relay answering - reaches the closed channel. -/
theorem C152_cancel_closes {hd : Bool} {n : Nat} {ls : List Lab} {s : State} (h : run hd (init n) ls = some s)
    (hc : s.core.ctxDone = true) (o : Nat → Bool × Bool × Bool) :
    ∃ ls' s', (∀ l ∈ ls', Internal o l) ∧ run hd s ls' = some s' ∧ s'.closes = 1 ∧ s'.out = s.out := by
  obtain ⟨l1, c, h1, h2, h3⟩ := Fetch.all_exit hd o _ s.core rfl hc
  have hr := lift l1 s c h1 h2
  have hctx : c.ctxDone = true := by
    refine Fetch.run_inv (P := fun c => c.ctxDone = true) (Q := fun l => Fetch.Internal o l ∧ l ≠ .closer) ?_ l1 s.core c h1 hc h2
    intro c l c' hq hp h
    exact (core_other h hq.2 (fun i hi => by subst hi; simp [Fetch.Internal] at hq)).2.2.2.1 hp
  have hrun := (run_append ls _ _ _ h).trans hr
  obtain ⟨l2, s2, g1, g2, g3, g4, g5⟩ := forwarders_exit (hd := hd) (o := o) _ _ (reach hrun) rfl hctx (Fetch.sum_running_zero h3)
  have hrun2 := (run_append _ _ _ _ hrun).trans g2
  have hi2 := reach hrun2
  have hint : ∀ l ∈ l1.map Lab.inner ++ l2, Internal o l := by
    intro l hl
    rcases List.mem_append.1 hl with hl | hl
    · obtain ⟨k, hk, rfl⟩ := List.mem_map.1 hl
      exact (h1 k hk).1
    · exact g1 l hl
  cases hran : s2.closerRan with
  | true =>
    refine ⟨_, s2, hint, (run_append _ _ _ _ hr).trans g2, ?_, g5⟩
    rw [hi2.closes, hran]; rfl
  | false =>
    have hz : s2.closes = 0 := by rw [hi2.closes, hran]; rfl
    refine ⟨l1.map .inner ++ l2 ++ [.close], { s2 with closerRan := true, closes := 1 }, ?_, ?_, rfl, g5⟩
    · intro l hl
      rcases List.mem_append.1 hl with hl | hl
      · exact hint l hl
      · simp only [List.mem_singleton] at hl; subst hl; trivial
    · rw [run_append _ _ _ _ ((run_append _ _ _ _ hr).trans g2)]
      simp [run, step, hran, g3, hz]

/-- **C152** (the end is reached). Once every worker has returned, a consumer that keeps receiving sees the channel closed, and
has then received everything the calls emitted. -/
theorem C152_closes_when_all_done {hd : Bool} {n : Nat} {ls : List Lab} {s : State} (h : run hd (init n) ls = some s)
    (ha : ∀ w ∈ s.core.workers, ∃ e, w.pc = .done e) :
    ∃ ls' s', (∀ l ∈ ls', l = .close ∨ ∃ i, l = .give i ∨ l = .fin i) ∧ run hd s ls' = some s' ∧ s'.closes = 1 ∧
      ∀ x, Fetch.cnt x s'.out + Fetch.cnt x s'.dropped = Fetch.cnt x s.core.emitted := by
  have key : ∀ (k : Nat) (s : State), Inv s → (s.fw.map FPc.running).sum = k → (∀ w ∈ s.core.workers, ∃ e, w.pc = .done e) →
      ∃ ls' s', (∀ l ∈ ls', l = .close ∨ ∃ i, l = .give i ∨ l = .fin i) ∧ run hd s ls' = some s' ∧ s'.wg = 0 ∧ s'.core = s.core ∧ Inv s' := by
    intro k
    induction k with
    | zero => intro s hi hk _; exact ⟨[], s, by simp, rfl, by rw [hi.wg]; exact hk, rfl, hi⟩
    | succ k ih =>
      intro s hi hk hd'
      have : ∃ (i : Nat) (p : FPc), s.fw[i]? = some p ∧ p ≠ .left := by
        apply Classical.byContradiction
        intro hn
        have hz : ∀ l : List FPc, (∀ p ∈ l, p = .left) → (l.map FPc.running).sum = 0 := by
          intro l
          induction l with
          | nil => simp
          | cons p l ih =>
            intro h
            have hp := h p List.mem_cons_self
            subst hp
            simp [FPc.running, ih (fun p hp => h p (List.mem_cons_of_mem _ hp))]
        rw [hz s.fw (fun p hp => ?_)] at hk
        · omega
        · obtain ⟨i, hi', rfl⟩ := List.getElem_of_mem hp
          exact Classical.byContradiction fun hx => hn ⟨i, _, List.getElem?_eq_getElem hi', hx⟩
      obtain ⟨i, p, hp, hne⟩ := this
      have hltf : i < s.fw.length := by
        rcases Nat.lt_or_ge i s.fw.length with hx | hx
        · exact hx
        · rw [List.getElem?_eq_none hx] at hp; cases hp
      have hlt : i < s.core.workers.length := by rw [← hi.len]; exact hltf
      obtain ⟨e, he⟩ := hd' _ (List.getElem_mem hlt)
      have q := Sub.sum_set FPc.running s.fw i p .left hp
      have hone : p.running = 1 := by cases p <;> simp_all [FPc.running]
      have hcl : s.closes = 0 := by
        have := hi.closes
        cases hx : s.closerRan with
        | false => rw [hx] at this; exact this
        | true => have := hi.ended hx; have := hi.wg; omega
      obtain ⟨l, s1, l1, l2, l3, l4, l5⟩ : ∃ l s1, (∀ a ∈ l, a = .close ∨ ∃ i, a = Lab.give i ∨ a = .fin i) ∧ run hd s l = some s1 ∧ s1.fw = s.fw.set i .left ∧ s1.core = s.core ∧ Inv s1 := by
        cases p with
        | left => exact absurd rfl hne
        | hold m =>
          have hr : run hd s [.give i, .fin i] = some { s with out := s.out ++ [m], fw := s.fw.set i .left, wg := s.wg - 1 } := by
            have h1 : step hd s (.give i) = some { s with out := s.out ++ [m], fw := s.fw.set i .idle } := by
              simp only [step, hp]
              rw [if_pos hcl]
            simp only [run, h1]
            simp [step, hltf, List.getElem?_eq_getElem hlt, he]
          refine ⟨[.give i, .fin i], _, ?_, hr, rfl, rfl, run_inv (fun _ _ _ => step_inv) _ _ _ hi hr⟩
          intro a ha
          simp only [List.mem_cons, List.not_mem_nil, or_false] at ha
          rcases ha with rfl | rfl
          · exact .inr ⟨i, .inl rfl⟩
          · exact .inr ⟨i, .inr rfl⟩
        | idle =>
          have hr : run hd s [.fin i] = some { s with fw := s.fw.set i .left, wg := s.wg - 1 } := by
            simp [run, step, hp, List.getElem?_eq_getElem hlt, he]
          refine ⟨[.fin i], _, ?_, hr, rfl, rfl, run_inv (fun _ _ _ => step_inv) _ _ _ hi hr⟩
          intro a ha
          simp only [List.mem_cons, List.not_mem_nil, or_false] at ha
          exact .inr ⟨i, .inr ha⟩
      obtain ⟨ls2, s2, g1, g2, g3, g4, g5⟩ := ih s1 l5 (by
        rw [l3]
        simp only [FPc.running] at q
        omega) (by rw [l4]; exact hd')
      refine ⟨l ++ ls2, s2, ?_, (run_append _ _ _ _ l2).trans g2, g3, g4.trans l4, g5⟩
      intro a ha
      rcases List.mem_append.1 ha with ha | ha
      · exact l1 a ha
      · exact g1 a ha
  obtain ⟨l1, s1, h1, h2, h3, h4, h5⟩ := key _ s (reach h) rfl ha
  have hflow : ∀ x, Fetch.cnt x s1.out + Fetch.cnt x s1.dropped = Fetch.cnt x s.core.emitted := by
    intro x
    have hf := h5.flow x
    have hz : (s1.fw.map FPc.running).sum = 0 := by rw [← h5.wg]; exact h3
    rw [sum_left s1.fw (fun p hp => ?_), h4] at hf
    · omega
    · obtain ⟨i, hi', rfl⟩ := List.getElem_of_mem hp
      have := Sub.sum_set FPc.running s1.fw i _ .left (List.getElem?_eq_getElem hi')
      cases hq : s1.fw[i] with
      | left => rfl
      | _ => rw [hq] at this; simp only [FPc.running] at *; omega
  cases hran : s1.closerRan with
  | true => exact ⟨l1, s1, h1, h2, by rw [h5.closes, hran]; rfl, hflow⟩
  | false =>
    have hz : s1.closes = 0 := by rw [h5.closes, hran]; rfl
    refine ⟨l1 ++ [.close], { s1 with closerRan := true, closes := 1 }, ?_, ?_, rfl, hflow⟩
    · intro l hl
      rcases List.mem_append.1 hl with hl | hl
      · exact h1 l hl
      · simp only [List.mem_singleton] at hl; exact .inl hl
    · rw [run_append _ _ _ _ h2]
      simp [run, step, hran, h3, hz]

/-- **C152** (no filters): for no filters the channel is closed at once, without any event. -/
theorem C152_empty_closes (hd : Bool) : ∃ s, run hd (init 0) [.close] = some s ∧ s.closes = 1 ∧ s.out = [] := ⟨_, rfl, rfl, rfl⟩

/-- **C152 refuted (filters differ).** The first relay, against its filter, sends an event that only the filter for the second
asks for; when the second relay sends it as asked, it is taken for a duplicate and is lost. -/
theorem C152_other_filter_suppresses : ∃ ls s, run false (init 2) ls = some s ∧ (∀ l, .inner l ∈ ls → Fetch.Orderly l) ∧ s.core.late = [] ∧
    s.closes = 1 ∧ (∃ m ∈ s.core.received, m.id = b! "aa" ∧ m.valid = true) ∧ s.out = [] := by
  refine ⟨[.inner (.ensure 0 true), .inner (.subscribe 0 true), .inner (.ensure 1 true), .inner (.subscribe 1 true),
    .inner (.recv 0 ⟨b! "aa", b! "aa", false⟩), .inner (.recv 1 ⟨b! "aa", b! "aa", true⟩), .inner (.eoseMsg 0), .inner (.selEose 0),
    .inner (.eoseMsg 1), .inner (.selEose 1), .fin 0, .fin 1, .close], _, rfl, ?_, by decide +kernel⟩
  intro l hl
  simp only [List.mem_cons, Lab.inner.injEq, List.not_mem_nil, or_false, reduceCtorEq] at hl
  rcases hl with rfl | rfl | rfl | rfl | rfl | rfl | rfl | rfl | rfl | rfl <;> trivial

/-- Two relays, each with an own event and a common one; both end with EOSE, the consumer takes all. -/
def sampleRun : List Lab :=
  let a : Msg := ⟨b! "aa", b! "aa", true⟩
  let b : Msg := ⟨b! "bb", b! "bb", true⟩
  let c : Msg := ⟨b! "cc", b! "cc", true⟩
  [.inner (.ensure 0 true), .inner (.subscribe 0 true), .inner (.ensure 1 true), .inner (.subscribe 1 true), .inner (.recv 0 a), .inner (.recv 1 c),
   .inner (.recv 0 c), .inner (.recv 1 b), .inner (.eoseMsg 0), .inner (.takeStored 0 0), .inner (.emit 0), .inner (.selEose 0),
   .inner (.takeStored 1 1), .inner (.emit 1), .give 1, .give 0, .inner (.eoseMsg 1), .inner (.takeStored 1 0), .fin 0, .inner (.emit 1), .inner (.selEose 1),
   .give 1, .fin 1, .close]

example : ∃ s, run false (init 2) sampleRun = some s ∧ s.closes = 1 ∧ s.out.map Msg.id = [b! "cc", b! "aa", b! "bb"] ∧
    s.core.received.length = 4 ∧ s.core.late = [] := by
  decide +kernel

example : ∀ l, .inner l ∈ sampleRun → Fetch.Orderly l := by
  intro l hl
  simp only [sampleRun, List.mem_cons, Lab.inner.injEq, List.not_mem_nil, or_false, reduceCtorEq, false_or] at hl
  rcases hl with rfl | rfl | rfl | rfl | rfl | rfl | rfl | rfl | rfl | rfl | rfl | rfl | rfl | rfl | rfl | rfl | rfl | rfl <;> trivial

/-- A cancelled run with a forwarder blocked on the consumer meets `C152_cancel_closes`. -/
example : ∃ s, run false (init 1) [.inner (.ensure 0 true), .inner (.subscribe 0 true), .inner (.recv 0 ⟨b! "aa", b! "aa", true⟩),
    .inner (.takeStored 0 0), .inner (.emit 0), .inner .cancel] = some s ∧ s.core.ctxDone = true ∧ s.closes = 0 ∧ s.fw = [.hold ⟨b! "aa", b! "aa", true⟩] := by
  decide +kernel

/-! ## C153: `QuerySingle` -/

/-- What `QuerySingle` (pool.go:731-744) has answered in a state of its call of `SubManyEose`: the first event it received,
or nil if the channel was closed before; otherwise it is still waiting. The state is that of `Verif.Pool.Fetch`; having
answered, the caller cancels and receives nothing more. -/
def answer (c : Fetch.State) : Option (Option Msg) :=
  match c.emitted with
  | m :: _ => some (some m)
  | [] => if c.closes = 1 then some none else none

/-- Runs of `QuerySingle`: nothing is received after the first event. -/
def Single (c : Fetch.State) : Prop := c.emitted.length ≤ 1

/-- **C153.** On every schedule: an event answered was sent by one of the relays in a message that parses, matches and is
authentic, and it is the only one taken; and from then on, with the context cancelled, all goroutines end without help. -/
theorem C153_answer {hd : Bool} {n : Nat} {ls : List Fetch.Lab} {c : Fetch.State} (h : Fetch.run hd (Fetch.init n) ls = some c) (hs : Single c)
    (m : Msg) (ha : answer c = some (some m)) (o : Nat → Bool × Bool × Bool) :
    m ∈ c.received ∧ m.valid = true ∧ c.emitted = [m] ∧
    ∃ ls' c', (∀ l ∈ ls', Fetch.Internal o l) ∧ Fetch.run hd c (.cancel :: ls') = some c' ∧ c'.closes = 1 := by
  have he : c.emitted = [m] := by
    unfold answer at ha
    unfold Single at hs
    split at ha
    · rename_i m' l hm
      rw [hm] at hs ⊢
      simp only [Option.some.injEq] at ha
      cases l with
      | nil => rw [ha]
      | cons => simp at hs
    · split at ha <;> simp at ha
  have h0 := Fetch.C32_only_received h m (by simp [he])
  refine ⟨h0.1, h0.2, he, ?_⟩
  have h1 : Fetch.step hd c .cancel = some { c with ctxDone := true } := rfl
  have h2 : Fetch.run hd (Fetch.init n) (ls ++ [.cancel]) = some { c with ctxDone := true } := by
    rw [Fetch.run_append _ _ _ _ h]; rfl
  obtain ⟨ls', c', g1, g2, g3⟩ := Fetch.C33_cancel_closes h2 rfl o
  exact ⟨ls', c', g1, by simp only [Fetch.run, h1]; exact g2, g3⟩

/-- **C153 (partial).** Nil is answered only after every relay was given up or ended; and if none was cancelled, refused or
lost, then no relay sent a matching event in time - unless a forged copy of it was sent too. Missing: that proviso
(`C153_forged_copy_hides`). -/
theorem C153_nil_partial {hd : Bool} {n : Nat} {ls : List Fetch.Lab} {c : Fetch.State} (h : Fetch.run hd (Fetch.init n) ls = some c)
    (ha : answer c = some none) :
    (∀ w ∈ c.workers, ∃ e, w.pc = .done e) ∧
    ((∀ l ∈ ls, Fetch.Orderly l) → ∀ m ∈ c.received, m.xid ∉ c.late → ∃ m' ∈ c.received, m'.xid = m.xid ∧ m'.valid = false) := by
  have he : c.emitted = [] ∧ c.closes = 1 := by
    unfold answer at ha
    split at ha
    · simp at ha
    · rename_i hm
      split at ha
      · rename_i hc; exact ⟨hm, hc⟩
      · simp at ha
  refine ⟨(Fetch.C33_closed_once_at_end h).2.2 he.2, fun ho m hm hl => ?_⟩
  apply Classical.byContradiction
  intro hn
  obtain ⟨m', h1, _⟩ := Fetch.C32_complete_partial h ho he.2 m.xid ⟨m, hm, rfl⟩ (by
    intro m' h1 h2
    cases hv : m'.valid with
    | true => rfl
    | false => exact absurd ⟨m', h1, h2, hv⟩ hn) hl
  rw [he.1] at h1
  cases h1

/-- **C153 refuted (forged copy).** One relay answers with a forgery under the id of an event; the genuine one from the other
relay is dropped as a duplicate, and the answer is nil. -/
theorem C153_forged_copy_hides : ∃ ls c, Fetch.run false (Fetch.init 2) ls = some c ∧ (∀ l ∈ ls, Fetch.Orderly l) ∧ answer c = some none ∧
    ∃ m ∈ c.received, m.valid = true ∧ m.xid = m.id := by
  refine ⟨[.ensure 0 true, .subscribe 0 true, .ensure 1 true, .subscribe 1 true,
    .recv 0 ⟨b! "aa", b! "aa", false⟩, .recv 1 ⟨b! "aa", b! "aa", true⟩, .eoseMsg 0, .selEose 0, .eoseMsg 1, .selEose 1,
    .closer, .closer, .closer], ?_⟩
  simp only [List.forall_mem_cons, Fetch.Orderly, List.not_mem_nil, false_imp_iff, implies_true, and_self, true_and]
  exact ⟨_, rfl, by decide +kernel⟩

example : ∃ c, Fetch.run false (Fetch.init 1) [.ensure 0 true, .subscribe 0 true, .recv 0 ⟨b! "aa", b! "aa", true⟩, .takeStored 0 0, .emit 0] = some c ∧
    Single c ∧ answer c = some (some ⟨b! "aa", b! "aa", true⟩) := by
  refine ⟨_, rfl, ?_, rfl⟩
  unfold Single
  decide

end GoNostr.Batched
