import Verif.Pool.FetchTheorems
/-!
# C35, C36, C38, C41: `SubscribeMany`

State machine of `subMany` (pool.go:414-581): the spawning loop, one worker per distinct url with its reconnection loop, the
goroutines waiting for the end of stored events, the goroutine that closes the EOSE channel, the consumer and the caller.

Simplifications: event contents are irrelevant here (C24/C25 treat them); `EnsureRelay`, `Subscribe` and `Auth` are single
actions with a nondeterministic outcome; `pending` is an atomic counter (the real `xsync.Counter` is weaker); a compare-and-swap
of `eosed` and the `eoseWg.Done()` that follows it are one action. A close of or a send on a closed channel, and a negative wait
group, stop the machine in a crashed state.
-/

set_option autoImplicit false

namespace GoNostr.SubMany

/-- Three seconds and five minutes in nanoseconds (pool.go:462, 575). -/
def start : Nat := 3 * 1000000000
/-- `time.Minute*5` (pool.go:575). -/
def limit : Nat := 300 * 1000000000

/-- `interval = min(time.Minute*5, interval*17/10)` (pool.go:575). -/
def nextInterval (i : Nat) : Nat := min limit (i * 17 / 10)

/-- Where a worker is (pool.go:449-577). `dec` to `cas` are the deferred function. -/
inductive WPc
  | top | ensure | subscribe | loop | send | auth | sleep
  | dec | check | close | cas | dead
  deriving DecidableEq, Repr

/-- A worker. `waiting` counts goroutines blocked on the end of stored events of some subscription of this worker, `signalled`
records that one of them was woken, `auths` the successful AUTHs on the current connection, `fails` the attempts failed in a
row. -/
structure Worker where
  url : Bytes
  pc : WPc
  eosed : Bool
  hasAuthed : Bool
  interval : Nat
  waiting : Nat
  signalled : Bool
  auths : Nat
  fails : Nat
  deriving DecidableEq, Repr

/-- pool.go:447-462 -/
def Worker.new (u : Bytes) : Worker where
  url := u
  pc := .top
  eosed := false
  hasAuthed := false
  interval := start
  waiting := 0
  signalled := false
  auths := 0
  fails := 0

/-- Shared state: urls processed and to be processed by the spawning loop, workers, `pending`, `eoseWg`, cancellation, closes of
the event channel and of the EOSE channel, duplicates skipped, a panic on the channel, a negative wait group. -/
structure State where
  done : List Bytes
  todo : List Bytes
  workers : List Worker
  pending : Nat
  wg : Nat
  ctxDone : Bool
  closes : Nat
  eoseCloses : Nat
  dups : Nat
  crashed : Bool
  wgPanic : Bool
  deriving DecidableEq, Repr

/-- pool.go:421-439; `urls` are the normalized urls. -/
def init (urls : List Bytes) : State where
  done := []
  todo := urls
  workers := []
  pending := urls.length
  wg := urls.length
  ctxDone := false
  closes := 0
  eoseCloses := 0
  dups := 0
  crashed := false
  wgPanic := false

/-- The atomic actions of the machine; its step function says which lines each of them is. -/
inductive Lab
  | spawn
  | top (i : Nat)
  | ensure (i : Nat) (ok : Bool)
  | subscribe (i : Nat) (ok : Bool)
  /-- a goroutine of worker `i` receives an end of stored events -/
  | eose (i : Nat)
  /-- the worker's `select`: an event, a closed channel, a CLOSED (`true`: auth-required), the context -/
  | take (i : Nat)
  | broken (i : Nat)
  | closedMsg (i : Nat) (authRequired : Bool)
  | ctx (i : Nat)
  /-- the consumer takes the event / the context ends first -/
  | emit (i : Nat)
  | emitCtx (i : Nat)
  | authDone (i : Nat) (ok : Bool)
  | wake (i : Nat)
  /-- the next statement of the deferred function -/
  | exit (i : Nat)
  | notify
  | cancel
  deriving DecidableEq, Repr

/-- Assignment to one component of the state. -/
def State.setW (s : State) (i : Nat) (w : Worker) : State := { s with workers := s.workers.set i w }

/-- `eoseWg.Done()` guarded by the compare-and-swap of `eosed` (pool.go:456-458, 509-511). -/
def markEosed (s : State) (i : Nat) (w : Worker) : State :=
  if w.eosed then s.setW i w
  else if s.wg = 0 then { s with wgPanic := true }
  else { s with
    workers := s.workers.set i { w with eosed := true }
    wg := s.wg - 1 }

/-- One atomic action; `handler`: the pool has an auth handler. -/
def step (handler : Bool) (s : State) (l : Lab) : Option State :=
  if s.crashed || s.wgPanic then none else
  match l with
  -- pool.go:438-449
  | .spawn => match s.todo with
    | [] => none
    | u :: rest =>
      if u ∈ s.done then
        (if s.wg = 0 then some { s with wgPanic := true } else some { s with
          done := s.done ++ [u]
          todo := rest
          dups := s.dups + 1
          wg := s.wg - 1 })
      else some { s with
        done := s.done ++ [u]
        todo := rest
        workers := s.workers ++ [Worker.new u] }
  -- pool.go:464-468
  | .top i => match s.workers[i]? with
    | none => none
    | some w => if w.pc = .top then
        (if s.ctxDone then some (s.setW i { w with pc := .dec }) else some (s.setW i { w with pc := .ensure }))
      else none
  -- pool.go:484-490
  | .ensure i ok => match s.workers[i]? with
    | none => none
    | some w => if w.pc = .ensure then
        (if ok then some (s.setW i { w with
            pc := .subscribe
            hasAuthed := false
            auths := 0 })
        else some (s.setW i { w with pc := .sleep }))
      else none
  -- pool.go:493-515
  | .subscribe i ok => match s.workers[i]? with
    | none => none
    | some w => if w.pc = .subscribe then
        (if ok then some (s.setW i { w with
            pc := .loop
            waiting := w.waiting + 1
            interval := start
            fails := 0 })
        else some (s.setW i { w with pc := .sleep }))
      else none
  -- pool.go:505-512
  | .eose i => match s.workers[i]? with
    | none => none
    | some w => if 0 < w.waiting then some (markEosed s i { w with
          waiting := w.waiting - 1
          signalled := true })
      else none
  -- pool.go:519, 532-535
  | .take i => match s.workers[i]? with
    | none => none
    | some w => if w.pc = .loop then some (s.setW i { w with pc := .send }) else none
  -- pool.go:520-530
  | .broken i => match s.workers[i]? with
    | none => none
    | some w => if w.pc = .loop then some (s.setW i { w with pc := .sleep }) else none
  -- pool.go:551-565
  | .closedMsg i a => match s.workers[i]? with
    | none => none
    | some w => if w.pc = .loop then
        (if a && handler && !w.hasAuthed then some (s.setW i { w with pc := .auth })
        else some (s.setW i { w with pc := .dec }))
      else none
  -- pool.go:566-567
  | .ctx i => match s.workers[i]? with
    | none => none
    | some w => if w.pc = .loop ∧ s.ctxDone = true then some (s.setW i { w with pc := .dec }) else none
  -- pool.go:537-538
  | .emit i => match s.workers[i]? with
    | none => none
    | some w => if w.pc = .send then
        (if s.closes = 0 then some (s.setW i { w with pc := .loop }) else some { s with crashed := true })
      else none
  -- pool.go:539-540
  | .emitCtx i => match s.workers[i]? with
    | none => none
    | some w => if w.pc = .send ∧ s.ctxDone = true then some (s.setW i { w with pc := .dec }) else none
  -- pool.go:554-565
  | .authDone i ok => match s.workers[i]? with
    | none => none
    | some w => if w.pc = .auth then
        (if ok then some (s.setW i { w with
            pc := .subscribe
            hasAuthed := true
            auths := w.auths + 1 })
        else some (s.setW i { w with pc := .dec }))
      else none
  -- pool.go:574-575
  | .wake i => match s.workers[i]? with
    | none => none
    | some w => if w.pc = .sleep then some (s.setW i { w with
          pc := .top
          interval := nextInterval w.interval
          fails := w.fails + 1 })
      else none
  -- pool.go:450-459
  | .exit i => match s.workers[i]? with
    | none => none
    | some w => match w.pc with
      | .dec => some { s with
          pending := s.pending - 1
          workers := s.workers.set i { w with pc := .check } }
      | .check => some (s.setW i { w with pc := if s.pending = 0 then .close else .cas })
      | .close => if s.closes = 0 then some { s with
            closes := 1
            ctxDone := true
            workers := s.workers.set i { w with pc := .cas } }
          else some { s with crashed := true }
      | .cas => some (markEosed s i { w with pc := .dead })
      | _ => none
  -- pool.go:429-433
  | .notify => if s.wg = 0 ∧ s.eoseCloses = 0 then some { s with eoseCloses := 1 } else none
  | .cancel => some { s with ctxDone := true }

/-- A schedule: the actions one after the other. -/
def run (handler : Bool) (s : State) : List Lab → Option State
  | [] => some s
  | l :: ls => match step handler s l with
    | none => none
    | some s' => run handler s' ls

theorem run_inv {hd : Bool} {P : State → Prop} (hs : ∀ s l s', P s → step hd s l = some s' → P s') :
    ∀ {ls : List Lab} {s s' : State}, P s → run hd s ls = some s' → P s' := by
  intro ls
  induction ls with
  | nil => intro s s' hp h; simp only [run, Option.some.injEq] at h; exact h ▸ hp
  | cons l ls ih =>
    intro s s' hp h
    simp only [run] at h
    split at h
    · cases h
    · rename_i s1 h1
      exact ih (hs s l s1 hp h1) h

macro "sm_cases" h:ident : tactic => `(tactic| (
  simp only [step, State.setW, markEosed] at $h:ident
  (repeat' split at $h:ident) <;> (try simp only [reduceCtorEq, Option.some.injEq] at $h:ident) <;> (try subst $h:ident)))

/-! ## Invariants -/

/-- Has the worker decremented `pending`? -/
def WPc.past : WPc → Nat
  | .check | .close | .cas | .dead => 1
  | _ => 0

/-- Auxiliary function of the proofs; models no code. -/
def Worker.past (w : Worker) : Nat := w.pc.past

/-- Auxiliary function of the proofs; models no code. -/
def Worker.eos (w : Worker) : Nat := if w.eosed then 1 else 0

/-- Some worker serves this url. -/
def Covered (l : List Worker) (u : Bytes) : Prop := ∃ w ∈ l, w.url = u

theorem covered_snoc (l : List Worker) (w : Worker) (u : Bytes) : Covered (l ++ [w]) u ↔ Covered l u ∨ w.url = u := by
  simp only [Covered, List.mem_append, List.mem_singleton]
  constructor
  · rintro ⟨x, h | rfl, h2⟩
    · exact Or.inl ⟨x, h, h2⟩
    · exact Or.inr h2
  · rintro (⟨x, h, h2⟩ | h)
    · exact ⟨x, Or.inl h, h2⟩
    · exact ⟨w, Or.inr rfl, h⟩

/-- Invariant used in the proofs; models no code. -/
structure Inv (urls : List Bytes) (s : State) : Prop where
  order : urls = s.done ++ s.todo
  split : s.dups + s.workers.length = s.done.length
  dup : s.dups = 0 ↔ s.done.Nodup
  cover : ∀ u, u ∈ s.done ↔ Covered s.workers u
  pending : s.pending + (s.workers.map Worker.past).sum = urls.length
  wg : s.wg + s.dups + (s.workers.map Worker.eos).sum = urls.length
  closed : s.closes = 1 → s.pending = 0
  closing : ∀ (i : Nat) (w : Worker), s.workers[i]? = some w → w.pc = .close → s.pending = 0
  closes : s.closes ≤ 1
  notified : s.eoseCloses = 1 → s.wg = 0
  eoseCloses : s.eoseCloses ≤ 1
  eos : ∀ (i : Nat) (w : Worker), s.workers[i]? = some w → w.eosed = true → w.signalled = true ∨ w.pc = .dead
  dead : ∀ (i : Nat) (w : Worker), s.workers[i]? = some w → w.pc = .dead → w.eosed = true
  wgOk : s.wgPanic = false

theorem past_le (l : List Worker) : (l.map Worker.past).sum ≤ l.length := by
  induction l with
  | nil => simp
  | cons w l ih =>
    have : w.past ≤ 1 := by cases w with | mk u pc => cases pc <;> simp [Worker.past, WPc.past]
    simp; omega

theorem eos_le (l : List Worker) : (l.map Worker.eos).sum ≤ l.length := by
  induction l with
  | nil => simp
  | cons w l ih =>
    have : w.eos ≤ 1 := by unfold Worker.eos; split <;> omega
    simp; omega

theorem eos_lt {l : List Worker} {i : Nat} {w : Worker} (h : l[i]? = some w) (he : w.eosed = false) :
    (l.map Worker.eos).sum < l.length := by
  have h1 := Sub.sum_set Worker.eos l i w { w with eosed := true } h
  have h2 := eos_le (l.set i { w with eosed := true })
  have e1 : Worker.eos { w with eosed := true } = 1 := rfl
  have e2 : Worker.eos w = 0 := by simp [Worker.eos, he]
  rw [List.length_set] at h2
  omega

theorem past_lt {l : List Worker} {i : Nat} {w : Worker} (h : l[i]? = some w) (he : w.pc.past = 0) :
    (l.map Worker.past).sum < l.length := by
  have h1 := Sub.sum_set Worker.past l i w { w with pc := .dead } h
  have h2 := past_le (l.set i { w with pc := .dead })
  have e1 : Worker.past { w with pc := .dead } = 1 := rfl
  have e2 : Worker.past w = 0 := he
  rw [List.length_set] at h2
  omega

theorem cover_set {l : List Worker} {i : Nat} {w a : Worker} (h : l[i]? = some w) (hu : a.url = w.url) (u : Bytes) :
    Covered (l.set i a) u ↔ Covered l u := by
  unfold Covered
  have hi : i < l.length := by
    rcases Nat.lt_or_ge i l.length with h' | h'
    · exact h'
    · rw [List.getElem?_eq_none h'] at h; cases h
  have e : l[i] = w := by rw [List.getElem?_eq_getElem hi] at h; exact Option.some.inj h
  constructor
  · rintro ⟨x, hx, rfl⟩
    rcases List.mem_or_eq_of_mem_set hx with hx | rfl
    · exact ⟨x, hx, rfl⟩
    · exact ⟨w, e ▸ List.getElem_mem hi, hu.symm⟩
  · rintro ⟨x, hx, rfl⟩
    obtain ⟨j, hj, rfl⟩ := List.getElem_of_mem hx
    by_cases hij : i = j
    · subst hij
      exact ⟨a, List.mem_set hi a, by rw [hu, e]⟩
    · exact ⟨l[j], by rw [List.mem_iff_getElem]; exact ⟨j, by simpa using hj, by simp [hij]⟩, rfl⟩

theorem nodup_snoc (l : List Bytes) (u : Bytes) : (l ++ [u]).Nodup ↔ l.Nodup ∧ u ∉ l := by
  rw [List.nodup_append]
  simp only [List.nodup_cons, List.not_mem_nil, not_false_eq_true, List.nodup_nil, and_self, true_and, List.mem_singleton]
  constructor
  · rintro ⟨a, b⟩; exact ⟨a, fun h => b u h u rfl rfl⟩
  · rintro ⟨a, b⟩; refine ⟨a, fun x hx y hy he => ?_⟩; subst hy; subst he; exact b hx

set_option maxHeartbeats 2000000 in
theorem inv_step {urls : List Bytes} {hd : Bool} {s s' : State} {l : Lab} (hi : Inv urls s) (h : step hd s l = some s') :
    Inv urls s' := by
  obtain ⟨h1, h2, h3, h4, h5, h6, h7, h8, h9, h10, h11, h12, h13, h14⟩ := hi
  have q1 := Sub.sum_set Worker.past s.workers
  have q2 := Sub.sum_set Worker.eos s.workers
  have p1 := past_le s.workers
  have p2 := eos_le s.workers
  have cs := @cover_set s.workers
  have el := @eos_lt s.workers
  have pl := @past_lt s.workers
  sm_cases h
  all_goals first
    | contradiction
    | exact ⟨h1, h2, h3, h4, h5, h6, h7, h8, h9, h10, h11, h12, h13, h14⟩
    | (constructor <;> (try assumption) <;> grind [Worker.past, WPc.past, Worker.eos, Worker.new, nodup_snoc, covered_snoc])


theorem inv_init (urls : List Bytes) : Inv urls (init urls) := by
  constructor <;> simp [init, Covered]

theorem inv_run {urls : List Bytes} {hd : Bool} {ls : List Lab} {s : State} (h : run hd (init urls) ls = some s) : Inv urls s :=
  run_inv (P := Inv urls) (fun _ _ _ => inv_step) (inv_init urls) h

theorem sum_full {w : Worker → Nat} (hw : ∀ x, w x ≤ 1) : ∀ {l : List Worker}, (l.map w).sum = l.length → ∀ x ∈ l, w x = 1
  | [], _, x, h => by simp at h
  | y :: l, hs, x, h => by
    have hle : (l.map w).sum ≤ l.length := by
      clear hs h
      induction l with
      | nil => simp
      | cons z l ih => have := hw z; simp; omega
    have := hw y
    simp at hs
    rcases List.mem_cons.1 h with rfl | h
    · omega
    · exact sum_full hw (by omega) x h

theorem past_one (x : Worker) : x.past ≤ 1 := by
  cases x with | mk u pc => cases pc <;> simp [Worker.past, WPc.past]

theorem eos_one (x : Worker) : x.eos ≤ 1 := by unfold Worker.eos; split <;> omega

/-- When `pending` is zero all urls are distinct, all workers exist and all have left their loops. -/
theorem pending_zero {urls : List Bytes} {s : State} (hi : Inv urls s) (h : s.pending = 0) :
    urls.Nodup ∧ s.todo = [] ∧ ∀ w ∈ s.workers, w.past = 1 := by
  have h1 := hi.pending
  have h2 := past_le s.workers
  have h3 := hi.split
  have h4 : urls.length = s.done.length + s.todo.length := by rw [hi.order, List.length_append]
  have h5 : s.todo = [] := List.length_eq_zero_iff.1 (by omega)
  refine ⟨?_, h5, sum_full past_one (by omega)⟩
  rw [hi.order, h5, List.append_nil]
  exact hi.dup.1 (by omega)

/-! ## More invariants -/

/-- Some worker is about to read `pending` or to close the channel. -/
def HasCloser (l : List Worker) : Prop := ∃ w ∈ l, w.pc = .check ∨ w.pc = .close

theorem hasCloser_set {l : List Worker} {i : Nat} {w : Worker} (a : Worker) (h : l[i]? = some w) (hw : w.pc ≠ .check ∧ w.pc ≠ .close)
    (hc : HasCloser l) : HasCloser (l.set i a) := by
  obtain ⟨x, hx, hp⟩ := hc
  obtain ⟨j, hj, rfl⟩ := List.getElem_of_mem hx
  have hij : i ≠ j := by
    rintro rfl
    rw [List.getElem?_eq_getElem hj] at h
    cases Option.some.inj h
    rcases hp with hp | hp
    · exact hw.1 hp
    · exact hw.2 hp
  exact ⟨l[j], by rw [List.mem_iff_getElem]; exact ⟨j, by simpa using hj, by simp [hij]⟩, hp⟩

theorem hasCloser_new {l : List Worker} {i : Nat} {w : Worker} (a : Worker) (h : l[i]? = some w) (ha : a.pc = .check ∨ a.pc = .close) :
    HasCloser (l.set i a) := by
  have hi : i < l.length := by
    rcases Nat.lt_or_ge i l.length with h' | h'
    · exact h'
    · rw [List.getElem?_eq_none h'] at h; cases h
  exact ⟨a, List.mem_set hi a, ha⟩

theorem hasCloser_append {l : List Worker} (a : Worker) (h : HasCloser l) : HasCloser (l ++ [a]) := by
  obtain ⟨x, hx, hp⟩ := h
  exact ⟨x, List.mem_append_left _ hx, hp⟩

/-- When the counter is zero and the channel open, somebody will see it. -/
def CloserInv (s : State) : Prop := s.pending = 0 → s.workers ≠ [] → s.closes = 0 → HasCloser s.workers

set_option maxHeartbeats 1000000 in
theorem closer_step {urls : List Bytes} {hd : Bool} {s s' : State} {l : Lab} (hi : Inv urls s) (hc : CloserInv s)
    (h : step hd s l = some s') : CloserInv s' := by
  have hz := fun h => (pending_zero hi h).2.1
  have a1 := @hasCloser_set s.workers
  have a2 := @hasCloser_new s.workers
  have ne : ∀ (i : Nat) (a : Worker), s.workers.set i a ≠ [] → s.workers ≠ [] := by
    intro i a h e; rw [e] at h; simp at h
  unfold CloserInv at hc ⊢
  clear hi
  sm_cases h
  all_goals first
    | contradiction
    | exact hc
    | grind [Worker.new, hasCloser_append]

/-- With one url there is at most one worker. -/
structure SingleInv (s : State) : Prop where
  one : s.workers.length + s.todo.length ≤ 1
  ok : s.crashed = false
  open_ : ∀ (i : Nat) (w : Worker), s.workers[i]? = some w → w.pc ≠ .cas → w.pc ≠ .dead → s.closes = 0

theorem single_step {urls : List Bytes} {hd : Bool} {s s' : State} {l : Lab} (hi : Inv urls s) (hc : SingleInv s)
    (h : step hd s l = some s') : SingleInv s' := by
  obtain ⟨h1, h2, h3⟩ := hc
  have h4 := hi.closed
  have h5 := hi.closes
  have hz := fun h => (pending_zero hi h).2.1
  have hi0 : ∀ (i : Nat) (w : Worker), s.workers[i]? = some w → i = 0 := by
    intro i w hw
    have : i < s.workers.length := by
      rcases Nat.lt_or_ge i s.workers.length with h' | h'
      · exact h'
      · rw [List.getElem?_eq_none h'] at hw; cases hw
    omega
  clear hi
  sm_cases h
  all_goals first
    | contradiction
    | exact ⟨h1, h2, h3⟩
    | (constructor <;> grind)

/-- Invariant used in the proofs; models no code. -/
def SigInv (s : State) : Prop := ∀ (i : Nat) (w : Worker), s.workers[i]? = some w → w.signalled = true → w.eosed = true

theorem sig_step {hd : Bool} {s s' : State} {l : Lab} (hi : SigInv s) (h : step hd s l = some s') : SigInv s' := by
  unfold SigInv at hi ⊢
  intro i w hw
  have := hi i
  sm_cases h
  all_goals first
    | contradiction
    | exact hi i w hw
    | grind [Worker.new]

/-- Invariant used in the proofs; models no code. -/
def AuthInv (s : State) : Prop := ∀ (i : Nat) (w : Worker), s.workers[i]? = some w →
  (w.auths = if w.hasAuthed then 1 else 0) ∧ (w.pc = .auth → w.hasAuthed = false)

theorem auth_step {hd : Bool} {s s' : State} {l : Lab} (hi : AuthInv s) (h : step hd s l = some s') : AuthInv s' := by
  unfold AuthInv at hi ⊢
  intro i w hw
  have := hi i
  sm_cases h
  all_goals first
    | contradiction
    | exact hi i w hw
    | grind [Worker.new]

/-- The waits before each of the attempts that follow a success. -/
def wait : Nat → Nat
  | 0 => start
  | k + 1 => nextInterval (wait k)

/-- Invariant used in the proofs; models no code. -/
def WaitInv (s : State) : Prop := ∀ (i : Nat) (w : Worker), s.workers[i]? = some w → w.interval = wait w.fails

theorem wait_step {hd : Bool} {s s' : State} {l : Lab} (hi : WaitInv s) (h : step hd s l = some s') : WaitInv s' := by
  unfold WaitInv at hi ⊢
  intro i w hw
  have := hi i
  sm_cases h
  all_goals first
    | contradiction
    | exact hi i w hw
    | grind [Worker.new, wait]

/-! ### C35 -/

/-- **C35** (what holds, partial). For distinct urls, in every run in which all workers have returned, the event channel was closed
exactly once; and it is never closed before all workers have left their loops, so no event is sent afterwards. Missing: a run may
instead end in a panic (`C35_double_close`); lists with repeated urls or no urls are never closed (`C35_duplicates_never_close`,
`C35_empty_never_closes`). -/
theorem C35_closed_once_partial {urls : List Bytes} {hd : Bool} {ls : List Lab} {s : State} (h : run hd (init urls) ls = some s) :
    s.closes ≤ 1 ∧
    (s.closes = 1 → ∀ w ∈ s.workers, w.pc ≠ .loop ∧ w.pc ≠ .send) ∧
    (urls.Nodup → urls ≠ [] → s.todo = [] → (∀ w ∈ s.workers, w.pc = .dead) → s.closes = 1) := by
  have hi := inv_run h
  refine ⟨hi.closes, fun hc w hw => ?_, ?_⟩
  · have := (pending_zero hi (hi.closed hc)).2.2 w hw
    constructor <;> intro hp <;> simp [Worker.past, WPc.past, hp] at this
  · intro hn hne ht hd'
    have hk := run_inv (P := fun s => Inv urls s ∧ CloserInv s) (fun _ _ _ p hs => ⟨inv_step p.1 hs, closer_step p.1 p.2 hs⟩)
      ⟨inv_init urls, by intro _ h; simp [init] at h⟩ h
    have h1 := hi.closes
    have h2 : s.workers.length = urls.length := by
      have e1 := hi.split
      have e2 := hi.order
      rw [ht, List.append_nil] at e2
      have e3 := hi.dup.2 (e2 ▸ hn)
      rw [e2]; omega
    have h3 : (s.workers.map Worker.past).sum = s.workers.length := by
      clear h2 hk hi h
      generalize s.workers = l at hd'
      induction l with
      | nil => rfl
      | cons w l ih =>
        simp only [List.map_cons, List.sum_cons, List.length_cons]
        rw [ih (fun x hx => hd' x (List.mem_cons_of_mem _ hx))]
        simp [Worker.past, WPc.past, hd' w List.mem_cons_self]; omega
    have h4 := hi.pending
    apply Classical.byContradiction
    intro hc
    obtain ⟨w, hw, hp⟩ := hk.2 (by omega) (by intro e; rw [e] at h2; exact hne (List.length_eq_zero_iff.1 h2.symm)) (by omega)
    rw [hd' w hw] at hp
    rcases hp with hp | hp <;> cases hp

/-- **C35** (one relay): with a single url the run never panics. -/
theorem C35_single_never_crashes {u : Bytes} {hd : Bool} {ls : List Lab} {s : State} (h : run hd (init [u]) ls = some s) :
    s.crashed = false := by
  refine (run_inv (P := fun s => Inv [u] s ∧ SingleInv s) (fun _ _ _ p hs => ⟨inv_step p.1 hs, single_step p.1 p.2 hs⟩)
      ⟨inv_init [u], ?_⟩ h).2.ok
  constructor <;> simp [init]

/-- **C35 refuted (repeated urls).** If a url occurs twice (after normalization) the channel is never closed, whatever the relays
and the caller do. -/
theorem C35_duplicates_never_close {urls : List Bytes} {hd : Bool} {ls : List Lab} {s : State} (hn : ¬ urls.Nodup)
    (h : run hd (init urls) ls = some s) : s.closes = 0 := by
  have hi := inv_run h
  have := hi.closes
  have h2 : s.closes ≠ 1 := fun hc => hn (pending_zero hi (hi.closed hc)).1
  omega

theorem empty_step {hd : Bool} {s s' : State} {l : Lab} (hi : s.closes = 0 ∧ s.workers = [] ∧ s.todo = [])
    (h : step hd s l = some s') : s'.closes = 0 ∧ s'.workers = [] ∧ s'.todo = [] := by
  obtain ⟨h1, h2, h3⟩ := hi
  sm_cases h
  all_goals first
    | contradiction
    | exact ⟨h1, h2, h3⟩
    | (simp [h2] at *; done)
    | grind

/-- **C35 refuted (no urls).** For an empty list the channel is never closed, not even on cancellation. -/
theorem C35_empty_never_closes {hd : Bool} {ls : List Lab} {s : State} (h : run hd (init []) ls = some s) : s.closes = 0 :=
  (run_inv (P := fun s => s.closes = 0 ∧ s.workers = [] ∧ s.todo = []) (fun _ _ _ => empty_step) ⟨rfl, rfl, rfl⟩ h).1

/-- Two relays, both connected. -/
def twoUp : List Lab := [.spawn, .spawn, .top 0, .ensure 0 true, .subscribe 0 true, .top 1, .ensure 1 true, .subscribe 1 true]

/-- **C35 refuted (race).** Two relays close their subscriptions; both workers decrement before either reads the counter, both see
zero, and the second `close` panics. -/
theorem C35_double_close : ∃ ls s, run false (init [b! "a", b! "b"]) ls = some s ∧ s.crashed = true := by
  refine ⟨twoUp ++ [.closedMsg 0 false, .closedMsg 1 false, .exit 0, .exit 1, .exit 0, .exit 1, .exit 0, .exit 1], ?_⟩
  decide +kernel

/-- The same relays, without the race: closed once. -/
example : ∃ s, run false (init [b! "a", b! "b"]) (twoUp ++ [.closedMsg 0 false, .exit 0, .exit 0, .exit 0, .closedMsg 1 false, .exit 1,
    .exit 1, .exit 1, .exit 1]) = some s ∧ s.closes = 1 ∧ s.todo = [] ∧ (∀ w ∈ s.workers, w.pc = .dead) ∧ s.crashed = false := by
  decide +kernel

/-- A cancelled call with a repeated url in which every worker has ended: the consumer waits for ever. -/
example : ∃ s, run false (init [b! "a", b! "a"]) [.spawn, .spawn, .cancel, .top 0, .exit 0, .exit 0, .exit 0] = some s ∧ s.closes = 0 ∧
    s.todo = [] ∧ ∀ w ∈ s.workers, w.pc = .dead := by
  decide +kernel

/-- Steps a worker still needs, at most, to end after a cancellation. -/
def WPc.rank : WPc → Nat
  | .dead => 0 | .cas => 1 | .close => 2 | .check => 3 | .dec => 4 | .top => 5 | .loop => 5 | .send => 5 | .sleep => 6
  | .subscribe => 7 | .ensure => 8 | .auth => 8

/-- Actions of the library alone (no consumer, no relay), with outcome `ok` for a blocking call. -/
def own (i : Nat) (ok : Bool) : WPc → Lab
  | .top => .top i
  | .ensure => .ensure i ok
  | .subscribe => .subscribe i ok
  | .loop => .ctx i
  | .send => .emitCtx i
  | .auth => .authDone i ok
  | .sleep => .wake i
  | _ => .exit i

/-- **C35** (cancellation, partial). After a cancellation every worker that has not ended can take a step of its own, however its
blocking calls turn out, and each such step brings it closer to its end; the only alternative is the panic of
`C35_double_close`. -/
theorem C35_cancel_progress_partial {urls : List Bytes} {hd : Bool} {ls : List Lab} {s : State} (h : run hd (init urls) ls = some s)
    (hc : s.ctxDone = true) (hk : s.crashed = false) (i : Nat) (w : Worker) (hw : s.workers[i]? = some w) (hp : w.pc ≠ .dead)
    (ok : Bool) :
    ∃ s', step hd s (own i ok w.pc) = some s' ∧
      (s'.crashed = true ∨ ∃ w', s'.workers[i]? = some w' ∧ w'.pc.rank < w.pc.rank ∧ s'.ctxDone = true) := by
  have hi := inv_run h
  have hlt : i < s.workers.length := by
    rcases Nat.lt_or_ge i s.workers.length with h' | h'
    · exact h'
    · rw [List.getElem?_eq_none h'] at hw; cases hw
  have hx : w.eosed = false → s.wg ≠ 0 := by
    intro he
    have h1 := eos_lt hw he
    have h2 := hi.wg
    have h3 := hi.split
    have h4 : urls.length = s.done.length + s.todo.length := by rw [hi.order, List.length_append]
    omega
  have ho := hi.wgOk
  have fin : ∀ (l : Lab) (w' : Worker) (r : Nat), step hd s l = some (s.setW i w') → w'.pc.rank < r →
      ∃ s', step hd s l = some s' ∧ (s'.crashed = true ∨ ∃ w', s'.workers[i]? = some w' ∧ w'.pc.rank < r ∧ s'.ctxDone = true) :=
    fun l w' r h1 h2 => ⟨_, h1, Or.inr ⟨w', by simp [State.setW, hlt], h2, hc⟩⟩
  cases hpc : w.pc <;> simp only [own]
  case dead => exact absurd hpc hp
  case check =>
    by_cases hz : s.pending = 0
    · exact fin _ { w with pc := .close } _ (by simp [step, hk, ho, hw, hpc, hz]) (by show (2 : Nat) < 3; omega)
    · exact fin _ { w with pc := .cas } _ (by simp [step, hk, ho, hw, hpc, hz]) (by show (1 : Nat) < 3; omega)
  case close =>
    by_cases hz : s.closes = 0
    · exact ⟨{ s with closes := 1, ctxDone := true, workers := s.workers.set i { w with pc := .cas } },
        by simp [step, hk, ho, hw, hpc, hz], Or.inr ⟨{ w with pc := .cas }, by simp [hlt], (by decide : (1 : Nat) < 2), rfl⟩⟩
    · exact ⟨{ s with crashed := true }, by simp [step, hk, ho, hw, hpc, hz], Or.inl rfl⟩
  case cas =>
    cases he : w.eosed with
    | true => exact ⟨s.setW i { w with pc := .dead }, by simp [step, hk, ho, hw, hpc, markEosed, he],
        Or.inr ⟨{ w with pc := .dead }, by simp [State.setW, hlt], (by decide : (0 : Nat) < 1), hc⟩⟩
    | false => exact ⟨{ s with workers := s.workers.set i { w with pc := .dead, eosed := true }, wg := s.wg - 1 },
        by simp [step, hk, ho, hw, hpc, markEosed, he, hx he],
        Or.inr ⟨{ w with pc := .dead, eosed := true }, by simp [hlt], (by decide : (0 : Nat) < 1), hc⟩⟩
  case dec => exact ⟨{ s with pending := s.pending - 1, workers := s.workers.set i { w with pc := .check } },
      by simp [step, hk, ho, hw, hpc], Or.inr ⟨{ w with pc := .check }, by simp [hlt], (by decide : (3 : Nat) < 4), hc⟩⟩
  case top => exact fin _ { w with pc := .dec } _ (by simp [step, hk, ho, hw, hpc, hc]) (by show (4 : Nat) < 5; omega)
  case loop => exact fin _ { w with pc := .dec } _ (by simp [step, hk, ho, hw, hpc, hc]) (by show (4 : Nat) < 5; omega)
  case send => exact fin _ { w with pc := .dec } _ (by simp [step, hk, ho, hw, hpc, hc]) (by show (4 : Nat) < 5; omega)
  case sleep =>
    exact fin _ { w with pc := .top, interval := nextInterval w.interval, fails := w.fails + 1 } _
      (by simp [step, hk, ho, hw, hpc]) (by show (5 : Nat) < 6; omega)
  case ensure =>
    cases ok
    · exact fin _ { w with pc := .sleep } _ (by simp [step, hk, ho, hw, hpc]) (by show (6 : Nat) < 8; omega)
    · exact fin _ { w with pc := .subscribe, hasAuthed := false, auths := 0 } _ (by simp [step, hk, ho, hw, hpc])
        (by show (7 : Nat) < 8; omega)
  case subscribe =>
    cases ok
    · exact fin _ { w with pc := .sleep } _ (by simp [step, hk, ho, hw, hpc]) (by show (6 : Nat) < 7; omega)
    · exact fin _ { w with pc := .loop, waiting := w.waiting + 1, interval := start, fails := 0 } _ (by simp [step, hk, ho, hw, hpc])
        (by show (5 : Nat) < 7; omega)
  case auth =>
    cases ok
    · exact fin _ { w with pc := .dec } _ (by simp [step, hk, ho, hw, hpc]) (by show (4 : Nat) < 8; omega)
    · exact fin _ { w with pc := .subscribe, hasAuthed := true, auths := w.auths + 1 } _ (by simp [step, hk, ho, hw, hpc])
        (by show (7 : Nat) < 8; omega)

example : ∃ s, run false (init [b! "a", b! "b"]) (twoUp ++ [.take 0, .cancel]) = some s ∧ s.ctxDone = true ∧ s.crashed = false ∧
    s.workers.map (fun w => w.pc) = [.send, .loop] := by
  decide +kernel

/-! ### C36 -/

/-- **C36** (only after all). The EOSE channel is closed at most once, the wait group never goes negative, and once it is closed
every url of the list is served by a worker, each of which has received an end of stored events or has terminated - whatever the
reconnections, duplicates and CLOSEDs. -/
theorem C36_notified_after_all {urls : List Bytes} {hd : Bool} {ls : List Lab} {s : State} (h : run hd (init urls) ls = some s) :
    s.eoseCloses ≤ 1 ∧ s.wgPanic = false ∧
    (s.eoseCloses = 1 → (∀ u ∈ urls, ∃ w ∈ s.workers, w.url = u) ∧ ∀ w ∈ s.workers, w.signalled = true ∨ w.pc = .dead) := by
  have hi := inv_run h
  refine ⟨hi.eoseCloses, hi.wgOk, fun hc => ?_⟩
  have h1 := hi.wg
  have h0 := hi.notified hc
  have h2 := eos_le s.workers
  have h3 := hi.split
  have h4 : urls.length = s.done.length + s.todo.length := by rw [hi.order, List.length_append]
  have h5 : s.todo = [] := List.length_eq_zero_iff.1 (by omega)
  constructor
  · intro u hu
    rw [hi.order, h5, List.append_nil] at hu
    exact (hi.cover u).1 hu
  · intro w hw
    have h6 := sum_full eos_one (l := s.workers) (by omega) w hw
    obtain ⟨i, hlt, rfl⟩ := List.getElem_of_mem hw
    refine hi.eos i _ (List.getElem?_eq_getElem hlt) ?_
    unfold Worker.eos at h6
    split at h6
    · assumption
    · omega

/-- **C36** (it does fire). When all urls were processed and every worker has received an end of stored events (the waiting
goroutine has run) or has terminated, the notification is enabled, and it stays possible until it happens. -/
theorem C36_fires_when_all {urls : List Bytes} {hd : Bool} {ls : List Lab} {s : State} (h : run hd (init urls) ls = some s)
    (ht : s.todo = []) (ha : ∀ w ∈ s.workers, w.signalled = true ∨ w.pc = .dead) (hn : s.eoseCloses = 0) (hc : s.crashed = false) :
    ∃ s', step hd s .notify = some s' ∧ s'.eoseCloses = 1 := by
  have hi := inv_run h
  have hs := run_inv (P := SigInv) (fun _ _ _ => sig_step) (by intro i w h; simp [init] at h) h
  have h3 : (s.workers.map Worker.eos).sum = s.workers.length := by
    have : ∀ w ∈ s.workers, w.eos = 1 := by
      intro w hw
      obtain ⟨i, hlt, rfl⟩ := List.getElem_of_mem hw
      have hi' := List.getElem?_eq_getElem hlt
      rcases ha _ hw with h | h
      · simp [Worker.eos, hs i _ hi' h]
      · simp [Worker.eos, hi.dead i _ hi' h]
    clear ha hs hi h
    generalize s.workers = l at this
    induction l with
    | nil => rfl
    | cons w l ih =>
      simp only [List.map_cons, List.sum_cons, List.length_cons]
      rw [ih (fun x hx => this x (List.mem_cons_of_mem _ hx)), this w List.mem_cons_self]; omega
  have h4 := hi.wg
  have h5 := hi.split
  have h6 : urls.length = s.done.length + s.todo.length := by rw [hi.order, List.length_append]
  rw [ht] at h6
  have h7 : s.wg = 0 := by simp at h6; omega
  exact ⟨{ s with eoseCloses := 1 }, by simp [step, hc, hi.wgOk, h7, hn], rfl⟩

/-- A reconnection in between: two EOSEs from one relay count once. -/
example : ∃ s, run false (init [b! "a", b! "b", b! "a"]) ([.spawn, .spawn, .top 0, .ensure 0 true, .subscribe 0 true, .top 1,
    .ensure 1 true, .subscribe 1 true, .eose 0, .broken 0, .wake 0, .top 0, .ensure 0 true, .subscribe 0 true, .eose 0, .spawn, .eose 1,
    .notify]) = some s ∧ s.eoseCloses = 1 ∧ s.dups = 1 := by
  decide +kernel

/-! ### C38 -/

/-- **C38** (long-lived subscriptions): on each connection AUTH succeeds at most once per worker. -/
theorem C38_subscribe_many {urls : List Bytes} {hd : Bool} {ls : List Lab} {s : State} (h : run hd (init urls) ls = some s) :
    ∀ w ∈ s.workers, w.auths ≤ 1 := by
  have := run_inv (P := AuthInv) (fun _ _ _ => auth_step) (by intro i w h; simp [init] at h) h
  intro w hw
  obtain ⟨i, hlt, rfl⟩ := List.getElem_of_mem hw
  have := (this i _ (List.getElem?_eq_getElem hlt)).1
  rw [this]; split <;> omega

/-- **C38** (only on demand): a worker starts an AUTH only when a CLOSED with an `auth-required` reason arrives, the pool has a handler and the worker has
not authenticated on this connection yet; every other CLOSED ends the worker. A successful AUTH leads to a new subscription attempt, a failed one ends
the worker. -/
theorem C38_subscribe_many_on_demand {hd : Bool} {s s' : State} {i : Nat} {w : Worker} (hw : s.workers[i]? = some w) :
    (∀ l w', step hd s l = some s' → s'.workers[i]? = some w' → w.pc ≠ .auth → w'.pc = .auth →
      l = .closedMsg i true ∧ hd = true ∧ w.hasAuthed = false ∧ w.pc = .loop) ∧
    (∀ a, w.pc = .loop → step hd s (.closedMsg i a) = some s' → ∃ w', s'.workers[i]? = some w' ∧
      (w'.pc = .auth ∨ w'.pc = .dec) ∧ (w'.pc = .auth ↔ a = true ∧ hd = true ∧ w.hasAuthed = false)) ∧
    (∀ ok, w.pc = .auth → step hd s (.authDone i ok) = some s' → ∃ w', s'.workers[i]? = some w' ∧
      w'.pc = if ok then .subscribe else .dec) := by
  have hlt : i < s.workers.length := by
    rcases Nat.lt_or_ge i s.workers.length with h | h
    · exact h
    · rw [List.getElem?_eq_none h] at hw; cases hw
  refine ⟨?_, ?_, ?_⟩
  · intro l w' h hw' hn ha
    sm_cases h
    all_goals grind [Worker.new]
  · intro a hp h
    simp only [step, hw, hp, State.setW] at h
    (repeat' split at h) <;> (try simp only [reduceCtorEq, Option.some.injEq] at h) <;> (try subst h)
    all_goals grind
  · intro ok hp h
    simp only [step, hw, hp, State.setW] at h
    (repeat' split at h) <;> (try simp only [reduceCtorEq, Option.some.injEq] at h) <;> (try subst h)
    all_goals grind

/-- A worker asked to authenticate. -/
example : ∃ s, run true (init [b! "a"]) [.spawn, .top 0, .ensure 0 true, .subscribe 0 true, .closedMsg 0 true, .authDone 0 true, .subscribe 0 true] = some s ∧
    s.workers.map (fun w => (w.auths, w.pc)) = [(1, .loop)] := by
  decide +kernel

/-! ### C41 -/

/-- Specification: so many seconds as a duration in nanoseconds. -/
def seconds (n : Nat) : Nat := n * 1000000000

/-- **C41** (bounds): every wait lies between three seconds and five minutes. -/
theorem C41_bounds : ∀ k, seconds 3 ≤ wait k ∧ wait k ≤ seconds 300
  | 0 => by decide
  | k + 1 => by
    have := C41_bounds k
    simp only [wait, nextInterval, limit, seconds] at *
    omega

/-- **C41** (growth): each wait is at least the previous one, and strictly longer until five minutes are reached. -/
theorem C41_grows (k : Nat) : wait k ≤ wait (k + 1) ∧ (wait k < seconds 300 → wait k < wait (k + 1)) := by
  have := C41_bounds k
  simp only [wait, nextInterval, limit, seconds] at *
  omega

/-- **C41** (the limit is reached): from the tenth failure on the wait is five minutes. -/
theorem C41_reaches_limit (k : Nat) (h : 9 ≤ k) : wait k = seconds 300 := by
  induction k with
  | zero => omega
  | succ k ih =>
    rcases Nat.lt_or_ge k 9 with h' | h'
    · have : k = 8 := by omega
      subst this
      decide
    · have := ih h'
      simp only [wait, nextInterval, this, limit, seconds]
      omega

/-- **C41** (it is what the workers do): in every run, a worker's current wait is determined by the number of attempts that failed
since its last successful subscription, restarting at three seconds after a success. -/
theorem C41_workers_follow {urls : List Bytes} {hd : Bool} {ls : List Lab} {s : State} (h : run hd (init urls) ls = some s) :
    ∀ w ∈ s.workers, w.interval = wait w.fails := by
  have := run_inv (P := WaitInv) (fun _ _ _ => wait_step) (by intro i w h; simp [init] at h) h
  intro w hw
  obtain ⟨i, hlt, rfl⟩ := List.getElem_of_mem hw
  exact this i _ (List.getElem?_eq_getElem hlt)

example : ∃ s, run false (init [b! "a"]) [.spawn, .top 0, .ensure 0 false, .wake 0, .top 0, .ensure 0 false, .wake 0] = some s ∧
    s.workers.map (fun w => w.interval) = [8670000000] := by
  decide +kernel

end GoNostr.SubMany
