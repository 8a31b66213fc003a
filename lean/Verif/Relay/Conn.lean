import Verif.Relay.Lemmas
/-!
# C123: the life of a relay connection

The goroutine that owns the websocket, the callers of `Write`, the callers of `Close`, the reader that gives up, and the callers of
`Subscribe`, interleaved in any way (relay.go:133-229, 322-331, 411-423, 565-590, subscription.go:141-166).

Simplifications: a relay is connected at most once; the wire either takes a whole message or fails; what the reader does with the
messages it reads is left out (it is the machine of `Verif.Relay.Model`); a failing `Connection.Close` counts as closed.
-/

set_option autoImplicit false

namespace GoNostr.Conn

/-- Where a call of `Write` is (relay.go:323-331): offering its message to the queue, handed over, answered with or without an
error, or refused because the connection context is done. -/
inductive WSt
  | offering | taken | answered (err : Bool) | refused
  deriving DecidableEq, Repr

/-- A call of `Write`. `listens`: its caller receives from the channel it gets. -/
structure WCall where
  listens : Bool
  st : WSt
  deriving DecidableEq, Repr

/-- Where a call of `Close` is (relay.go:570-590): waiting for the mutex; before the `Connection == nil` test; before the call of
`r.Connection.Close()`; returned, having closed the socket or with an error. -/
inductive CPc
  | start | check | call | ret (closed : Bool)
  deriving DecidableEq, Repr

/-- The writer goroutine (relay.go:169-215): not started; in its `select`, with the failed pings in a row; inside `WriteMessage`; in
`writeRequest.answer <- err`; waiting for its own `r.Close()`; in its deferred function after `r.Connection = nil`; gone. -/
inductive WPc
  | none
  | idle (fails : Nat)
  | sending (k fails : Nat)
  | answering (k fails : Nat)
  | closing (c : Nat)
  | exiting
  | dead
  deriving DecidableEq, Repr

/-- A call of `Subscribe` (relay.go:411-423): in the table; past the `Connection == nil` test; given up there. -/
inductive SPc
  | stored | passed | failed
  deriving DecidableEq, Repr

/-- A subscription; `ended`: its context is cancelled. -/
structure SubSt where
  pc : SPc
  ended : Bool
  deriving DecidableEq, Repr

/-- The relay: connection context done; `r.Connection` set; `r.connectionContextCancel` set; holder of `closeMutex`; the goroutines; the
messages taken from the queue and those on the wire; the outcomes of the pings; a nil dereference happened. -/
structure State where
  done : Bool
  conn : Bool
  cancelSet : Bool
  lock : Option Nat
  writer : WPc
  writes : List WCall
  closers : List CPc
  subs : List SubSt
  accepted : List Nat
  wire : List Nat
  pings : List Bool
  reading : Bool
  crashed : Bool
  deriving DecidableEq, Repr

/-- `NewRelay` (relay.go:53-71). -/
def init : State where
  done := false
  conn := false
  cancelSet := true
  lock := .none
  writer := .none
  writes := []
  closers := []
  subs := []
  accepted := []
  wire := []
  pings := []
  reading := false
  crashed := false

/-- Steps. `write`, `callClose`, `subscribe`: a new call. `parent`: the context given to `NewRelay` ends. `ping`: the ticker fires, with
the outcome of the ping. `readFail`: the reader's `ReadMessage` fails. -/
inductive Lab
  | connect
  | write (listens : Bool)
  | take (k : Nat)
  | sent (ok : Bool)
  | receive
  | refuse (k : Nat)
  | ping (ok : Bool)
  | callClose
  | closer (c : Nat)
  | parent
  | readFail
  | closed
  | exit
  | teardown
  | subscribe
  | check (j : Nat)
  deriving DecidableEq, Repr

/-- Assignment to one component of the state. -/
def State.setWrite (s : State) (k : Nat) (w : WSt) : State :=
  { s with writes := s.writes.modify k (fun c => { c with st := w }) }

/-- One statement of `close` for call `c` (relay.go:570-590). -/
def closerStep (s : State) (c : Nat) : Option State :=
  match s.closers[c]? with
  | some .start =>
    if s.lock = .none then
      if s.cancelSet then
        some { s with done := true, cancelSet := false, lock := some c, closers := s.closers.set c .check }
      else some { s with closers := s.closers.set c (.ret false) }
    else .none
  | some .check =>
    if s.conn then some { s with closers := s.closers.set c .call }
    else some { s with lock := .none, closers := s.closers.set c (.ret false) }
  | some .call =>
    if s.conn then some { s with lock := .none, closers := s.closers.set c (.ret true) }
    else some { s with crashed := true }
  | _ => .none

/-- The machine. -/
def step (s : State) (l : Lab) : Option State :=
  if s.crashed then .none else
  match l with
  -- relay.go:159-169
  | .connect => if s.writer = .none then some { s with writer := .idle 0, conn := true, reading := true } else .none
  -- relay.go:323-325
  | .write b => some { s with writes := s.writes ++ [⟨b, .offering⟩] }
  -- relay.go:206 with relay.go:326: the hand-over on the unbuffered queue
  | .take k =>
    match s.writer, s.writes[k]? with
    | .idle n, some ⟨_, .offering⟩ => some { s.setWrite k .taken with writer := .sending k n, accepted := s.accepted ++ [k] }
    | _, _ => .none
  -- relay.go:209-212
  | .sent ok =>
    match s.writer with
    | .sending k n =>
      if ok then some { s.setWrite k (.answered false) with writer := .idle n, wire := s.wire ++ [k] }
      else some { s with writer := .answering k n }
    | _ => .none
  -- relay.go:210: the send of the error meets the caller's receive
  | .receive =>
    match s.writer with
    | .answering k n =>
      match s.writes[k]? with
      | some ⟨true, _⟩ => some { s.setWrite k (.answered true) with writer := .idle n }
      | _ => .none
    | _ => .none
  -- relay.go:327-328
  | .refuse k =>
    match s.writes[k]? with
    | some ⟨_, .offering⟩ => if s.done then some (s.setWrite k .refused) else .none
    | _ => .none
  -- relay.go:185-204
  | .ping ok =>
    match s.writer with
    | .idle n =>
      if ok then some { s with writer := .idle 0, pings := s.pings ++ [true] }
      else if n + 1 ≥ 3 then
        some { s with writer := .closing s.closers.length, closers := s.closers ++ [.start], pings := s.pings ++ [false] }
      else some { s with writer := .idle (n + 1), pings := s.pings ++ [false] }
    | _ => .none
  -- relay.go:566-568
  | .callClose => some { s with closers := s.closers ++ [.start] }
  | .closer c => closerStep s c
  | .parent => some { s with done := true }
  -- relay.go:225-229
  | .readFail => if s.reading then some { s with reading := false, closers := s.closers ++ [.start] } else .none
  -- relay.go:194-198
  | .closed =>
    match s.writer with
    | .closing c =>
      match s.closers[c]? with
      | some (.ret _) => some { s with writer := .exiting, conn := false }
      | _ => .none
    | _ => .none
  -- relay.go:182-183, 171-172
  | .exit =>
    match s.writer with
    | .idle _ => if s.done then some { s with writer := .exiting, conn := false } else .none
    | _ => .none
  -- relay.go:174-176; `unsub` would write a CLOSE and wait for its own queue if the context were not done (subscription.go:160-166)
  | .teardown =>
    match s.writer with
    | .exiting => if s.done then some { s with writer := .dead, subs := s.subs.map (fun x => { x with ended := true }) } else .none
    | _ => .none
  -- relay.go:412, 466
  | .subscribe => some { s with subs := s.subs ++ [⟨.stored, false⟩] }
  -- relay.go:414-420
  | .check j =>
    match s.subs[j]? with
    | some ⟨.stored, e⟩ => some { s with subs := s.subs.set j ⟨if s.conn then .passed else .failed, e⟩ }
    | _ => .none

/-- A schedule: the actions one after the other. -/
def run (s : State) : List Lab → Option State
  | [] => some s
  | l :: ls => match step s l with
    | .none => .none
    | some s' => run s' ls

theorem run_inv {P : State → Prop} {Q : Lab → Prop} (hs : ∀ s l s', Q l → P s → step s l = some s' → P s') :
    ∀ (ls : List Lab) (s s' : State), (∀ l ∈ ls, Q l) → P s → run s ls = some s' → P s'
  | [], s, s', _, hp, h => by simp only [run, Option.some.injEq] at h; subst h; exact hp
  | l :: ls, s, s', hq, hp, h => by
    simp only [run] at h
    split at h
    · cases h
    · rename_i s1 h1
      exact run_inv hs ls s1 s' (fun l hl => hq l (List.mem_cons_of_mem _ hl)) (hs s l s1 (hq l List.mem_cons_self) hp h1) h

theorem run_inv' {P : State → Prop} (hs : ∀ s l s', P s → step s l = some s' → P s') (ls : List Lab) (s s' : State)
    (hp : P s) (h : run s ls = some s') : P s' :=
  run_inv (Q := fun _ => True) (fun s l s' _ => hs s l s') ls s s' (fun _ _ => trivial) hp h

/-- Takes a step apart into its branches. -/
macro "conn_cases" h:ident : tactic => `(tactic| (
  simp only [step] at $h:ident
  split at $h:ident
  · cases $h:ident
  split at $h:ident
  all_goals (try simp only [closerStep] at $h:ident)
  all_goals (repeat' split at $h:ident)
  all_goals first
    | (cases $h:ident; done)
    | (simp only [Option.some.injEq] at $h:ident; subst $h:ident)))

/-! ## Messages and answers -/

/-- The writer holds message `k`. -/
def WPc.holds : WPc → Nat → Bool
  | .sending k _, j | .answering k _, j => k == j
  | _, _ => false

/-- Invariant used in the proofs; models no code. -/
structure Inv (s : State) : Prop where
  nodup : s.accepted.Nodup
  sub : s.wire.Sublist s.accepted
  acc : ∀ k, k ∈ s.accepted ↔ ∃ w, s.writes[k]? = some w ∧ w.st ≠ .offering ∧ w.st ≠ .refused
  taken : ∀ (k : Nat) (w : WCall), s.writes[k]? = some w → (w.st = .taken ↔ s.writer.holds k = true)
  ok : ∀ (k : Nat) (w : WCall), s.writes[k]? = some w → (w.st = .answered false ↔ k ∈ s.wire)
  err : ∀ (k : Nat) (w : WCall), s.writes[k]? = some w → w.st = .answered true → w.listens = true
  held : ∀ k, s.writer.holds k = true → k < s.writes.length
  last : ∀ k, s.writer.holds k = true → ∃ l, s.accepted = l ++ [k] ∧ s.wire.Sublist l

theorem inv_init : Inv init := by constructor <;> simp [init, WPc.holds]

theorem modify_get {α : Type} (f : α → α) (l : List α) (i j : Nat) : (l.modify i f)[j]? = if i = j then l[j]?.map f else l[j]? := by
  rw [List.getElem?_modify]
  split <;> simp [*]

theorem Inv.congr {s s' : State} (hi : Inv s) (ha : s'.accepted = s.accepted) (hw : s'.wire = s.wire) (hs : s'.writes = s.writes)
    (hh : s'.writer.holds = s.writer.holds) : Inv s' := by
  obtain ⟨h1, h2, h3, h4, h5, h6, h7, h8⟩ := hi
  constructor <;> simp only [ha, hw, hs, hh] <;> assumption

theorem inv_step {s s' : State} {l : Lab} (hi : Inv s) (h : step s l = some s') : Inv s' := by
  conn_cases h
  all_goals try (refine hi.congr rfl rfl rfl ?_; simp_all [WPc.holds]; done)
  all_goals try (refine hi.congr rfl rfl rfl ?_; funext j; simp_all [WPc.holds]; done)
  all_goals obtain ⟨h1, h2, h3, h4, h5, h6, h7, h8⟩ := hi
  all_goals (constructor; all_goals simp only [State.setWrite])
  all_goals try grind [WPc.holds]
  · rename_i k _ n _ b _ hk
    intro j
    rw [List.mem_append, List.mem_singleton, modify_get, h3 j]
    by_cases e : k = j
    · subst e; rw [if_pos rfl, hk]; simp
    · rw [if_neg e]
      constructor
      · rintro (h | h)
        · exact h
        · exact absurd h.symm e
      · exact Or.inl
  · rename_i k n _ _
    obtain ⟨l, e, hl⟩ := h8 k (by simp_all [WPc.holds])
    rw [e]
    exact hl.append (List.Sublist.refl _)

theorem reach_inv {ls : List Lab} {s : State} (h : run init ls = some s) : Inv s :=
  run_inv' (fun _ _ _ hi h => inv_step hi h) ls init s inv_init h

/-- **C123 (written at most once, in order, and reported truthfully).** On every schedule: the messages on the wire are among those
taken from the queue, in that order, each at most once; a `Write` is answered without an error exactly when its message is on the
wire; an error is only ever handed to a caller that receives it; a refused message never gets on the wire. -/
theorem C123_written_once (ls : List Lab) (s : State) (h : run init ls = some s) :
    s.wire.Sublist s.accepted ∧ s.accepted.Nodup ∧
    (∀ (k : Nat) (w : WCall), s.writes[k]? = some w →
      (w.st = .answered false ↔ k ∈ s.wire) ∧ (w.st = .answered true → w.listens = true) ∧ (w.st = .refused → k ∉ s.wire)) := by
  have hi := reach_inv h
  refine ⟨hi.sub, hi.nodup, fun k w hw => ⟨hi.ok k w hw, hi.err k w hw, fun hr hk => ?_⟩⟩
  have := (hi.ok k w hw).2 hk
  rw [hr] at this
  cases this

theorem prefix_step {s s' : State} {l : Lab} (h : step s l = some s') : s.accepted <+: s'.accepted ∧ s.wire <+: s'.wire := by
  conn_cases h
  all_goals simp [State.setWrite]

/-- **C123 (order of calls).** What has been taken from the queue and what is on the wire only grow at the end. With `C123_written_once`:
if one `Write` has returned before another is called, its message is not written after the other's. -/
theorem C123_in_order (ls : List Lab) (s s' : State) (h : run s ls = some s') : s.accepted <+: s'.accepted ∧ s.wire <+: s'.wire :=
  run_inv' (P := fun x => s.accepted <+: x.accepted ∧ s.wire <+: x.wire)
    (fun _ _ _ hp hs => ⟨hp.1.trans (prefix_step hs).1, hp.2.trans (prefix_step hs).2⟩) ls s s'
    ⟨List.prefix_refl _, List.prefix_refl _⟩ h

/-- An answer does not change. -/
def WSt.final : WSt → Bool
  | .answered _ | .refused => true
  | _ => false

theorem final_step {s s' : State} {l : Lab} (hi : Inv s) (h : step s l = some s') (k : Nat) (w : WCall) (hw : s.writes[k]? = some w)
    (hf : w.st.final = true) : s'.writes[k]? = some w := by
  have h4 := hi.taken
  have hlt : k < s.writes.length := (List.getElem?_eq_some_iff.1 hw).1
  have hk := (List.getElem?_eq_some_iff.1 hw).2
  conn_cases h
  all_goals first
    | exact hw
    | grind [WPc.holds, WSt.final, State.setWrite]

/-- **C123 (one answer).** The answer a `Write` got, or its refusal, stays. -/
theorem C123_one_answer (ls ls' : List Lab) (s s' : State) (h : run init ls = some s) (h' : run s ls' = some s') (k : Nat) (w : WCall)
    (hw : s.writes[k]? = some w) (hf : w.st = .answered false ∨ w.st = .answered true ∨ w.st = .refused) : s'.writes[k]? = some w := by
  have hf' : w.st.final = true := by rcases hf with e | e | e <;> rw [e] <;> rfl
  exact (run_inv' (P := fun x => Inv x ∧ x.writes[k]? = some w)
    (fun _ _ _ hp hs => ⟨inv_step hp.1 hs, final_step hp.1 hs k w hp.2 hf'⟩) ls' s s' ⟨reach_inv h, hw⟩ h').2

/-! ## Closing -/

/-- Got past the first test of `close`. -/
def CPc.won : CPc → Bool
  | .check | .call | .ret true => true
  | _ => false

/-- Invariant used in the proofs; models no code. -/
structure CInv (s : State) : Prop where
  lock : ∀ c, s.lock = some c → s.closers[c]? = some .check ∨ s.closers[c]? = some .call
  held : ∀ c, (s.closers[c]? = some .check ∨ s.closers[c]? = some .call) → s.lock = some c
  unset : s.cancelSet = false → s.done = true
  started : ∀ (c : Nat) (p : CPc), s.closers[c]? = some p → p ≠ .start → s.cancelSet = false
  once : s.closers.countP CPc.won + (if s.cancelSet then 1 else 0) ≤ 1
  closing : ∀ c, s.writer = .closing c → c < s.closers.length
  exiting : s.writer = .exiting ∨ s.writer = .dead → s.done = true
  conn : s.conn = true ↔ (s.writer ≠ .none ∧ s.writer ≠ .exiting ∧ s.writer ≠ .dead)
  subs : s.writer = .dead → ∀ x ∈ s.subs, x.pc = .passed → x.ended = true

theorem cinv_init : CInv init := by constructor <;> simp [init]

theorem countP_set {α : Type} (p : α → Bool) (l : List α) (i : Nat) (a x : α) (h : l[i]? = some x) :
    (l.set i a).countP p + (if p x then 1 else 0) = l.countP p + (if p a then 1 else 0) := by
  induction l generalizing i with
  | nil => simp at h
  | cons b l ih =>
    cases i with
    | zero =>
      simp only [List.getElem?_cons_zero, Option.some.injEq] at h
      subst h
      simp only [List.set_cons_zero, List.countP_cons]
      omega
    | succ i =>
      simp only [List.getElem?_cons_succ] at h
      have := ih i h
      simp only [List.set_cons_succ, List.countP_cons]
      omega

theorem cinv_step {s s' : State} {l : Lab} (hi : CInv s) (h : step s l = some s') : CInv s' := by
  obtain ⟨h1, h2, h3, h4, h5, h6, h7, h8, h9⟩ := hi
  have hc := countP_set CPc.won s.closers
  conn_cases h
  all_goals (constructor; all_goals (try simp only [State.setWrite]))
  all_goals first
    | assumption
    | grind [CPc.won]

theorem reach_cinv {ls : List Lab} {s : State} (h : run init ls = some s) : CInv s :=
  run_inv' (fun _ _ _ hi h => cinv_step hi h) ls init s cinv_init h

theorem done_step {s s' : State} {l : Lab} (hd : s.done = true) (h : step s l = some s') : s'.done = true := by
  conn_cases h
  all_goals first
    | exact hd
    | rfl

/-- **C123 (Close).** Whatever the number of `Close` calls, failing pings and reader errors racing: at most one of them closes the
socket, and once any of them has returned the relay counts as closed, for good. -/
theorem C123_close_once (ls ls' : List Lab) (s s' : State) (h : run init ls = some s) (h' : run s ls' = some s') :
    s.closers.count (.ret true) ≤ 1 ∧ (∀ b, CPc.ret b ∈ s.closers → s'.done = true) := by
  have hi := reach_cinv h
  constructor
  · have := hi.once
    have e : s.closers.count (.ret true) ≤ s.closers.countP CPc.won := by
      unfold List.count
      exact List.countP_mono_left (fun x _ hx => by rw [beq_iff_eq] at hx; subst hx; rfl)
    omega
  · intro b hb
    obtain ⟨c, hc⟩ := List.getElem?_of_mem hb
    have hd := hi.unset (hi.started c _ hc (by intro e; cases e))
    exact run_inv' (P := fun x => x.done = true) (fun _ _ _ hd h => done_step hd h) ls' s s' hd h'

/-- **C123 (subscriptions end with the connection).** When the writer goroutine is gone, every subscription whose `Subscribe` found
the relay connected has its context cancelled, whenever that call was made. -/
theorem C123_subscriptions_end (ls : List Lab) (s : State) (h : run init ls = some s) (hd : s.writer = .dead) (x : SubSt)
    (hx : x ∈ s.subs) (hp : x.pc = .passed) : x.ended = true := (reach_cinv h).subs hd x hx hp

/-- **C123 (refuted: failed subscriptions end too).** A `Subscribe` that comes too late fails and leaves its subscription in the table,
its goroutine waiting. -/
theorem C123_late_subscribe_leaks : ∃ ls s, run init ls = some s ∧ s.writer = .dead ∧ ⟨.failed, false⟩ ∈ s.subs :=
  ⟨[.connect, .parent, .exit, .teardown, .subscribe, .check 0], _, rfl, rfl, by decide⟩

/-- Nothing is written once the writer is gone. -/
theorem dead_step {s s' : State} {l : Lab} (hd : s.writer = .dead) (h : step s l = some s') :
    s'.writer = .dead ∧ s'.wire = s.wire ∧ s'.accepted = s.accepted := by
  conn_cases h
  all_goals simp_all [State.setWrite]

/-- **C123 (silence after teardown).** -/
theorem C123_nothing_after_teardown (ls : List Lab) (s s' : State) (hd : s.writer = .dead) (h : run s ls = some s') :
    s'.wire = s.wire ∧ s'.accepted = s.accepted :=
  (run_inv' (P := fun x => x.writer = .dead ∧ x.wire = s.wire ∧ x.accepted = s.accepted)
    (fun _ _ _ hp hs => by
      have := dead_step hp.1 hs
      exact ⟨this.1, this.2.1.trans hp.2.1, this.2.2.trans hp.2.2⟩) ls s s' ⟨hd, rfl, rfl⟩ h).2

end GoNostr.Conn
