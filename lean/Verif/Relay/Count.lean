import Verif.Base.Bytes
/-!
# C129: counting events

`Relay.Count` and the part of the relay's reader loop that hands it the answer. The reader is the relay's only reader: while it waits to
hand over an answer it reads nothing, for nobody.
-/

set_option autoImplicit false

namespace GoNostr.RelayCount

/-- A message as far as counting goes: an answer for subscription `serial` (`count` absent if the relay gave none, as in an answer that
has an "hll" only), or anything else. -/
inductive Msg
  | answer (serial : Int) (count : Option Int) (hll : Bytes)
  | closed (serial : Int)
  | other
  deriving DecidableEq, Repr

/-- The reader loop (relay.go:218-317): free, or in `subscription.countResult <- *env` (relay.go:305-308; the channel is unbuffered). -/
inductive Reader
  | free
  | sending (count : Option Int) (hll : Bytes)
  deriving DecidableEq, Repr

/-- `countInternal` (relay.go:538-563) and `Count` (relay.go:525-536): before `Fire`, in the `select`, in the deferred `unsub` with the value
about to be returned, returned. -/
inductive Caller
  | fire
  | wait
  | unsub (r : Option (Option Int × Bytes))
  | done (r : Option (Int × Bytes))
  | panicked
  deriving DecidableEq, Repr

/-- `serial`: the subscription's number. `read` is history: the messages read. -/
structure State where
  registered : Bool
  reader : Reader
  caller : Caller
  timeUp : Bool
  read : List Msg
  deriving DecidableEq, Repr

/-- After `PrepareSubscription` (relay.go:539). -/
def start : State := { registered := true, reader := .free, caller := .fire, timeUp := false, read := [] }

/-- The atomic actions of the machine; its step function says which lines each of them is. -/
inductive Lab
  | read (m : Msg)
  | fire (ok : Bool)
  | handOver
  | timeUp
  | giveUp
  | unsub
  deriving DecidableEq, Repr

/-- relay.go:305-308: the reader with a message in its hands. -/
def onMsg (serial : Int) (s : State) : Msg → Reader
  | .answer n c h => if n = serial ∧ s.registered ∧ c.isSome then .sending c h else .free
  | _ => .free

/-- relay.go:530-535: `Count` after `countInternal`: an error, or `*v.Count`. -/
def finish : Option (Option Int × Bytes) → Caller
  | none => .done none
  | some (none, _) => .panicked
  | some (some n, h) => .done (some (n, h))

/-- One action. A REQ that cannot be written: `Fire` cancels the subscription, whose `start` removes it (subscription.go:187-191, 81-91;
that goroutine is merged into this step), and `Count` returns an error. -/
def step (serial : Int) (s : State) : Lab → Option State
  | .read m => if s.reader = .free then some { s with reader := onMsg serial s m, read := s.read ++ [m] } else none
  | .fire ok =>
    if s.caller = .fire then
      if ok then some { s with caller := .wait } else some { s with caller := .done none, registered := false }
    else none
  | .handOver =>
    match s.reader, s.caller with
    | .sending c h, .wait => some { s with reader := .free, caller := .unsub (some (c, h)) }
    | _, _ => none
  | .timeUp => some { s with timeUp := true }
  | .giveUp => if s.caller = .wait ∧ s.timeUp then some { s with caller := .unsub none } else none
  | .unsub =>
    match s.caller with
    | .unsub r => some { s with registered := false, caller := finish r }
    | _ => none

/-- A schedule: the actions one after the other. -/
def run (serial : Int) (s : State) : List Lab → Option State
  | [] => some s
  | l :: ls => match step serial s l with
    | none => none
    | some s' => run serial s' ls

theorem run_inv {n : Int} {P : State → Prop} (hs : ∀ s l s', P s → step n s l = some s' → P s') :
    ∀ (ls : List Lab) (s s' : State), P s → run n s ls = some s' → P s' := by
  intro ls
  induction ls with
  | nil => intro s s' hp h; simp only [run, Option.some.injEq] at h; exact h ▸ hp
  | cons l ls ih =>
    intro s s' hp h
    simp only [run] at h
    split at h
    · cases h
    · rename_i s1 h1
      exact ih s1 s' (hs s l s1 hp h1) h

/-- The relay gave this answer to the count numbered `n`. -/
def Answered (n : Int) (msgs : List Msg) (v : Int) (h : Bytes) : Prop := Msg.answer n (some v) h ∈ msgs

theorem answered_append {n : Int} {ms : List Msg} {v : Int} {h : Bytes} (m : Msg) (hh : Answered n ms v h) : Answered n (ms ++ [m]) v h :=
  List.mem_append_left _ hh

/-- Invariant used in the proofs; models no code. -/
structure Inv (n : Int) (s : State) : Prop where
  rd : ∀ c h, s.reader = .sending c h → ∃ v, c = some v ∧ Answered n s.read v h
  un : ∀ c h, s.caller = .unsub (some (c, h)) → ∃ v, c = some v ∧ Answered n s.read v h
  dn : ∀ v h, s.caller = .done (some (v, h)) → Answered n s.read v h
  np : s.caller ≠ .panicked

theorem inv_step {n : Int} {s s' : State} {l : Lab} (hi : Inv n s) (h : step n s l = some s') : Inv n s' := by
  obtain ⟨h1, h2, h3, h4⟩ := hi
  have key : ∀ (c : Option Int) (x : Bytes) (m : Msg), onMsg n s m = .sending c x → ∃ v, c = some v ∧ Answered n (s.read ++ [m]) v x := by
    intro c x m hm
    cases m with
    | answer k c' x' =>
      simp only [onMsg] at hm
      split at hm
      · rename_i hc
        cases hm
        obtain ⟨rfl, -, hc⟩ := hc
        obtain ⟨v, rfl⟩ := Option.isSome_iff_exists.1 hc
        exact ⟨v, rfl, by simp [Answered]⟩
      · cases hm
    | closed k => cases hm
    | other => cases hm
  cases l with
  | read m =>
    simp only [step] at h
    split at h <;> cases h
    exact ⟨fun c x hx => key c x m hx, fun c x hx => by obtain ⟨v, e, a⟩ := h2 c x hx; exact ⟨v, e, answered_append m a⟩,
      fun v x hx => answered_append m (h3 v x hx), h4⟩
  | fire ok =>
    simp only [step] at h
    split at h
    · split at h <;> cases h <;> exact ⟨h1, by simp, by simp, by simp⟩
    · cases h
  | handOver =>
    simp only [step] at h
    split at h
    · rename_i c x e1 e2
      cases h
      exact ⟨by simp, fun c' x' hx => by cases hx; exact h1 _ _ e1, by simp, by simp⟩
    · cases h
  | timeUp => cases h; exact ⟨h1, h2, h3, h4⟩
  | giveUp =>
    simp only [step] at h
    split at h <;> cases h
    exact ⟨h1, by simp, by simp, by simp⟩
  | unsub =>
    simp only [step] at h
    split at h
    · rename_i r e
      cases h
      refine ⟨h1, ?_, ?_, ?_⟩
      all_goals
        cases r with
        | none => simp [finish]
        | some r =>
          obtain ⟨c, x⟩ := r
          obtain ⟨v, rfl, a⟩ := h2 c x e
          simp [finish]
          try exact a
    · cases h

theorem start_inv (n : Int) : Inv n start := ⟨by simp [start], by simp [start], by simp [start], by simp [start]⟩

/-- **C129 (the answer is the relay's).** On every schedule, a number `Count` returns is one the relay gave for that request. -/
theorem C129_answer (n : Int) (ls : List Lab) (s : State) (h : run n start ls = some s) (v : Int) (x : Bytes)
    (hd : s.caller = .done (some (v, x))) : Answered n s.read v x :=
  (run_inv (fun _ _ _ hp hs => inv_step hp hs) ls _ _ (start_inv n) h).dn v x hd

/-- **C129 (no crash).** `Count` never dereferences a missing count, whatever the relay answers. -/
theorem C129_no_crash (n : Int) (ls : List Lab) (s : State) (h : run n start ls = some s) : s.caller ≠ .panicked :=
  (run_inv (fun _ _ _ hp hs => inv_step hp hs) ls _ _ (start_inv n) h).np

/-- **C129 (it returns).** On every schedule, once the deadline has passed `Count` has returned as soon as its own actions are used up. -/
theorem C129_returns (n : Int) (ls : List Lab) (s : State) (h : run n start ls = some s) (ht : s.timeUp = true)
    (hq : ∀ l ∈ [Lab.fire true, .fire false, .giveUp, .unsub], step n s l = none) : ∃ r, s.caller = .done r := by
  have hi := run_inv (fun _ _ _ hp hs => inv_step hp hs) ls _ _ (start_inv n) h
  have q1 := hq (.fire true) (by simp)
  have q2 := hq .giveUp (by simp)
  have q3 := hq .unsub (by simp)
  cases hc : s.caller with
  | fire => simp [step, hc] at q1
  | wait => simp [step, hc, ht] at q2
  | unsub r => simp [step, hc] at q3
  | done r => exact ⟨r, rfl⟩
  | panicked => exact absurd hc hi.np

/-- The reader waits for someone to take an answer and nobody ever will. -/
def Stuck (s : State) : Prop := (∃ c h, s.reader = .sending c h) ∧ ((∃ r, s.caller = .unsub r) ∨ (∃ r, s.caller = .done r))

theorem stuck_step {n : Int} {s s' : State} {l : Lab} (hi : Inv n s) (hs : Stuck s) (h : step n s l = some s') : Stuck s' ∧ s'.read = s.read := by
  obtain ⟨⟨c, x, hr⟩, hc⟩ := hs
  cases l with
  | read m => simp [step, hr] at h
  | fire ok => rcases hc with ⟨r, hc⟩ | ⟨r, hc⟩ <;> simp [step, hc] at h
  | handOver => rcases hc with ⟨r, hc⟩ | ⟨r, hc⟩ <;> simp [step, hc] at h
  | timeUp => cases h; exact ⟨⟨⟨c, x, hr⟩, hc⟩, rfl⟩
  | giveUp => rcases hc with ⟨r, hc⟩ | ⟨r, hc⟩ <;> simp [step, hc] at h
  | unsub =>
    rcases hc with ⟨r, hc⟩ | ⟨r, hc⟩
    · simp only [step, hc] at h
      cases h
      refine ⟨⟨⟨c, x, hr⟩, Or.inr ?_⟩, rfl⟩
      cases r with
      | none => exact ⟨none, rfl⟩
      | some r =>
        obtain ⟨c', x'⟩ := r
        obtain ⟨v, rfl, -⟩ := hi.un c' x' hc
        exact ⟨_, rfl⟩
    · simp [step, hc] at h

/-- **C129 refuted (a stuck relay).** Two schedules, one with a relay that answers twice and one with a relay that answers once, just as
the deadline passes, after which the reader is stuck. -/
theorem C129_reader_stuck :
    (∃ s, run 7 start [.fire true, .read (.answer 7 (some 3) []), .handOver, .read (.answer 7 (some 3) []), .unsub] = some s ∧ Stuck s) ∧
    (∃ s, run 7 start [.fire true, .read (.answer 7 (some 3) []), .timeUp, .giveUp, .unsub] = some s ∧ Stuck s) := by
  constructor
  · exact ⟨_, rfl, ⟨_, _, rfl⟩, Or.inr ⟨_, rfl⟩⟩
  · exact ⟨_, rfl, ⟨_, _, rfl⟩, Or.inr ⟨_, rfl⟩⟩

/-- **C129 (stuck for good).** From then on no message of that relay is ever read: neither for this nor for any other subscription. -/
theorem C129_stuck_forever (n : Int) (ls1 ls2 : List Lab) (s1 s2 : State) (h1 : run n start ls1 = some s1) (hs : Stuck s1)
    (h2 : run n s1 ls2 = some s2) : s2.read = s1.read ∧ ∀ m, step n s2 (.read m) = none := by
  have hi := run_inv (fun _ _ _ hp hs => inv_step hp hs) ls1 _ _ (start_inv n) h1
  have := run_inv (P := fun s => Inv n s ∧ Stuck s ∧ s.read = s1.read) (fun s l s' hp hs => by
    obtain ⟨a, b⟩ := stuck_step hp.1 hp.2.1 hs
    exact ⟨inv_step hp.1 hs, a, b.trans hp.2.2⟩) ls2 _ _ ⟨hi, hs, rfl⟩ h2
  refine ⟨this.2.2, fun m => ?_⟩
  obtain ⟨c, x, hr⟩ := this.2.1.1
  simp [step, hr]

/-- How many answers with a count the relay gave. -/
def answers (n : Int) (msgs : List Msg) : Nat := msgs.countP (fun
  | .answer k c _ => decide (k = n) && c.isSome
  | _ => false)

/-- One answer for each hand-over, done or pending. -/
def Reader.load : Reader → Nat
  | .free => 0
  | .sending _ _ => 1

/-- Auxiliary function of the proofs; models no code. -/
def Caller.load : Caller → Nat
  | .unsub (some _) => 1
  | .done (some _) => 1
  | _ => 0

/-- Invariant used in the proofs; models no code. -/
structure OnceInv (n : Int) (s : State) : Prop where
  num : s.reader.load + s.caller.load ≤ answers n s.read
  gave : s.caller = .unsub none ∨ s.caller = .done none → s.timeUp = true

theorem answers_append (n : Int) (ms : List Msg) (m : Msg) : answers n (ms ++ [m]) = answers n ms + answers n [m] := by
  unfold answers
  rw [List.countP_append]

theorem onceInv_step {n : Int} {s s' : State} {l : Lab} (hl : l ≠ .fire false) (hp : Inv n s) (hi : OnceInv n s) (h : step n s l = some s') :
    OnceInv n s' := by
  obtain ⟨h1, h2⟩ := hi
  cases l with
  | read m =>
    simp only [step] at h
    split at h
    · rename_i hr
      cases h
      refine ⟨?_, h2⟩
      rw [hr] at h1
      simp only [Reader.load, Nat.zero_add] at h1
      have := answers_append n s.read m
      suffices (onMsg n s m).load ≤ answers n [m] by simp only; omega
      cases m with
      | answer k c x =>
        simp only [onMsg]
        split
        · rename_i hc
          obtain ⟨rfl, -, hc⟩ := hc
          simp [answers, hc, Reader.load]
        · simp [Reader.load]
      | closed k => simp [onMsg, Reader.load]
      | other => simp [onMsg, Reader.load]
    · cases h
  | fire ok =>
    cases ok with
    | false => exact absurd rfl hl
    | true =>
      simp only [step] at h
      split at h
      · rename_i hc
        cases h
        rw [hc] at h1
        exact ⟨h1, by simp⟩
      · cases h
  | handOver =>
    simp only [step] at h
    split at h
    · rename_i c x e1 e2
      cases h
      rw [e1, e2] at h1
      exact ⟨h1, by simp⟩
    · cases h
  | timeUp => cases h; exact ⟨h1, fun _ => rfl⟩
  | giveUp =>
    simp only [step] at h
    split at h
    · rename_i hc
      cases h
      rw [hc.1] at h1
      exact ⟨h1, fun _ => hc.2⟩
    · cases h
  | unsub =>
    simp only [step] at h
    split at h
    · rename_i r e
      cases h
      rw [e] at h1 h2
      cases r with
      | none => exact ⟨h1, fun _ => h2 (Or.inl rfl)⟩
      | some r =>
        obtain ⟨c, x⟩ := r
        obtain ⟨v, rfl, -⟩ := hp.un c x e
        exact ⟨h1, by simp [finish]⟩
    · cases h

/-- **C129 (when the reader cannot get stuck).** If the deadline has not passed, the request was written and the relay gave at most one
answer, the reader is not stuck. Missing: the other cases, see `C129_reader_stuck`. -/
theorem C129_not_stuck_partial (n : Int) (ls : List Lab) (s : State) (h : run n start ls = some s) (ht : s.timeUp = false)
    (hf : Lab.fire false ∉ ls) (ho : answers n s.read ≤ 1) : ¬ Stuck s := by
  have gen : ∀ (ls : List Lab) (s s' : State), Lab.fire false ∉ ls → Inv n s → OnceInv n s → run n s ls = some s' → OnceInv n s' := by
    intro ls
    induction ls with
    | nil => intro s s' _ _ hp h; simp only [run, Option.some.injEq] at h; exact h ▸ hp
    | cons l ls ih =>
      intro s s' hq hp ho h
      simp only [run] at h
      split at h
      · cases h
      · rename_i s1 h1
        exact ih s1 s' (fun x => hq (List.mem_cons_of_mem _ x)) (inv_step hp h1)
          (onceInv_step (fun e => hq (by rw [e]; exact List.mem_cons_self)) hp ho h1) h
  obtain ⟨h1, h2⟩ := gen ls _ _ hf (start_inv n) ⟨by simp [start, Reader.load, Caller.load], by simp [start]⟩ h
  rintro ⟨⟨c, x, hr⟩, ⟨r, hc⟩ | ⟨r, hc⟩⟩
  all_goals
    cases r with
    | none => have := h2 (by simp [hc]); rw [ht] at this; cases this
    | some r => rw [hr, hc] at h1; simp only [Reader.load, Caller.load] at h1; omega

/-- **C129 refuted (refusal).** A relay that closes the request is not listened to: `Count` goes on waiting, until the deadline. -/
theorem C129_closed_ignored : ∃ s, run 7 start [.fire true, .read (.closed 7)] = some s ∧ s.caller = .wait ∧
    ∀ l s', step 7 s l = some s' → s'.caller = .wait := by
  refine ⟨_, rfl, rfl, ?_⟩
  intro l s' h
  cases l with
  | read m => simp [step, onMsg] at h; rw [← h]
  | fire ok => simp [step] at h
  | handOver => simp [step, onMsg] at h
  | timeUp => simp [step] at h; rw [← h]
  | giveUp => simp [step, start] at h
  | unsub => simp [step] at h

/-- An answer without a count, one for another request, then the real one, are read; the caller gets 3. -/
example : (run 7 start [.fire true, .read (.answer 7 none []), .read (.answer 8 (some 9) []), .read (.answer 7 (some 3) [1]), .handOver, .unsub,
    .read .other]).map (fun s => (s.caller, s.read.length, answers 7 s.read)) = some (.done (some (3, [1])), 4, 1) := by decide +kernel

end GoNostr.RelayCount
