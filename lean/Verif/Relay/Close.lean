import Verif.Relay.Theorems
/-!
# C28, C31, witnesses and examples for the subscription machine
-/

set_option autoImplicit false

namespace GoNostr.Sub

/-! ## C28: CLOSE messages -/

/-- Goroutines that have won the right to write a CLOSE and have not done so yet. -/
def Pc.closer (p : Pc) : Nat := if p = .unsub .close then 1 else 0

/-- Whether a goroutine is in the closing part of `unsub`. -/
def SPc.closer (p : SPc) : Nat := if p = .unsub .close then 1 else 0

/-- How many of them there are. -/
def State.closers (s : State) : Nat := (s.procs.map Pc.closer).sum + s.starter.closer

/-- CLOSE messages written. -/
def State.closeMsgs (s : State) : Nat := s.wire.count .close

/-- Written, about to be written, or still possible. -/
def State.budget (s : State) : Nat := s.closeMsgs + s.closers + (if s.live then 1 else 0)

theorem budget_step {c : Cfg} {s s' : State} {l : Lab} (h : step c s l = some s') : s'.budget + s.fires ≤ s.budget + s'.fires := by
  have p1 := sum_set Pc.closer s.procs
  unfold State.budget State.closers State.closeMsgs
  step_cases h
  all_goals first
    | contradiction
    | grind [Pc.closer, SPc.closer, List.count_append, List.count_singleton]

theorem budget_run {c : Cfg} : ∀ (ls : List Lab) (s s' : State), run c s ls = some s' → s'.budget + s.fires ≤ s.budget + s'.fires
  | [], s, s', h => by simp only [run, Option.some.injEq] at h; subst h; omega
  | l :: ls, s, s', h => by
    simp only [run] at h
    split at h
    · cases h
    · rename_i s1 h1
      have a := budget_step h1
      have b := budget_run ls s1 s' h
      omega

/-- **C28 (at most one per Fire).** On every schedule of any number of `Unsub`, cancellations, disconnections, CLOSED
messages and `Fire`s, the CLOSE messages written are at most the `Fire`s performed. -/
theorem C28_close_at_most_once_per_fire (c : Cfg) (conn : Bool) (ls : List Lab) (s : State) (h : run c (init c conn) ls = some s) :
    s.wire.count .close ≤ s.fires := by
  have := budget_run ls _ _ h
  have e : (init c conn).budget = 0 ∧ (init c conn).fires = 0 := by simp [init, State.budget, State.closers, State.closeMsgs, SPc.closer]
  unfold State.budget State.closeMsgs at this
  unfold State.budget State.closeMsgs at e
  omega

/-- `Fire` is not running and is not called: the number of fires stays. -/
def NoFire (n : Nat) (s : State) : Prop := Pc.fireLive ∉ s.procs ∧ s.fires = n

theorem noFire_step {c : Cfg} {s s' : State} {l : Lab} {n : Nat} (hl : l ≠ .callFire) (hi : NoFire n s) (h : step c s l = some s') :
    NoFire n s' := by
  obtain ⟨h1, h2⟩ := hi
  step_cases h
  all_goals first
    | contradiction
    | exact ⟨h1, h2⟩
    | (constructor <;> grind [List.mem_or_eq_of_mem_set])

/-- **C28 (one per subscription).** A fired subscription that is not fired again writes at most one CLOSE. -/
theorem C28_close_at_most_once (c : Cfg) (conn : Bool) (ls : List Lab) (s : State) (h : run c (fired c conn) ls = some s)
    (hf : Lab.callFire ∉ ls) : s.wire.count .close ≤ 1 := by
  have hb := budget_run ls _ _ h
  have hn : NoFire 1 s := run_inv (Q := fun l => l ≠ .callFire) (fun s l s' hl hp hs => noFire_step hl hp hs) ls _ _
    (by intro l hl e; subst e; exact hf hl) (by simp [NoFire, fired]) h
  have e : (fired c conn).budget = 1 ∧ (fired c conn).fires = 1 := by
    simp [fired, init, State.budget, State.closers, State.closeMsgs, SPc.closer, Pc.closer]
  have := hn.2
  unfold State.budget State.closeMsgs at hb e
  omega

/-- **C28 (none after CLOSED).** Once the handler of a CLOSED message has run its update (state `s2`), no further CLOSE is
started: only goroutines that had decided to write one before can still do so, and with none of those no CLOSE follows. -/
theorem C28_none_after_closed (c : Cfg) (s1 s2 s3 : State) (k : Nat) (fail : Bool) (ls : List Lab)
    (hk : s1.procs[k]? = some .storeLive) (h1 : step c s1 (.proc k fail) = some s2) (hno : Pc.fireLive ∉ s2.procs)
    (hf : Lab.callFire ∉ ls) (h2 : run c s2 ls = some s3) :
    s3.wire.count .close ≤ s2.wire.count .close + s2.closers ∧
      (s2.closers = 0 → s3.wire.count .close = s2.wire.count .close) := by
  have hlive : s2.live = false := by
    simp only [step, procStep, hk] at h1
    split at h1
    · cases h1
    · cases h1; rfl
  have hb := budget_run ls _ _ h2
  have hn : NoFire s2.fires s3 := run_inv (Q := fun l => l ≠ .callFire) (fun s l s' hl hp hs => noFire_step hl hp hs) ls _ _
    (by intro l hl e; subst e; exact hf hl) ⟨hno, rfl⟩ h2
  have hmono : ∀ (s s' : State) (l : Lab), step c s l = some s' → s.wire.count .close ≤ s'.wire.count .close := by
    intro s s' l h
    step_cases h
    all_goals first
      | contradiction
      | exact Nat.le_refl _
      | grind [List.count_append]
  have hm : s2.wire.count .close ≤ s3.wire.count .close :=
    run_inv' (P := fun s => s2.wire.count .close ≤ s.wire.count .close) (fun s l s' hp hs => Nat.le_trans hp (hmono s s' l hs))
      (Nat.le_refl _) h2
  have := hn.2
  unfold State.budget State.closeMsgs at hb
  rw [hlive] at hb
  simp only [Bool.false_eq_true, ↓reduceIte, Nat.add_zero] at hb
  constructor
  · omega
  · intro h0; omega

theorem registered_step {c : Cfg} {s s' : State} {l : Lab} (hr : s.registered = false) (h : step c s l = some s') : s'.registered = false := by
  step_cases h
  all_goals first
    | contradiction
    | exact hr
    | grind

/-- **C28 (removal).** After any `Unsub`, CLOSED or `start` has completed, the subscription is not in the relay's table, and it
never comes back. -/
theorem C28_removed (c : Cfg) (conn : Bool) (ls ls' : List Lab) (s s' : State) (h : run c (init c conn) ls = some s)
    (hd : Pc.unsub .ret ∈ s.procs ∨ s.starter = .dead) (h' : run c s ls' = some s') : s.registered = false ∧ s'.registered = false := by
  have he : EndInv s := run_inv' (fun s l s' hp hs => endInv_step hp hs) (init_end c conn) h
  have h0 : s.registered = false := by
    cases hr : s.registered with
    | false => rfl
    | true =>
      rcases hd with hd | hd
      · exact absurd hd (he.regP hr)
      · exact absurd hd (he.reg hr).2.2.2
  exact ⟨h0, run_inv' (P := fun s => s.registered = false) (fun s l s' hp hs => registered_step hp hs) h0 h'⟩

/-! ## C31: failed subscriptions -/

theorem ctxDone_step {c : Cfg} {s s' : State} {l : Lab} (hr : s.ctxDone = true) (h : step c s l = some s') : s'.ctxDone = true := by
  step_cases h
  all_goals first
    | contradiction
    | exact hr
    | grind

/-- **C31 (failed write, partial).** If `Subscribe` or `Count` fails because its request could not be written, then whenever
the internal goroutines have run the subscription is gone from the table and its channel is closed. -/
theorem C31_failed_write_cleans_up_partial (c : Cfg) (conn : Bool) (ls1 ls2 : List Lab) (s1 s2 s3 : State) (fail : Bool)
    (h1 : run c { init c conn with procs := [.fireLive] } ls1 = some s1) (hk : s1.procs[0]? = some .fireWrite)
    (h2 : step c s1 (.proc 0 fail) = some s2) (hfail : s2.wire = s1.wire) (h3 : run c s2 ls2 = some s3)
    (hp : s3.panicked = false) (hq : Quiescent c s3) : s3.registered = false ∧ s3.chanClosed = true := by
  have hrun : run c (init c conn) (.callFire :: (ls1 ++ .proc 0 fail :: ls2)) = some s3 := by
    have happ : ∀ (a b : List Lab) (s t : State), run c s a = some t → run c s (a ++ b) = run c t b := by
      intro a
      induction a with
      | nil => intro b s t h; simp only [run, Option.some.injEq] at h; subst h; rfl
      | cons l a ih =>
        intro b s t h
        simp only [run, List.cons_append] at h ⊢
        split at h
        · cases h
        · rename_i s' hs'
          exact ih b s' t h
    rw [run]
    have e : step c (init c conn) .callFire = some { init c conn with procs := [.fireLive] } := rfl
    rw [e]
    simp only
    rw [happ _ _ _ _ h1, run, h2]
    exact h3
  have hc2 : s2.ctxDone = true := by
    simp only [step, procStep, hk] at h2
    split at h2
    · cases h2
    · split at h2
      · cases h2
        have := congrArg List.length hfail
        simp at this
      · cases h2; rfl
  have hc3 := run_inv' (P := fun s => s.ctxDone = true) (fun s l s' hp hs => ctxDone_step hp hs) hc2 h3
  obtain ⟨_, h, _, h', _⟩ := C27_ends_cleanly c conn _ s3 hrun hp hq hc3
  exact ⟨h', h⟩

/-- The full C31 is false: `Subscribe` on a relay without a connection returns an error and leaves the subscription in the
table; nothing the program does on its own will ever remove it. -/
theorem C31_not_connected_leaks (c : Cfg) (connected : Bool) : ∃ s, subscribe c false connected = (s, true) ∧
    Quiescent c s ∧ s.registered = true := by
  refine ⟨init c connected, rfl, ?_, rfl⟩
  intro l hl
  cases l <;> simp [Lab.internal] at hl <;>
    simp [step, init, dupSkip, handle, dispStep, dispAbort, eoseStep, startStep, procStep]

/-- Likewise `Count` with any number of filters other than one. -/
theorem C31_count_leaks (c : Cfg) (connected : Bool) (hn : c.filters.length ≠ 1) : ∃ s, countInternal c connected = (s, true) ∧
    Quiescent c s ∧ s.registered = true := by
  obtain ⟨s, h1, h2, h3⟩ := C31_not_connected_leaks c connected
  exact ⟨init c connected, by simp [countInternal, hn], by cases h1; exact h2, rfl⟩

/-! ## Witnesses and examples -/

/-- A value of the examples. -/
def demoEvent : Event := { id := [], pubkey := [], createdAt := 5, kind := 1, tags := [], content := [], sig := [] }

/-- A value of the examples. -/
def mEvent : Bytes := b! "[\"EVENT\",\"7:\",1]"
/-- A value of the examples. -/
def mEose : Bytes := b! "[\"EOSE\",\"7:\"]"
/-- A value of the examples. -/
def mClosed : Bytes := b! "[\"CLOSED\",\"7:\",\"no\"]"

/-- Subscription number 7 to kind 1, with a parser that knows three messages. -/
def demo : Cfg where
  counter := 7
  filters := [{ kinds := some [1] }]
  assumeValid := false
  hasCheck := false
  parse := fun m => if m = mEvent then some (.event demoEvent) else if m = mEose then some (.eose (b! "7:"))
    else if m = mClosed then some (.closed (b! "7:") (b! "no")) else none
  sigOk := fun _ => true

/-- What can be seen of a state. -/
def view (s : Option State) : Option (Nat × Nat × Nat × Nat × Bool × Bool) :=
  s.map fun s => (s.delivered.length, s.eoseSent, s.closes, s.wire.count .close, s.registered, s.panicked)

/-- Two events, then EOSE; both delivered, then the signal; the subscription is still live. -/
def demoRun : List Lab := [.proc 0 false, .read mEvent, .handle, .read mEvent, .handle, .read mEose, .handle,
  .disp 1, .disp 1, .dispSend 1, .disp 1, .disp 0, .disp 0, .dispSend 0, .disp 0, .eose]

example : view (run demo (fired demo true) demoRun) = some (2, 1, 0, 0, true, false) := by decide +kernel

/-- Then `Unsub` twice and `start`: one CLOSE, one close of the channel. -/
example : view (run demo (fired demo true) (demoRun ++ [.callUnsub, .callUnsub, .proc 1 false, .proc 2 false, .proc 2 false,
    .proc 2 false, .proc 2 false, .proc 1 false, .proc 1 false, .start false, .start false, .start false, .start false, .start false,
    .start false, .start false])) = some (2, 1, 1, 1, false, false) := by decide +kernel

/-- A CLOSED message: no CLOSE is written. -/
example : view (run demo (fired demo true) [.proc 0 false, .read mClosed, .handle, .proc 1 false, .proc 1 false, .proc 1 false,
    .proc 1 false, .proc 1 false, .start false, .start false, .start false, .start false, .start false, .start false, .start false])
    = some (0, 0, 1, 0, false, false) := by decide +kernel

/-- The full C27 is false: a message for the subscription arrives between `PrepareSubscription` and `Fire` while the context
is cancelled. `start` closes the channel, `Fire` marks the subscription live, and the pending dispatch sends on the closed
channel: the program crashes. -/
theorem C27_send_on_closed_channel : view (run demo (init demo true) [.read mEvent, .cancel, .start false, .start false, .start false,
    .start false, .start false, .start false, .start false, .handle, .callFire, .proc 0 false, .disp 0, .disp 0, .dispSend 0])
    = some (0, 0, 1, 0, false, true) := by decide +kernel

/-- C24 needs the filters to stay: after `Sub` with new filters, events are still checked against the old ones (kind 1)
until the EOSE, so an event that does not match the new filters is delivered. -/
theorem C24_new_filters_not_applied : view (run demo (fired demo true) [.proc 0 false,
    .setFilters [{ kinds := some [2] }],
    .callFire, .proc 1 false, .proc 1 false, .read mEvent, .handle, .disp 0, .disp 0, .dispSend 0, .disp 0])
    = some (1, 0, 0, 0, true, false) := by decide +kernel

/-- The run behind `C31_failed_write_cleans_up_partial`: the write fails, everything is cleaned up. -/
example : view (run demo { init demo true with procs := [.fireLive] } [.proc 0 false, .proc 0 true, .start false, .start false,
    .start false, .start false, .start false, .start false, .start false, .start false]) = some (0, 0, 1, 1, false, false) := by decide +kernel

end GoNostr.Sub
