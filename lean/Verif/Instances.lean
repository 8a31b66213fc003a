import Verif.Relay.Close
import Verif.Relay.Count
import Verif.Relay.Publish
import Verif.Sdk.Score
import Verif.Sdk.Search
import Verif.Pool.Ensure
import Verif.Nips.Group

/-!
# Theorems applied to concrete cases

For theorems whose hypotheses are about the states of a program, each `example` is the theorem applied to a concrete run, all its hypotheses proved for that run. Models no code.
-/

set_option autoImplicit false

namespace GoNostr.Sub

theorem no_setFilters : ∀ fs, Lab.setFilters fs ∉ demoRun := by intro fs; simp [demoRun]

/-- `C24_only_matching_authentic`, `C25_at_most_once`, `C26_eose_once` for a run with two deliveries and the EOSE signal. -/
example : ∃ s, run demo (init demo true) (.callFire :: .proc 0 false :: demoRun) = some s ∧ s.delivered.length = 2 ∧ s.eoseSent = 1 ∧
    (∀ p e, (p, e) ∈ s.delivered → Legit demo s.inbox p e) ∧ (s.delivered.map Prod.fst).Nodup ∧ s.eosed = true := by
  have h : ∃ s, run demo (init demo true) (.callFire :: .proc 0 false :: demoRun) = some s ∧ s.delivered.length = 2 ∧ s.eoseSent = 1 := ⟨_, rfl, by decide +kernel, by decide +kernel⟩
  obtain ⟨s, h1, h2, h3⟩ := h
  exact ⟨s, h1, h2, h3, C24_only_matching_authentic demo true _ s h1 (by intro fs; simp [demoRun]), (C25_at_most_once demo true _ s h1).1, (C26_eose_once demo true _ s h1).2 h3⟩

/-- `C25_none_dropped`: both events of the run were due and are delivered. -/
example : ∃ s, run demo (fired demo true) demoRun = some s ∧ ¬ Ending s ∧ ((0, demoEvent) ∈ s.delivered ∨ ∃ d ∈ s.disps, d.pos = 0 ∧ d.evt = demoEvent ∧ d.sent = false ∧ (d.pc = .lock ∨ d.pc = .check ∨ d.pc = .select)) := by
  have h : ∃ s, run demo (fired demo true) demoRun = some s ∧ s.ctxDone = false ∧ s.procs = [.dead] ∧ (0, demoEvent) ∈ s.delivered := ⟨_, rfl, rfl, rfl, by decide +kernel⟩
  obtain ⟨s, h1, h2, h3, h4⟩ := h
  have he : ¬ Ending s := by rw [ending_iff, h2, h3]; exact fun h => h.elim (fun h => nomatch h) (fun ⟨u, hu⟩ => by simp at hu)
  exact ⟨s, h1, he, (C25_none_dropped demo true _ s h1 no_setFilters rfl he 0 demoEvent).1 ((C25_none_dropped demo true _ s h1 no_setFilters rfl he 0 demoEvent).2 (.inl h4))⟩

/-- A run that is ended by `Unsub`: one event delivered, one dispatch aborted. -/
def endedRun : List Lab := [.proc 0 false, .read mEvent, .handle, .read mEvent, .handle, .disp 0, .disp 0, .dispSend 0, .disp 0, .disp 1, .disp 1, .callUnsub, .proc 1 false, .dispAbort 1, .disp 1,
  .proc 1 false, .proc 1 false, .proc 1 false, .start false, .start false, .start false, .start false, .start false, .start false, .start false]

/-- `C26_dropped_only_when_ending`, `C27_no_send_after_close_partial`, `C28_removed`: the aborted dispatch, the closed channel, the table. -/
example : ∃ s, run demo (fired demo true) endedRun = some s ∧ s.closes = 1 ∧ s.delivered.length = 1 ∧ s.disps.map (·.pc) = [.dead, .dead] ∧ s.panicked = false ∧ s.starter = .dead ∧
    (∀ d ∈ s.disps, (d.pos, d.evt) ∈ s.delivered ∨ Ending s) := by
  have h : ∃ s, run demo (fired demo true) endedRun = some s ∧ s.closes = 1 ∧ s.delivered.length = 1 ∧ s.disps.map (·.pc) = [.dead, .dead] ∧ s.panicked = false ∧ s.starter = .dead :=
    ⟨_, rfl, by decide +kernel, by decide +kernel, by decide +kernel, by decide +kernel, by decide +kernel⟩
  obtain ⟨s, h1, h2, h3, h4, h5, h6⟩ := h
  refine ⟨s, h1, h2, h3, h4, h5, h6, fun d hd => C26_dropped_only_when_ending demo true _ s h1 (by intro fs; simp [endedRun]) d hd ?_⟩
  have : d.pc ∈ s.disps.map (·.pc) := List.mem_map_of_mem hd
  rw [h4] at this
  simpa using this

/-- `C27_ends_cleanly`: the run above leaves nothing for the program to do. -/
example : ∃ s, run demo (init demo true) (.callFire :: .proc 0 false :: endedRun) = some s ∧ Quiescent demo s ∧ s.ctxDone = true ∧ s.panicked = false ∧ s.registered = false := by
  refine ⟨_, rfl, ?_, rfl, rfl, rfl⟩
  intro l hl
  cases l with
  | disp i => match i with
    | 0 => rfl
    | 1 => rfl
    | i + 2 => rfl
  | dispAbort i => match i with
    | 0 => rfl
    | 1 => rfl
    | i + 2 => rfl
  | proc k f => match k with
    | 0 => rfl
    | 1 => rfl
    | k + 2 => rfl
  | _ => first | rfl | simp [Lab.internal] at hl

/-- `C25_progress`: a dispatch that waits for the consumer. -/
example : ∃ s d, run demo (init demo true) [.callFire, .proc 0 false, .proc 0 false, .read mEvent, .handle, .disp 0, .disp 0] = some s ∧ s.panicked = false ∧
    (s.starter ≠ .close ∧ s.starter ≠ .unlock) ∧ d ∈ s.disps ∧ d.pc = .select ∧ ∃ i s', step demo s (.disp i) = some s' ∨ step demo s (.dispSend i) = some s' := by
  have h : ∃ s, run demo (init demo true) [.callFire, .proc 0 false, .proc 0 false, .read mEvent, .handle, .disp 0, .disp 0] = some s ∧ s.panicked = false ∧ s.starter = .wait ∧
      ∃ d ∈ s.disps, d.pc = .select := ⟨_, rfl, rfl, rfl, _, List.mem_singleton.2 rfl, rfl⟩
  obtain ⟨s, h1, h2, h3, d, hd, hp⟩ := h
  exact ⟨s, d, h1, h2, by rw [h3]; decide, hd, hp, C25_progress demo true _ s h1 h2 (by rw [h3]; decide) d hd (by rw [hp]; decide)⟩

/-- `C26_eose_after_stored`: two dispatches are under way when the EOSE arrives; when its signal is sent both are through. -/
example : ∃ s1 s2, run demo (init demo true) [.callFire, .proc 0 false, .proc 0 false, .read mEvent, .handle, .read mEvent, .handle] = some s1 ∧ s1.eosed = false ∧ s1.disps.length = 2 ∧
    run demo s1 [.read mEose, .handle, .disp 1, .disp 1, .dispSend 1, .disp 1, .disp 0, .disp 0, .dispSend 0, .disp 0, .eose] = some s2 ∧ s2.eoseSent > 0 :=
  ⟨_, _, rfl, rfl, rfl, rfl, by decide +kernel⟩

set_option maxRecDepth 20000 in
/-- `C28_none_after_closed`: the relay's CLOSED is being handled; then `Unsub` is called; no CLOSE is written. -/
example : ∃ s1 s2 s3, run demo (fired demo true) [.proc 0 false, .read mClosed, .handle, .proc 1 false] = some s1 ∧ s1.procs[1]? = some .storeLive ∧ step demo s1 (.proc 1 false) = some s2 ∧
    Pc.fireLive ∉ s2.procs ∧ s2.closers = 0 ∧ run demo s2 [.callUnsub, .proc 2 false, .proc 2 false, .proc 2 false] = some s3 ∧ s3.wire.count .close = 0 :=
  ⟨_, _, _, rfl, rfl, rfl, by simp [fired], by rfl, rfl, by rfl⟩

end GoNostr.Sub

namespace GoNostr.RelayCount

/-- `C129_returns`: the deadline passes, `Unsub` runs, the call has returned an error and can do nothing more. -/
example : ∃ s, run 7 start [.fire true, .timeUp, .giveUp, .unsub] = some s ∧ s.timeUp = true ∧ (∀ l ∈ [Lab.fire true, .fire false, .giveUp, .unsub], step 7 s l = none) ∧ s.caller = .done none := by
  refine ⟨_, rfl, rfl, ?_, rfl⟩
  intro l hl
  simp only [List.mem_cons, List.not_mem_nil, or_false] at hl
  rcases hl with rfl | rfl | rfl | rfl <;> rfl

/-- `C129_stuck_forever`: a second answer is being handed over when the call has got the first. -/
example : ∃ s, run 7 start [.fire true, .read (.answer 7 (some 3) []), .handOver, .read (.answer 7 (some 4) []), .unsub] = some s ∧ Stuck s :=
  ⟨_, rfl, ⟨_, _, rfl⟩, .inr ⟨_, rfl⟩⟩

end GoNostr.RelayCount

namespace GoNostr.Pub

/-- `C30_ok_reaches_its_call_partial`: two calls for two events, both written; the OK of the second. -/
example : ∃ s c, run init [.publish (b! "a"), .publish (b! "b"), .store 1, .store 0, .write 0 false, .write 1 false] = some s ∧ s.calls[1]? = some c ∧ c.id = b! "b" ∧ c.pending ∧ s.reader = none ∧ DistinctIds s := by
  refine ⟨_, _, rfl, rfl, rfl, .inr (.inl rfl), rfl, ?_⟩
  intro i j a b ha hb hab
  match i, j with
  | 0, 0 => rfl
  | 1, 1 => rfl
  | 0, 1 => cases ha; cases hb; exact absurd hab (by decide +kernel)
  | 1, 0 => cases ha; cases hb; exact absurd hab (by decide +kernel)
  | i + 2, _ => cases ha
  | 0, j + 2 => cases hb
  | 1, j + 2 => cases hb

/-- `C30_completes`: the OK has been taken; the waiting call can return. -/
example : ∃ s c, run init [.publish (b! "a"), .store 0, .write 0 false, .ok (b! "a") true [], .cb, .cb, .cb] = some s ∧ s.calls[0]? = some c ∧ c.okSeen = true ∧ s.reader = none ∧ c.pc = .wait :=
  ⟨_, _, rfl, rfl, rfl, rfl, rfl⟩

end GoNostr.Pub

namespace GoNostr.Hints

/-- A clock of the examples. -/
def aDay : Int := 1700000000

/-- `C172_better`: the same but for a newer event and an older attempt. -/
example : score aDay ![aDay - 5, aDay - 900, 0, 0] ≤ score aDay ![aDay - 50, aDay - 90, 0, 0] :=
  C172_better _ _ _ ⟨by
    intro k hk
    fin_cases k <;> simp_all [aDay, attempt], by simp [aDay, attempt]⟩

/-- `C172_only_tried`. -/
example : score aDay (only attempt (aDay - 5)) ≤ 0 ∧ 0 ≤ score aDay ![0, aDay - 90, 0, 0] := C172_only_tried _ _ _ rfl

/-- `C172_success_cancels`: the event fetched is as new as the attempt. -/
example : score aDay (setTs (setTs ![aDay - 50, aDay - 50, 0, 0] attempt 0) fetched 0) ≤ score aDay ![aDay - 50, aDay - 50, 0, 0] :=
  C172_success_cancels _ _ (by simp [attempt, aDay]) (by simp [attempt, fetched])

/-- `C172_list_before_hint_partial`: a list a day old and a hint of now. -/
example : score aDay (only inHint aDay) ≤ score aDay (only inList (aDay - 86400)) := C172_list_before_hint_partial _ _ _ (by decide) (by decide)

/-- `C172_old_list_loses`: a list nine days old. -/
example : score aDay (only inList (aDay - 9 * 86400)) < score aDay (only inHint aDay) := C172_old_list_loses _ _ (by decide) (by decide)

/-- `C172_quiet_authors_sink`: all is a day old but the attempt. -/
example : score aDay ![aDay, aDay - 86400, aDay - 86400, aDay - 86400] < 0 :=
  C172_quiet_authors_sink _ _ (by decide) rfl (by
    intro k hk
    fin_cases k <;> simp_all [attempt])

end GoNostr.Hints

namespace GoNostr.Ensure

/-- `C40_reuse_or_replace`: a call that finds a live connection, and one that finds a dead one. -/
example : ∃ s c, run (init false) [.call (b! "u"), .acquire 0, .check 0, .dial 0 true, .store 0, .call (b! "u"), .acquire 1] = some s ∧ s.calls[1]? = some c ∧ c.pc = .check ∧
    (∃ d, s.conns[0]? = some d ∧ d.url = c.url ∧ d.connected = true) ∧ (step s (.check 1)).isSome := ⟨_, _, rfl, rfl, rfl, ⟨_, rfl, rfl, rfl⟩, rfl⟩

example : ∃ s c, run (init false) [.call (b! "u"), .acquire 0, .check 0, .dial 0 true, .store 0, .disconnect 0, .call (b! "u"), .acquire 1] = some s ∧ s.calls[1]? = some c ∧ c.pc = .check ∧
    s.conns.map (·.connected) = [false] ∧ (step s (.check 1)).isSome := ⟨_, _, rfl, rfl, rfl, rfl, rfl⟩

end GoNostr.Ensure
