import Verif.Relay.Conn
/-!
# C123: pings, progress, stalls and the crash of `Close`
-/

set_option autoImplicit false

namespace GoNostr.Conn

/-! ## Pings -/

/-- Failed pings at the end of the history. -/
def trailing : List Bool → Nat
  | l => (l.reverse.takeWhile (fun b => !b)).length

theorem trailing_true (l : List Bool) : trailing (l ++ [true]) = 0 := by simp [trailing]

theorem trailing_false (l : List Bool) : trailing (l ++ [false]) = trailing l + 1 := by simp [trailing]

theorem trailing_three (l : List Bool) : 3 ≤ trailing l ↔ [false, false, false] <:+ l := by
  have key : ∀ m : List Bool, 3 ≤ (m.takeWhile (fun b => !b)).length ↔ [false, false, false] <+: m
    | [] => by simp
    | [a] => by cases a <;> simp
    | [a, b] => by cases a <;> cases b <;> simp
    | a :: b :: c :: m => by cases a <;> cases b <;> cases c <;> simp
  rw [← List.reverse_prefix]
  exact key l.reverse

/-- Invariant used in the proofs; models no code. -/
structure PInv (s : State) : Prop where
  idle : ∀ n, s.writer = .idle n → n = trailing s.pings ∧ n < 3
  sending : ∀ k n, s.writer = .sending k n → n = trailing s.pings ∧ n < 3
  answering : ∀ k n, s.writer = .answering k n → n = trailing s.pings ∧ n < 3
  closing : ∀ c, s.writer = .closing c → 3 ≤ trailing s.pings
  none : s.writer = .none → s.pings = []

theorem pinv_init : PInv init := by constructor <;> simp [init]

theorem pinv_step {s s' : State} {l : Lab} (hi : PInv s) (h : step s l = some s') : PInv s' := by
  obtain ⟨h1, h2, h3, h4, h5⟩ := hi
  have t0 : trailing [] = 0 := rfl
  conn_cases h
  all_goals (constructor; all_goals (try simp only [State.setWrite, trailing_true, trailing_false]))
  all_goals first
    | assumption
    | grind

/-- **C123 (pings).** The writer closes the connection on account of pings exactly when the last three failed: while it waits for its
own `Close` they have, and when they have it is not serving writes any more. -/
theorem C123_three_failed_pings (ls : List Lab) (s : State) (h : run init ls = some s) :
    (∀ c, s.writer = .closing c → [false, false, false] <:+ s.pings) ∧
    ([false, false, false] <:+ s.pings → (∃ c, s.writer = .closing c) ∨ s.writer = .exiting ∨ s.writer = .dead) := by
  have hi : PInv s := run_inv' (fun _ _ _ hi h => pinv_step hi h) ls init s pinv_init h
  refine ⟨fun c hc => (trailing_three _).1 (hi.closing c hc), fun hs => ?_⟩
  have ht := (trailing_three _).2 hs
  cases hw : s.writer with
  | none =>
    have := hi.none hw
    rw [this] at ht
    simp [trailing] at ht
  | idle n => have := hi.idle n hw; omega
  | sending k n => have := hi.sending k n hw; omega
  | answering k n => have := hi.answering k n hw; omega
  | closing c => exact Or.inl ⟨c, rfl⟩
  | exiting => exact Or.inr (Or.inl rfl)
  | dead => exact Or.inr (Or.inr rfl)

/-! ## Progress -/

/-- Steps the relay's own goroutines and waiting callers take without anything from outside. -/
def Lab.inner : Lab → Bool
  | .take _ | .sent _ | .receive | .refuse _ | .closer _ | .closed | .exit | .teardown | .check _ => true
  | _ => false

/-- Auxiliary function of the proofs; models no code. -/
def WCall.weight (w : WCall) : Nat := if w.st = .offering then 4 else 0

/-- Auxiliary function of the proofs; models no code. -/
def CPc.weight : CPc → Nat
  | .start => 3
  | .check => 2
  | .call => 1
  | .ret _ => 0

/-- Auxiliary function of the proofs; models no code. -/
def WPc.weight : WPc → Nat
  | .none => 0
  | .idle _ => 3
  | .sending _ _ => 5
  | .answering _ _ => 4
  | .closing _ => 3
  | .exiting => 2
  | .dead => 1

/-- Auxiliary function of the proofs; models no code. -/
def SubSt.weight (x : SubSt) : Nat := if x.pc = .stored then 1 else 0

/-- Steps left. -/
def State.left (s : State) : Nat :=
  (s.writes.map WCall.weight).sum + (s.closers.map CPc.weight).sum + s.writer.weight + (s.subs.map SubSt.weight).sum +
    (if s.crashed then 0 else 1)

theorem modify_set {α : Type} (f : α → α) (l : List α) (i : Nat) (x : α) (h : l[i]? = some x) : l.modify i f = l.set i (f x) := by
  apply List.ext_getElem?
  intro j
  rw [modify_get, List.getElem?_set]
  obtain ⟨hi, _⟩ := List.getElem?_eq_some_iff.1 h
  split
  · subst_vars; rw [h]; rfl
  · rfl

theorem sum_setWrite (s : State) (k : Nat) (w : WSt) (x : WCall) (h : s.writes[k]? = some x) :
    ((s.setWrite k w).writes.map WCall.weight).sum + x.weight = (s.writes.map WCall.weight).sum + (if w = .offering then 4 else 0) := by
  have := Sub.sum_set WCall.weight s.writes k x { x with st := w } h
  unfold State.setWrite
  simp only
  rw [modify_set _ _ _ _ h]
  exact this

theorem left_step {s s' : State} {l : Lab} (hi : Inv s) (hl : l.inner = true) (h : step s l = some s') : s'.left < s.left := by
  have p1 := sum_setWrite s
  have p2 := Sub.sum_set CPc.weight s.closers
  have p3 := Sub.sum_set SubSt.weight s.subs
  have hm2 : ∀ l : List SubSt, (l.map (SubSt.weight ∘ fun x => { x with ended := true })) = l.map SubSt.weight := fun l => by
    apply List.map_congr_left; intro x _; rfl
  have q1 : ∀ k w, (s.setWrite k w).closers = s.closers := fun _ _ => rfl
  have q2 : ∀ k w, (s.setWrite k w).subs = s.subs := fun _ _ => rfl
  have q3 : ∀ k w, (s.setWrite k w).crashed = s.crashed := fun _ _ => rfl
  have q4 : ∀ k w, (s.setWrite k w).writer = s.writer := fun _ _ => rfl
  have h8 : ∀ k, s.writer.holds k = true → ∃ b, s.writes[k]? = some ⟨b, .taken⟩ := by
    intro k hk
    have hlt := hi.held k hk
    refine ⟨s.writes[k].listens, ?_⟩
    have := (hi.taken k s.writes[k] (List.getElem?_eq_getElem hlt)).2 hk
    rw [List.getElem?_eq_getElem hlt, ← this]
  have h9 : ∀ k n, s.writer = .sending k n → ∃ b, s.writes[k]? = some ⟨b, .taken⟩ := fun k n e => h8 k (by rw [e]; simp [WPc.holds])
  have h10 : ∀ k n, s.writer = .answering k n → ∃ b, s.writes[k]? = some ⟨b, .taken⟩ := fun k n e => h8 k (by rw [e]; simp [WPc.holds])
  clear h8
  unfold State.left
  conn_cases h
  all_goals first
    | (cases hl; done)
    | skip
  all_goals simp only [List.map_map, hm2, q1, q2, q3, q4]
  all_goals grind [WCall.weight, CPc.weight, WPc.weight, SubSt.weight]

/-- Every call is over: no `Write` waiting, every `Close` returned, no `Subscribe` half way, the writer gone (or never started). -/
structure Settled (s : State) : Prop where
  writes : ∀ w ∈ s.writes, w.st = .refused ∨ ∃ e, w.st = .answered e
  closers : ∀ c ∈ s.closers, ∃ b, c = .ret b
  subs : ∀ x ∈ s.subs, x.pc = .failed ∨ x.pc = .passed
  writer : s.writer = .none ∨ s.writer = .dead

/-- If the context is done and every caller of `Write` receives, some inner step is possible until everything has settled. -/
theorem progress {s : State} (hi : Inv s) (hc : CInv s) (hd : s.done = true) (hcr : s.crashed = false)
    (hl : ∀ w ∈ s.writes, w.listens = true) (hn : ∀ l, l.inner = true → step s l = .none) : Settled s := by
  have hcl : ∀ (c : Nat) (p : CPc), s.closers[c]? = some p → ∃ b, p = .ret b := by
    intro c p hp
    have hs := hn (.closer c) rfl
    simp only [step, hcr, closerStep, hp, Bool.false_eq_true, if_false] at hs
    cases p with
    | ret b => exact ⟨b, rfl⟩
    | check => simp only at hs; split at hs <;> cases hs
    | call => simp only at hs; split at hs <;> cases hs
    | start =>
      simp only at hs
      split at hs
      · split at hs <;> cases hs
      · rename_i hlock
        obtain ⟨d, hd'⟩ := Option.ne_none_iff_exists'.1 hlock
        have hs2 := hn (.closer d) rfl
        rcases hc.lock d hd' with e | e <;>
          (simp only [step, hcr, closerStep, e, Bool.false_eq_true, if_false] at hs2; split at hs2 <;> cases hs2)
  have hw : s.writer = .none ∨ s.writer = .dead := by
    cases hw : s.writer with
    | none => exact Or.inl rfl
    | dead => exact Or.inr rfl
    | idle n =>
      have hs := hn .exit rfl
      simp [step, hcr, hw, hd] at hs
    | sending k n =>
      have hs := hn (.sent true) rfl
      simp [step, hcr, hw] at hs
    | answering k n =>
      have hlt := hi.held k (by rw [hw]; simp [WPc.holds])
      have hs := hn .receive rfl
      have hll := hl s.writes[k] (List.getElem_mem hlt)
      simp only [step, hcr, hw, List.getElem?_eq_getElem hlt, Bool.false_eq_true, if_false] at hs
      split at hs
      · cases hs
      · rename_i hne
        exact (hne s.writes[k].st (by rw [← hll])).elim
    | closing c =>
      have hlt := hc.closing c hw
      obtain ⟨b, hb⟩ := hcl c _ (List.getElem?_eq_getElem hlt)
      have hs := hn .closed rfl
      simp [step, hcr, hw, List.getElem?_eq_getElem hlt, hb] at hs
    | exiting =>
      have hs := hn .teardown rfl
      simp [step, hcr, hw, hd] at hs
  refine ⟨?_, ?_, ?_, hw⟩
  · intro w hw'
    obtain ⟨k, hk⟩ := List.getElem?_of_mem hw'
    obtain ⟨b, st⟩ := w
    cases st with
    | answered e => exact Or.inr ⟨e, rfl⟩
    | refused => exact Or.inl rfl
    | offering =>
      have hs := hn (.refuse k) rfl
      simp [step, hcr, hk, hd] at hs
    | taken =>
      have := (hi.taken k _ hk).1 rfl
      rcases hw with e | e <;> rw [e] at this <;> cases this
  · intro c hc'
    obtain ⟨k, hk⟩ := List.getElem?_of_mem hc'
    exact hcl k c hk
  · intro x hx
    obtain ⟨j, hj⟩ := List.getElem?_of_mem hx
    obtain ⟨pc, e⟩ := x
    cases pc with
    | failed => exact Or.inl rfl
    | passed => exact Or.inr rfl
    | stored =>
      have hs := hn (.check j) rfl
      simp [step, hcr, hj] at hs

theorem left_run (s : State) : ∀ (ls : List Lab) (s' : State), Inv s → (∀ l ∈ ls, l.inner = true) → run s ls = some s' →
    ls.length + s'.left ≤ s.left := by
  intro ls
  induction ls generalizing s with
  | nil => intro s' _ _ h; simp only [run, Option.some.injEq] at h; subst h; simp
  | cons l ls ih =>
    intro s' hi hq h
    simp only [run] at h
    split at h
    · cases h
    · rename_i s1 h1
      have a := left_step hi (hq l List.mem_cons_self) h1
      have b := ih s1 s' (inv_step hi h1) (fun l hl => hq l (List.mem_cons_of_mem _ hl)) h
      simp only [List.length_cons]
      omega

/-- **C123 (everything ends with the connection), partial.** Once the connection context is done: the relay's goroutines and the callers
can take only finitely many more steps by themselves; if every caller of `Write` receives its answer, then when they can take no more,
every `Write` has been answered or refused, every `Close` and `Subscribe` has returned, every subscription of a successful `Subscribe` has ended and the writer
goroutine is gone. Missing from the full claim: callers that do not receive (`C123_unread_answer_stalls`) and the crash of `Close`
(`C123_close_can_crash`), excluded by `hcr`. -/
theorem C123_all_ends_partial (ls ls' : List Lab) (s s' : State) (h : run init ls = some s) (hd : s.done = true)
    (hin : ∀ l ∈ ls', l.inner = true) (h' : run s ls' = some s') :
    ls'.length ≤ s.left ∧
    (s'.crashed = false → (∀ w ∈ s'.writes, w.listens = true) → (∀ l, l.inner = true → step s' l = .none) →
      Settled s' ∧ (s'.writer = .dead → ∀ x ∈ s'.subs, x.pc = .passed → x.ended = true)) := by
  have hi := reach_inv h
  refine ⟨by have := left_run s ls' s' hi hin h'; omega, fun hcr hl hn => ?_⟩
  have hi' : Inv s' := run_inv' (fun _ _ _ hi h => inv_step hi h) ls' s s' hi h'
  have hc' : CInv s' := run_inv' (fun _ _ _ hi h => cinv_step hi h) ls' s s' (reach_cinv h) h'
  have hd' : s'.done = true := run_inv' (P := fun x => x.done = true) (fun _ _ _ hd h => done_step hd h) ls' s s' hd h'
  exact ⟨progress hi' hc' hd' hcr hl hn, hc'.subs⟩

/-! ## The stall -/

theorem stall_step {s s' : State} {l : Lab} (k n : Nat) (hs : s.writer = .answering k n) (hl : ∃ st, s.writes[k]? = some ⟨false, st⟩)
    (h : step s l = some s') : s'.writer = .answering k n ∧ (∃ st, s'.writes[k]? = some ⟨false, st⟩) ∧ s'.wire = s.wire ∧
      s'.accepted = s.accepted ∧ s'.conn = s.conn ∧ (∀ (j : Nat) (x : SubSt), s.subs[j]? = some x → ∃ y : SubSt, s'.subs[j]? = some y ∧ y.ended = x.ended) := by
  obtain ⟨st, hl⟩ := hl
  have hlt : k < s.writes.length := (List.getElem?_eq_some_iff.1 hl).1
  conn_cases h
  all_goals refine ⟨?_, ?_, ?_, ?_, ?_, ?_⟩
  all_goals first
    | (simp_all; done)
    | (exact ⟨st, hl⟩)
    | (exact fun j x hx => ⟨x, hx, rfl⟩)
    | grind [State.setWrite]

/-- **C123 (refuted: a caller may ignore the answer).** Once a message whose caller does not receive the answer fails to be written, the
writer goroutine is stuck for good, whatever happens, `Close` included: no further message is taken or written, and no subscription
is ended by it. (`nip77.NegentropySync` and `nip77.FetchIDsOnly` call `Write` that way: nip77/nip77.go:73, 90, nip77/idsonly.go:44, 65.) -/
theorem C123_unread_answer_stalls (ls : List Lab) (s s' : State) (k n : Nat) (hs : s.writer = .answering k n) (st : WSt)
    (hl : s.writes[k]? = some ⟨false, st⟩) (h : run s ls = some s') :
    s'.writer = .answering k n ∧ s'.wire = s.wire ∧ s'.accepted = s.accepted ∧ s'.conn = s.conn ∧
    ∀ (j : Nat) (x : SubSt), s.subs[j]? = some x → ∃ y : SubSt, s'.subs[j]? = some y ∧ y.ended = x.ended := by
  have := run_inv' (P := fun y => y.writer = .answering k n ∧ (∃ st, y.writes[k]? = some ⟨false, st⟩) ∧ y.wire = s.wire ∧
      y.accepted = s.accepted ∧ y.conn = s.conn ∧ (∀ (j : Nat) (x : SubSt), s.subs[j]? = some x → ∃ z : SubSt, y.subs[j]? = some z ∧ z.ended = x.ended))
    (fun a l b hp hab => by
      obtain ⟨q1, q2, q3, q4, q5, q6⟩ := hp
      obtain ⟨r1, r2, r3, r4, r5, r6⟩ := stall_step k n q1 q2 hab
      refine ⟨r1, r2, r3.trans q3, r4.trans q4, r5.trans q5, fun j x hx => ?_⟩
      obtain ⟨z, hz, ez⟩ := q6 j x hx
      obtain ⟨z', hz', ez'⟩ := r6 j z hz
      exact ⟨z', hz', ez'.trans ez⟩) ls s s' ⟨hs, ⟨st, hl⟩, rfl, rfl, rfl, fun j x hx => ⟨x, hx, rfl⟩⟩ h
  exact ⟨this.1, this.2.2.1, this.2.2.2.1, this.2.2.2.2.1, this.2.2.2.2.2⟩

/-- The stall happens: a subscription, an ignored write that fails, then `Close` completes, and the subscription is still not told. -/
theorem C123_stall_reached : ∃ ls s, run init ls = some s ∧ s.writer = .answering 0 0 ∧ s.writes[0]? = some ⟨false, .taken⟩ ∧
    s.done = true ∧ CPc.ret true ∈ s.closers ∧ ⟨.passed, false⟩ ∈ s.subs :=
  ⟨[.connect, .subscribe, .check 0, .write false, .take 0, .sent false, .callClose, .closer 0, .closer 0, .closer 0], _, rfl, rfl, rfl,
    rfl, by decide, by decide⟩

/-! ## The crash -/

/-- **C123 (refuted: Close is safe to call).** `Close` cancels the context, then tests `r.Connection` and then uses it; the writer
goroutine, woken by the cancellation, clears it in between, and the call dereferences nil. -/
theorem C123_close_can_crash : ∃ ls s, run init ls = some s ∧ s.crashed = true :=
  ⟨[.connect, .callClose, .closer 0, .closer 0, .exit, .closer 0], _, rfl, rfl⟩

theorem nocrash_step {s s' : State} {l : Lab} (hl : l ≠ .exit) (hcl : l ≠ .closed)
    (hp : s.crashed = false ∧ ∀ c : Nat, s.closers[c]? = some CPc.call → s.conn = true) (h : step s l = some s') :
    s'.crashed = false ∧ ∀ c : Nat, s'.closers[c]? = some CPc.call → s'.conn = true := by
  obtain ⟨h1, h2⟩ := hp
  conn_cases h
  all_goals first
    | exact ⟨h1, h2⟩
    | grind [State.setWrite]

/-- **C123 (Close, partial).** The crash needs the writer goroutine to leave: as long as it does not, no number of racing `Close` calls
crashes. -/
theorem C123_close_safe_partial (ls : List Lab) (s : State) (hl : ∀ l ∈ ls, l ≠ .exit ∧ l ≠ .closed) (h : run init ls = some s) :
    s.crashed = false :=
  (run_inv (Q := fun l => l ≠ .exit ∧ l ≠ .closed) (fun _ _ _ hq hp hs => nocrash_step hq.1 hq.2 hp hs) ls init s hl
    ⟨rfl, by simp [init]⟩ h).1

/-! ## Before connecting -/

theorem unconnected_step {s s' : State} {l : Lab} (hl : l ≠ .connect ∧ l ≠ .parent ∧ l ≠ .callClose)
    (hp : s.writer = .none ∧ s.done = false ∧ s.closers = [] ∧ s.reading = false ∧ ∀ w ∈ s.writes, w.st = .offering)
    (h : step s l = some s') :
    s'.writer = .none ∧ s'.done = false ∧ s'.closers = [] ∧ s'.reading = false ∧ ∀ w ∈ s'.writes, w.st = .offering := by
  obtain ⟨h1, h2, h3, h4, h5⟩ := hp
  obtain ⟨l1, l2, l3⟩ := hl
  conn_cases h
  all_goals first
    | contradiction
    | exact ⟨h1, h2, h3, h4, h5⟩
    | (simp_all; done)
    | grind [State.setWrite]

/-- **C123 (writing before connecting).** On a relay that is never connected nor closed, no `Write` ever returns, whatever the
deadline of its caller: `Publish` and `Subscribe` there wait in `Write`. -/
theorem C123_unconnected_write_waits (ls : List Lab) (s : State) (hl : ∀ l ∈ ls, l ≠ .connect ∧ l ≠ .parent ∧ l ≠ .callClose)
    (h : run init ls = some s) : ∀ w ∈ s.writes, w.st = .offering :=
  (run_inv (Q := fun l => l ≠ .connect ∧ l ≠ .parent ∧ l ≠ .callClose) (fun _ _ _ hq hp hs => unconnected_step hq hp hs) ls init s hl
    (by simp [init]) h).2.2.2.2

/-- A run with everything in it: two messages, one failing, a subscription, two racing `Close` calls, and the end. -/
def demoRun : List Lab :=
  [.connect, .subscribe, .check 0, .write true, .write true, .take 1, .sent true, .take 0, .sent false, .receive, .ping false, .ping true,
   .callClose, .readFail, .write true, .closer 1, .closer 1, .closer 1, .closer 0, .exit, .teardown, .refuse 2]

/-- It meets the hypotheses of the theorems above, ends settled, with the second message on the wire and the first reported failed. -/
example : ∃ s, run init demoRun = some s ∧ s.done = true ∧ s.crashed = false ∧ s.wire = [1] ∧ s.accepted = [1, 0] ∧
    s.writes.map WCall.st = [.answered true, .answered false, .refused] ∧ s.closers = [.ret false, .ret true] ∧
    s.subs = [⟨.passed, true⟩] ∧ s.writer = .dead :=
  ⟨_, rfl, rfl, rfl, rfl, rfl, rfl, rfl, rfl, rfl⟩

/-- Three failing pings close and end everything. -/
example : ∃ s, run init [.connect, .ping false, .ping false, .ping false, .closer 0, .closer 0, .closer 0, .closed, .teardown] = some s ∧
    s.writer = .dead ∧ s.done = true ∧ s.closers = [.ret true] := ⟨_, rfl, rfl, rfl, rfl⟩

end GoNostr.Conn
