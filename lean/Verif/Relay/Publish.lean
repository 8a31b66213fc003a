import Verif.Relay.Lemmas
/-!
# C29, C30: concurrent `Publish` calls

Machine of any number of concurrent `publish` calls on one relay (relay.go:359-403), the shared callback table and the
reader's OK handling (relay.go:309-314).
-/

set_option autoImplicit false

namespace GoNostr.Pub

/-- What `Publish` returns. -/
inductive Ret
  | nil
  | rejected (reason : Bytes)
  | ctxErr
  | writeErr
  deriving DecidableEq, Repr

/-- Where a call is: before storing its callback, before/while writing, in the `select`, running its deferred `Delete`,
returned. -/
inductive PPc
  | store | write | wait | delete (r : Ret) | ret (r : Ret)
  deriving DecidableEq, Repr

/-- One call. `timedOut` (its context ended for an outside reason) and `okSeen` (an OK for its id was taken by the reader
while its callback was in place) record history. -/
structure Call where
  id : Bytes
  pc : PPc
  gotOk : Bool
  err : Option Bytes
  ctxDone : Bool
  timedOut : Bool
  okSeen : Bool
  deriving DecidableEq, Repr

/-- The reader inside a callback: call, verdict, reason, and the next of its three statements (relay.go:376-380). -/
structure Cb where
  k : Nat
  ok : Bool
  reason : Bytes
  stage : Nat
  deriving DecidableEq, Repr

/-- Shared state: the `okCallbacks` table (id to call), the calls, the reader and the OK messages received. -/
structure State where
  table : Bytes → Option Nat
  calls : List Call
  reader : Option Cb
  connDone : Bool
  seen : List (Bytes × Bool × Bytes)

/-- The state at the start: a fresh connection. -/
def init : State where
  table := fun _ => none
  calls := []
  reader := none
  connDone := false
  seen := []

/-- The atomic actions of the machine; its step function says which lines each of them is. -/
inductive Lab
  | publish (id : Bytes)
  | store (k : Nat)
  | write (k : Nat) (fail : Bool)
  | timeout (k : Nat)
  | disconnect
  | ok (id : Bytes) (accepted : Bool) (reason : Bytes)
  | cb
  | retCtx (k : Nat)
  | retConn (k : Nat)
  | delete (k : Nat)

/-- The value of the captured `err` variable as a return value. -/
def errRet : Option Bytes → Ret
  | none => .nil
  | some r => .rejected r

/-- A new call (relay.go:334-371). -/
def newCall (id : Bytes) : Call :=
  { id := id, pc := .store, gotOk := false, err := none, ctxDone := false, timedOut := false, okSeen := false }

/-- One atomic action. -/
def step (s : State) : Lab → Option State
  | .publish id => some { s with calls := s.calls ++ [newCall id] }
  -- relay.go:373-382
  | .store k => match s.calls[k]? with
    | none => none
    | some c => if c.pc = .store then
        some { s with table := fun x => if x = c.id then some k else s.table x, calls := s.calls.set k { c with pc := .write } }
      else none
  -- relay.go:385-388
  | .write k fail => match s.calls[k]? with
    | none => none
    | some c => if c.pc = .write then
        (if fail then some { s with calls := s.calls.set k { c with pc := .delete .writeErr } }
        else some { s with calls := s.calls.set k { c with pc := .wait } })
      else none
  -- the deadline passes or the caller cancels
  | .timeout k => match s.calls[k]? with
    | none => none
    | some c => some { s with calls := s.calls.set k { c with ctxDone := true, timedOut := true } }
  | .disconnect => some { s with connDone := true }
  -- relay.go:310-311: the reader looks the callback up
  | .ok id accepted reason =>
    if s.reader.isSome then none
    else match s.table id with
      | none => some { s with seen := s.seen ++ [(id, accepted, reason)] }
      | some k => match s.calls[k]? with
        | none => none
        | some c => some { s with
            seen := s.seen ++ [(id, accepted, reason)]
            reader := some { k := k, ok := accepted, reason := reason, stage := 0 }
            calls := s.calls.set k { c with okSeen := true } }
  -- relay.go:376-380: the callback's statements, one by one
  | .cb => match s.reader with
    | none => none
    | some b => match s.calls[b.k]? with
      | none => none
      | some c =>
        if b.stage = 0 then some { s with
          reader := some { b with stage := 1 }
          calls := s.calls.set b.k { c with gotOk := true } }
        else if b.stage = 1 then some { s with
          reader := some { b with stage := 2 }
          calls := s.calls.set b.k { c with err := if b.ok then c.err else some b.reason } }
        else some { s with reader := none, calls := s.calls.set b.k { c with ctxDone := true } }
  -- relay.go:392-397
  | .retCtx k => match s.calls[k]? with
    | none => none
    | some c => if c.pc = .wait ∧ c.ctxDone then
        some { s with calls := s.calls.set k { c with pc := .delete (if c.gotOk then errRet c.err else .ctxErr) } }
      else none
  -- relay.go:398-400
  | .retConn k => match s.calls[k]? with
    | none => none
    | some c => if c.pc = .wait ∧ s.connDone then some { s with calls := s.calls.set k { c with pc := .delete (errRet c.err) } }
      else none
  -- relay.go:382
  | .delete k => match s.calls[k]? with
    | none => none
    | some c => match c.pc with
      | .delete r => some { s with table := fun x => if x = c.id then none else s.table x, calls := s.calls.set k { c with pc := .ret r } }
      | _ => none

/-- A schedule: the actions one after the other. -/
def run (s : State) : List Lab → Option State
  | [] => some s
  | l :: ls => match step s l with
    | none => none
    | some s' => run s' ls

theorem run_inv {P : State → Prop} (hs : ∀ s l s', P s → step s l = some s' → P s') :
    ∀ {ls : List Lab} {s s' : State}, P s → run s ls = some s' → P s' := by
  intro ls
  induction ls with
  | nil => intro s s' hp h; simp only [run, Option.some.injEq] at h; exact h ▸ hp
  | cons l ls ih =>
    intro s s' hp h
    simp only [run] at h
    split at h
    · cases h
    · rename_i s1 h1
      exact ih (hs s l s1 hp h1) h

macro "pub_cases" h:ident : tactic => `(tactic| (
  simp only [step] at $h:ident
  (repeat' split at $h:ident) <;> (try simp only [reduceCtorEq, Option.some.injEq] at $h:ident) <;> (try subst $h:ident)))

/-- An OK with this verdict and reason was received for the id. -/
def Seen (s : State) (id : Bytes) (ok : Bool) (reason : Bytes) : Prop := (id, ok, reason) ∈ s.seen

/-- The return value a call is committed to. -/
def Call.verdict (c : Call) : Option Ret :=
  match c.pc with
  | .delete r => some r
  | .ret r => some r
  | _ => none

/-- Invariant used in the proofs; models no code. -/
structure Inv (s : State) : Prop where
  tab : ∀ id k, s.table id = some k → ∃ c, s.calls[k]? = some c ∧ c.id = id
  rd : ∀ b, s.reader = some b → ∃ c, s.calls[b.k]? = some c ∧ (c.id, b.ok, b.reason) ∈ s.seen ∧ (0 < b.stage → c.gotOk = true) ∧
    (1 < b.stage → b.ok = false → c.err ≠ none)
  got : ∀ (k : Nat) (c : Call), s.calls[k]? = some c → c.gotOk = true → ∃ ok r, (c.id, ok, r) ∈ s.seen
  err : ∀ (k : Nat) (c : Call) r, s.calls[k]? = some c → c.err = some r → (c.id, false, r) ∈ s.seen
  ctx : ∀ (k : Nat) (c : Call), s.calls[k]? = some c → c.ctxDone = true → c.timedOut = true ∨ c.gotOk = true
  rej : ∀ (k : Nat) (c : Call), s.calls[k]? = some c → c.ctxDone = true → c.timedOut = false → c.err = none → ∃ r, (c.id, true, r) ∈ s.seen
  nil : ∀ (k : Nat) (c : Call), s.calls[k]? = some c → c.verdict = some .nil → (∃ r, (c.id, true, r) ∈ s.seen) ∨ s.connDone = true ∨
    (c.timedOut = true ∧ ∃ r, (c.id, false, r) ∈ s.seen)
  rejd : ∀ (k : Nat) (c : Call) r, s.calls[k]? = some c → c.verdict = some (.rejected r) → (c.id, false, r) ∈ s.seen
  cerr : ∀ (k : Nat) (c : Call), s.calls[k]? = some c → c.verdict = some .ctxErr → c.timedOut = true

theorem errRet_spec (e : Option Bytes) : (e = none ∧ errRet e = .nil) ∨ ∃ r, e = some r ∧ errRet e = .rejected r := by
  cases e <;> simp [errRet]

set_option maxHeartbeats 2000000 in
theorem inv_step {s s' : State} {l : Lab} (hi : Inv s) (h : step s l = some s') : Inv s' := by
  obtain ⟨h1, h2, h3, h4, h5, h6, h7, h8, h9⟩ := hi
  have r1 := errRet_spec
  have r2 : ∀ id (w : Bool) r, (id, w, r) ∈ s.seen → (id, true, r) ∈ s.seen ∨ (id, false, r) ∈ s.seen := by
    intro id w r h; cases w; exact Or.inr h; exact Or.inl h
  pub_cases h
  all_goals first
    | contradiction
    | exact ⟨h1, h2, h3, h4, h5, h6, h7, h8, h9⟩
    | (constructor <;> grind [Call.verdict, newCall])

theorem inv_init : Inv init := by constructor <;> simp [init]

/-- **C29 (partial).** On every schedule of any number of concurrent publishes, OK messages, timeouts and disconnections: a
call that returned nil got an accepting OK for its id, or the connection was lost, or its deadline passed while a rejecting
OK was being processed. (The last two are the ways the full claim fails; see the witnesses.) -/
theorem C29_nil_means_accepted_partial (ls : List Lab) (s : State) (h : run init ls = some s) (k : Nat) (c : Call)
    (hk : s.calls[k]? = some c) (hr : c.pc = .ret .nil) :
    (∃ r, Seen s c.id true r) ∨ s.connDone = true ∨ (c.timedOut = true ∧ ∃ r, Seen s c.id false r) :=
  (run_inv (fun _ _ _ hp hs => inv_step hp hs) inv_init h).nil k c hk (by simp [Call.verdict, hr])

/-- **C29.** While the connection is up and the caller's context has not ended, nil means an accepting OK. -/
theorem C29_nil_clean (ls : List Lab) (s : State) (h : run init ls = some s) (k : Nat) (c : Call)
    (hk : s.calls[k]? = some c) (hr : c.pc = .ret .nil) (hc : s.connDone = false) (ht : c.timedOut = false) :
    ∃ r, Seen s c.id true r := by
  rcases C29_nil_means_accepted_partial ls s h k c hk hr with h | h | ⟨h, _⟩
  · exact h
  · rw [hc] at h; cases h
  · rw [ht] at h; cases h

/-- **C29.** A rejection error carries the reason of a rejecting OK for that very id. -/
theorem C29_rejection_has_reason (ls : List Lab) (s : State) (h : run init ls = some s) (k : Nat) (c : Call) (r : Bytes)
    (hk : s.calls[k]? = some c) (hr : c.pc = .ret (.rejected r)) : Seen s c.id false r :=
  (run_inv (fun _ _ _ hp hs => inv_step hp hs) inv_init h).rejd k c r hk (by simp [Call.verdict, hr])

/-- **C29.** A context error is returned only if the caller's context ended. -/
theorem C29_ctx_error (ls : List Lab) (s : State) (h : run init ls = some s) (k : Nat) (c : Call)
    (hk : s.calls[k]? = some c) (hr : c.pc = .ret .ctxErr) : c.timedOut = true :=
  (run_inv (fun _ _ _ hp hs => inv_step hp hs) inv_init h).cerr k c hk (by simp [Call.verdict, hr])

theorem marks_step {s s' : State} {l : Lab} (h : step s l = some s') :
    (s'.connDone = true ↔ s.connDone = true ∨ l = .disconnect) ∧ (∀ id ok r, Seen s' id ok r ↔ Seen s id ok r ∨ l = .ok id ok r) ∧
    (∀ k, (∃ c, s'.calls[k]? = some c ∧ c.timedOut = true) ↔ (∃ c, s.calls[k]? = some c ∧ c.timedOut = true) ∨ l = .timeout k) := by
  unfold Seen
  pub_cases h
  all_goals first
    | contradiction
    | (refine ⟨by simp, by simp [eq_comm], fun j => ?_⟩; simp only [reduceCtorEq, or_false]; grind [newCall])
    | (refine ⟨by simp, by simp [eq_comm], fun j => ?_⟩; grind [newCall])

theorem marks_run : ∀ {ls : List Lab} {s s' : State}, run s ls = some s' →
    (s'.connDone = true ↔ s.connDone = true ∨ .disconnect ∈ ls) ∧ (∀ id ok r, Seen s' id ok r ↔ Seen s id ok r ∨ .ok id ok r ∈ ls) ∧
    (∀ k, (∃ c, s'.calls[k]? = some c ∧ c.timedOut = true) ↔ (∃ c, s.calls[k]? = some c ∧ c.timedOut = true) ∨ .timeout k ∈ ls)
  | [], s, s', h => by
    simp only [run, Option.some.injEq] at h
    subst h
    simp
  | l :: ls, s, s', h => by
    simp only [run] at h
    split at h
    · cases h
    · rename_i s1 h1
      obtain ⟨a1, a2, a3⟩ := marks_step h1
      obtain ⟨b1, b2, b3⟩ := marks_run h
      refine ⟨?_, fun id ok r => ?_, fun k => ?_⟩
      · rw [b1, a1, List.mem_cons, or_assoc, eq_comm (a := l)]
      · rw [b2, a2, List.mem_cons, or_assoc, eq_comm (a := l)]
      · rw [b3, a3, List.mem_cons, or_assoc, eq_comm (a := l)]

/-- **C29: what the marks in these theorems mean.** On every schedule: the connection counts as lost exactly if it was lost, an OK as received exactly if it was received, and the context of a call as
ended exactly if it ended. -/
theorem C29_marks (ls : List Lab) (s : State) (h : run init ls = some s) :
    (s.connDone = true ↔ .disconnect ∈ ls) ∧ (∀ id ok r, Seen s id ok r ↔ .ok id ok r ∈ ls) ∧ (∀ (k : Nat) (c : Call), s.calls[k]? = some c → (c.timedOut = true ↔ .timeout k ∈ ls)) := by
  obtain ⟨h1, h2, h3⟩ := marks_run h
  refine ⟨by rw [h1]; simp [init], fun id ok r => by rw [h2]; simp [init, Seen], fun k c hc => ?_⟩
  have := h3 k
  simp only [init, List.getElem?_nil, reduceCtorEq, false_and, exists_false, false_or] at this
  rw [← this]
  constructor
  · intro ht
    exact ⟨c, hc, ht⟩
  · rintro ⟨c', hc', ht⟩
    rw [hc] at hc'
    cases hc'
    exact ht

/-- A call whose context ends after a rejecting OK of another event. -/
example : ∃ s, run init [.publish (b! "a"), .store 0, .write 0 false, .ok (b! "b") false (b! "no"), .timeout 0, .retCtx 0, .delete 0] = some s ∧ s.calls.map (fun c => (c.pc, c.timedOut)) = [(.ret .ctxErr, true)] :=
  ⟨_, rfl, by decide +kernel⟩

/-- Specification: what the relay said about an event. -/
def verdicts (s : Option State) : Option (List (Option Ret)) := s.map fun s => s.calls.map Call.verdict

/-- The full C29 is false: the connection drops before any OK and `Publish` reports success. -/
theorem C29_disconnect_reports_success : verdicts (run init [.publish (b! "a"), .store 0, .write 0 false, .disconnect, .retConn 0, .delete 0])
    = some [some .nil] := by decide +kernel

/-- The full C29 is false: the deadline passes between two statements of the callback of a rejecting OK and `Publish`
reports success. -/
theorem C29_race_reports_success : verdicts (run init [.publish (b! "a"), .store 0, .write 0 false, .ok (b! "a") false (b! "blocked"), .cb,
    .timeout 0, .retCtx 0, .delete 0]) = some [some .nil] := by decide +kernel

/-- Two publishes of different events: each gets its own verdict, whatever the order. -/
example : verdicts (run init [.publish (b! "a"), .publish (b! "b"), .store 1, .store 0, .write 0 false, .write 1 false,
    .ok (b! "b") false (b! "no"), .cb, .cb, .cb, .ok (b! "a") true [], .cb, .cb, .cb, .retCtx 0, .retCtx 1, .delete 0, .delete 1])
    = some [some .nil, some (.rejected (b! "no"))] := by decide +kernel

/-! ## C30 -/

/-- **C30 (no stealing).** An OK acts only on a call for that very id: if handling it changes call `k` in any way, the id is
that call's id. -/
theorem C30_ok_only_for_its_id (ls : List Lab) (s s' : State) (h : run init ls = some s) (id : Bytes) (ok : Bool) (r : Bytes)
    (hs : step s (.ok id ok r) = some s') : (∀ b, s'.reader = some b → ∃ c, s'.calls[b.k]? = some c ∧ c.id = id) ∧
      ∀ k : Nat, s'.calls[k]? ≠ s.calls[k]? → ∃ c, s.calls[k]? = some c ∧ c.id = id := by
  have hi := run_inv (fun _ _ _ hp hs => inv_step hp hs) inv_init h
  have h1 := hi.tab
  pub_cases hs
  all_goals first
    | contradiction
    | (constructor <;> grind)

/-- The ids of the calls are pairwise distinct. -/
def DistinctIds (s : State) : Prop := ∀ (i j : Nat) (a b : Call), s.calls[i]? = some a → s.calls[j]? = some b → a.id = b.id → i = j

/-- A call that is between storing and deleting its callback. -/
def Call.pending (c : Call) : Prop := c.pc = .write ∨ c.pc = .wait ∨ ∃ r, c.pc = .delete r

/-- Invariant used in the proofs; models no code. -/
structure Inv2 (s : State) : Prop where
  tab : ∀ id k, s.table id = some k → ∃ c, s.calls[k]? = some c ∧ c.id = id
  rd : ∀ b, s.reader = some b → b.k < s.calls.length
  own : DistinctIds s → ∀ (k : Nat) (c : Call), s.calls[k]? = some c → c.pending → s.table c.id = some k
  seen : ∀ (k : Nat) (c : Call), s.calls[k]? = some c → c.okSeen = true → c.ctxDone = true ∨ ∃ b, s.reader = some b ∧ b.k = k

theorem distinct_back {s s' : State} {l : Lab} (h : step s l = some s') (hd : DistinctIds s') : DistinctIds s := by
  unfold DistinctIds at *
  intro i j a b ha hb hab
  have key : ∀ (k : Nat) (c : Call), s.calls[k]? = some c → ∃ c', s'.calls[k]? = some c' ∧ c'.id = c.id := by
    intro k c hc
    clear hd ha hb hab
    pub_cases h
    all_goals first
      | contradiction
      | exact ⟨c, hc, rfl⟩
      | grind
  obtain ⟨a', ha', ea⟩ := key i a ha
  obtain ⟨b', hb', eb⟩ := key j b hb
  exact hd i j a' b' ha' hb' (by rw [ea, eb, hab])

set_option maxHeartbeats 2000000 in
theorem inv2_step {s s' : State} {l : Lab} (hi : Inv2 s) (h : step s l = some s') : Inv2 s' := by
  obtain ⟨h1, h2, h3, h4⟩ := hi
  have hb := distinct_back h
  refine ⟨?_, ?_, ?_, ?_⟩
  · clear hb h3 h4
    pub_cases h
    all_goals first
      | contradiction
      | exact h1
      | grind
  · clear hb h3 h4
    pub_cases h
    all_goals first
      | contradiction
      | exact h2
      | grind
  · intro hd
    have h3 := h3 (hb hd)
    have hd0 := hb hd
    unfold DistinctIds at hd hd0
    clear hb h4
    pub_cases h
    all_goals first
      | contradiction
      | exact h3
      | grind [Call.pending, newCall]
  · clear hb h3
    pub_cases h
    all_goals first
      | contradiction
      | exact h4
      | grind [newCall]

theorem inv2_init : Inv2 init := by constructor <;> simp [init]

/-- **C30 (every pending Publish whose OK arrives completes, partial: distinct ids).** With pairwise distinct event ids, on
every schedule: an OK for a pending call is taken by that call's callback, and once the callback has run the call can
return. -/
theorem C30_ok_reaches_its_call_partial (ls : List Lab) (s : State) (h : run init ls = some s) (hd : DistinctIds s) (k : Nat) (c : Call)
    (hk : s.calls[k]? = some c) (hp : c.pending) (hr : s.reader = none) (ok : Bool) (reason : Bytes) :
    ∃ s1 s2 s3 s4 c', step s (.ok c.id ok reason) = some s1 ∧ step s1 .cb = some s2 ∧ step s2 .cb = some s3 ∧ step s3 .cb = some s4 ∧
      s4.calls[k]? = some c' ∧ c'.ctxDone = true ∧ c'.gotOk = true ∧ c'.pc = c.pc ∧ (ok = true → c'.err = c.err) ∧ (ok = false → c'.err = some reason) := by
  have hi := run_inv (fun _ _ _ hp hs => inv2_step hp hs) inv2_init h
  have ht := hi.own hd k c hk hp
  have hlt := (List.getElem?_eq_some_iff.1 hk).1
  have ge : ∀ (l : List Call) (x : Call), l.length = s.calls.length → (l.set k x)[k]? = some x := by
    intro l x hl; rw [List.getElem?_set_self (by omega)]
  have e1 : step s (.ok c.id ok reason) = some { s with
      seen := s.seen ++ [(c.id, ok, reason)]
      reader := some { k := k, ok := ok, reason := reason, stage := 0 }
      calls := s.calls.set k { c with okSeen := true } } := by
    simp [step, hr, ht, hk]
  refine ⟨_, _, _, _, _, e1, by simp [step, ge _ _ rfl]; rfl, by simp [step, hlt]; rfl, by simp [step, hlt]; rfl, by simp [hlt]; rfl, ?_⟩
  simp
  cases ok <;> simp

/-- **C30 (completion).** On every schedule: once the reader is idle, a call whose OK was taken can return as soon as it is
waiting. -/
theorem C30_completes (ls : List Lab) (s : State) (h : run init ls = some s) (k : Nat) (c : Call)
    (hk : s.calls[k]? = some c) (hseen : c.okSeen = true) (hr : s.reader = none) (hw : c.pc = .wait) :
    ∃ s', step s (.retCtx k) = some s' := by
  have hi := run_inv (fun _ _ _ hp hs => inv2_step hp hs) inv2_init h
  rcases hi.seen k c hk hseen with hc | ⟨b, hb, _⟩
  · simp [step, hk, hw, hc]
  · rw [hr] at hb; cases hb

/-- The full C30 is false: two concurrent publishes of the same event share one callback slot. The OK completes only the
second; nothing in the state will ever complete the first but its timeout. -/
theorem C30_same_id_starves : ∃ s, run init [.publish (b! "a"), .publish (b! "a"), .store 0, .store 1, .write 0 false, .write 1 false,
    .ok (b! "a") true [], .cb, .cb, .cb, .retCtx 1, .delete 1] = some s ∧ s.calls.map Call.verdict = [none, some .nil] ∧
    s.table (b! "a") = none ∧ ∃ c, s.calls[0]? = some c ∧ c.pc = .wait ∧ c.ctxDone = false :=
  ⟨_, rfl, by decide +kernel, by decide +kernel, _, rfl, by decide +kernel, by decide +kernel⟩

end GoNostr.Pub
