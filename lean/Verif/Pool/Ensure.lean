import Verif.Relay.Lemmas
/-!
# C39, C40: `EnsureRelay` and the penalty box

Machine of any number of concurrent `EnsureRelay` calls (pool.go:165-207), the relay table, disconnections and the penalty
ticker (pool.go:104-132).

Simplifications: urls are already normalized; `namedLock` is one mutex per url (the real one may make calls for different urls wait
for each other too); `Connect` is one action with a nondeterministic outcome; penalties are natural numbers of seconds instead of
`float64` (all values the code computes are integers, exact below 2^53).
-/

set_option autoImplicit false

namespace GoNostr.Ensure

/-- What a call returns. -/
inductive Ret
  | relay (r : Nat)
  | refused
  | failed
  deriving DecidableEq, Repr

/-- Waiting for the named lock, looking at the table, connecting, storing the new relay, returned. -/
inductive CPc
  | lock | check | dial
  | store (r : Nat)
  | ret (x : Ret)
  deriving DecidableEq, Repr

/-- A call of `EnsureRelay`: its url and where it is. -/
structure Call where
  url : Bytes
  pc : CPc
  deriving DecidableEq, Repr

/-- A relay object that was connected by the pool. -/
structure Conn where
  url : Bytes
  connected : Bool
  deriving DecidableEq, Repr

/-- An entry of the penalty box: url, failures, seconds remaining. -/
structure Penalty where
  url : Bytes
  fails : Nat
  remaining : Nat
  deriving DecidableEq, Repr

/-- `table u = none`: no entry; `some none`: a nil entry. `failures` is the history of failed connections, newest first. -/
structure State where
  table : Bytes → Option (Option Nat)
  conns : List Conn
  calls : List Call
  lock : Bytes → Option Nat
  box : Option (List Penalty)
  sleep : Nat
  failures : List Bytes

/-- A pool with or without `WithPenaltyBox` (pool.go:61-77, 104-106). -/
def init (penalty : Bool) : State where
  table := fun _ => none
  conns := []
  calls := []
  lock := fun _ => none
  box := if penalty then some [] else none
  sleep := 30
  failures := []

/-- `v, _ := pool.penaltyBox[nm]`: failures and remaining seconds, zero if absent. -/
def lookup (b : List Penalty) (u : Bytes) : Nat × Nat :=
  match b.find? (fun p => p.url = u) with
  | none => (0, 0)
  | some p => (p.fails, p.remaining)

/-- `pool.penaltyBox[nm] = …` -/
def put (b : List Penalty) (p : Penalty) : List Penalty := p :: b.filter (fun q => q.url ≠ p.url)

/-- pool.go:198-201: one more failure, `30 + 2^(v[0]+1)` seconds. -/
def penalize (b : List Penalty) (u : Bytes) : List Penalty :=
  put b { url := u, fails := (lookup b u).1 + 1, remaining := 30 + 2 ^ ((lookup b u).1 + 1) }

/-- One round of the ticker (pool.go:111-129): the new box and the next sleep. -/
def tick (b : List Penalty) (sleep : Nat) : List Penalty × Nat :=
  (b.map (fun p => { p with remaining := p.remaining - sleep }),
   (b.map (fun p => p.remaining - sleep)).foldl (fun n r => if 0 < r ∧ r < n then r else n) 300)

/-- The atomic actions of the machine; its step function says which lines each of them is. -/
inductive Lab
  | call (u : Bytes)
  | acquire (k : Nat)
  | check (k : Nat)
  | dial (k : Nat) (ok : Bool)
  | store (k : Nat)
  | disconnect (r : Nat)
  | tick

/-- Assignment to one component of the state. -/
def State.setC (s : State) (k : Nat) (c : Call) : State := { s with calls := s.calls.set k c }

/-- Return and unlock (`defer namedLock(nm)()`, pool.go:167). -/
def State.finish (s : State) (k : Nat) (c : Call) (x : Ret) : State :=
  { s with
    calls := s.calls.set k { c with pc := .ret x }
    lock := fun u => if u = c.url then none else s.lock u }

/-- Is relay `r` connected (`IsConnected`)? -/
def State.up (s : State) (r : Nat) : Bool :=
  match s.conns[r]? with
  | none => false
  | some c => c.connected

/-- Is the url being refused (pool.go:171-178)? -/
def State.penalized (s : State) (u : Bytes) : Bool :=
  match s.box with
  | none => false
  | some b => decide (0 < (lookup b u).2)

/-- `EnsureRelay` (pool.go:165-208), one atomic action at a time; `disconnect` is the relay, `tick` the loop of the penalty box (pool.go:104-142). -/
def step (s : State) : Lab → Option State
  | .call u => some { s with calls := s.calls ++ [{ url := u, pc := .lock }] }
  | .acquire k => match s.calls[k]? with
    | none => none
    | some c => if c.pc = .lock ∧ s.lock c.url = none then some { s with
          calls := s.calls.set k { c with pc := .check }
          lock := fun u => if u = c.url then some k else s.lock u }
      else none
  -- pool.go:169-182
  | .check k => match s.calls[k]? with
    | none => none
    | some c => if c.pc = .check then
        (match s.table c.url with
        | none => some (s.setC k { c with pc := .dial })
        | some none => if s.penalized c.url then some (s.finish k c .refused) else some (s.setC k { c with pc := .dial })
        | some (some r) => if s.up r then some (s.finish k c (.relay r)) else some (s.setC k { c with pc := .dial }))
      else none
  -- pool.go:186-203
  | .dial k ok => match s.calls[k]? with
    | none => none
    | some c => if c.pc = .dial then
        (if ok then some { s with
            conns := s.conns ++ [{ url := c.url, connected := true }]
            calls := s.calls.set k { c with pc := .store s.conns.length } }
        else some { s with
            box := s.box.map (fun b => penalize b c.url)
            failures := c.url :: s.failures
            calls := s.calls.set k { c with pc := .ret .failed }
            lock := fun u => if u = c.url then none else s.lock u })
      else none
  -- pool.go:205-206
  | .store k => match s.calls[k]? with
    | none => none
    | some c => match c.pc with
      | .store r => some { s with
          table := fun u => if u = c.url then some (some r) else s.table u
          calls := s.calls.set k { c with pc := .ret (.relay r) }
          lock := fun u => if u = c.url then none else s.lock u }
      | _ => none
  | .disconnect r => match s.conns[r]? with
    | none => none
    | some c => some { s with conns := s.conns.set r { c with connected := false } }
  | .tick => match s.box with
    | none => none
    | some b => some { s with
        box := some (tick b s.sleep).1
        sleep := (tick b s.sleep).2 }

/-- A schedule: the actions one after the other. -/
def run (s : State) : List Lab → Option State
  | [] => some s
  | l :: ls => match step s l with
    | none => none
    | some s' => run s' ls

theorem run_inv {P : State → Prop} (hs : ∀ s l s', P s → step s l = some s' → P s') :
    ∀ {ls : List Lab} {s s' : State}, P s → run s ls = some s' → P s' := by
  intro ls
  induction ls with
  | nil => intro s s' hp h; simp only [run, Option.some.injEq] at h; exact h ▸ hp
  | cons l ls ih =>
    intro s s' hp h
    simp only [run] at h
    split at h
    · cases h
    · rename_i s1 h1
      exact ih (hs s l s1 hp h1) h

macro "en_cases" h:ident : tactic => `(tactic| (
  simp only [step, State.setC, State.finish] at $h:ident
  (repeat' split at $h:ident) <;> (try simp only [reduceCtorEq, Option.some.injEq] at $h:ident) <;> (try subst $h:ident)))

/-! ## C40 -/

/-- Does the call hold the lock? -/
def CPc.holds : CPc → Bool
  | .check | .dial | .store _ => true
  | _ => false

/-- Some call is about to store relay `r` for the url. -/
def Storing (l : List Call) (u : Bytes) (r : Nat) : Prop := ∃ (k : Nat), l[k]? = some { url := u, pc := .store r }

theorem storing_append {l : List Call} {u : Bytes} {r : Nat} (c : Call) (h : Storing l u r) : Storing (l ++ [c]) u r := by
  obtain ⟨k, h⟩ := h
  have : k < l.length := by
    rcases Nat.lt_or_ge k l.length with h' | h'
    · exact h'
    · rw [List.getElem?_eq_none h'] at h; cases h
  exact ⟨k, by rw [List.getElem?_append_left this]; exact h⟩

theorem storing_set {l : List Call} {u : Bytes} {r k : Nat} {c : Call} (a : Call) (hc : l[k]? = some c)
    (hn : c.pc ≠ .store r ∨ c.url ≠ u) (h : Storing l u r) : Storing (l.set k a) u r := by
  obtain ⟨j, h⟩ := h
  have : k ≠ j := by
    rintro rfl
    rw [hc] at h
    cases Option.some.inj h
    simp at hn
  exact ⟨j, by rw [List.getElem?_set_ne this]; exact h⟩

theorem storing_new {l : List Call} {k : Nat} {c : Call} (u : Bytes) (r : Nat) (hc : l[k]? = some c) :
    Storing (l.set k { url := u, pc := .store r }) u r := by
  have : k < l.length := by
    rcases Nat.lt_or_ge k l.length with h' | h'
    · exact h'
    · rw [List.getElem?_eq_none h'] at hc; cases hc
  exact ⟨k, by simp [this]⟩

theorem storing_elim {s : State} (h : ∀ (k : Nat) (c : Call), s.calls[k]? = some c → c.pc.holds = true → s.lock c.url = some k)
    {k : Nat} {c : Call} (hc : s.calls[k]? = some c) (hh : c.pc.holds = true) {r : Nat} (hs : Storing s.calls c.url r) :
    c.pc = .store r := by
  obtain ⟨j, hj⟩ := hs
  have h1 := h k c hc hh
  have h2 := h j _ hj rfl
  simp only at h2
  rw [h1] at h2
  cases h2
  rw [hc] at hj
  rw [Option.some.inj hj]

/-- Relay `r` was connected for this url. -/
def Known (l : List Conn) (r : Nat) (u : Bytes) : Prop := ∃ c, l[r]? = some c ∧ c.url = u

theorem known_append {l : List Conn} {r : Nat} {u : Bytes} (c : Conn) (h : Known l r u) : Known (l ++ [c]) r u := by
  obtain ⟨d, h, hu⟩ := h
  have : r < l.length := by
    rcases Nat.lt_or_ge r l.length with h' | h'
    · exact h'
    · rw [List.getElem?_eq_none h'] at h; cases h
  exact ⟨d, by rw [List.getElem?_append_left this]; exact h, hu⟩

theorem known_new (l : List Conn) (c : Conn) : Known (l ++ [c]) l.length c.url := ⟨c, by simp, rfl⟩

theorem known_set {l : List Conn} {r r' : Nat} {u : Bytes} {c : Conn} (a : Conn) (hc : l[r']? = some c) (ha : a.url = c.url)
    (h : Known l r u) : Known (l.set r' a) r u := by
  obtain ⟨d, h, hu⟩ := h
  by_cases he : r' = r
  · subst he
    have : r' < l.length := by
      rcases Nat.lt_or_ge r' l.length with h' | h'
      · exact h'
      · rw [List.getElem?_eq_none h'] at h; cases h
    rw [hc] at h
    exact ⟨a, by simp [this], by rw [ha, Option.some.inj h, hu]⟩
  · exact ⟨d, by rw [List.getElem?_set_ne he]; exact h, hu⟩

/-- Invariant used in the proofs; models no code. -/
structure Inv (s : State) : Prop where
  lock : ∀ (k : Nat) (c : Call), s.calls[k]? = some c → c.pc.holds = true → s.lock c.url = some k
  tab : ∀ u r, s.table u = some (some r) → Known s.conns r u
  fresh : ∀ (k : Nat) (c : Call) r, s.calls[k]? = some c → c.pc = .store r → Known s.conns r c.url
  live : ∀ (r : Nat) (d : Conn), s.conns[r]? = some d → d.connected = true →
    s.table d.url = some (some r) ∨ Storing s.calls d.url r
  dial : ∀ (k : Nat) (c : Call), s.calls[k]? = some c → c.pc = .dial → ∀ (r : Nat) (d : Conn), s.conns[r]? = some d → d.url = c.url →
    d.connected = false
  store : ∀ (k : Nat) (c : Call) r, s.calls[k]? = some c → c.pc = .store r → ∀ (r' : Nat) (d : Conn), s.conns[r']? = some d →
    d.url = c.url → d.connected = true → r' = r

theorem up_spec (s : State) (r : Nat) : s.up r = true ↔ ∃ c, s.conns[r]? = some c ∧ c.connected = true := by
  unfold State.up
  split <;> simp_all

set_option maxHeartbeats 2000000 in
theorem inv_step {s s' : State} {l : Lab} (hi : Inv s) (h : step s l = some s') : Inv s' := by
  obtain ⟨h1, h2, h3, h4, h5, h6⟩ := hi
  have hu := up_spec s
  have a1 := @storing_set s.calls
  have a2 := @storing_new s.calls
  have a3 := @storing_append s.calls
  have a4 := @storing_elim s h1
  have a5 := @known_append s.conns
  have a6 := known_new s.conns
  have a7 := @known_set s.conns
  en_cases h
  all_goals first
    | contradiction
    | exact ⟨h1, h2, h3, h4, h5, h6⟩
    | (refine ⟨?_, ?_, ?_, ?_, ?_, ?_⟩
       · clear h2 h3 h4 h5 h6 a1 a2 a3 a4 a5 a6 a7 hu; grind [CPc.holds]
       · clear h1 h4 h5 h6 a1 a2 a3 a4 hu; grind
       · clear h1 h2 h4 h5 h6 a1 a2 a3 a4 hu; grind
       · clear a5 a6 a7; simp only [Known] at h2 h3; grind [CPc.holds]
       · clear a5 a6 a7; simp only [Known] at h2 h3; grind [CPc.holds]
       · clear a5 a6 a7; simp only [Known] at h2 h3; grind [CPc.holds])


theorem inv_init (p : Bool) : Inv (init p) := by
  constructor <;> simp [init]

theorem inv_run {p : Bool} {ls : List Lab} {s : State} (h : run (init p) ls = some s) : Inv s :=
  run_inv (P := Inv) (fun _ _ _ => inv_step) (inv_init p) h

/-- **C40** (one live connection). In every reachable state, two connected relays of the pool for the same url are the same
relay, and at most one call per url is connecting. -/
theorem C40_one_live_connection {p : Bool} {ls : List Lab} {s : State} (h : run (init p) ls = some s) :
    (∀ (r r' : Nat) (d d' : Conn), s.conns[r]? = some d → s.conns[r']? = some d' → d.url = d'.url → d.connected = true →
      d'.connected = true → r = r') ∧
    (∀ (k k' : Nat) (c c' : Call), s.calls[k]? = some c → s.calls[k']? = some c' → c.url = c'.url → c.pc = .dial → c'.pc = .dial →
      k = k') := by
  have hi := inv_run h
  constructor
  · intro r r' d d' h1 h2 hu hc hc'
    rcases hi.live r d h1 hc with a | ⟨k, a⟩
    · rcases hi.live r' d' h2 hc' with b | ⟨k, b⟩
      · rw [hu, b] at a
        cases a; rfl
      · exact hi.store k _ r' b rfl r d h1 hu hc
    · exact (hi.store k _ r a rfl r' d' h2 hu.symm hc').symm
  · intro k k' c c' h1 h2 hu hp hp'
    have a := hi.lock k c h1 (by rw [hp]; rfl)
    have b := hi.lock k' c' h2 (by rw [hp']; rfl)
    rw [hu, b] at a
    cases a; rfl

/-- **C40** (reuse, replacement). When a call looks at the table: a connected relay for its url is returned and nothing is dialed;
a disconnected or missing one is dialed; a successful dial ends with the table mapping the url to the new, returned relay, and
all other urls keep their entry. -/
theorem C40_reuse_or_replace {p : Bool} {ls : List Lab} {s s' : State} {k : Nat} {c : Call} (h : run (init p) ls = some s)
    (hk : s.calls[k]? = some c) :
    (∀ (r : Nat) (d : Conn), c.pc = .check → s.conns[r]? = some d → d.url = c.url → d.connected = true →
      step s (.check k) = some s' → s'.calls[k]? = some { c with pc := .ret (.relay r) } ∧ s'.conns = s.conns) ∧
    (c.pc = .check → (∀ (r : Nat) (d : Conn), s.conns[r]? = some d → d.url = c.url → d.connected = false) →
      step s (.check k) = some s' → s.table c.url ≠ some none → s'.calls[k]? = some { c with pc := .dial }) ∧
    (∀ r, c.pc = .store r → step s (.store k) = some s' → s'.table c.url = some (some r) ∧
      s'.calls[k]? = some { c with pc := .ret (.relay r) } ∧ ∀ u, u ≠ c.url → s'.table u = s.table u) := by
  have hi := inv_run h
  have hlt : k < s.calls.length := by
    rcases Nat.lt_or_ge k s.calls.length with h' | h'
    · exact h'
    · rw [List.getElem?_eq_none h'] at hk; cases hk
  refine ⟨?_, ?_, ?_⟩
  · intro r d hp hr hu hc hs
    have : s.table c.url = some (some r) := by
      rcases hi.live r d hr hc with a | a
      · rw [← hu]; exact a
      · rw [hu] at a
        have := storing_elim hi.lock hk (by rw [hp]; rfl) a
        rw [hp] at this; cases this
    have hup : s.up r = true := (up_spec s r).2 ⟨d, hr, hc⟩
    simp only [step, hk, hp, if_true, this, hup, State.finish, Option.some.injEq] at hs
    subst hs
    simp [hlt]
  · intro hp hc hs hn
    simp only [step, hk, hp, if_true] at hs
    split at hs
    · simp only [Option.some.injEq, State.setC] at hs; subst hs; simp [hlt]
    · rename_i ht; exact absurd ht hn
    · rename_i r ht
      have hup : s.up r = false := by
        cases hb : s.up r with
        | false => rfl
        | true =>
          obtain ⟨d, h1, h2⟩ := (up_spec s r).1 hb
          obtain ⟨d', h3, h4⟩ := hi.tab _ _ ht
          rw [h1] at h3; cases h3
          rw [hc r d h1 h4] at h2; cases h2
      simp only [hup, State.setC, Option.some.injEq] at hs
      simp at hs
      subst hs; simp [hlt]
  · intro r hp hs
    simp only [step, hk, hp, Option.some.injEq] at hs
    subst hs
    refine ⟨by simp, by simp [hlt], fun u hu => by simp [hu]⟩

/-! ## C39 -/

/-- The pool never puts a nil relay in its table, the only entries for which the penalty box is consulted. -/
def NoNil (s : State) : Prop := (∀ u, s.table u ≠ some none) ∧ ∀ (k : Nat) (c : Call), s.calls[k]? = some c → c.pc ≠ .ret .refused

theorem noNil_step {s s' : State} {l : Lab} (hi : NoNil s) (h : step s l = some s') : NoNil s' := by
  obtain ⟨h1, h2⟩ := hi
  en_cases h
  all_goals first
    | contradiction
    | exact ⟨h1, h2⟩
    | (constructor <;> grind)

/-- **C39 refuted.** Whatever happened before - in particular right after any number of failed connections, with any penalty
remaining - no call of `EnsureRelay` is ever refused. -/
theorem C39_never_refused {p : Bool} {ls : List Lab} {s : State} (h : run (init p) ls = some s) :
    ∀ c ∈ s.calls, c.pc ≠ .ret .refused := by
  intro c hc
  obtain ⟨k, hk, rfl⟩ := List.getElem_of_mem hc
  exact (run_inv (P := NoNil) (fun _ _ _ => noNil_step) (by constructor <;> simp [init]) h).2 k _ (List.getElem?_eq_getElem hk)

/-- **C39 refuted**, concretely: with the penalty box on, a relay with 32 seconds of penalty remaining is dialed again at once. -/
theorem C39_redials_at_once : ∃ ls s, run (init true) ls = some s ∧ s.box = some [⟨b! "u", 1, 32⟩] ∧
    s.calls = [⟨b! "u", .ret .failed⟩, ⟨b! "u", .dial⟩] := by
  refine ⟨[.call (b! "u"), .acquire 0, .check 0, .dial 0 false, .call (b! "u"), .acquire 1, .check 1], ?_⟩
  exact ⟨_, rfl, by decide +kernel, by decide +kernel⟩

theorem lookup_put_same (b : List Penalty) (p : Penalty) : lookup (put b p) p.url = (p.fails, p.remaining) := by
  simp [lookup, put]

theorem find_filter_ne (b : List Penalty) (u v : Bytes) (h : u ≠ v) :
    (b.filter (fun q => q.url ≠ v)).find? (fun q => q.url = u) = b.find? (fun q => q.url = u) := by
  rw [List.find?_filter]
  congr
  funext q
  by_cases hq : q.url = u
  · simp [hq, h]
  · simp [hq]

theorem lookup_put_ne (b : List Penalty) (p : Penalty) (u : Bytes) (h : u ≠ p.url) : lookup (put b p) u = lookup b u := by
  have h2 : ¬ p.url = u := fun e => h e.symm
  unfold lookup put
  rw [List.find?_cons_of_neg (by simpa using h2), find_filter_ne b u p.url h]

theorem lookup_tick (b : List Penalty) (n : Nat) (u : Bytes) : lookup (tick b n).1 u = ((lookup b u).1, (lookup b u).2 - n) := by
  simp only [lookup, tick]
  induction b with
  | nil => simp
  | cons p b ih =>
    by_cases hp : p.url = u
    · simp [hp]
    · simpa [hp] using ih

/-- Failures recorded for a url. -/
def failCount (s : State) (u : Bytes) : Nat := s.failures.count u

/-- The recorded number of failures is the number of failed connections of the url. -/
def BoxInv (s : State) : Prop := ∀ b, s.box = some b → ∀ u, (lookup b u).1 = failCount s u

theorem penalize_count {b : List Penalty} {f : List Bytes} (h : ∀ u, (lookup b u).1 = f.count u) (c u : Bytes) :
    (lookup (penalize b c) u).1 = (c :: f).count u := by
  unfold penalize
  by_cases hu : u = c
  · subst hu
    rw [lookup_put_same b ⟨u, _, _⟩, List.count_cons_self, h]
  · rw [lookup_put_ne _ _ _ (by simpa using hu), List.count_cons_of_ne (fun e => hu e.symm), h]

theorem boxInv_step {s s' : State} {l : Lab} (hi : BoxInv s) (h : step s l = some s') : BoxInv s' := by
  unfold BoxInv failCount at hi ⊢
  en_cases h
  all_goals first
    | contradiction
    | exact hi
    | (intro b hb u
       simp only [Option.map_eq_some_iff] at hb
       obtain ⟨b0, hb0, rfl⟩ := hb
       exact penalize_count (hi b0 hb0) _ u)
    | (intro b hb u
       simp only [Option.some.injEq] at hb
       subst hb
       rw [lookup_tick]
       exact hi _ (by assumption) u)

/-- **C39** (the penalty itself, partial). With the penalty box on, the failed connection that makes it the `n`-th for its url sets the
penalty of that url to exactly `30 + 2^n` seconds, so it grows with every failure; the ticker only subtracts the time slept and
never changes the failure count. Missing: the penalty is never enforced (`C39_never_refused`). -/
theorem C39_penalty_grows_partial {ls : List Lab} {s : State} (h : run (init true) ls = some s) :
    (∀ (k : Nat) (c : Call) s', s.calls[k]? = some c → step s (.dial k false) = some s' →
      ∃ b, s'.box = some b ∧ lookup b c.url = (failCount s' c.url, 30 + 2 ^ failCount s' c.url) ∧
        failCount s' c.url = failCount s c.url + 1) ∧
    (∀ b s', s.box = some b → step s .tick = some s' →
      ∃ b', s'.box = some b' ∧ ∀ u, lookup b' u = ((lookup b u).1, (lookup b u).2 - s.sleep)) := by
  have hi := run_inv (P := BoxInv) (fun _ _ _ => boxInv_step) (by intro b hb u; simp [init] at hb; subst hb; simp [lookup, failCount, init]) h
  have hb : s.box ≠ none := by
    refine run_inv (P := fun s => s.box ≠ none) ?_ (by simp [init]) h
    intro s l s' hn hs
    en_cases hs
    all_goals first
      | contradiction
      | exact hn
      | simp_all
  constructor
  · intro k c s' hk hs
    cases hbx : s.box with
    | none => exact absurd hbx hb
    | some b =>
      have h1 := hi b hbx c.url
      simp only [step, hk] at hs
      split at hs
      · simp only [Bool.false_eq_true, if_false, Option.some.injEq] at hs
        subst hs
        refine ⟨penalize b c.url, by simp [hbx], ?_, ?_⟩
        · simp only [penalize, failCount, List.count_cons_self]
          rw [lookup_put_same b ⟨c.url, _, _⟩, h1]
          rfl
        · simp [failCount]
      · cases hs
  · intro b s' hbx hs
    simp only [step, hbx, Option.some.injEq] at hs
    subst hs
    exact ⟨_, rfl, lookup_tick b s.sleep⟩

theorem foldl_least : ∀ (l : List Nat) (n : Nat), (l.foldl (fun n r => if 0 < r ∧ r < n then r else n) n ≤ n) ∧
    (∀ r ∈ l, 0 < r → l.foldl (fun n r => if 0 < r ∧ r < n then r else n) n ≤ r) ∧
    (l.foldl (fun n r => if 0 < r ∧ r < n then r else n) n = n ∨ (l.foldl (fun n r => if 0 < r ∧ r < n then r else n) n ∈ l ∧ 0 < l.foldl (fun n r => if 0 < r ∧ r < n then r else n) n))
  | [], n => by simp
  | a :: l, n => by
    obtain ⟨h1, h2, h3⟩ := foldl_least l (if 0 < a ∧ a < n then a else n)
    simp only [List.foldl_cons]
    have hle : (if 0 < a ∧ a < n then a else n) ≤ n := by split <;> omega
    refine ⟨Nat.le_trans h1 hle, ?_, ?_⟩
    · intro r hr hp
      rcases List.mem_cons.1 hr with rfl | hr
      · refine Nat.le_trans h1 ?_
        split <;> omega
      · exact h2 r hr hp
    · rcases h3 with h | ⟨h, hp⟩
      · by_cases hc : 0 < a ∧ a < n
        · rw [if_pos hc] at h ⊢
          exact .inr ⟨by rw [h]; exact List.mem_cons_self .., by rw [h]; exact hc.1⟩
        · rw [if_neg hc] at h ⊢
          exact .inl h
      · exact .inr ⟨List.mem_cons_of_mem _ h, hp⟩

/-- **C39** (when the ticker looks again, partial). After a round the ticker sleeps until the first of the running penalties ends, and for 300 seconds if none ends before that: never past the end of a
penalty it knows of. -/
theorem C39_next_round_partial {s s' : State} {b b' : List Penalty} (hb : s.box = some b) (h : step s .tick = some s') (hb' : s'.box = some b') :
    s'.sleep ≤ 300 ∧ 0 < s'.sleep ∧ (∀ p ∈ b', 0 < p.remaining → s'.sleep ≤ p.remaining) ∧ (s'.sleep = 300 ∨ ∃ p ∈ b', p.remaining = s'.sleep) := by
  simp only [step, hb, Option.some.injEq] at h
  subst h
  simp only [Option.some.injEq] at hb'
  subst hb'
  obtain ⟨h1, h2, h3⟩ := foldl_least (b.map (fun p => p.remaining - s.sleep)) 300
  refine ⟨h1, ?_, ?_, ?_⟩
  · rcases h3 with h | h
    · show 0 < (tick b s.sleep).2
      simp only [tick]
      omega
    · exact h.2
  · intro p hp hr
    simp only [tick, List.mem_map] at hp
    obtain ⟨q, hq, rfl⟩ := hp
    exact h2 _ (List.mem_map.2 ⟨q, hq, rfl⟩) hr
  · rcases h3 with h | h
    · exact .inl h
    · obtain ⟨q, hq, e⟩ := List.mem_map.1 h.1
      exact .inr ⟨{ q with remaining := q.remaining - s.sleep }, by simp only [tick]; exact List.mem_map.2 ⟨q, hq, rfl⟩, e⟩

/-- Two relays fail and a third later: after the round the ticker sleeps for the shortest of what is left. -/
example : ∃ s s', run (init true) [.call (b! "u"), .acquire 0, .check 0, .dial 0 false, .call (b! "u"), .acquire 1, .check 1, .dial 1 false,
      .call (b! "v"), .acquire 2, .check 2, .dial 2 false] = some s ∧ step s .tick = some s' ∧ s'.box = some [⟨b! "v", 1, 2⟩, ⟨b! "u", 2, 4⟩] ∧ s'.sleep = 2 :=
  ⟨_, _, rfl, rfl, by decide +kernel, by decide +kernel⟩

/-- **C39 is false** (a second way). A round subtracts all the time slept from every penalty, also from one that began during the sleep. After a round with no penalty running the ticker sleeps 300
seconds, so a connection that fails at the very end of that sleep has its 32 seconds lifted at once. -/
theorem C39_lifted_early : ∃ s s' b b', run (init true) [.tick, .call (b! "u"), .acquire 0, .check 0, .dial 0 false] = some s ∧ s.box = some b ∧ lookup b (b! "u") = (1, 32) ∧
    step s .tick = some s' ∧ s'.box = some b' ∧ lookup b' (b! "u") = (1, 0) :=
  ⟨_, _, _, _, rfl, rfl, by decide +kernel, rfl, rfl, by decide +kernel⟩

/-- Two failures: 34 seconds. -/
example : ∃ s, run (init true) [.call (b! "u"), .acquire 0, .check 0, .dial 0 false, .tick, .call (b! "u"), .acquire 1, .check 1,
    .dial 1 false] = some s ∧ s.box = some [⟨b! "u", 2, 34⟩] ∧ s.sleep = 2 :=
  ⟨_, rfl, by decide +kernel, by decide +kernel⟩

/-- Connect, disconnect, reconnect: the table holds the new relay. -/
example : ∃ s, run (init false) [.call (b! "u"), .acquire 0, .check 0, .dial 0 true, .store 0, .call (b! "u"), .acquire 1, .check 1,
    .disconnect 0, .call (b! "u"), .acquire 2, .check 2, .dial 2 true, .store 2] = some s ∧ s.table (b! "u") = some (some 1) ∧
    s.calls.map (fun c => c.pc) = [.ret (.relay 0), .ret (.relay 0), .ret (.relay 1)] :=
  ⟨_, rfl, by decide +kernel, by decide +kernel⟩

end GoNostr.Ensure
