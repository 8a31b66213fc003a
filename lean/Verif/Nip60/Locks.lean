import Mathlib.Data.List.Basic
/-!
# C185: the two locks of a wallet

A `Wallet` has two mutexes: its own (`w.Lock`, taken to handle an event from a relay and to call `PublishUpdate`) and `tokensMu` (taken to choose, spend and add tokens). This file models who takes which in what order, for any number of goroutines running any operations in any
interleaving, and says exactly when the wallet can get stuck for good.

Simplifications: what is done between the lock operations is left out (C82, C124, C170 are about that); every such stretch ends: mints answer or time out and `PublishUpdate` returns without calling the wallet's methods.
-/

set_option autoImplicit false

namespace GoNostr.Nip60.Locks

/-- The wallet's own mutex (wallet.go:20) and `tokensMu` (wallet.go:21). -/
inductive Mutex
  | wallet | tokens
  deriving DecidableEq, Repr

/-- `Lock` and `Unlock` of `sync.Mutex`. -/
inductive Instr
  | lock (m : Mutex)
  | unlock (m : Mutex)
  deriving DecidableEq, Repr

/-- What a goroutine does with a wallet. -/
inductive Op
  /-- handles a token event that a relay sent and that could be read -/
  | token
  /-- handles any other event or an unreadable one, or is one of `AddMint`, `RemoveMint`, `SetPrivateKey`, `Close` -/
  | brief
  /-- `Send` or `PayBolt11` that publish `n` updates: a deletion for each token spent, the change, the history entry; `0` if they fail before that -/
  | spend (n : Nat)
  /-- `Receive` -/
  | receive
  deriving DecidableEq, Repr

/-- `w.Lock(); w.PublishUpdate(…); w.Unlock()`, so many times (send.go:112-116, 151-153, 171-173; pay.go:138-142). -/
def publishes : Nat → List Instr
  | 0 => []
  | n + 1 => .lock .wallet :: .unlock .wallet :: publishes n

/-- The lock operations of each:
* a token event: wallet.go:161, 186, 190, 221;
* other events: wallet.go:161, 221 (168, 182, 209) and 145, 155; calls: wallet.go:230-231, 299-301, 327-329, 354-356;
* `Send`, `PayBolt11` (and `SendExternal`, which calls it, send-external.go:32): send.go:63-64, pay.go:29-30 (released on return) around their publications;
* `Receive`: receive.go:149-154, 156-158. -/
def prog : Op → List Instr
  | .token => [.lock .wallet, .lock .tokens, .unlock .tokens, .unlock .wallet]
  | .brief => [.lock .wallet, .unlock .wallet]
  | .spend n => .lock .tokens :: (publishes n ++ [.unlock .tokens])
  | .receive => [.lock .wallet, .unlock .wallet, .lock .tokens, .unlock .tokens]

/-- What each goroutine still has to do with the locks, and who holds them. -/
structure State where
  threads : List (List Instr)
  owner : Mutex → Option Nat

/-- Goroutines that do these operations, one after the other (wallet.go:143, 159: one goroutine for events, one for deletions; any number of callers). -/
def start (ops : List (List Op)) : State := ⟨ops.map (fun l => l.flatMap prog), fun _ => none⟩

/-- Goroutine `i` goes on (`sync.Mutex`): it waits while the mutex is taken. Go lets anyone unlock; that nobody here unlocks what it does not hold is part of what is proved (it would be stuck). -/
def step (s : State) (i : Nat) : Option State :=
  match s.threads[i]? with
  | some (.lock m :: r) => if s.owner m = none then some ⟨s.threads.set i r, fun x => if x = m then some i else s.owner x⟩ else none
  | some (.unlock m :: r) => if s.owner m = some i then some ⟨s.threads.set i r, fun x => if x = m then none else s.owner x⟩ else none
  | _ => none

/-- A schedule: which goroutine goes on, each time. -/
def run (s : State) : List Nat → Option State
  | [] => some s
  | i :: is => match step s i with
    | none => none
    | some s' => run s' is

/-! ### Specification -/

/-- Specification: every goroutine is done. -/
def Finished (s : State) : Prop := ∀ r ∈ s.threads, r = []

/-- Specification: nobody can go on. -/
def Blocked (s : State) : Prop := ∀ i, step s i = none

/-- Specification: one goroutine handles a token event and another spends. -/
def Clash (ops : List (List Op)) : Prop :=
  ∃ (i j : Nat) (li lj : List Op), i ≠ j ∧ ops[i]? = some li ∧ ops[j]? = some lj ∧ Op.token ∈ li ∧ ∃ n, Op.spend (n + 1) ∈ lj

/-! ### Proofs -/

/-- Auxiliary function of the proofs; models no code: which locks are held after running alone. -/
def sim (h : Mutex → Bool) : List Instr → Option (Mutex → Bool)
  | [] => some h
  | .lock m :: r => if h m then none else sim (fun x => if x = m then true else h x) r
  | .unlock m :: r => if h m then sim (fun x => if x = m then false else h x) r else none

/-- Auxiliary function of the proofs; models no code: does it take `m` while holding the other? -/
def nests (m : Mutex) (h : Mutex → Bool) : List Instr → Bool
  | [] => false
  | .lock x :: r => (x == m && (h .wallet || h .tokens)) || nests m (fun y => if y = x then true else h y) r
  | .unlock x :: r => nests m (fun y => if y = x then false else h y) r

/-- Auxiliary function of the proofs; models no code. -/
def none' : Mutex → Bool := fun _ => false

theorem mutex_ext {α : Type} {f g : Mutex → α} (h1 : f .wallet = g .wallet) (h2 : f .tokens = g .tokens) : f = g := by
  funext x; cases x <;> assumption

theorem sim_append {a b : List Instr} {h h' : Mutex → Bool} (e : sim h a = some h') : sim h (a ++ b) = sim h' b := by
  induction a generalizing h with
  | nil => simp only [sim, Option.some.injEq] at e; subst e; rfl
  | cons x a ih =>
    cases x with
    | lock m =>
      simp only [sim, List.cons_append] at e ⊢
      split at e
      · cases e
      · next hm => rw [if_neg hm]; exact ih e
    | unlock m =>
      simp only [sim, List.cons_append] at e ⊢
      split at e
      · next hm => rw [if_pos hm]; exact ih e
      · cases e

theorem nests_append {m : Mutex} {a b : List Instr} {h h' : Mutex → Bool} (e : sim h a = some h') : nests m h (a ++ b) = (nests m h a || nests m h' b) := by
  induction a generalizing h with
  | nil => simp only [sim, Option.some.injEq] at e; subst e; simp [nests]
  | cons x a ih =>
    cases x with
    | lock y =>
      simp only [sim] at e
      split at e
      · cases e
      · simp only [nests, List.cons_append, ih e, Bool.or_assoc]
    | unlock y =>
      simp only [sim] at e
      split at e
      · simp only [nests, List.cons_append, ih e]
      · cases e

/-- Auxiliary function of the proofs; models no code: only `tokens` is held. -/
def onlyTokens : Mutex → Bool := fun x => decide (x = .tokens)

theorem sim_publishes (n : Nat) : sim onlyTokens (publishes n) = some onlyTokens := by
  induction n with
  | zero => rfl
  | succ n ih =>
    have : (fun x => if x = Mutex.wallet then false else if x = Mutex.wallet then true else onlyTokens x) = onlyTokens := mutex_ext rfl rfl
    simp only [publishes, sim, show onlyTokens .wallet = false from rfl, Bool.false_eq_true, if_false, if_true, this, ih]

theorem nests_publishes (n : Nat) : nests .tokens onlyTokens (publishes n) = false := by
  induction n with
  | zero => rfl
  | succ n ih =>
    have : (fun x => if x = Mutex.wallet then false else if x = Mutex.wallet then true else onlyTokens x) = onlyTokens := mutex_ext rfl rfl
    simp only [publishes, nests, this, ih]
    rfl

theorem sim_prog (o : Op) : sim none' (prog o) = some none' := by
  cases o with
  | spend n =>
    have e : (fun x => if x = Mutex.tokens then true else none' x) = onlyTokens := mutex_ext rfl rfl
    simp only [prog, sim, show none' .tokens = false from rfl, Bool.false_eq_true, if_false, e]
    rw [sim_append (sim_publishes n)]
    simp only [sim, show onlyTokens .tokens = true from rfl, if_true, Option.some.injEq]
    exact mutex_ext rfl rfl
  | _ =>
    simp only [prog, sim, none', Bool.false_eq_true, if_false, if_true, reduceCtorEq, Option.some.injEq]
    exact mutex_ext rfl rfl

theorem sim_progs (l : List Op) : sim none' (l.flatMap prog) = some none' := by
  induction l with
  | nil => rfl
  | cons o l ih => rw [List.flatMap_cons, sim_append (sim_prog o), ih]

theorem nests_prog_tokens (o : Op) (h : nests .tokens none' (prog o) = true) : o = .token := by
  cases o with
  | token => rfl
  | brief => revert h; decide
  | receive => revert h; decide
  | spend n =>
    have e : (fun x => if x = Mutex.tokens then true else none' x) = onlyTokens := mutex_ext rfl rfl
    simp only [prog, nests, e] at h
    rw [nests_append (sim_publishes n), nests_publishes] at h
    cases h

theorem nests_prog_wallet (o : Op) (h : nests .wallet none' (prog o) = true) : ∃ n, o = .spend (n + 1) := by
  cases o with
  | token => exact absurd h (by decide)
  | brief => exact absurd h (by decide)
  | receive => exact absurd h (by decide)
  | spend n =>
    cases n with
    | zero => exact absurd h (by decide)
    | succ n => exact ⟨n, rfl⟩

theorem nests_progs {m : Mutex} (l : List Op) (h : nests m none' (l.flatMap prog) = true) : ∃ o ∈ l, nests m none' (prog o) = true := by
  induction l with
  | nil => cases h
  | cons o l ih =>
    rw [List.flatMap_cons, nests_append (sim_prog o), Bool.or_eq_true] at h
    rcases h with h | h
    · exact ⟨o, List.mem_cons_self, h⟩
    · obtain ⟨o', h1, h2⟩ := ih h
      exact ⟨o', List.mem_cons_of_mem _ h1, h2⟩

/-- Auxiliary function of the proofs; models no code: the locks goroutine `i` holds. -/
def held (s : State) (i : Nat) : Mutex → Bool := fun m => decide (s.owner m = some i)

/-- Invariant of the proofs; models no code. -/
structure Inv (ops : List (List Op)) (s : State) : Prop where
  len : s.threads.length = ops.length
  bal : ∀ (i : Nat) r, s.threads[i]? = some r → sim (held s i) r = some none'
  sub : ∀ (i : Nat) r l m, s.threads[i]? = some r → ops[i]? = some l → nests m (held s i) r = true → nests m none' (l.flatMap prog) = true
  owns : ∀ m i, s.owner m = some i → i < ops.length

theorem inv_start (ops : List (List Op)) : Inv ops (start ops) := by
  have hh : ∀ i, held (start ops) i = none' := fun i => mutex_ext rfl rfl
  constructor
  · simp [start]
  · intro i r hr
    rw [hh]
    simp only [start, List.getElem?_map, Option.map_eq_some_iff] at hr
    obtain ⟨l, -, rfl⟩ := hr
    exact sim_progs l
  · intro i r l m hr hl hn
    rw [hh] at hn
    simp only [start, List.getElem?_map, hl, Option.map_some, Option.some.injEq] at hr
    subst hr
    exact hn
  · intro m i h; cases h

theorem inv_step {ops : List (List Op)} {s s' : State} {k : Nat} (hi : Inv ops s) (h : step s k = some s') : Inv ops s' := by
  obtain ⟨h1, h2, h3, h4⟩ := hi
  unfold step at h
  split at h
  · next m r hr =>
    split at h
    · next ho =>
      cases h
      have hk : k < s.threads.length := (List.getElem?_eq_some_iff.1 hr).1
      have hself : held ⟨s.threads.set k r, fun x => if x = m then some k else s.owner x⟩ k = fun x => if x = m then true else held s k x := by
        funext x; by_cases hx : x = m <;> simp [held, hx]
      have hother : ∀ i, i ≠ k → held ⟨s.threads.set k r, fun x => if x = m then some k else s.owner x⟩ i = held s i := by
        intro i hik; funext x
        by_cases hx : x = m
        · subst hx; simp [held, ho, Ne.symm hik]
        · simp [held, hx]
      refine ⟨by simp [h1], ?_, ?_, ?_⟩
      · intro i r' hr'
        by_cases hik : i = k
        · subst hik
          simp only [List.getElem?_set_self hk, Option.some.injEq] at hr'
          subst hr'
          rw [hself]
          have := h2 i _ hr
          simp only [sim] at this
          split at this
          · cases this
          · exact this
        · rw [hother i hik]
          exact h2 i r' (by rw [← hr']; simp [List.getElem?_set_ne (Ne.symm hik)])
      · intro i r' l m' hr' hl hn
        by_cases hik : i = k
        · subst hik
          simp only [List.getElem?_set_self hk, Option.some.injEq] at hr'
          subst hr'
          rw [hself] at hn
          exact h3 i _ l m' hr hl (by simp only [nests, hn, Bool.or_true])
        · rw [hother i hik] at hn
          exact h3 i r' l m' (by rw [← hr']; simp [List.getElem?_set_ne (Ne.symm hik)]) hl hn
      · intro m' i hm'
        simp only at hm'
        split at hm'
        · cases hm'; omega
        · exact h4 m' i hm'
    · cases h
  · next m r hr =>
    split at h
    · next ho =>
      cases h
      have hk : k < s.threads.length := (List.getElem?_eq_some_iff.1 hr).1
      have hself : held ⟨s.threads.set k r, fun x => if x = m then none else s.owner x⟩ k = fun x => if x = m then false else held s k x := by
        funext x; by_cases hx : x = m <;> simp [held, hx]
      have hother : ∀ i, i ≠ k → held ⟨s.threads.set k r, fun x => if x = m then none else s.owner x⟩ i = held s i := by
        intro i hik; funext x
        by_cases hx : x = m
        · subst hx; simp [held, ho, Ne.symm hik]
        · simp [held, hx]
      refine ⟨by simp [h1], ?_, ?_, ?_⟩
      · intro i r' hr'
        by_cases hik : i = k
        · subst hik
          simp only [List.getElem?_set_self hk, Option.some.injEq] at hr'
          subst hr'
          rw [hself]
          have := h2 i _ hr
          simp only [sim] at this
          split at this
          · exact this
          · cases this
        · rw [hother i hik]
          exact h2 i r' (by rw [← hr']; simp [List.getElem?_set_ne (Ne.symm hik)])
      · intro i r' l m' hr' hl hn
        by_cases hik : i = k
        · subst hik
          simp only [List.getElem?_set_self hk, Option.some.injEq] at hr'
          subst hr'
          rw [hself] at hn
          exact h3 i _ l m' hr hl (by simp only [nests, hn])
        · rw [hother i hik] at hn
          exact h3 i r' l m' (by rw [← hr']; simp [List.getElem?_set_ne (Ne.symm hik)]) hl hn
      · intro m' i hm'
        simp only at hm'
        split at hm'
        · cases hm'
        · exact h4 m' i hm'
    · cases h
  · cases h

theorem inv_run {ops : List (List Op)} : ∀ {is : List Nat} {s s' : State}, Inv ops s → run s is = some s' → Inv ops s'
  | [], _, _, hi, h => by simp only [run, Option.some.injEq] at h; exact h ▸ hi
  | i :: is, s, s', hi, h => by
    simp only [run] at h
    cases hs : step s i with
    | none => rw [hs] at h; cases h
    | some s1 => rw [hs] at h; exact inv_run (inv_step hi hs) h

/-- A blocked goroutine that is not done waits for a mutex somebody else holds. -/
theorem blocked_head {ops : List (List Op)} {s : State} (hi : Inv ops s) (hb : Blocked s) {i : Nat} {r : List Instr} (hr : s.threads[i]? = some r) (hne : r ≠ []) :
    ∃ m r' j, r = .lock m :: r' ∧ s.owner m = some j ∧ j ≠ i := by
  have hbi := hb i
  unfold step at hbi
  rw [hr] at hbi
  cases r with
  | nil => exact absurd rfl hne
  | cons x r =>
    have hbal := hi.bal i _ hr
    cases x with
    | lock m =>
      simp only at hbi
      split at hbi
      · cases hbi
      · next ho =>
        cases hom : s.owner m with
        | none => exact absurd hom ho
        | some j =>
          refine ⟨m, r, j, rfl, hom, ?_⟩
          rintro rfl
          simp [sim, held, hom] at hbal
    | unlock m =>
      simp only at hbi
      split at hbi
      · cases hbi
      · next ho => simp [sim, held, ho] at hbal

/-- Who holds a mutex is not done. -/
theorem owner_thread {ops : List (List Op)} {s : State} (hi : Inv ops s) {m : Mutex} {j : Nat} (h : s.owner m = some j) : ∃ r, s.threads[j]? = some r ∧ r ≠ [] := by
  have hj : j < s.threads.length := by rw [hi.len]; exact hi.owns m j h
  refine ⟨s.threads[j], List.getElem?_eq_getElem hj, fun he => ?_⟩
  have := hi.bal j _ (List.getElem?_eq_getElem hj)
  rw [he] at this
  simp only [sim, Option.some.injEq] at this
  have := congrFun this m
  simp [held, h, none'] at this

theorem blocked_clash {ops : List (List Op)} {s : State} (hi : Inv ops s) (hb : Blocked s) (hf : ¬ Finished s) : Clash ops := by
  have hex : ∃ r ∈ s.threads, r ≠ [] := Classical.byContradiction fun hno => hf fun r hr => Classical.byContradiction fun hne => hno ⟨r, hr, hne⟩
  obtain ⟨r, hr, hne⟩ := hex
  obtain ⟨i, hi'⟩ := List.mem_iff_getElem?.1 hr
  obtain ⟨m, r', j, -, hm, -⟩ := blocked_head hi hb hi' hne
  -- somebody holds a mutex and waits for the other, whose holder waits for the first
  have key : ∃ a b, s.owner .wallet = some a ∧ s.owner .tokens = some b ∧ a ≠ b := by
    obtain ⟨ra, hra, hane⟩ := owner_thread hi hm
    obtain ⟨m2, ra', j2, rfl, hm2, hj2⟩ := blocked_head hi hb hra hane
    have hmm : m2 ≠ m := by
      rintro rfl
      rw [hm] at hm2
      cases hm2
      exact hj2 rfl
    cases m <;> cases m2
    · exact absurd rfl hmm
    · exact ⟨j, j2, hm, hm2, Ne.symm hj2⟩
    · exact ⟨j2, j, hm2, hm, hj2⟩
    · exact absurd rfl hmm
  obtain ⟨a, b, ha, hb', hab⟩ := key
  obtain ⟨ra, hra, hane⟩ := owner_thread hi ha
  obtain ⟨rb, hrb, hbne⟩ := owner_thread hi hb'
  obtain ⟨ma, ra', ja, rfl, hma, hja⟩ := blocked_head hi hb hra hane
  obtain ⟨mb, rb', jb, rfl, hmb, hjb⟩ := blocked_head hi hb hrb hbne
  have ema : ma = .tokens := by
    cases ma with
    | tokens => rfl
    | wallet => rw [ha] at hma; cases hma; exact absurd rfl hja
  have emb : mb = .wallet := by
    cases mb with
    | wallet => rfl
    | tokens => rw [hb'] at hmb; cases hmb; exact absurd rfl hjb
  subst ema emb
  have la : a < ops.length := hi.owns _ _ ha
  have lb : b < ops.length := hi.owns _ _ hb'
  have na := hi.sub a _ _ .tokens hra (List.getElem?_eq_getElem la) (by simp [nests, held, ha])
  have nb := hi.sub b _ _ .wallet hrb (List.getElem?_eq_getElem lb) (by simp [nests, held, hb'])
  obtain ⟨oa, hoa, na⟩ := nests_progs _ na
  obtain ⟨ob, hob, nb⟩ := nests_progs _ nb
  have := nests_prog_tokens oa na
  subst this
  obtain ⟨n, rfl⟩ := nests_prog_wallet ob nb
  exact ⟨a, b, _, _, hab, List.getElem?_eq_getElem la, List.getElem?_eq_getElem lb, hoa, n, hob⟩

theorem run_append {s s1 : State} : ∀ {a b : List Nat}, run s a = some s1 → run s (a ++ b) = run s1 b := by
  intro a
  induction a generalizing s with
  | nil => intro b h; simp only [run, Option.some.injEq] at h; subst h; rfl
  | cons i a ih =>
    intro b h
    simp only [run, List.cons_append] at h ⊢
    cases hs : step s i with
    | none => rw [hs] at h; cases h
    | some s2 => rw [hs] at h; exact ih h

/-- Auxiliary function of the proofs; models no code: only goroutine `i` holds locks, these. -/
def mine (i : Nat) (h : Mutex → Bool) : Mutex → Option Nat := fun m => if h m then some i else none

/-- A goroutine that runs alone gets through. -/
theorem solo (i : Nat) : ∀ (a rest : List Instr) (h h' : Mutex → Bool) (ts : List (List Instr)), sim h a = some h' → ts[i]? = some (a ++ rest) →
    run ⟨ts, mine i h⟩ (List.replicate a.length i) = some ⟨ts.set i rest, mine i h'⟩
  | [], rest, h, h', ts, e, ht => by
    simp only [sim, Option.some.injEq] at e
    subst e
    simp only [List.length_nil, List.replicate_zero, run, Option.some.injEq]
    congr 1
    refine (List.ext_getElem? fun k => ?_).symm
    by_cases hk : i = k
    · subst hk; rw [List.getElem?_set_self (List.getElem?_eq_some_iff.1 ht).1, ht]; rfl
    · rw [List.getElem?_set_ne hk]
  | .lock m :: a, rest, h, h', ts, e, ht => by
    simp only [sim] at e
    split at e
    · cases e
    · next hm =>
      have hi := (List.getElem?_eq_some_iff.1 ht).1
      have ho : (fun x => if x = m then some i else mine i h x) = mine i (fun x => if x = m then true else h x) := by
        funext x; by_cases hx : x = m <;> simp [mine, hx]
      have hs : step ⟨ts, mine i h⟩ i = some ⟨ts.set i (a ++ rest), mine i (fun x => if x = m then true else h x)⟩ := by
        simp only [step, ht, List.cons_append]
        rw [if_pos (by simp [mine, hm]), ho]
      simp only [List.length_cons, List.replicate_succ, run, hs]
      rw [solo i a rest _ h' _ e (List.getElem?_set_self hi), List.set_set]
  | .unlock m :: a, rest, h, h', ts, e, ht => by
    simp only [sim] at e
    split at e
    · next hm =>
      have hi := (List.getElem?_eq_some_iff.1 ht).1
      have ho : (fun x => if x = m then none else mine i h x) = mine i (fun x => if x = m then false else h x) := by
        funext x; by_cases hx : x = m <;> simp [mine, hx]
      have hs : step ⟨ts, mine i h⟩ i = some ⟨ts.set i (a ++ rest), mine i (fun x => if x = m then false else h x)⟩ := by
        simp only [step, ht, List.cons_append]
        rw [if_pos (by simp [mine, hm]), ho]
      simp only [List.length_cons, List.replicate_succ, run, hs]
      rw [solo i a rest _ h' _ e (List.getElem?_set_self hi), List.set_set]
    · cases e

theorem mine_none (i : Nat) : mine i none' = fun _ => none := by funext m; rfl

theorem clash_blocks {ops : List (List Op)} (hc : Clash ops) : ∃ is s, run (start ops) is = some s ∧ Blocked s ∧ ¬ Finished s := by
  obtain ⟨i, j, li, lj, hij, hli, hlj, hti, n, hsj⟩ := hc
  obtain ⟨a, a', rfl⟩ := List.append_of_mem hti
  obtain ⟨b, b', rfl⟩ := List.append_of_mem hsj
  -- what is left of the two at the decisive moment
  have hi0 : (start ops).threads[i]? = some (a.flatMap prog ++ (prog .token ++ a'.flatMap prog)) := by simp [start, hli, List.flatMap_append, List.flatMap_cons]
  have hj0 : (start ops).threads[j]? = some ((b.flatMap prog ++ [.lock .tokens]) ++ (publishes (n + 1) ++ (.unlock .tokens :: b'.flatMap prog))) := by
    simp [start, hlj, List.flatMap_append, List.flatMap_cons, prog]
  have r1 := solo i _ _ none' none' (start ops).threads (sim_progs a) hi0
  rw [mine_none] at r1
  have hj1 : ((start ops).threads.set i (prog .token ++ a'.flatMap prog))[j]? = some ((b.flatMap prog ++ [.lock .tokens]) ++ (publishes (n + 1) ++ (.unlock .tokens :: b'.flatMap prog))) := by
    rw [List.getElem?_set_ne hij]; exact hj0
  have es : sim none' (b.flatMap prog ++ [.lock .tokens]) = some onlyTokens := by
    rw [sim_append (sim_progs b)]
    simp only [sim, none', Bool.false_eq_true, if_false, Option.some.injEq]
    exact mutex_ext rfl rfl
  have r2 := solo j _ _ none' onlyTokens _ es hj1
  rw [mine_none] at r2
  have r12 := run_append (b := List.replicate (b.flatMap prog ++ [Instr.lock .tokens]).length j) r1
  rw [r2] at r12
  have li0 := (List.getElem?_eq_some_iff.1 hi0).1
  have lj0 := (List.getElem?_eq_some_iff.1 hj0).1
  have hi2 : (((start ops).threads.set i (prog .token ++ a'.flatMap prog)).set j (publishes (n + 1) ++ (.unlock .tokens :: b'.flatMap prog)))[i]? = some (.lock .wallet :: .lock .tokens :: .unlock .tokens :: .unlock .wallet :: a'.flatMap prog) := by
    rw [List.getElem?_set_ne (Ne.symm hij), List.getElem?_set_self li0]; rfl
  refine ⟨(List.replicate (a.flatMap prog).length i ++ List.replicate (b.flatMap prog ++ [Instr.lock .tokens]).length j) ++ [i], ?_⟩
  rw [show start ops = ⟨(start ops).threads, fun _ => none⟩ from rfl, run_append (b := [i]) r12]
  simp only [run, step, hi2]
  rw [if_pos (by rfl)]
  refine ⟨_, rfl, ?_, ?_⟩
  · intro k
    unfold step
    split
    · next m r hr =>
      rw [if_neg]
      cases m <;> simp [mine, onlyTokens]
    · next m r hr =>
      rw [if_neg]
      simp only at hr ⊢
      have lset : i < (((start ops).threads.set i (prog .token ++ a'.flatMap prog)).set j (publishes (n + 1) ++ (.unlock .tokens :: b'.flatMap prog))).length := by simpa using li0
      cases m with
      | wallet =>
        simp only [if_true, Option.some.injEq]
        rintro rfl
        rw [List.getElem?_set_self lset] at hr
        cases hr
      | tokens =>
        simp only [reduceCtorEq, if_false, mine, onlyTokens, decide_true, if_true, Option.some.injEq]
        rintro rfl
        rw [List.getElem?_set_ne hij, List.getElem?_set_self (by simpa using lj0)] at hr
        cases hr
    · rfl
  · intro hf
    have := hf (.lock .tokens :: .unlock .tokens :: .unlock .wallet :: a'.flatMap prog) (List.mem_of_getElem? (i := i) (by
      rw [List.getElem?_set_self]
      simpa using li0))
    cases this

/-- **C185, when a wallet can get stuck.** Whatever goroutines use a wallet: some interleaving ends with all of them waiting and not all of them done, exactly if one of them handles a token event while another is in a `Send` or `PayBolt11` that gets as far as publishing
an update. (They take the two locks in opposite orders.) -/
theorem C185_stuck_iff (ops : List (List Op)) : (∃ is s, run (start ops) is = some s ∧ Blocked s ∧ ¬ Finished s) ↔ Clash ops :=
  ⟨fun ⟨_, _, h, hb, hf⟩ => blocked_clash (inv_run (inv_start ops) h) hb hf, clash_blocks⟩

/-- Auxiliary function of the proofs; models no code: the lock operations left. -/
def left (s : State) : Nat := (s.threads.map List.length).sum

theorem sum_set_length : ∀ (l : List (List Instr)) (i : Nat) (x : Instr) (r : List Instr), l[i]? = some (x :: r) → ((l.set i r).map List.length).sum + 1 = (l.map List.length).sum
  | [], i, x, r, h => by simp at h
  | y :: l, 0, x, r, h => by simp at h; subst h; simp; omega
  | y :: l, i + 1, x, r, h => by
    have := sum_set_length l i x r (by simpa using h)
    simp only [List.set_cons_succ, List.map_cons, List.sum_cons]
    omega

theorem left_step {s s' : State} {i : Nat} (h : step s i = some s') : left s' + 1 = left s := by
  unfold step at h
  split at h
  · next m r hr =>
    split at h
    · cases h; exact sum_set_length _ _ _ _ hr
    · cases h
  · next m r hr =>
    split at h
    · cases h; exact sum_set_length _ _ _ _ hr
    · cases h
  · cases h

/-- **C185 (partial: see `C185_stuck_iff`).** If no token event is handled while another goroutine spends, then however the goroutines have been interleaved so far, letting them go on in any order for as long as anyone can ends, after a bounded number of steps, with all of them done and both locks free. -/
theorem C185_finishes_partial (ops : List (List Op)) (hc : ¬ Clash ops) (is : List Nat) (s : State) (h : run (start ops) is = some s) :
    (∀ is' s', run s is' = some s' → is'.length + left s' = left s) ∧ (∀ is' s', run s is' = some s' → Blocked s' → Finished s' ∧ ∀ m, s'.owner m = none) := by
  refine ⟨?_, ?_⟩
  · intro is'
    clear h
    induction is' generalizing s with
    | nil => intro s' h'; simp only [run, Option.some.injEq] at h'; subst h'; simp
    | cons i is' ih =>
      intro s' h'
      simp only [run] at h'
      cases hs : step s i with
      | none => rw [hs] at h'; cases h'
      | some s1 =>
        rw [hs] at h'
        have := ih s1 s' h'
        have := left_step hs
        simp only [List.length_cons]
        omega
  · intro is' s' h' hb
    have hi := inv_run (inv_run (inv_start ops) h) h'
    have hf : Finished s' := Classical.byContradiction fun hn => hc (blocked_clash hi hb hn)
    refine ⟨hf, fun m => ?_⟩
    cases ho : s'.owner m with
    | none => rfl
    | some j =>
      obtain ⟨r, h1, h2⟩ := owner_thread hi ho
      exact absurd (hf r (List.mem_of_getElem? h1)) h2

/-- Specification: the goroutine is between locking and unlocking `m`: the next thing it does with `m` is to unlock it. -/
def Inside (m : Mutex) (r : List Instr) : Prop := (r.find? (fun x => x == .lock m || x == .unlock m)) = some (.unlock m)

theorem inside_holds {m : Mutex} : ∀ {r : List Instr} {h h' : Mutex → Bool}, sim h r = some h' → Inside m r → h m = true
  | [], _, _, _, hi => by simp [Inside] at hi
  | .lock x :: r, h, h', e, hi => by
    simp only [sim] at e
    split at e
    · cases e
    · by_cases hx : x = m
      · subst hx; simp [Inside] at hi
      · have := inside_holds e (m := m) (by simpa [Inside, hx] using hi)
        simpa [Ne.symm hx] using this
  | .unlock x :: r, h, h', e, hi => by
    simp only [sim] at e
    split at e
    · next hh =>
      by_cases hx : x = m
      · subst hx; exact hh
      · have := inside_holds e (m := m) (by simpa [Inside, hx] using hi)
        simpa [Ne.symm hx] using this
    · cases e

/-- **C185, one at a time.** In no interleaving are two goroutines between locking and unlocking the same mutex: two payments never choose tokens at the same time. -/
theorem C185_exclusive (ops : List (List Op)) (is : List Nat) (s : State) (h : run (start ops) is = some s) (i j : Nat) (m : Mutex) (ri rj : List Instr) (hi : s.threads[i]? = some ri) (hj : s.threads[j]? = some rj)
    (h1 : Inside m ri) (h2 : Inside m rj) : i = j := by
  have hinv := inv_run (inv_start ops) h
  have e1 : s.owner m = some i := by simpa [held] using inside_holds (hinv.bal i _ hi) h1
  have e2 : s.owner m = some j := by simpa [held] using inside_holds (hinv.bal j _ hj) h2
  rw [e1] at e2
  exact Option.some.inj e2

/-- A payment that has begun is inside. -/
example : ∃ s r, run (start [[.spend 3], [.spend 2]]) [0, 0] = some s ∧ s.threads[0]? = some r ∧ Inside .tokens r ∧ step s 1 = none := ⟨_, _, rfl, rfl, rfl, rfl⟩

/-- Two payments, a payment received and a change of the settings, while a device's deletions come in: no clash, so they all finish. -/
example : ¬ Clash [[.brief, .brief], [.spend 3], [.spend 2, .receive], [.brief]] := by
  rintro ⟨i, j, li, lj, -, hi, -, ht, -⟩
  match i with
  | 0 => simp at hi; subst hi; simp at ht
  | 1 => simp at hi; subst hi; simp at ht
  | 2 => simp at hi; subst hi; simp at ht
  | 3 => simp at hi; subst hi; simp at ht
  | n + 4 => simp at hi

/-- **C185 is false: a payment's own change blocks the wallet.** `Send` spends one token and publishes its deletion and the change; a relay echoes the change, and the wallet handles it before `Send` publishes the history entry. Both wait for each other from then on, and so does everyone who uses
the wallet later, whatever they want to do. -/
theorem C185_echo : ∃ s, run (start [[.token], [.spend 3], [.brief], [.receive], [.spend 1]]) [1, 1, 1, 1, 1, 0] = some s ∧ s.threads.map List.length = [3, 3, 2, 4, 4] ∧ Blocked s := by
  refine ⟨_, rfl, rfl, ?_⟩
  intro i
  match i with
  | 0 => rfl
  | 1 => rfl
  | 2 => rfl
  | 3 => rfl
  | 4 => rfl
  | n + 5 => rfl

end GoNostr.Nip60.Locks
