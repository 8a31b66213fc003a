import Verif.Relay.Lemmas
/-!
# C74: the batching loader (sdk/dataloader/dataloader.go)

State machine of one `Loader`: the callers of `Load` and one goroutine per batch that has requests. Every interleaving of the labelled atomic actions is a
run. A `Load` is one action up to the release of the lock (dataloader.go:77-118). Keys are byte strings, results of any type; the batch function may return
anything, differently at every call. The caller's context is not modelled (`Load` only hands it to the batch function).
-/

set_option autoImplicit false

namespace GoNostr.Loader

/-- Where the goroutine of a batch is (dataloader.go:81-109); `idle`: not started. -/
inductive Pc
  | idle | wait | swap | call | deliver | done
  deriving DecidableEq, Repr

/-- A `batcher` (dataloader.go:127-131) with its goroutine: the requests (number of the `Load` and key), whether `thresholdReached` is closed, what the batch function
was given and answered, how many requests were answered. -/
structure Batch (V : Type) where
  reqs : List (Nat × Bytes)
  full : Bool
  pc : Pc
  called : Option (List Bytes × List (Bytes × V))
  delivered : Nat

/-- `newBatcher` (dataloader.go:134-140). -/
def Batch.new (V : Type) : Batch V := { reqs := [], full := false, pc := .idle, called := none, delivered := 0 }

/-- `cur` is the current batcher, `count` the number of `Load` calls so far, `answers` what they returned (`none`: `NoValueError`). -/
structure State (V : Type) where
  batches : List (Batch V)
  cur : Nat
  count : Nat
  answers : List (Nat × Option V)

/-- `NewBatchedLoader` (dataloader.go:55-65). -/
def init (V : Type) : State V := { batches := [Batch.new V], cur := 0, count := 0, answers := [] }

/-- The atomic actions of the machine; its step function says which lines each of them is. -/
inductive Lab (V : Type)
  | load (key : Bytes)
  /-- the goroutine of batch `i` sees the threshold / its timer fires / it replaces the current batcher -/
  | threshold (i : Nat)
  | timer (i : Nat)
  | swap (i : Nat)
  /-- the batch function returns -/
  | call (i : Nat) (res : List (Bytes × V))
  /-- the next round of the delivery loop, or its end -/
  | deliver (i : Nat)

/-- `Load`'s part of the batch (dataloader.go:80, 112). -/
def Batch.add {V : Type} (b : Batch V) (n : Nat) (key : Bytes) : Batch V :=
  { b with
    reqs := b.reqs ++ [(n, key)]
    pc := if b.reqs = [] then .wait else b.pc }

/-- One atomic action; `cap` is `batchCap`. -/
def step {V : Type} (cap : Nat) (s : State V) : Lab V → Option (State V)
  -- dataloader.go:77-118
  | .load key => match s.batches[s.cur]? with
    | none => none
    | some b =>
      if b.reqs.length + 1 = cap then some { s with
        batches := s.batches.set s.cur { b.add s.count key with full := true } ++ [Batch.new V]
        cur := s.batches.length
        count := s.count + 1 }
      else some { s with
        batches := s.batches.set s.cur (b.add s.count key)
        count := s.count + 1 }
  -- 83
  | .threshold i => match s.batches[i]? with
    | none => none
    | some b => if b.pc = .wait ∧ b.full = true then some { s with batches := s.batches.set i { b with pc := .call } } else none
  -- 84
  | .timer i => match s.batches[i]? with
    | none => none
    | some b => if b.pc = .wait then some { s with batches := s.batches.set i { b with pc := .swap } } else none
  -- 85-87
  | .swap i => match s.batches[i]? with
    | none => none
    | some b => if b.pc = .swap then some { s with
        batches := s.batches.set i { b with pc := .call } ++ [Batch.new V]
        cur := s.batches.length }
      else none
  -- 90-101
  | .call i res => match s.batches[i]? with
    | none => none
    | some b => if b.pc = .call then some { s with
        batches := s.batches.set i { b with
          pc := .deliver
          called := some (b.reqs.map (·.2), res) } }
      else none
  -- 103-108, 120-124
  | .deliver i => match s.batches[i]? with
    | none => none
    | some b => if b.pc = .deliver then
        match b.called, b.reqs[b.delivered]? with
        | some (_, res), some (n, key) => some { s with
            batches := s.batches.set i { b with delivered := b.delivered + 1 }
            answers := s.answers ++ [(n, res.lookup key)] }
        | _, _ => some { s with batches := s.batches.set i { b with pc := .done } }
      else none

/-- A schedule: the actions one after the other. -/
def run {V : Type} (cap : Nat) (s : State V) : List (Lab V) → Option (State V)
  | [] => some s
  | l :: ls => match step cap s l with
    | none => none
    | some s' => run cap s' ls

theorem run_inv {V : Type} {cap : Nat} {P : State V → Prop} (hs : ∀ s l s', P s → step cap s l = some s' → P s') :
    ∀ {ls : List (Lab V)} {s s' : State V}, P s → run cap s ls = some s' → P s' := by
  intro ls
  induction ls with
  | nil => intro s s' hp h; simp only [run, Option.some.injEq] at h; exact h ▸ hp
  | cons l ls ih =>
    intro s s' hp h
    simp only [run] at h
    split at h
    · cases h
    · rename_i s1 h1
      exact ih (hs s l s1 hp h1) h

macro "dl_cases" h:ident : tactic => `(tactic| (
  simp only [step] at $h:ident
  (repeat' split at $h:ident) <;> (try simp only [reduceCtorEq, Option.some.injEq] at $h:ident) <;> (try subst $h:ident)))

/-! ## Invariants -/

/-- What holds of every batch; `isCur` says whether it is the current one. -/
structure BatchOk {V : Type} (cap : Nat) (isCur : Prop) (b : Batch V) : Prop where
  size : 0 < cap → b.reqs.length ≤ cap
  room : isCur → 0 < cap → b.reqs.length < cap
  idle : b.pc = .idle ↔ b.reqs = []
  open_ : isCur → b.full = false ∧ (b.pc = .idle ∨ b.pc = .wait ∨ b.pc = .swap)
  full : b.full = true → b.reqs.length = cap
  called : b.pc = .deliver ∨ b.pc = .done → ∃ res, b.called = some (b.reqs.map (·.2), res)
  uncalled : b.pc ≠ .deliver → b.pc ≠ .done → b.called = none ∧ b.delivered = 0
  delivered : b.delivered ≤ b.reqs.length
  done : b.pc = .done → b.delivered = b.reqs.length

/-- Invariant used in the proofs; models no code. -/
structure Inv {V : Type} (cap : Nat) (s : State V) : Prop where
  cur : s.cur < s.batches.length
  ok : ∀ (i : Nat) (b : Batch V), s.batches[i]? = some b → BatchOk cap (i = s.cur) b

theorem getElem?_lt {α : Type} {l : List α} {i : Nat} {a : α} (h : l[i]? = some a) : i < l.length := by
  rcases Nat.lt_or_ge i l.length with h' | h'
  · exact h'
  · rw [List.getElem?_eq_none h'] at h; cases h

theorem new_ok {V : Type} (cap : Nat) (P : Prop) : BatchOk cap P (Batch.new V) := by
  constructor <;> simp [Batch.new]

theorem inv_step {V : Type} {cap : Nat} {s s' : State V} {l : Lab V} (hi : Inv cap s) (h : step cap s l = some s') : Inv cap s' := by
  obtain ⟨hc, ho⟩ := hi
  cases l with
  | load key =>
    simp only [step] at h
    split at h
    · cases h
    · rename_i b hb
      have hob := ho _ _ hb
      split at h
      · rename_i hcap
        cases h
        constructor
        · simp
        · intro i b' hb'
          simp only [] at hb' ⊢
          rw [List.getElem?_append] at hb'
          split at hb'
          · rename_i hlt
            rw [List.length_set] at hlt
            have hne : ¬ i = s.batches.length := by omega
            rw [List.getElem?_set] at hb'
            split at hb'
            · rename_i he
              cases hb'
              subst he
              have o1 := hob.open_ rfl
              refine ⟨?_, ?_, ?_, ?_, ?_, ?_, ?_, ?_, ?_⟩ <;> simp only [Batch.add, List.length_append, List.length_cons, List.length_nil]
              · intro _; omega
              · intro h'; exact absurd h' hne
              · have := hob.idle; constructor
                · intro h'; split at h' <;> grind
                · intro h'; simp at h'
              · intro h'; exact absurd h' hne
              · intro _; omega
              · intro h'; grind
              · intro h1 h2; have := hob.uncalled; grind
              · have := hob.uncalled; grind
              · intro h'; grind
            · rename_i he
              have hob' := ho i b' hb'
              exact ⟨hob'.size, fun h' => absurd h' hne, hob'.idle, fun h' => absurd h' hne, hob'.full, hob'.called, hob'.uncalled, hob'.delivered, hob'.done⟩
          · rename_i hge
            rw [List.length_set] at hge hb'
            have : b' = Batch.new V := by
              cases hk : i - s.batches.length with
              | zero => rw [hk] at hb'; simpa using hb'.symm
              | succ k => rw [hk] at hb'; simp at hb'
            subst this
            exact new_ok _ _
      · rename_i hcap
        cases h
        constructor
        · simpa using hc
        · intro i b' hb'
          simp only [] at hb' ⊢
          rw [List.getElem?_set] at hb'
          split at hb'
          · rename_i he
            cases hb'
            subst he
            have o1 := hob.open_ rfl
            have o2 := hob.room rfl
            refine ⟨?_, ?_, ?_, ?_, ?_, ?_, ?_, ?_, ?_⟩ <;> simp only [Batch.add, List.length_append, List.length_cons, List.length_nil]
            · intro h'; have := o2 h'; omega
            · intro _ h'; have := o2 h'; omega
            · have := hob.idle; constructor
              · intro h'; split at h' <;> grind
              · intro h'; simp at h'
            · intro _; refine ⟨o1.1, ?_⟩; split <;> grind
            · intro h'; grind
            · intro h'; grind
            · intro h1 h2; have := hob.uncalled; grind
            · have := hob.uncalled; grind
            · intro h'; grind
          · exact ho i b' hb'
  | threshold i0 =>
    simp only [step] at h
    split at h
    · cases h
    · rename_i b hb
      split at h
      · rename_i hcond
        cases h
        have hob := ho _ _ hb
        refine ⟨by simpa using hc, ?_⟩
        intro i b' hb'
        simp only [] at hb' ⊢
        rw [List.getElem?_set] at hb'
        split at hb'
        · rename_i he
          split at hb'
          · cases hb'
            subst he
            have := hob.open_
            exact ⟨hob.size, hob.room, by have := hob.idle; grind, by grind, hob.full, by grind, by have := hob.uncalled; grind, hob.delivered, by grind⟩
          · cases hb'
        · exact ho i b' hb'
      · cases h
  | timer i0 =>
    simp only [step] at h
    split at h
    · cases h
    · rename_i b hb
      split at h
      · rename_i hcond
        cases h
        have hob := ho _ _ hb
        refine ⟨by simpa using hc, ?_⟩
        intro i b' hb'
        simp only [] at hb' ⊢
        rw [List.getElem?_set] at hb'
        split at hb'
        · rename_i he
          split at hb'
          · cases hb'
            subst he
            have := hob.open_
            exact ⟨hob.size, hob.room, by have := hob.idle; grind, by grind, hob.full, by grind, by have := hob.uncalled; grind, hob.delivered, by grind⟩
          · cases hb'
        · exact ho i b' hb'
      · cases h
  | swap i0 =>
    simp only [step] at h
    split at h
    · cases h
    · rename_i b hb
      split at h
      · rename_i hcond
        cases h
        have hob := ho _ _ hb
        refine ⟨by simp, ?_⟩
        intro i b' hb'
        simp only [] at hb' ⊢
        rw [List.getElem?_append] at hb'
        split at hb'
        · rename_i hlt
          rw [List.length_set] at hlt
          have hne : ¬ i = s.batches.length := by omega
          rw [List.getElem?_set] at hb'
          split at hb'
          · rename_i he
            split at hb'
            · cases hb'
              subst he
              exact ⟨hob.size, fun h' => absurd h' hne, by have := hob.idle; grind, fun h' => absurd h' hne, hob.full, by grind, by have := hob.uncalled; grind, hob.delivered, by grind⟩
            · cases hb'
          · have hob' := ho i b' hb'
            exact ⟨hob'.size, fun h' => absurd h' hne, hob'.idle, fun h' => absurd h' hne, hob'.full, hob'.called, hob'.uncalled, hob'.delivered, hob'.done⟩
        · rename_i hge
          rw [List.length_set] at hge hb'
          have : b' = Batch.new V := by
            cases hk : i - s.batches.length with
            | zero => rw [hk] at hb'; simpa using hb'.symm
            | succ k => rw [hk] at hb'; simp at hb'
          subst this
          exact new_ok _ _
      · cases h
  | call i0 res =>
    simp only [step] at h
    split at h
    · cases h
    · rename_i b hb
      split at h
      · rename_i hcond
        cases h
        have hob := ho _ _ hb
        refine ⟨by simpa using hc, ?_⟩
        intro i b' hb'
        simp only [] at hb' ⊢
        rw [List.getElem?_set] at hb'
        split at hb'
        · rename_i he
          split at hb'
          · cases hb'
            subst he
            have := hob.open_
            exact ⟨hob.size, hob.room, by have := hob.idle; grind, by grind, hob.full, fun _ => ⟨res, rfl⟩, by grind, hob.delivered, by grind⟩
          · cases hb'
        · exact ho i b' hb'
      · cases h
  | deliver i0 =>
    simp only [step] at h
    split at h
    · cases h
    · rename_i b hb
      have hob := ho _ _ hb
      split at h
      · rename_i hcond
        split at h
        · rename_i ks res n key h1 h2
          cases h
          have hlt := getElem?_lt h2
          refine ⟨by simpa using hc, ?_⟩
          intro i b' hb'
          simp only [] at hb' ⊢
          rw [List.getElem?_set] at hb'
          split at hb'
          · rename_i he
            split at hb'
            · cases hb'
              subst he
              exact ⟨hob.size, hob.room, hob.idle, hob.open_, hob.full, hob.called, by grind, by simp only []; omega, by grind⟩
            · cases hb'
          · exact ho i b' hb'
        · rename_i hno
          cases h
          obtain ⟨res, hres⟩ := hob.called (Or.inl hcond)
          have hlen : b.delivered = b.reqs.length := by
            have := hob.delivered
            rcases Nat.lt_or_ge b.delivered b.reqs.length with h' | h'
            · exact absurd (List.getElem?_eq_getElem h') (hno _ _ _ _ hres)
            · omega
          refine ⟨by simpa using hc, ?_⟩
          intro i b' hb'
          simp only [] at hb' ⊢
          rw [List.getElem?_set] at hb'
          split at hb'
          · rename_i he
            split at hb'
            · cases hb'
              subst he
              have := hob.open_
              exact ⟨hob.size, hob.room, by have := hob.idle; grind, by grind, hob.full, fun _ => ⟨res, hres⟩, by grind, hob.delivered, fun _ => hlen⟩
            · cases hb'
          · exact ho i b' hb'
      · cases h

theorem inv_init (V : Type) (cap : Nat) : Inv cap (init V) := by
  refine ⟨by simp [init], ?_⟩
  intro i b hb
  have : b = Batch.new V := by
    cases i with
    | zero => simp [init] at hb; exact hb.symm
    | succ k => simp [init] at hb
  subst this
  exact new_ok _ _

/-! ### Every request in one batch, answered at most once -/

/-- How often request `n` is in the batch / was answered from the batch. -/
def Batch.occ {V : Type} (n : Nat) (b : Batch V) : Nat := (b.reqs.filter (fun r => r.1 = n)).length
/-- Auxiliary function of the proofs; models no code. -/
def Batch.ans {V : Type} (n : Nat) (b : Batch V) : Nat := ((b.reqs.take b.delivered).filter (fun r => r.1 = n)).length

/-- Invariant used in the proofs; models no code. -/
structure Counts {V : Type} (s : State V) (n : Nat) : Prop where
  occ : (s.batches.map (Batch.occ n)).sum = if n < s.count then 1 else 0
  ans : (s.answers.filter (fun a => a.1 = n)).length = (s.batches.map (Batch.ans n)).sum

theorem ans_le_occ {V : Type} (n : Nat) (l : List (Batch V)) : (l.map (Batch.ans n)).sum ≤ (l.map (Batch.occ n)).sum := by
  induction l with
  | nil => simp
  | cons b l ih =>
    have : Batch.ans n b ≤ Batch.occ n b := by
      unfold Batch.ans Batch.occ
      exact ((List.take_sublist _ _).filter _).length_le
    simp; omega

theorem counts_step {V : Type} {cap : Nat} {s s' : State V} {l : Lab V} {n : Nat} (hi : Inv cap s) (hc : Counts s n)
    (h : step cap s l = some s') : Counts s' n := by
  obtain ⟨h1, h2⟩ := hc
  have same : ∀ (i : Nat) (b b' : Batch V), s.batches[i]? = some b → b'.reqs = b.reqs → b'.delivered = b.delivered →
      ((s.batches.set i b').map (Batch.occ n)).sum = (s.batches.map (Batch.occ n)).sum ∧
      ((s.batches.set i b').map (Batch.ans n)).sum = (s.batches.map (Batch.ans n)).sum := by
    intro i b b' hb hr hd
    have e1 := Sub.sum_set (Batch.occ n) s.batches i b b' hb
    have e2 := Sub.sum_set (Batch.ans n) s.batches i b b' hb
    have e3 : Batch.occ n b' = Batch.occ n b := by simp [Batch.occ, hr]
    have e4 : Batch.ans n b' = Batch.ans n b := by simp [Batch.ans, hr, hd]
    omega
  have new0 : Batch.occ n (Batch.new V) = 0 ∧ Batch.ans n (Batch.new V) = 0 := by simp [Batch.occ, Batch.ans, Batch.new]
  cases l with
  | load key =>
    simp only [step] at h
    split at h
    · cases h
    · rename_i b hb
      have hob := hi.ok _ _ hb
      have hd0 : b.delivered = 0 := (hob.uncalled (by have := (hob.open_ rfl).2; grind) (by have := (hob.open_ rfl).2; grind)).2
      have key1 : ∀ b' : Batch V, b'.reqs = b.reqs ++ [(s.count, key)] → b'.delivered = b.delivered →
          ((s.batches.set s.cur b').map (Batch.occ n)).sum = (s.batches.map (Batch.occ n)).sum + (if s.count = n then 1 else 0) ∧
          ((s.batches.set s.cur b').map (Batch.ans n)).sum = (s.batches.map (Batch.ans n)).sum := by
        intro b' hr hd
        have e1 := Sub.sum_set (Batch.occ n) s.batches s.cur b b' hb
        have e2 := Sub.sum_set (Batch.ans n) s.batches s.cur b b' hb
        have e3 : Batch.occ n b' = Batch.occ n b + (if s.count = n then 1 else 0) := by
          unfold Batch.occ
          rw [hr, List.filter_append, List.length_append]
          by_cases hn : s.count = n
          · simp [hn]
          · simp [hn]
        have e4 : Batch.ans n b' = Batch.ans n b := by simp [Batch.ans, hd, hd0]
        omega
      have arith : (if n < s.count + 1 then 1 else 0) = (if n < s.count then 1 else 0) + (if s.count = n then 1 else 0) := by
        split <;> split <;> split <;> omega
      split at h
      · cases h
        obtain ⟨k1, k2⟩ := key1 { b.add s.count key with full := true } rfl rfl
        constructor
        · simp only [List.map_append, List.sum_append, List.map_cons, List.map_nil, List.sum_cons, List.sum_nil, new0.1]
          rw [k1, h1]
          exact arith.symm
        · simp only [List.map_append, List.sum_append, List.map_cons, List.map_nil, List.sum_cons, List.sum_nil, new0.2]
          rw [k2, h2]; rfl
      · cases h
        obtain ⟨k1, k2⟩ := key1 (b.add s.count key) rfl rfl
        constructor
        · simp only []
          rw [k1, h1]
          exact arith.symm
        · simp only []
          rw [k2, h2]
  | threshold i0 =>
    dl_cases h
    all_goals first | contradiction | skip
    rename_i b hb _
    obtain ⟨k1, k2⟩ := same i0 b { b with pc := .call } hb rfl rfl
    exact ⟨by simp only []; rw [k1, h1], by simp only []; rw [k2, h2]⟩
  | timer i0 =>
    dl_cases h
    all_goals first | contradiction | skip
    rename_i b hb _
    obtain ⟨k1, k2⟩ := same i0 b { b with pc := .swap } hb rfl rfl
    exact ⟨by simp only []; rw [k1, h1], by simp only []; rw [k2, h2]⟩
  | swap i0 =>
    dl_cases h
    all_goals first | contradiction | skip
    rename_i b hb _
    obtain ⟨k1, k2⟩ := same i0 b { b with pc := .call } hb rfl rfl
    constructor
    · simp only [List.map_append, List.sum_append, List.map_cons, List.map_nil, List.sum_cons, List.sum_nil, new0.1]
      rw [k1, h1]; rfl
    · simp only [List.map_append, List.sum_append, List.map_cons, List.map_nil, List.sum_cons, List.sum_nil, new0.2]
      rw [k2, h2]; rfl
  | call i0 res =>
    dl_cases h
    all_goals first | contradiction | skip
    rename_i b hb _
    obtain ⟨k1, k2⟩ := same i0 b { b with pc := .deliver, called := some (b.reqs.map (·.2), res) } hb rfl rfl
    exact ⟨by simp only []; rw [k1, h1], by simp only []; rw [k2, h2]⟩
  | deliver i0 =>
    simp only [step] at h
    split at h
    · cases h
    · rename_i b hb
      split at h
      · split at h
        · rename_i ks res m key hcal hreq
          cases h
          have e1 := Sub.sum_set (Batch.occ n) s.batches i0 b { b with delivered := b.delivered + 1 } hb
          have e2 := Sub.sum_set (Batch.ans n) s.batches i0 b { b with delivered := b.delivered + 1 } hb
          have e3 : Batch.occ n { b with delivered := b.delivered + 1 } = Batch.occ n b := rfl
          have e4 : Batch.ans n { b with delivered := b.delivered + 1 } = Batch.ans n b + (if m = n then 1 else 0) := by
            unfold Batch.ans
            simp only []
            rw [List.take_succ, hreq, List.filter_append, List.length_append]
            by_cases hn : m = n
            · simp [hn]
            · simp [hn]
          constructor
          · simp only []; omega
          · simp only [List.filter_append, List.length_append]
            have : (List.filter (fun a : Nat × Option V => decide (a.1 = n)) [(m, res.lookup key)]).length = if m = n then 1 else 0 := by
              by_cases hn : m = n
              · simp [hn]
              · simp [hn]
            rw [this]
            omega
        · cases h
          obtain ⟨k1, k2⟩ := same i0 b { b with pc := .done } hb rfl rfl
          exact ⟨by simp only []; rw [k1, h1], by simp only []; rw [k2, h2]⟩
      · cases h

theorem sum_zero {α : Type} (w : α → Nat) : ∀ (l : List α), (∀ a ∈ l, w a = 0) → (l.map w).sum = 0
  | [], _ => rfl
  | a :: l, h => by
    have := sum_zero w l (fun x hx => h x (List.mem_cons_of_mem _ hx))
    have := h a List.mem_cons_self
    simp_all

/-- Answers come from the batch function. -/
def AnswersOk {V : Type} (s : State V) : Prop :=
  ∀ n v, (n, v) ∈ s.answers → ∃ (i : Nat) (b : Batch V) (key : Bytes) (res : List (Bytes × V)), s.batches[i]? = some b ∧ (n, key) ∈ b.reqs ∧
    b.called = some (b.reqs.map (·.2), res) ∧ v = res.lookup key

theorem answers_step {V : Type} {cap : Nat} {s s' : State V} {l : Lab V} (hi : Inv cap s) (ha : AnswersOk s)
    (h : step cap s l = some s') : AnswersOk s' := by
  -- batches that were called only gain answers
  have mono : ∀ (bs : List (Batch V)), (∀ (i : Nat) (b : Batch V), s.batches[i]? = some b → b.called ≠ none →
      ∃ b', bs[i]? = some b' ∧ b'.reqs = b.reqs ∧ b'.called = b.called) →
      ∀ n v, (n, v) ∈ s.answers → ∃ (i : Nat) (b : Batch V) (key : Bytes) (res : List (Bytes × V)), bs[i]? = some b ∧ (n, key) ∈ b.reqs ∧
        b.called = some (b.reqs.map (·.2), res) ∧ v = res.lookup key := by
    intro bs hbs n v hm
    obtain ⟨i, b, key, res, h1, h2, h3, h4⟩ := ha n v hm
    obtain ⟨b', g1, g2, g3⟩ := hbs i b h1 (by rw [h3]; simp)
    exact ⟨i, b', key, res, g1, by rw [g2]; exact h2, by rw [g3, g2]; exact h3, h4⟩
  have setmono : ∀ (i0 : Nat) (b0 b1 : Batch V) (ext : List (Batch V)), s.batches[i0]? = some b0 →
      (b0.called ≠ none → b1.reqs = b0.reqs ∧ b1.called = b0.called) →
      ∀ (i : Nat) (b : Batch V), s.batches[i]? = some b → b.called ≠ none →
      ∃ b', (s.batches.set i0 b1 ++ ext)[i]? = some b' ∧ b'.reqs = b.reqs ∧ b'.called = b.called := by
    intro i0 b0 b1 ext hb0 hsame i b hb hcal
    have hlt := getElem?_lt hb
    rw [List.getElem?_append_left (by simpa using hlt), List.getElem?_set]
    by_cases he : i0 = i
    · subst he
      rw [hb0] at hb
      cases hb
      exact ⟨b1, by simp [hlt], (hsame hcal).1, (hsame hcal).2⟩
    · exact ⟨b, by simp [he, hb], rfl, rfl⟩
  have setmono' : ∀ (i0 : Nat) (b0 b1 : Batch V), s.batches[i0]? = some b0 →
      (b0.called ≠ none → b1.reqs = b0.reqs ∧ b1.called = b0.called) →
      ∀ (i : Nat) (b : Batch V), s.batches[i]? = some b → b.called ≠ none →
      ∃ b', (s.batches.set i0 b1)[i]? = some b' ∧ b'.reqs = b.reqs ∧ b'.called = b.called := by
    intro i0 b0 b1 hb0 hsame i b hb hcal
    have := setmono i0 b0 b1 [] hb0 hsame i b hb hcal
    simpa using this
  cases l with
  | load key =>
    simp only [step] at h
    split at h
    · cases h
    · rename_i b hb
      have hob := hi.ok _ _ hb
      have hn : b.called = none := (hob.uncalled (by have := (hob.open_ rfl).2; grind) (by have := (hob.open_ rfl).2; grind)).1
      split at h <;> cases h
      · exact mono _ (setmono _ b _ _ hb (fun hc => absurd hn hc))
      · exact mono _ (setmono' _ b _ hb (fun hc => absurd hn hc))
  | threshold i0 =>
    dl_cases h
    all_goals first | contradiction | skip
    rename_i b hb _
    exact mono _ (setmono' _ b _ hb (fun _ => ⟨rfl, rfl⟩))
  | timer i0 =>
    dl_cases h
    all_goals first | contradiction | skip
    rename_i b hb _
    exact mono _ (setmono' _ b _ hb (fun _ => ⟨rfl, rfl⟩))
  | swap i0 =>
    dl_cases h
    all_goals first | contradiction | skip
    rename_i b hb _
    exact mono _ (setmono _ b _ _ hb (fun _ => ⟨rfl, rfl⟩))
  | call i0 res =>
    dl_cases h
    all_goals first | contradiction | skip
    rename_i b hb hp
    have hn : b.called = none := ((hi.ok _ _ hb).uncalled (by rw [hp]; simp) (by rw [hp]; simp)).1
    exact mono _ (setmono' _ b _ hb (fun hc => absurd hn hc))
  | deliver i0 =>
    simp only [step] at h
    split at h
    · cases h
    · rename_i b hb
      have hob := hi.ok _ _ hb
      split at h
      · rename_i hp
        split at h
        · rename_i ks res m key hcal hreq
          cases h
          obtain ⟨res', hres'⟩ := hob.called (Or.inl hp)
          rw [hcal] at hres'
          cases hres'
          intro n v hm
          simp only [List.mem_append, List.mem_singleton, Prod.mk.injEq] at hm
          rcases hm with hm | ⟨rfl, rfl⟩
          · exact mono _ (setmono' i0 b { b with delivered := b.delivered + 1 } hb (fun _ => ⟨rfl, rfl⟩)) n v hm
          · refine ⟨i0, { b with delivered := b.delivered + 1 }, key, res, ?_, List.mem_of_getElem? hreq, hcal, rfl⟩
            simp [getElem?_lt hb]
        · cases h
          exact mono _ (setmono' _ b _ hb (fun _ => ⟨rfl, rfl⟩))
      · cases h

theorem all_run {V : Type} {cap : Nat} {ls : List (Lab V)} {s : State V} (h : run cap (init V) ls = some s) :
    Inv cap s ∧ (∀ n, Counts s n) ∧ AnswersOk s := by
  refine run_inv (P := fun s => Inv cap s ∧ (∀ n, Counts s n) ∧ AnswersOk s) ?_ ?_ h
  · intro s l s' ⟨h1, h2, h3⟩ hs
    exact ⟨inv_step h1 hs, fun n => counts_step h1 (h2 n) hs, answers_step h1 h3 hs⟩
  · refine ⟨inv_init V cap, fun n => ⟨?_, ?_⟩, ?_⟩
    · simp [init, Batch.occ, Batch.new]
    · simp [init, Batch.ans, Batch.new]
    · intro n v hm; simp [init] at hm

/-- **C74** (batches). In every run, with any number of concurrent `Load`s: a batch never has more requests than the configured size, every request is in exactly one
batch, exactly once, and the batch function is given exactly the keys of the batch's requests. -/
theorem C74_batches {V : Type} {cap : Nat} {ls : List (Lab V)} {s : State V} (h : run cap (init V) ls = some s) :
    (0 < cap → ∀ b ∈ s.batches, b.reqs.length ≤ cap) ∧
    (∀ n, (s.batches.map (fun b => (b.reqs.filter (fun r => r.1 = n)).length)).sum = if n < s.count then 1 else 0) ∧
    (∀ b ∈ s.batches, ∀ keys res, b.called = some (keys, res) → keys = b.reqs.map (·.2)) := by
  obtain ⟨hi, hc, -⟩ := all_run h
  refine ⟨?_, fun n => (hc n).occ, ?_⟩
  · intro hcap b hb
    obtain ⟨i, hlt, rfl⟩ := List.getElem_of_mem hb
    exact (hi.ok i _ (List.getElem?_eq_getElem hlt)).size hcap
  · intro b hb keys res hcal
    obtain ⟨i, hlt, rfl⟩ := List.getElem_of_mem hb
    have hob := hi.ok i _ (List.getElem?_eq_getElem hlt)
    by_cases hp : (s.batches[i]).pc = .deliver ∨ (s.batches[i]).pc = .done
    · obtain ⟨res', h'⟩ := hob.called hp
      rw [hcal] at h'
      cases h'
      rfl
    · have := (hob.uncalled (fun a => hp (Or.inl a)) (fun a => hp (Or.inr a))).1
      rw [hcal] at this
      cases this

/-- **C74** (answers). Every `Load` returns at most once, and what it returns is what the batch function answered for its key (`NoValueError` if nothing) when called with
the batch containing the request. -/
theorem C74_answers {V : Type} {cap : Nat} {ls : List (Lab V)} {s : State V} (h : run cap (init V) ls = some s) :
    (∀ n, (s.answers.filter (fun a => a.1 = n)).length ≤ 1) ∧
    (∀ n v, (n, v) ∈ s.answers → ∃ b ∈ s.batches, ∃ key res, (n, key) ∈ b.reqs ∧ b.called = some (b.reqs.map (·.2), res) ∧ v = res.lookup key) := by
  obtain ⟨-, hc, ha⟩ := all_run h
  constructor
  · intro n
    have h1 := (hc n).ans
    have h2 := (hc n).occ
    have h3 := ans_le_occ n s.batches
    split at h2 <;> omega
  · intro n v hm
    obtain ⟨i, b, key, res, g1, g2, g3, g4⟩ := ha n v hm
    exact ⟨b, List.mem_of_getElem? g1, key, res, g2, g3, g4⟩

/-- Actions the loader takes by itself. -/
def Lab.internal {V : Type} : Lab V → Bool
  | .load _ => false
  | _ => true

/-- Steps a batch still needs, at most. -/
def Batch.work {V : Type} (b : Batch V) : Nat :=
  match b.pc with
  | .idle => 0
  | .wait => 4 + b.reqs.length
  | .swap => 3 + b.reqs.length
  | .call => 2 + b.reqs.length
  | .deliver => 1 + (b.reqs.length - b.delivered)
  | .done => 0

/-- Auxiliary function of the proofs; models no code. -/
def State.work {V : Type} (s : State V) : Nat := (s.batches.map Batch.work).sum

/-- **C74** (every `Load` returns). As long as a `Load` has not returned, the loader can take a step by itself, and each such step strictly decreases the work left: the
loader never deadlocks and cannot go on for ever without answering. -/
theorem C74_progress {V : Type} {cap : Nat} {ls : List (Lab V)} {s : State V} (h : run cap (init V) ls = some s) :
    (∀ n, n < s.count → (∀ v, (n, v) ∉ s.answers) → ∃ l s', l.internal = true ∧ step cap s l = some s') ∧
    (∀ l s', l.internal = true → step cap s l = some s' → s'.work < s.work) := by
  obtain ⟨hi, hc, -⟩ := all_run h
  constructor
  · intro n hn hno
    have h1 := (hc n).occ
    rw [if_pos hn] at h1
    have h2 : (s.batches.map (Batch.ans n)).sum = 0 := by
      rw [← (hc n).ans]
      have : s.answers.filter (fun a => a.1 = n) = [] := by
        rw [List.filter_eq_nil_iff]
        rintro ⟨m, v⟩ hm he
        simp only [decide_eq_true_eq] at he
        subst he
        exact hno v hm
      rw [this]; rfl
    have hex : ∃ b ∈ s.batches, Batch.occ n b ≠ 0 := by
      apply Classical.byContradiction
      intro hcon
      have := sum_zero (Batch.occ n) s.batches (fun b hb => Classical.byContradiction (fun h' => hcon ⟨b, hb, h'⟩))
      omega
    obtain ⟨b, hb, hocc⟩ := hex
    have hans : Batch.ans n b = 0 := by
      have : ∀ (l : List (Batch V)), b ∈ l → Batch.ans n b ≤ (l.map (Batch.ans n)).sum := by
        intro l
        induction l with
        | nil => intro h'; simp at h'
        | cons x xs ih =>
          intro h'
          simp only [List.map_cons, List.sum_cons]
          rcases List.mem_cons.1 h' with rfl | h'
          · omega
          · have := ih h'; omega
      have := this _ hb
      omega
    obtain ⟨i, hlt, rfl⟩ := List.getElem_of_mem hb
    have hg := List.getElem?_eq_getElem hlt
    have hob := hi.ok i _ hg
    cases hp : (s.batches[i]).pc with
    | idle =>
      have := hob.idle.1 hp
      simp [Batch.occ, this] at hocc
    | wait => exact ⟨.timer i, _, rfl, by simp only [step, hg, hp]; rfl⟩
    | swap => exact ⟨.swap i, _, rfl, by simp only [step, hg, hp]; rfl⟩
    | call => exact ⟨.call i [], _, rfl, by simp only [step, hg, hp]; rfl⟩
    | deliver =>
      refine ⟨.deliver i, ?_⟩
      simp only [step, hg, hp, if_true]
      split
      · exact ⟨_, rfl, rfl⟩
      · exact ⟨_, rfl, rfl⟩
    | done =>
      have := hob.done hp
      rw [Batch.ans, this, List.take_length] at hans
      exact absurd hans hocc
  · intro l s' hint hs
    have upd : ∀ (i : Nat) (b b' : Batch V), s.batches[i]? = some b → b'.work < b.work →
        ((s.batches.set i b').map Batch.work).sum < (s.batches.map Batch.work).sum := by
      intro i b b' hb hw
      have := Sub.sum_set Batch.work s.batches i b b' hb
      omega
    have new0 : Batch.work (Batch.new V) = 0 := rfl
    cases l with
    | load key => simp [Lab.internal] at hint
    | threshold i0 =>
      dl_cases hs
      all_goals first | contradiction | skip
      rename_i b hb hp
      exact upd _ b _ hb (by simp [Batch.work, hp.1])
    | timer i0 =>
      dl_cases hs
      all_goals first | contradiction | skip
      rename_i b hb hp
      exact upd _ b _ hb (by simp [Batch.work, hp])
    | swap i0 =>
      dl_cases hs
      all_goals first | contradiction | skip
      rename_i b hb hp
      have := upd i0 b { b with pc := .call } hb (by simp [Batch.work, hp])
      unfold State.work
      simp only [List.map_append, List.sum_append, List.map_cons, List.map_nil, List.sum_cons, List.sum_nil, new0]
      omega
    | call i0 res =>
      dl_cases hs
      all_goals first | contradiction | skip
      rename_i b hb hp
      exact upd _ b _ hb (by simp [Batch.work, hp]; omega)
    | deliver i0 =>
      simp only [step] at hs
      split at hs
      · cases hs
      · rename_i b hb
        split at hs
        · rename_i hp
          split at hs
          · rename_i hreq
            cases hs
            have hlt := getElem?_lt hreq
            exact upd _ b _ hb (by simp [Batch.work, hp]; omega)
          · cases hs
            exact upd _ b _ hb (by simp [Batch.work, hp]; omega)
        · cases hs

/-- **C74 refuted (unique keys).** The batch function may be given the same key twice, although its documentation promises unique keys. -/
theorem C74_duplicate_keys : ∃ (ls : List (Lab Nat)) (s : State Nat), run 30 (init Nat) ls = some s ∧
    s.batches.map (fun b => b.called.map (·.1)) = [some [b! "k", b! "k"], none] :=
  ⟨[.load (b! "k"), .load (b! "k"), .timer 0, .swap 0, .call 0 []], _, rfl, by decide +kernel⟩

/-- The timer of a full batch fires at the same time: the batch after it is replaced while it has a request, and still answered. -/
example : ∃ s, run 2 (init Nat) [.load (b! "a"), .load (b! "b"), .load (b! "c"), .timer 0, .swap 0, .load (b! "d"), .call 0 [(b! "b", 7)], .deliver 0, .deliver 0,
    .deliver 0, .timer 1, .swap 1, .call 1 [(b! "c", 8)], .deliver 1] = some s ∧ s.answers = [(0, none), (1, some 7), (2, some 8)] ∧
    s.batches.map (fun b => b.reqs.map (·.1)) = [[0, 1], [2], [3], []] := ⟨_, rfl, by decide +kernel, by decide +kernel⟩

end GoNostr.Loader
