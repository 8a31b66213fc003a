import Verif.HLL.Theorems
/-!
# C43: `CountMany`
-/

set_option autoImplicit false

namespace GoNostr.CountMany

open GoNostr.HLL

/-- What one relay's count request came to: an error or the registers of the answer. -/
inductive Answer
  | failed
  | regs (r : List Nat)
  deriving DecidableEq, Repr

/-- The merging done by one goroutine (pool.go:711-722). -/
def mergeAnswer (h : Sketch) : Answer → Out Sketch
  | .failed => .val h
  | .regs r => if r.length ≠ 256 then .val h else mergeRegisters h r

/-- `CountMany` (pool.go:698-728) for the answers in the order in which the goroutines merge them, one at a time; `est` is
`HyperLogLog.Count`, a function of the registers (not modelled). -/
def countMany (est : List Nat → Nat) (answers : List Answer) : Out Nat := do
  let h ← new 0
  let h' ← answers.foldl (fun (acc : Out Sketch) a => do let h ← acc; mergeAnswer h a) (Out.val h)
  return est h'.registers

/-- The valid answers. -/
def valid (answers : List Answer) : List (List Nat) := answers.filterMap (fun
  | .failed => none
  | .regs r => if r.length = 256 then some r else none)

/-- Spec: register `j` is the largest value any valid answer has there, zero if there is none. -/
def IsUnion (vs : List (List Nat)) (regs : List Nat) : Prop :=
  regs.length = 256 ∧ ∀ j, j < 256 → (∀ r ∈ vs, r.getD j 0 ≤ regs.getD j 0) ∧ (regs.getD j 0 = 0 ∨ ∃ r ∈ vs, r.getD j 0 = regs.getD j 0)

theorem union_unique {vs ws : List (List Nat)} {a b : List Nat} (ha : IsUnion vs a) (hb : IsUnion ws b) (h : ∀ r, r ∈ vs ↔ r ∈ ws) :
    a = b := by
  apply List.ext_getElem
  · rw [ha.1, hb.1]
  · intro j h1 h2
    have hj : j < 256 := by rw [← ha.1]; exact h1
    obtain ⟨a1, a2⟩ := ha.2 j hj
    obtain ⟨b1, b2⟩ := hb.2 j hj
    have : a.getD j 0 = b.getD j 0 := by
      apply Nat.le_antisymm
      · rcases a2 with a2 | ⟨r, hr, a2⟩
        · omega
        · rw [← a2]; exact b1 r ((h r).1 hr)
      · rcases b2 with b2 | ⟨r, hr, b2⟩
        · omega
        · rw [← b2]; exact a1 r ((h r).2 hr)
    simpa [List.getD_eq_getElem?_getD, List.getElem?_eq_getElem h1, List.getElem?_eq_getElem h2] using this

theorem mergeRegisters_max (h : Sketch) (r : List Nat) (hw : h.registers.length = 256) (hr : r.length = 256) :
    ∃ h', mergeRegisters h r = .val h' ∧ h'.registers.length = 256 ∧
      ∀ j, j < 256 → h'.registers.getD j 0 = max (h.registers.getD j 0) (r.getD j 0) := by
  obtain ⟨c, h1, -, h2, h3⟩ := merge_pointwise h ⟨0, r⟩ hw hr
  exact ⟨c, h1, h2, h3⟩

theorem fold_union : ∀ (answers : List Answer) (h : Sketch) (vs : List (List Nat)), IsUnion vs h.registers →
    ∃ h', answers.foldl (fun (acc : Out Sketch) a => do let h ← acc; mergeAnswer h a) (Out.val h) = .val h' ∧ IsUnion (vs ++ valid answers) h'.registers
  | [], h, vs, hu => ⟨h, rfl, by simpa [valid] using hu⟩
  | .failed :: as, h, vs, hu => by
    obtain ⟨h', h1, h2⟩ := fold_union as h vs hu
    exact ⟨h', h1, h2⟩
  | .regs r :: as, h, vs, hu => by
    by_cases hr : r.length = 256
    · obtain ⟨h1, e1, e2, e3⟩ := mergeRegisters_max h r hu.1 hr
      have hu' : IsUnion (vs ++ [r]) h1.registers := by
        refine ⟨e2, fun j hj => ?_⟩
        obtain ⟨u1, u2⟩ := hu.2 j hj
        have := e3 j hj
        refine ⟨fun x hx => ?_, ?_⟩
        · rcases List.mem_append.1 hx with hx | hx
          · have := u1 x hx; omega
          · rw [List.mem_singleton.1 hx]; omega
        · rcases Nat.le_total (h.registers.getD j 0) (r.getD j 0) with hle | hle
          · exact Or.inr ⟨r, by simp, by omega⟩
          · rcases u2 with u2 | ⟨x, hx, u2⟩
            · exact Or.inl (by omega)
            · exact Or.inr ⟨x, List.mem_append_left _ hx, by omega⟩
      obtain ⟨h', g1, g2⟩ := fold_union as h1 (vs ++ [r]) hu'
      refine ⟨h', ?_, ?_⟩
      · simp only [List.foldl_cons, Out.val_bind, mergeAnswer, hr, ne_eq, not_true, if_false, e1]; exact g1
      · simpa [valid, hr] using g2
    · obtain ⟨h', g1, g2⟩ := fold_union as h vs hu
      refine ⟨h', ?_, ?_⟩
      · simp only [List.foldl_cons, Out.val_bind, mergeAnswer, hr, ne_eq, not_false_eq_true, if_true]; exact g1
      · simpa [valid, hr] using g2

theorem countMany_spec (est : List Nat → Nat) (answers : List Answer) :
    ∃ regs, countMany est answers = .val (est regs) ∧ IsUnion (valid answers) regs := by
  obtain ⟨h', h1, h2⟩ := fold_union answers ⟨0, List.replicate 256 0⟩ [] ⟨List.length_replicate,
    fun j hj => ⟨fun r hr => absurd hr List.not_mem_nil, Or.inl (by
    simp only [List.getD_eq_getElem?_getD, List.getElem?_replicate, hj, if_true, Option.getD_some])⟩⟩
  refine ⟨h'.registers, ?_, by rw [List.nil_append] at h2; exact h2⟩
  have : new 0 = .val ⟨0, List.replicate 256 0⟩ := rfl
  unfold countMany
  rw [this, Out.val_bind, h1]
  rfl

/-- **C43** (partial: merges one at a time). The count is an estimate of the union of the valid answers; two sets of answers with the same
valid register blocks, in any order and multiplicity and with any failures among them, give the same count. Missing: the real
goroutines merge without synchronisation (`C43_lost_update`). -/
theorem C43_order_and_multiplicity_irrelevant_partial (est : List Nat → Nat) (xs ys : List Answer)
    (h : ∀ r, r ∈ valid xs ↔ r ∈ valid ys) : countMany est xs = countMany est ys := by
  obtain ⟨a, h1, h2⟩ := countMany_spec est xs
  obtain ⟨b, h3, h4⟩ := countMany_spec est ys
  rw [h1, h3, union_unique h2 h4 h]

/-- **C43** (meaning): the registers estimated are the union of the valid answers. -/
theorem C43_is_union_partial (est : List Nat → Nat) (answers : List Answer) :
    ∃ regs, countMany est answers = .val (est regs) ∧ IsUnion (valid answers) regs := countMany_spec est answers

example : valid [.regs (List.replicate 256 3), .failed, .regs [1], .regs (List.replicate 256 2), .regs (List.replicate 256 3)] =
    [List.replicate 256 3, List.replicate 256 2, List.replicate 256 3] := by decide +kernel

/-- A goroutine inside `MergeRegisters` (hyperloglog/hll.go:39-45): next register, and whether it has just found its value larger. -/
structure Merger where
  regs : List Nat
  i : Nat
  writing : Bool
  deriving DecidableEq, Repr

/-- One memory access of goroutine `g`: compare, or write. -/
def tick (s : List Nat × List Merger) (g : Nat) : List Nat × List Merger :=
  match s.2[g]? with
  | none => s
  | some m => match m.regs[m.i]? with
    | none => s
    | some v =>
      if m.writing then (s.1.set m.i v, s.2.set g { m with i := m.i + 1, writing := false })
      else if v > s.1.getD m.i 0 then (s.1, s.2.set g { m with writing := true })
      else (s.1, s.2.set g { m with i := m.i + 1 })

/-- **C43 refuted (data race).** Two goroutines merge concurrently; both compare register 0 before either writes, the smaller value is
written last, and the larger answer is lost when both are done. -/
theorem C43_lost_update : ∃ sched : List Nat,
    let a := 9 :: List.replicate 255 0
    let b := 5 :: List.replicate 255 0
    let s := sched.foldl tick (List.replicate 256 0, [⟨a, 0, false⟩, ⟨b, 0, false⟩])
    s.2.map (fun m => m.i) = [256, 256] ∧ s.1.getD 0 0 = 5 := by
  refine ⟨[0, 1, 0, 1] ++ List.replicate 255 0 ++ List.replicate 255 1, ?_⟩
  decide +kernel

end GoNostr.CountMany
