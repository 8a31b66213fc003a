import Verif.Curve.Secp
import Mathlib.GroupTheory.Perm.Cycle.Type
import Mathlib.GroupTheory.SpecificGroups.Cyclic
import Mathlib.FieldTheory.Finite.Basic
/-!
# Every point of secp256k1 is a multiple of the generator

The curve has at most `2 * fieldP + 1` points, two for each first coordinate and infinity; the order of the generator divides their number, so there are `groupN` or twice as many. In the second
case there would be a point of order two, that is a cube root of `-7`, and there is none.
-/

set_option autoImplicit false

namespace GoNostr.Curve

attribute [local irreducible] fieldP groupN

theorem odd_p : fieldP % 2 = 1 := by decide +kernel

/-- Of a number and its negative just one is odd, unless they are zero. -/
theorem parity_neg {y : Fp} (h : y ≠ 0) : (-y).val % 2 ≠ y.val % 2 := by
  haveI : NeZero y := ⟨h⟩
  have h1 : (-y).val = fieldP - y.val := ZMod.val_neg_of_ne_zero y
  have h2 := ZMod.val_lt y
  have h3 := odd_p
  omega

/-- Two points with the same first coordinate. -/
theorem same_x {x y y' : Fp} (h : y ^ 2 = x ^ 3 + 7) (h' : y' ^ 2 = x ^ 3 + 7) : y' = y ∨ y' = -y := by
  have : y' ^ 2 = y ^ 2 := by rw [h, h']
  exact sq_eq_sq_iff_eq_or_eq_neg.1 this

/-- A code for points. -/
def code : Pt → Option (Fp × Fin 2)
  | .zero => none
  | .some x y _ => some (x, ⟨y.val % 2, Nat.mod_lt _ (by decide)⟩)

theorem code_inj : Function.Injective code := by
  intro P Q h
  cases P with
  | zero =>
    cases Q with
    | zero => rfl
    | some x y hq => cases h
  | some x y hp =>
    cases Q with
    | zero => cases h
    | some x' y' hq =>
      simp only [code, Option.some.injEq, Prod.mk.injEq, Fin.mk.injEq] at h
      obtain ⟨rfl, hpar⟩ := h
      have e1 := (on_iff _ _).1 hp
      have e2 := (on_iff _ _).1 hq
      rcases same_x e1 e2 with rfl | e
      · rfl
      · by_cases h0 : y = 0
        · have : y' = y := by rw [e, h0, neg_zero]
          subst this
          rfl
        · exact absurd (by rw [← e]; exact hpar.symm) (parity_neg h0)

instance : Finite Pt := Finite.of_injective code code_inj

theorem card_le : Nat.card Pt ≤ 2 * fieldP + 1 := by
  have h := Nat.card_le_card_of_injective code code_inj
  refine h.trans (le_of_eq ?_)
  rw [Finite.card_option, Nat.card_prod]
  simp [Nat.card_zmod, Nat.mul_comm]

theorem sizes : 2 * fieldP + 1 < 3 * groupN ∧ powMod (fieldP - 7) ((fieldP - 1) / 3) fieldP % fieldP ≠ 1 ∧ (fieldP - 1) / 3 < 2 ^ 300 ∧ (fieldP - 1) / 3 * 3 = fieldP - 1 ∧ 7 ≤ fieldP ∧ 1 % fieldP = 1
    ∧ powMod 7 ((fieldP - 1) / 2) fieldP % fieldP ≠ 1 ∧ (fieldP - 1) / 2 < 2 ^ 300 ∧ (fieldP - 1) / 2 * 2 = fieldP - 1 ∧ 7 % fieldP ≠ 0 := by
  decide +kernel

/-- `-7` has no cube root. -/
theorem no_cube (x : Fp) : x ^ 3 ≠ -7 := by
  intro h
  obtain ⟨_, h2, h3, h4, h5, h6, _, _, _, h10⟩ := sizes
  have hx : x ≠ 0 := by
    rintro rfl
    have : ((7 : Nat) : Fp) = ((0 : Nat) : Fp) := by
      push_cast
      linear_combination h
    exact h10 (by simpa using mod_of_fp this)
  rw [powMod_eq _ _ _ h3] at h2
  apply h2
  have e : (((fieldP - 7) ^ ((fieldP - 1) / 3) : Nat) : Fp) = ((1 : Nat) : Fp) := by
    rw [Nat.cast_pow, Nat.cast_sub h5]
    have : ((fieldP : Nat) : Fp) - ((7 : Nat) : Fp) = x ^ 3 := by rw [h]; simp
    rw [this, ← pow_mul, Nat.mul_comm, h4, ZMod.pow_card_sub_one_eq_one hx, Nat.cast_one]
  rw [mod_of_fp e, h6]

/-- `7` has no square root: no point has the first coordinate zero. -/
theorem no_root (y : Fp) : y ^ 2 ≠ 7 := by
  intro h
  obtain ⟨_, _, _, _, _, h6, h7, h8, h9, h10⟩ := sizes
  have hy : y ≠ 0 := by
    rintro rfl
    have : ((7 : Nat) : Fp) = ((0 : Nat) : Fp) := by
      push_cast
      linear_combination -h
    exact h10 (by simpa using mod_of_fp this)
  rw [powMod_eq _ _ _ h8] at h7
  apply h7
  have e : ((7 ^ ((fieldP - 1) / 2) : Nat) : Fp) = ((1 : Nat) : Fp) := by
    rw [Nat.cast_pow]
    have : ((7 : Nat) : Fp) = y ^ 2 := by rw [h]; simp
    rw [this, ← pow_mul, Nat.mul_comm, h9, ZMod.pow_card_sub_one_eq_one hy, Nat.cast_one]
  rw [mod_of_fp e, h6]

/-- No point is its own negative, except infinity. -/
theorem no_two (P : Pt) (h : P + P = 0) : P = 0 := by
  cases P with
  | zero => rfl
  | some x y hp =>
    exfalso
    have hn : (WeierstrassCurve.Affine.Point.some x y hp : Pt) = -.some x y hp := eq_neg_of_add_eq_zero_left h
    rw [WeierstrassCurve.Affine.Point.neg_some] at hn
    have hy : y = secp.toAffine.negY x y := by injection hn
    rw [negY_eq] at hy
    have h2 : (2 : Fp) * y = 0 := by linear_combination hy
    have hy0 : y = 0 := by
      rcases mul_eq_zero.1 h2 with h | h
      · exact absurd h two_ne
      · exact h
    have := (on_iff _ _).1 hp
    rw [hy0] at this
    exact no_cube x (by linear_combination -this)

/-- The number of points is the order of the generator. -/
theorem card_eq : Nat.card Pt = groupN := by
  have hd : groupN ∣ Nat.card Pt := by
    rw [← order_G]
    exact addOrderOf_dvd_natCard G
  obtain ⟨m, hm⟩ := hd
  have hpos : 0 < Nat.card Pt := Nat.card_pos
  have hle := card_le
  have hs := sizes.1
  have hm3 : m < 3 := by
    by_contra hc
    have : groupN * 3 ≤ groupN * m := Nat.mul_le_mul_left _ (by omega)
    omega
  have hm0 : m ≠ 0 := by rintro rfl; omega
  have hm2 : m ≠ 2 := by
    rintro rfl
    have : Fact (Nat.Prime 2) := ⟨Nat.prime_two⟩
    obtain ⟨P, hP⟩ := exists_prime_addOrderOf_dvd_card' (G := Pt) 2 ⟨groupN, by rw [hm, Nat.mul_comm]⟩
    have h0 : P + P = 0 := by
      have := addOrderOf_nsmul_eq_zero P
      rwa [hP, two_nsmul] at this
    rw [no_two P h0, addOrderOf_zero] at hP
    exact absurd hP (by decide)
  have : m = 1 := by omega
  rw [hm, this, Nat.mul_one]

/-- Every point is a multiple of the generator. -/
theorem generated (P : Pt) : ∃ k, k < groupN ∧ k • G = P := by
  have h : AddSubgroup.zmultiples G = ⊤ := by
    apply AddSubgroup.eq_top_of_card_eq
    rw [Nat.card_zmultiples, order_G, card_eq]
  have hm : P ∈ AddSubgroup.zmultiples G := by rw [h]; trivial
  rw [← mem_multiples_iff_mem_zmultiples] at hm
  obtain ⟨k, hk⟩ := hm
  refine ⟨k % groupN, Nat.mod_lt _ prime_order.pos, ?_⟩
  rw [← hk, ← order_G]
  exact mod_addOrderOf_nsmul G k

/-- Multiplying a point other than infinity by a number that is no multiple of the order never gives infinity. -/
theorem smul_ne {P : Pt} (hP : P ≠ 0) {k : Nat} (hk : ¬ groupN ∣ k) : k • P ≠ 0 := by
  obtain ⟨j, _, rfl⟩ := generated P
  have hj : ¬ groupN ∣ j := fun h => hP ((smul_eq_zero j).2 h)
  rw [← mul_nsmul']
  intro h
  rcases (prime_order.dvd_mul).1 ((smul_eq_zero _).1 h) with h | h
  · exact hk h
  · exact hj h

end GoNostr.Curve
