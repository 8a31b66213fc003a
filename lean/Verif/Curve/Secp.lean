import Verif.Curve.Primes
import Mathlib.AlgebraicGeometry.EllipticCurve.Affine.Point
import Mathlib.GroupTheory.OrderOfElement
/-!
# The group of secp256k1

The curve `y² = x³ + 7` over the field with `fieldP` elements, its group law taken from Mathlib, its generator `G`, and the proof that `G` has order `groupN`: the kernel multiplies `G` by
`groupN - 1` with the formulas below, and the formulas are proved to be the group law.
-/

set_option autoImplicit false

namespace GoNostr.Curve

instance : Fact (Nat.Prime fieldP) := ⟨prime_field⟩
instance : Fact (Nat.Prime groupN) := ⟨prime_order⟩

/-- The field. -/
abbrev Fp : Type := ZMod fieldP

/-- The curve. -/
def secp : WeierstrassCurve Fp := ⟨0, 0, 0, 0, 7⟩

/-- Its points. -/
abbrev Pt : Type := secp.toAffine.Point

/-- The coordinates of the generator. -/
def gx : Nat := 0x79BE667EF9DCBBAC55A06295CE870B07029BFCDB2DCE28D959F2815B16F81798
/-- The second coordinate of the generator. -/
def gy : Nat := 0x483ADA7726A3C4655DA4FBFC0E1108A8FD17B448A68554199C47D08FFB10D4B8

theorem fp_of_mod {a b : Nat} (h : a % fieldP = b % fieldP) : (a : Fp) = (b : Fp) := (ZMod.natCast_eq_natCast_iff' a b fieldP).2 h
theorem mod_of_fp {a b : Nat} (h : (a : Fp) = (b : Fp)) : a % fieldP = b % fieldP := (ZMod.natCast_eq_natCast_iff' a b fieldP).1 h

theorem two_ne : (2 : Fp) ≠ 0 := by
  have : ((2 : Nat) : Fp) ≠ ((0 : Nat) : Fp) := fun h => absurd (mod_of_fp h) (by decide +kernel)
  simpa using this

theorem delta_ne : secp.Δ ≠ 0 := by
  have e : secp.Δ = -((21168 : Nat) : Fp) := by
    simp only [WeierstrassCurve.Δ, WeierstrassCurve.b₂, WeierstrassCurve.b₄, WeierstrassCurve.b₆, WeierstrassCurve.b₈, secp]
    push_cast
    ring
  rw [e, neg_ne_zero]
  have : ((21168 : Nat) : Fp) ≠ ((0 : Nat) : Fp) := fun h => absurd (mod_of_fp h) (by decide +kernel)
  simpa using this

theorem on_iff (x y : Fp) : secp.toAffine.Nonsingular x y ↔ y ^ 2 = x ^ 3 + 7 := by
  rw [← WeierstrassCurve.Affine.equation_iff_nonsingular_of_Δ_ne_zero (W := secp.toAffine) delta_ne, WeierstrassCurve.Affine.equation_iff]
  simp [secp, WeierstrassCurve.toAffine]

theorem negY_eq (x y : Fp) : secp.toAffine.negY x y = -y := by
  simp [WeierstrassCurve.Affine.negY, secp, WeierstrassCurve.toAffine]

theorem g_on : secp.toAffine.Nonsingular (gx : Fp) (gy : Fp) := by
  rw [on_iff]
  have : ((gy ^ 2 : Nat) : Fp) = ((gx ^ 3 + 7 : Nat) : Fp) := fp_of_mod (by decide +kernel)
  push_cast at this
  exact this

/-- The generator. -/
def G : Pt := .some _ _ g_on

/-! ## Computing -/

attribute [local irreducible] fieldP


/-- `P` is the point with these coordinates. -/
def Is (P : Pt) (x y : Nat) : Prop := ∃ h, P = .some (x : Fp) (y : Fp) h

/-- Subtraction modulo `p` on numbers, for the kernel; models no code. -/
def sub (a b : Nat) : Nat := a + (fieldP - b % fieldP)

theorem sub_cast (a b : Nat) : ((sub a b : Nat) : Fp) = a - b := by
  have h : b % fieldP ≤ fieldP := (Nat.mod_lt _ (by decide +kernel)).le
  rw [sub, Nat.cast_add, Nat.cast_sub h]
  simp [sub_eq_add_neg]

/-- `f n`, written so that the kernel computes `n` first. -/
def force {α : Type} (n : Nat) (f : Nat → α) : α := Nat.rec (f 0) (fun k _ => f (k + 1)) n

theorem force_eq {α : Type} (n : Nat) (f : Nat → α) : force n f = f n := by cases n <;> rfl

/-- From the slope to the sum. -/
def third (l x1 y1 x2 : Nat) : Nat × Nat :=
  force (sub (sub (l * l) x1) x2 % fieldP) fun x3 => force (sub (l * sub x1 x3) y1 % fieldP) fun y3 => (x3, y3)

theorem third_def (l x1 y1 x2 : Nat) : third l x1 y1 x2 = (sub (sub (l * l) x1) x2 % fieldP, sub (l * sub x1 (sub (sub (l * l) x1) x2 % fieldP)) y1 % fieldP) := by
  rw [third, force_eq, force_eq]

/-- A candidate for an inverse, by Euclid's algorithm; it is checked where it is used. -/
def euclid : Nat → Nat → Nat → Nat → Nat → Nat
  | 0, _, _, t, _ => t
  | f + 1, r, r', t, t' => Nat.rec t (fun _ _ => force (r % r') fun a => force ((t + (fieldP - r / r' * t' % fieldP)) % fieldP) fun b => euclid f r' a t' b) r'

/-- Doubling on coordinates, for the kernel; models no code. -/
def dbl (x y : Nat) : Option (Nat × Nat) :=
  force (2 * y % fieldP) fun d => force (euclid 400 fieldP d 0 1) fun i =>
    if d * i % fieldP = 1 then force (3 * x * x * i % fieldP) fun l => some (third l x y x) else none

/-- Addition on coordinates, for the kernel; models no code. -/
def addTo (x1 y1 x2 y2 : Nat) : Option (Nat × Nat) :=
  force (sub x1 x2 % fieldP) fun d => force (euclid 400 fieldP d 0 1) fun i =>
    if d * i % fieldP = 1 then force (sub y1 y2 * i % fieldP) fun l => some (third l x1 y1 x2) else none

theorem cast_mod (a : Nat) : ((a % fieldP : Nat) : Fp) = (a : Fp) := by simp

theorem inv_of {d i : Nat} (h : d * i % fieldP = 1) : (d : Fp) ≠ 0 ∧ (i : Fp) = (d : Fp)⁻¹ := by
  have e : ((d * i : Nat) : Fp) = ((1 : Nat) : Fp) := fp_of_mod (by rw [h]; decide +kernel)
  push_cast at e
  have hd : (d : Fp) ≠ 0 := by rintro h0; rw [h0, zero_mul] at e; exact zero_ne_one e
  exact ⟨hd, by rw [← mul_one (d : Fp)⁻¹, ← e, inv_mul_cancel_left₀ hd]⟩

theorem third_eq (l x1 y1 x2 : Nat) (L : Fp) (hl : (l : Fp) = L) : (((third l x1 y1 x2).1 : Nat) : Fp) = secp.toAffine.addX x1 x2 L ∧ (((third l x1 y1 x2).2 : Nat) : Fp) = secp.toAffine.addY x1 x2 y1 L := by
  subst hl
  constructor
  · simp only [third_def, cast_mod, sub_cast, Nat.cast_mul, WeierstrassCurve.Affine.addX, secp, WeierstrassCurve.toAffine]
    ring
  · simp only [third_def, cast_mod, sub_cast, Nat.cast_mul, WeierstrassCurve.Affine.addY, WeierstrassCurve.Affine.negAddY, negY_eq]
    simp only [WeierstrassCurve.Affine.addX, secp, WeierstrassCurve.toAffine]
    ring

theorem is_third {x1 y1 x2 y2 l : Nat} (h1 : secp.toAffine.Nonsingular (x1 : Fp) (y1 : Fp)) (h2 : secp.toAffine.Nonsingular (x2 : Fp) (y2 : Fp))
    (hxy : ¬ ((x1 : Fp) = x2 ∧ (y1 : Fp) = secp.toAffine.negY x2 y2)) (hl : (l : Fp) = secp.toAffine.slope x1 x2 y1 y2) :
    Is (.some _ _ h1 + .some _ _ h2) (third l x1 y1 x2).1 (third l x1 y1 x2).2 := by
  obtain ⟨e1, e2⟩ := third_eq l x1 y1 x2 _ hl
  rw [WeierstrassCurve.Affine.Point.add_some hxy]
  unfold Is
  rw [e1, e2]
  exact ⟨_, rfl⟩

theorem is_dbl {P : Pt} {x y : Nat} {r : Nat × Nat} (h : Is P x y) (hd : dbl x y = some r) : Is (P + P) r.1 r.2 := by
  obtain ⟨hn, rfl⟩ := h
  unfold dbl at hd
  simp only [force_eq] at hd
  generalize euclid 400 fieldP (2 * y % fieldP) 0 1 = i at hd
  split at hd
  · next hi =>
    simp only [Option.some.injEq] at hd
    rw [← hd]
    obtain ⟨h0, h1⟩ := inv_of hi
    rw [cast_mod, Nat.cast_mul] at h0 h1
    have hy : (y : Fp) ≠ secp.toAffine.negY x y := by
      rw [negY_eq]
      intro e
      apply h0
      push_cast
      linear_combination e
    apply is_third hn hn (fun h => hy h.2)
    rw [WeierstrassCurve.Affine.slope_of_Y_ne rfl hy, cast_mod, Nat.cast_mul, h1, negY_eq]
    simp only [secp, WeierstrassCurve.toAffine]
    push_cast
    rw [div_eq_mul_inv]
    ring_nf
  · cases hd

theorem is_add {P Q : Pt} {x1 y1 x2 y2 : Nat} {r : Nat × Nat} (h : Is P x1 y1) (hq : Is Q x2 y2) (hd : addTo x1 y1 x2 y2 = some r) : Is (P + Q) r.1 r.2 := by
  obtain ⟨hn, rfl⟩ := h
  obtain ⟨hm, rfl⟩ := hq
  unfold addTo at hd
  simp only [force_eq] at hd
  generalize euclid 400 fieldP (sub x1 x2 % fieldP) 0 1 = i at hd
  split at hd
  · next hi =>
    simp only [Option.some.injEq] at hd
    rw [← hd]
    obtain ⟨h0, h1⟩ := inv_of hi
    rw [cast_mod, sub_cast] at h0 h1
    have hx : (x1 : Fp) ≠ x2 := fun e => h0 (by rw [e, sub_self])
    apply is_third hn hm (fun h => hx h.1)
    rw [WeierstrassCurve.Affine.slope_of_X_ne hx, cast_mod, Nat.cast_mul, h1, sub_cast, div_eq_mul_inv]
  · cases hd

/-- Double, and add for a bit that is set, with the two operations given. -/
def chainWith (D A : Nat → Nat → Option (Nat × Nat)) : List Bool → Nat × Nat → Option (Nat × Nat)
  | [], r => some r
  | b :: bs, r =>
    match D r.1 r.2 with
    | none => none
    | some d =>
      match b with
      | false => chainWith D A bs d
      | true =>
        match A d.1 d.2 with
        | none => none
        | some e => chainWith D A bs e

/-- Double, and add the generator for a bit that is set. -/
def chain (bs : List Bool) (r : Nat × Nat) : Option (Nat × Nat) := chainWith dbl (fun x y => addTo x y gx gy) bs r

/-- The number with these bits, the most significant first. -/
def fromBits : Nat → List Bool → Nat
  | k, [] => k
  | k, b :: bs => fromBits (2 * k + if b then 1 else 0) bs

theorem is_G : Is G gx gy := ⟨g_on, by unfold G; rfl⟩

theorem is_chainWith {D A : Nat → Nat → Option (Nat × Nat)} {I : Nat → Nat → Nat → Prop} (hD : ∀ k x y r, I k x y → D x y = some r → I (2 * k) r.1 r.2)
    (hA : ∀ k x y r, I k x y → A x y = some r → I (k + 1) r.1 r.2) :
    ∀ (bs : List Bool) (k : Nat) (r r' : Nat × Nat), I k r.1 r.2 → chainWith D A bs r = some r' → I (fromBits k bs) r'.1 r'.2 := by
  intro bs
  induction bs with
  | nil =>
    intro k r r' h hc
    simp only [chainWith, Option.some.injEq] at hc
    rw [← hc]
    exact h
  | cons b bs ih =>
    intro k r r' h hc
    rw [chainWith] at hc
    split at hc
    · cases hc
    · next d hd =>
      have h2 := hD _ _ _ _ h hd
      cases b with
      | false => exact ih (2 * k) d r' h2 hc
      | true =>
        simp only at hc
        split at hc
        · cases hc
        · next e he => exact ih (2 * k + 1) e r' (hA _ _ _ _ h2 he) hc

theorem is_chain (bs : List Bool) (k : Nat) (r r' : Nat × Nat) (h : Is (k • G) r.1 r.2) (hc : chain bs r = some r') : Is (fromBits k bs • G) r'.1 r'.2 := by
  refine is_chainWith (I := fun k x y => Is (k • G) x y) ?_ ?_ bs k r r' h hc
  · intro k x y r h hd
    have h2 := is_dbl h hd
    have e2 : k • G + k • G = (2 * k) • G := by rw [two_mul, add_nsmul]
    rw [e2] at h2
    exact h2
  · intro k x y r h hd
    have h3 := is_add h is_G hd
    have e2 : k • G + G = (k + 1) • G := by rw [succ_nsmul]
    rw [e2] at h3
    exact h3

/-- The bits of a number, the least significant first. -/
def bitsOf : Nat → Nat → List Bool
  | 0, _ => []
  | f + 1, n => (n % 2 == 1) :: bitsOf f (n / 2)

theorem bits_n : fromBits 1 (bitsOf 255 (groupN - 1)).reverse = groupN - 1 := by decide +kernel

theorem chain_n : chain (bitsOf 255 (groupN - 1)).reverse (gx, gy) = some (gx, fieldP - gy) := by decide +kernel

theorem G_ne : G ≠ 0 := by
  unfold G
  exact WeierstrassCurve.Affine.Point.some_ne_zero _

/-- Multiplying the generator by the order gives the point at infinity. -/
theorem order_smul : groupN • G = 0 := by
  have h := is_chain _ 1 (gx, gy) _ (by rw [one_nsmul]; exact is_G) chain_n
  rw [bits_n] at h
  obtain ⟨hn, e⟩ := h
  have hneg : (groupN - 1) • G = -G := by
    rw [e]
    unfold G
    rw [WeierstrassCurve.Affine.Point.neg_some]
    have hy : ((fieldP - gy : Nat) : Fp) = secp.toAffine.negY (gx : Fp) (gy : Fp) := by
      rw [negY_eq, Nat.cast_sub (by decide +kernel)]
      simp
    congr 1
  have : groupN = groupN - 1 + 1 := by decide +kernel
  rw [this, succ_nsmul, hneg, neg_add_cancel]

theorem order_G : addOrderOf G = groupN := addOrderOf_eq_prime order_smul G_ne

/-- A multiple of the generator is infinity just when the factor is a multiple of the order. -/
theorem smul_eq_zero (k : Nat) : k • G = 0 ↔ groupN ∣ k := by
  rw [← order_G]
  exact (addOrderOf_dvd_iff_nsmul_eq_zero).symm

end GoNostr.Curve
