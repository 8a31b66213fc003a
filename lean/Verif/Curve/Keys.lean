import Verif.Curve.Group
import Verif.Event.Theorems
import Verif.Helpers.Model
import Verif.Nips.KeyMaking
/-!
# Keys on the curve

What the libraries do with keys (btcec, from its documentation): private keys as numbers, public keys as first coordinates, points from first coordinates.
-/

set_option autoImplicit false

namespace GoNostr.Curve

open KeyMaking (beVal beVal_append beVal_lt)

attribute [local irreducible] fieldP groupN

noncomputable section

/-- A number as so many bytes, the most significant first (`FieldVal.PutBytesUnchecked`). -/
def toBE : Nat → Nat → Bytes
  | 0, _ => []
  | k + 1, n => toBE k (n / 256) ++ [UInt8.ofNat (n % 256)]

theorem toBE_length : ∀ (k n : Nat), (toBE k n).length = k
  | 0, _ => rfl
  | k + 1, n => by rw [toBE, List.length_append, toBE_length k]; rfl

theorem beVal_toBE : ∀ (k n : Nat), n < 256 ^ k → beVal (toBE k n) = n
  | 0, n, h => by
    have : n = 0 := by simpa using h
    subst this
    rfl
  | k + 1, n, h => by
    rw [toBE, beVal_append, beVal_toBE k (n / 256) (by rw [Nat.pow_succ] at h; omega)]
    simp [beVal]
    omega

theorem toBE_beVal (b : Bytes) : toBE b.length (beVal b) = b := by
  induction b using List.reverseRecOn with
  | nil => rfl
  | append_singleton l c ih =>
    have e : beVal (l ++ [c]) = beVal l * 256 + c.toNat := by rw [beVal_append]; simp [beVal]
    have hc := c.toNat_lt
    rw [List.length_append, List.length_singleton, toBE, e, show (beVal l * 256 + c.toNat) / 256 = beVal l by omega, show (beVal l * 256 + c.toNat) % 256 = c.toNat by omega, ih]
    simp

theorem toBE_inj {k a b : Nat} (ha : a < 256 ^ k) (hb : b < 256 ^ k) (h : toBE k a = toBE k b) : a = b := by
  rw [← beVal_toBE k a ha, h, beVal_toBE k b hb]

theorem toBE_zero (k : Nat) : toBE k 0 = List.replicate k 0 := by
  induction k with
  | zero => rfl
  | succ k ih => rw [toBE, Nat.zero_div, ih, Nat.zero_mod, List.replicate_succ']; rfl

/-- The first coordinate; 0 for infinity, as `ToAffine` leaves it. -/
def xOf : Pt → Fp
  | .zero => 0
  | .some x _ _ => x

/-- Whether the second coordinate is odd. -/
def yOdd : Pt → Bool
  | .zero => false
  | .some _ y _ => y.val % 2 == 1

/-- `schnorr.SerializePubKey`, and the bytes of `result.X`: the 32 bytes of the first coordinate. -/
def ser (P : Pt) : Bytes := toBE 32 (xOf P).val

/-- `btcec.PrivKeyFromBytes`: the first 32 bytes as a number, modulo the order. -/
def scalarOf (b : Bytes) : Nat := beVal (b.take 32) % groupN

/-- A square root, if there is one (`FieldVal.SquareRootVal`; the field's size is 3 modulo 4). -/
def root (c : Fp) : Fp := c ^ ((fieldP + 1) / 4)

/-- The point with this first coordinate and an even second one, if there is one (`DecompressY(x, false)`). -/
def liftX (x : Fp) : Option Pt :=
  if h : root (x ^ 3 + 7) ^ 2 = x ^ 3 + 7 then
    some (if (root (x ^ 3 + 7)).val % 2 = 0 then .some x _ ((on_iff x _).2 h) else .some x (-root (x ^ 3 + 7)) ((on_iff x _).2 (by rw [neg_sq]; exact h)))
  else none

/-- `schnorr.ParsePubKey`: 32 bytes, a number below the field's size, a point. -/
def parseX (b : Bytes) : Option Pt := if b.length = 32 ∧ beVal b < fieldP then liftX (beVal b : Fp) else none

/-- `btcec.ParsePubKey` of bytes that begin with 2: a compressed key. (What it does with other first bytes is not needed: the callers put the 2 in front.) -/
def parseCompressed : Bytes → Option Pt
  | 2 :: x => parseX x
  | _ => none

/-! ## Lemmas -/

theorem p_lt : fieldP < 256 ^ 32 := by decide +kernel
theorem n_lt : groupN < 256 ^ 32 := by decide +kernel
theorem quarter : (fieldP + 1) / 4 * 2 * 2 = fieldP + 1 := by decide +kernel

theorem root_sq {c z : Fp} (h : z ^ 2 = c) : root c ^ 2 = c := by
  rw [root, ← h, ← pow_mul, ← pow_mul, Nat.mul_comm 2, quarter, pow_succ, ZMod.pow_card]
  ring

theorem xOf_neg (P : Pt) : xOf (-P) = xOf P := by
  cases P with
  | zero => rfl
  | some x y h => rw [WeierstrassCurve.Affine.Point.neg_some]; rfl

theorem ser_length (P : Pt) : (ser P).length = 32 := toBE_length _ _

theorem ser_val (P : Pt) : beVal (ser P) = (xOf P).val := beVal_toBE _ _ ((ZMod.val_lt _).trans p_lt)

theorem ser_inj {P Q : Pt} (h : ser P = ser Q) : xOf P = xOf Q := by
  apply ZMod.val_injective
  rw [← ser_val P, h, ser_val]

theorem xOf_eq_zero (P : Pt) : xOf P = 0 ↔ P = 0 := by
  constructor
  · intro h
    cases P with
    | zero => rfl
    | some x y hp =>
      exfalso
      have hx : x = 0 := h
      have := (on_iff _ _).1 hp
      rw [hx] at this
      exact no_root y (by rw [this]; ring)
  · rintro rfl
    rfl

/-- Points with the same first coordinate. -/
theorem xOf_eq {P Q : Pt} (h : xOf P = xOf Q) : P = Q ∨ P = -Q := by
  cases P with
  | zero => left; exact ((xOf_eq_zero Q).1 h.symm).symm
  | some x y hp =>
    cases Q with
    | zero => left; exact (xOf_eq_zero _).1 h
    | some x' y' hq =>
      have hx : x = x' := h
      subst hx
      rcases same_x ((on_iff _ _).1 hq) ((on_iff _ _).1 hp) with rfl | rfl
      · exact Or.inl rfl
      · right
        rw [WeierstrassCurve.Affine.Point.neg_some]
        congr 1
        exact (negY_eq _ _).symm

theorem yOdd_neg {P : Pt} (h : P ≠ 0) : yOdd (-P) = !yOdd P := by
  cases P with
  | zero => exact absurd rfl h
  | some x y hp =>
    have hy : y ≠ 0 := by
      rintro rfl
      have := (on_iff _ _).1 hp
      exact no_cube x (by linear_combination -this)
    have e : yOdd (-.some x y hp : Pt) = ((secp.toAffine.negY x y).val % 2 == 1) := by rw [WeierstrassCurve.Affine.Point.neg_some]; rfl
    rw [e, negY_eq]
    have := parity_neg hy
    simp only [yOdd]
    rcases Nat.mod_two_eq_zero_or_one y.val with h1 | h1 <;> rcases Nat.mod_two_eq_zero_or_one (-y).val with h2 | h2 <;> simp_all

theorem liftX_some {x : Fp} {P : Pt} (h : liftX x = some P) : P ≠ 0 ∧ xOf P = x ∧ yOdd P = false := by
  unfold liftX at h
  split at h
  · next hr =>
    simp only [Option.some.injEq] at h
    subst h
    split
    · next hp => exact ⟨WeierstrassCurve.Affine.Point.some_ne_zero _, rfl, by simp [yOdd, hp]⟩
    · next hp =>
      refine ⟨WeierstrassCurve.Affine.Point.some_ne_zero _, rfl, ?_⟩
      have h0 : root (x ^ 3 + 7) ≠ 0 := by intro h0; rw [h0] at hp; simp at hp
      have := parity_neg h0
      simp only [yOdd]
      have h1 : (-root (x ^ 3 + 7)).val % 2 = 0 := by omega
      simp [h1]
  · cases h

/-- What the point of a first coordinate is: the point with an even second coordinate. -/
theorem liftX_iff (x : Fp) (P : Pt) : liftX x = some P ↔ P ≠ 0 ∧ xOf P = x ∧ yOdd P = false := by
  refine ⟨liftX_some, ?_⟩
  rintro ⟨h0, hx, hy⟩
  have hex : ∃ Q, liftX x = some Q := by
    cases P with
    | zero => exact absurd rfl h0
    | some x' y hp =>
      have hx' : x' = x := hx
      subst hx'
      unfold liftX
      rw [dif_pos (root_sq ((on_iff _ _).1 hp))]
      exact ⟨_, rfl⟩
  obtain ⟨Q, hQ⟩ := hex
  obtain ⟨q0, qx, qy⟩ := liftX_some hQ
  rw [hQ]
  rcases xOf_eq (qx.trans hx.symm) with rfl | e
  · rfl
  · rw [e, yOdd_neg h0, hy] at qy
    cases qy

theorem liftX_xOf {P : Pt} (h : P ≠ 0) : ∃ Q, liftX (xOf P) = some Q ∧ (Q = P ∨ Q = -P) := by
  cases hp : yOdd P with
  | false => exact ⟨P, (liftX_iff _ _).2 ⟨h, rfl, hp⟩, Or.inl rfl⟩
  | true => exact ⟨-P, (liftX_iff _ _).2 ⟨neg_ne_zero.2 h, xOf_neg P, by rw [yOdd_neg h, hp]; rfl⟩, Or.inr rfl⟩

theorem parseX_iff (b : Bytes) (P : Pt) : parseX b = some P ↔ P ≠ 0 ∧ b = ser P ∧ yOdd P = false := by
  unfold parseX
  split
  · next h =>
    rw [liftX_iff]
    have hv : ((beVal b : Nat) : Fp).val = beVal b := by rw [ZMod.val_natCast, Nat.mod_eq_of_lt h.2]
    constructor
    · rintro ⟨h0, h1, h2⟩
      refine ⟨h0, ?_, h2⟩
      rw [ser, h1, hv, ← h.1, toBE_beVal]
    · rintro ⟨h0, h1, h2⟩
      refine ⟨h0, ?_, h2⟩
      rw [h1, ser_val, ZMod.natCast_zmod_val]
  · next h =>
    constructor
    · intro hc; cases hc
    · rintro ⟨h0, h1, h2⟩
      exact absurd ⟨by rw [h1, ser_length], by rw [h1, ser_val]; exact ZMod.val_lt _⟩ h

/-- The bytes of a point other than infinity parse, to the point or its negative. -/
theorem parseX_ser {P : Pt} (h : P ≠ 0) : ∃ Q, parseX (ser P) = some Q ∧ (Q = P ∨ Q = -P) := by
  cases hp : yOdd P with
  | false => exact ⟨P, (parseX_iff _ _).2 ⟨h, rfl, hp⟩, Or.inl rfl⟩
  | true => exact ⟨-P, (parseX_iff _ _).2 ⟨neg_ne_zero.2 h, by rw [ser, ser, xOf_neg], by rw [yOdd_neg h, hp]; rfl⟩, Or.inr rfl⟩

theorem ser_zero_iff (P : Pt) : ser P = List.replicate 32 0 ↔ P = 0 := by
  rw [← xOf_eq_zero, ← toBE_zero]
  constructor
  · intro h
    have := toBE_inj ((ZMod.val_lt _).trans p_lt) (by decide) h
    exact (ZMod.val_eq_zero _).1 this
  · intro h
    rw [ser, h, ZMod.val_zero]

theorem scalarOf_lt (b : Bytes) : scalarOf b < groupN := Nat.mod_lt _ prime_order.pos

theorem scalar_smul_ne {b : Bytes} (h : scalarOf b ≠ 0) {P : Pt} (hP : P ≠ 0) : scalarOf b • P ≠ 0 :=
  smul_ne hP (fun hd => h (Nat.eq_zero_of_dvd_of_lt hd (scalarOf_lt b)))

/-- A private key of 32 bytes for each number below the order. -/
theorem scalarOf_toBE {k : Nat} (h : k < groupN) : scalarOf (toBE 32 k) = k := by
  rw [scalarOf, List.take_of_length_le (by rw [toBE_length]), beVal_toBE _ _ (h.trans n_lt), Nat.mod_eq_of_lt h]

theorem smul_inj {a b : Nat} (ha : a < groupN) (hb : b < groupN) (h : a • G = b • G) : a = b := by
  have := (nsmul_eq_nsmul_iff_modEq (x := G)).1 h
  rw [order_G] at this
  unfold Nat.ModEq at this
  rwa [Nat.mod_eq_of_lt ha, Nat.mod_eq_of_lt hb] at this

end

end GoNostr.Curve
