import Verif.Curve.Bip340
/-!
# Points as bytes

`btcec.ParsePubKey`, `SerializeCompressed` and `SerializeUncompressed` (btcec, from its documentation) on all points and all byte strings.
-/

set_option autoImplicit false

namespace GoNostr.Curve

open KeyMaking (beVal beVal_append beVal_lt)

attribute [local irreducible] fieldP groupN toBE ser scalarOf

noncomputable section

/-- The second coordinate; 0 for infinity. -/
def yOf : Pt → Fp
  | .zero => 0
  | .some _ y _ => y

/-- `SerializeCompressed`. -/
def serC (P : Pt) : Bytes := (if yOdd P then 3 else 2) :: ser P

/-- `SerializeUncompressed`. -/
def serU (P : Pt) : Bytes := 4 :: (ser P ++ toBE 32 (yOf P).val)

/-- The point with these coordinates, if they are on the curve. -/
def ofXY (x y : Fp) : Option Pt := if h : y ^ 2 = x ^ 3 + 7 then some (.some x y ((on_iff x y).2 h)) else none

/-- `btcec.ParsePubKey`: 33 bytes that begin with 2 or 3, or 65 that begin with 4, 6 or 7; numbers below the field's size; a point of the curve. 6 and 7 say whether
the second coordinate is odd. -/
def parsePubKey : Bytes → Option Pt
  | [] => none
  | f :: b =>
    if b.length = 32 then
      if f = 2 then parseX b
      else if f = 3 then (parseX b).map (fun P => -P)
      else none
    else if b.length = 64 then
      if beVal (b.take 32) < fieldP ∧ beVal (b.drop 32) < fieldP then
        if f = 4 ∨ (f = 6 ∧ beVal (b.drop 32) % 2 = 0) ∨ (f = 7 ∧ beVal (b.drop 32) % 2 = 1) then ofXY (beVal (b.take 32) : Fp) (beVal (b.drop 32) : Fp)
        else none
      else none
    else none

theorem serC_length (P : Pt) : (serC P).length = 33 := by rw [serC, List.length_cons, ser_length]

theorem ofXY_iff (x y : Fp) (P : Pt) : ofXY x y = some P ↔ P ≠ 0 ∧ xOf P = x ∧ yOf P = y := by
  unfold ofXY
  split
  · rename_i h
    cases P with
    | zero => simp only [Option.some.injEq, reduceCtorEq, false_iff]; rintro ⟨h, -⟩; exact h rfl
    | some x' y' h' =>
      simp only [Option.some.injEq, xOf, yOf]
      constructor
      · intro he; injection he with h1 h2; exact ⟨(by intro h; cases h), h1.symm, h2.symm⟩
      · rintro ⟨-, rfl, rfl⟩; rfl
  · rename_i h
    cases P with
    | zero => simp only [reduceCtorEq, false_iff]; rintro ⟨h, -⟩; exact h rfl
    | some x' y' h' =>
      simp only [reduceCtorEq, false_iff, xOf, yOf]
      rintro ⟨-, rfl, rfl⟩
      exact h ((on_iff _ _).1 h')

theorem parse_serC {P : Pt} (h : P ≠ 0) : parsePubKey (serC P) = some P := by
  have key : ∀ Q : Pt, Q ≠ 0 → yOdd Q = false → parseX (ser Q) = some Q := fun Q h0 hy => (parseX_iff _ _).2 ⟨h0, rfl, hy⟩
  rw [serC, parsePubKey, if_pos (ser_length P)]
  cases hy : yOdd P with
  | false => simp only [Bool.false_eq_true, if_false, if_true]; exact key P h hy
  | true =>
    simp only [if_true]
    rw [if_neg (by decide), key' P h hy]
    simp
  where key' (P : Pt) (h : P ≠ 0) (hy : yOdd P = true) : parseX (ser P) = some (-P) :=
    (parseX_iff _ _).2 ⟨neg_ne_zero.2 h, by rw [ser, ser, xOf_neg], by rw [yOdd_neg h, hy]; rfl⟩

theorem parse_ne_zero {b : Bytes} {P : Pt} (h : parsePubKey b = some P) : P ≠ 0 := by
  cases b with
  | nil => cases h
  | cons f b =>
    simp only [parsePubKey] at h
    split at h
    · split at h
      · exact ((parseX_iff _ _).1 h).1
      · split at h
        · rw [Option.map_eq_some_iff] at h
          obtain ⟨Q, hQ, he⟩ := h
          rw [← he]
          exact neg_ne_zero.2 ((parseX_iff _ _).1 hQ).1
        · cases h
    · split at h
      · split at h
        · split at h
          · exact ((ofXY_iff _ _ _).1 h).1
          · cases h
        · cases h
      · cases h

theorem parse_zero : parsePubKey (serC 0) = none := by
  have : parseX (ser 0) = none := by
    cases h : parseX (ser 0) with
    | none => rfl
    | some P =>
      obtain ⟨h0, h1, -⟩ := (parseX_iff _ _).1 h
      exact absurd ((ser_zero_iff P).1 (h1 ▸ (ser_zero_iff 0).2 rfl)) h0
  rw [serC, parsePubKey, if_pos (ser_length 0), this]
  split <;> simp

theorem y_odd {P : Pt} (h : P ≠ 0) : yOdd P = ((yOf P).val % 2 == 1) := by
  cases P with
  | zero => exact absurd rfl h
  | some x y h => rfl

theorem parse_serU {P : Pt} (h : P ≠ 0) : parsePubKey (serU P) = some P := by
  have h1 : (ser P ++ toBE 32 (yOf P).val).take 32 = ser P := take_ser _ _
  have h2 : (ser P ++ toBE 32 (yOf P).val).drop 32 = toBE 32 (yOf P).val := drop_ser _ _
  have hy : beVal (toBE 32 (yOf P).val) = (yOf P).val := beVal_toBE _ _ ((ZMod.val_lt _).trans p_lt)
  have hl : (ser P ++ toBE 32 (yOf P).val).length = 64 := by rw [List.length_append, ser_length, toBE_length]
  rw [serU, parsePubKey, if_neg (by rw [hl]; decide), if_pos hl, h1, h2, hy, ser_val, if_pos ⟨ZMod.val_lt _, ZMod.val_lt _⟩, if_pos (Or.inl rfl), ofXY_iff]
  refine ⟨h, ?_, ?_⟩
  · rw [ZMod.natCast_zmod_val]
  · rw [ZMod.natCast_zmod_val]

/-- Serialized points determine the point. -/
theorem serC_inj {P Q : Pt} (h : serC P = serC Q) : P = Q := by
  by_cases hP : P = 0
  · by_cases hQ : Q = 0
    · rw [hP, hQ]
    · have := parse_serC hQ
      rw [← h, hP, parse_zero] at this
      cases this
  · have hp := parse_serC hP
    by_cases hQ : Q = 0
    · rw [h, hQ, parse_zero] at hp
      cases hp
    · rw [h, parse_serC hQ] at hp
      exact (Option.some.inj hp).symm

end

end GoNostr.Curve
