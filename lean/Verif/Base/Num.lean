import Verif.Base.Bytes
/-!
# strconv: decimal formatting and parsing, and encoding/hex

Standard-library functions the code calls, modelled from the Go documentation.
-/

set_option autoImplicit false

namespace GoNostr

/-- The decimal digit character of `d` (`d < 10`). -/
def digitByte (d : Nat) : UInt8 := UInt8.ofNat (48 + d)

/-- Decimal digits of `n`, most significant first; `fuel` bounds the number of digits. -/
def fmtNatAux : Nat → Nat → Bytes
  | 0, _ => []
  | fuel + 1, n => if n < 10 then [digitByte n] else fmtNatAux fuel (n / 10) ++ [digitByte (n % 10)]

/-- `strconv.FormatUint(n, 10)`. -/
def fmtNat (n : Nat) : Bytes := fmtNatAux (n.log2 + 1) n

/-- `strconv.FormatInt(i, 10)` / `strconv.Itoa(i)`. -/
def fmtInt (i : Int) : Bytes := if i < 0 then 45 :: fmtNat i.natAbs else fmtNat i.natAbs

/-- Result of `strconv.ParseUint`/`ParseInt`: the value, a syntax error, or a range error together with the
saturated value Go returns next to the error. -/
inductive ParseNum where
  | ok (n : Int)
  | syntaxErr
  | rangeErr (n : Int)
  deriving DecidableEq, Repr

/-- The digit loop of `strconv.ParseUint(s, 10, 64)`; `n` is the value so far.
Go stops with a range error as soon as the value exceeds 2^64-1, before looking at later characters. -/
def parseUintLoop : Bytes → Nat → ParseNum
  | [], n => .ok n
  | c :: s, n =>
    if 48 ≤ c ∧ c ≤ 57 then
      let n' := n * 10 + (c.toNat - 48)
      if n' ≥ 2 ^ 64 then .rangeErr (2 ^ 64 - 1) else parseUintLoop s n'
    else .syntaxErr

/-- `strconv.ParseUint(s, 10, 64)`. -/
def parseUint64 (s : Bytes) : ParseNum := if s = [] then .syntaxErr else parseUintLoop s 0

/-- `strconv.ParseInt(s, 10, 64)`. -/
def parseInt64 (s : Bytes) : ParseNum :=
  match s with
  | [] => .syntaxErr
  | c :: rest =>
    let (neg, body) := if c = 43 then (false, rest) else if c = 45 then (true, rest) else (false, s)
    match parseUint64 body with
    | .syntaxErr => .syntaxErr
    | .rangeErr _ => if neg then .rangeErr (-(2 ^ 63)) else .rangeErr (2 ^ 63 - 1)
    | .ok un =>
      if ¬ neg ∧ un ≥ 2 ^ 63 then .rangeErr (2 ^ 63 - 1)
      else if neg ∧ un > 2 ^ 63 then .rangeErr (-(2 ^ 63))
      else .ok (if neg then -un else un)

/-- The value returned beside the error (which the caller ignores): 0 on syntax errors, saturated on range errors. -/
def ParseNum.value : ParseNum → Int
  | .ok n => n
  | .syntaxErr => 0
  | .rangeErr n => n

/-! ## encoding/hex -/

/-- `"0123456789abcdef"[n]` for `n < 16`. -/
def hexDigit (n : UInt8) : UInt8 := if n < 10 then 48 + n else 87 + n

/-- `hex.EncodeToString`. -/
def hexEnc : Bytes → Bytes
  | [] => []
  | b :: bs => hexDigit (b >>> 4) :: hexDigit (b &&& 15) :: hexEnc bs

/-- Value of one hex character (both cases accepted, as in `encoding/hex`). -/
def hexVal (c : UInt8) : Option UInt8 :=
  if 48 ≤ c ∧ c ≤ 57 then some (c - 48)
  else if 97 ≤ c ∧ c ≤ 102 then some (c - 87)
  else if 65 ≤ c ∧ c ≤ 70 then some (c - 55)
  else none

/-- `hex.DecodeString`; `none` is an error (odd length or a non-hex byte). -/
def hexDec : Bytes → Option Bytes
  | [] => some []
  | [_] => none
  | a :: b :: rest =>
    match hexVal a, hexVal b, hexDec rest with
    | some x, some y, some r => some (((x <<< 4) ||| y) :: r)
    | _, _, _ => none

/-! ## Lemmas -/

theorem hexVal_hexDigit_hi (b : UInt8) : hexVal (hexDigit (b >>> 4)) = some (b >>> 4) := by
  revert b; decide +kernel

theorem hexVal_hexDigit_lo (b : UInt8) : hexVal (hexDigit (b &&& 15)) = some (b &&& 15) := by
  revert b; decide +kernel

theorem nibbles (b : UInt8) : ((b >>> 4) <<< 4) ||| (b &&& 15) = b := by
  revert b; decide +kernel

@[simp] theorem hexDec_hexEnc (bs : Bytes) : hexDec (hexEnc bs) = some bs := by
  induction bs with
  | nil => rfl
  | cons b bs ih => simp [hexEnc, hexDec, hexVal_hexDigit_hi, hexVal_hexDigit_lo, ih, nibbles]

@[simp] theorem length_hexEnc (bs : Bytes) : (hexEnc bs).length = 2 * bs.length := by
  induction bs with
  | nil => rfl
  | cons b bs ih => simp [hexEnc, ih]; omega

theorem hexEnc_injective {a b : Bytes} (h : hexEnc a = hexEnc b) : a = b := by
  have := congrArg hexDec h
  simpa using this

theorem hexDec_length : ∀ {s r : Bytes}, hexDec s = some r → s.length = 2 * r.length
  | [], r, h => by simp [hexDec] at h; subst h; rfl
  | [_], r, h => by simp [hexDec] at h
  | a :: b :: rest, r, h => by
    unfold hexDec at h
    split at h
    · next x y q _ _ hq =>
      simp at h; subst h
      have := hexDec_length hq
      simp [this]; omega
    · cases h

/-- A byte is a lowercase hex character. -/
def IsLowerHexByte (c : UInt8) : Prop := (48 ≤ c ∧ c ≤ 57) ∨ (97 ≤ c ∧ c ≤ 102)

instance (c : UInt8) : Decidable (IsLowerHexByte c) := by unfold IsLowerHexByte; infer_instance

theorem hexEnc_lower (bs : Bytes) : ∀ c ∈ hexEnc bs, IsLowerHexByte c := by
  induction bs with
  | nil => simp [hexEnc]
  | cons b bs ih =>
    have h1 : ∀ b : UInt8, IsLowerHexByte (hexDigit (b >>> 4)) := by decide +kernel
    have h2 : ∀ b : UInt8, IsLowerHexByte (hexDigit (b &&& 15)) := by decide +kernel
    intro c hc
    simp [hexEnc] at hc
    rcases hc with rfl | rfl | hc
    · exact h1 b
    · exact h2 b
    · exact ih c hc

/-- Lowercase hex of even length is the encoding of what it decodes to. -/
theorem hexEnc_hexDec_lower : ∀ {s : Bytes}, (∀ c ∈ s, IsLowerHexByte c) → s.length % 2 = 0 →
    ∃ r, hexDec s = some r ∧ hexEnc r = s
  | [], _, _ => ⟨[], rfl, rfl⟩
  | [_], _, h => by simp at h
  | a :: b :: rest, hl, hlen => by
    obtain ⟨r, hr, hre⟩ := hexEnc_hexDec_lower (s := rest) (fun c hc => hl c (by simp [hc]))
      (by simp at hlen; omega)
    have hv : ∀ a : UInt8, IsLowerHexByte a → ∃ x, hexVal a = some x ∧ x < 16 ∧ hexDigit x = a := by
      have h : ∀ a : UInt8, IsLowerHexByte a →
          (hexVal a).isSome ∧ (hexVal a).getD 0 < 16 ∧ hexDigit ((hexVal a).getD 0) = a := by
        decide +kernel
      intro a ha
      obtain ⟨h1, h2, h3⟩ := h a ha
      obtain ⟨x, hx⟩ := Option.isSome_iff_exists.mp h1
      exact ⟨x, hx, by simpa [hx] using h2, by simpa [hx] using h3⟩
    obtain ⟨x, hx, hx16, hxd⟩ := hv a (hl a (by simp))
    obtain ⟨y, hy, hy16, hyd⟩ := hv b (hl b (by simp))
    have hcomb : ∀ i : Fin 16, ∀ j : Fin 16,
        (((UInt8.ofNat i.val) <<< 4 ||| UInt8.ofNat j.val) >>> 4 = UInt8.ofNat i.val) ∧
        (((UInt8.ofNat i.val) <<< 4 ||| UInt8.ofNat j.val) &&& 15 = UInt8.ofNat j.val) := by
      decide +kernel
    have hc := hcomb ⟨x.toNat, by simpa [UInt8.lt_iff_toNat_lt] using hx16⟩
      ⟨y.toNat, by simpa [UInt8.lt_iff_toNat_lt] using hy16⟩
    simp at hc
    refine ⟨_, by simp [hexDec, hx, hy, hr]; rfl, ?_⟩
    simp [hexEnc, hc, hxd, hyd, hre]

/-! ### Decimal -/

/-- A byte is an ASCII digit. -/
def IsDigitByte (c : UInt8) : Prop := 48 ≤ c ∧ c ≤ 57

instance (c : UInt8) : Decidable (IsDigitByte c) := by unfold IsDigitByte; infer_instance

theorem digitByte_isDigit {d : Nat} (h : d < 10) : IsDigitByte (digitByte d) := by
  have : ∀ d : Fin 10, IsDigitByte (digitByte d.val) := by decide
  exact this ⟨d, h⟩

theorem digitByte_toNat {d : Nat} (h : d < 10) : (digitByte d).toNat = 48 + d := by
  have : ∀ d : Fin 10, (digitByte d.val).toNat = 48 + d.val := by decide
  exact this ⟨d, h⟩

theorem fmtNatAux_digits (fuel n : Nat) : ∀ c ∈ fmtNatAux fuel n, IsDigitByte c := by
  induction fuel generalizing n with
  | zero => simp [fmtNatAux]
  | succ f ih =>
    intro c hc
    unfold fmtNatAux at hc
    split at hc
    · simp at hc; subst hc; exact digitByte_isDigit (by omega)
    · simp at hc
      rcases hc with hc | rfl
      · exact ih _ c hc
      · exact digitByte_isDigit (by omega)

theorem fmtNat_digits (n : Nat) : ∀ c ∈ fmtNat n, IsDigitByte c := fmtNatAux_digits _ _

theorem fmtNat_ne_nil (n : Nat) : fmtNat n ≠ [] := by
  unfold fmtNat fmtNatAux
  split <;> simp

/-- Value of a digit string, most significant digit first, continuing from `acc`. -/
def digitsValue (s : Bytes) (acc : Nat) : Nat := s.foldl (fun n c => n * 10 + (c.toNat - 48)) acc

theorem fmtNatAux_value {fuel n acc : Nat} (h : n < 2 ^ fuel) :
    ∃ k, digitsValue (fmtNatAux fuel n) acc = acc * 10 ^ k + n ∧ k = (fmtNatAux fuel n).length := by
  induction fuel generalizing n acc with
  | zero => exact ⟨0, by simp at h; simp [fmtNatAux, digitsValue, h], rfl⟩
  | succ f ih =>
    unfold fmtNatAux
    split
    · next h10 =>
      refine ⟨1, ?_, rfl⟩
      simp [digitsValue, digitByte_toNat h10]
    · have hlt : n / 10 < 2 ^ f := by
        rw [Nat.pow_succ] at h; omega
      obtain ⟨k, hk, hlen⟩ := ih (acc := acc) hlt
      refine ⟨k + 1, ?_, by simp [hlen]⟩
      unfold digitsValue at hk ⊢
      simp only [List.foldl_append, hk, List.foldl_cons, List.foldl_nil]
      rw [digitByte_toNat (by omega : n % 10 < 10)]
      have : 48 + n % 10 - 48 = n % 10 := by omega
      rw [this, Nat.add_mul, Nat.mul_assoc, ← Nat.pow_succ]
      show acc * 10 ^ (k + 1) + _ + _ = _
      omega

theorem digitsValue_fmtNat (n : Nat) : digitsValue (fmtNat n) 0 = n := by
  have hlt : n < 2 ^ (n.log2 + 1) := Nat.lt_log2_self
  obtain ⟨k, hk, _⟩ := fmtNatAux_value (acc := 0) hlt
  simpa [fmtNat] using hk

theorem fmtNat_injective {a b : Nat} (h : fmtNat a = fmtNat b) : a = b := by
  have := congrArg (fun s => digitsValue s 0) h
  simpa [digitsValue_fmtNat] using this

theorem fmtInt_injective {a b : Int} (h : fmtInt a = fmtInt b) : a = b := by
  have key : ∀ n m : Nat, 45 :: fmtNat n ≠ fmtNat m := by
    intro n m hh
    have := fmtNat_digits m 45 (by rw [← hh]; simp)
    revert this; decide
  unfold fmtInt at h
  split at h <;> split at h
  · simp at h; have := fmtNat_injective h; omega
  · exact absurd h (key _ _)
  · exact absurd h.symm (key _ _)
  · have := fmtNat_injective h; omega

theorem fmtInt_ne_nil (i : Int) : fmtInt i ≠ [] := by
  unfold fmtInt; split
  · simp
  · exact fmtNat_ne_nil _

/-- Characters of a formatted integer: a minus sign or digits. -/
theorem fmtInt_chars (i : Int) : ∀ c ∈ fmtInt i, c = 45 ∨ IsDigitByte c := by
  intro c hc
  unfold fmtInt at hc
  split at hc
  · simp at hc
    rcases hc with rfl | hc
    · exact Or.inl rfl
    · exact Or.inr (fmtNat_digits _ c hc)
  · exact Or.inr (fmtNat_digits _ c hc)

theorem digitsValue_le (s : Bytes) (acc : Nat) : acc ≤ digitsValue s acc := by
  induction s generalizing acc with
  | nil => exact Nat.le_refl _
  | cons c s ih =>
    have := ih (acc * 10 + (c.toNat - 48))
    simp only [digitsValue, List.foldl_cons] at this ⊢
    omega

theorem parseUintLoop_digits {s : Bytes} (hd : ∀ c ∈ s, IsDigitByte c) {n : Nat} (hlt : digitsValue s n < 2 ^ 64) :
    parseUintLoop s n = .ok (digitsValue s n) := by
  induction s generalizing n with
  | nil => rfl
  | cons c s ih =>
    have hc := hd c (by simp)
    unfold IsDigitByte at hc
    simp only [parseUintLoop, hc, and_self, if_true]
    have hv : digitsValue (c :: s) n = digitsValue s (n * 10 + (c.toNat - 48)) := rfl
    rw [hv] at hlt ⊢
    have := digitsValue_le s (n * 10 + (c.toNat - 48))
    rw [if_neg (by omega)]
    exact ih (fun c hc => hd c (by simp [hc])) hlt

theorem parseUint64_fmtNat {n : Nat} (h : n < 2 ^ 64) : parseUint64 (fmtNat n) = .ok n := by
  unfold parseUint64
  rw [if_neg (fmtNat_ne_nil n), parseUintLoop_digits (fmtNat_digits n) (by rw [digitsValue_fmtNat]; exact h),
    digitsValue_fmtNat]

/-- `strconv.ParseInt(strconv.FormatInt(i, 10), 10, 64) = i` for every int64. -/
theorem parseInt64_fmtInt {i : Int} (h1 : -(2 ^ 63) ≤ i) (h2 : i < 2 ^ 63) : parseInt64 (fmtInt i) = .ok i := by
  unfold fmtInt
  split
  · next hneg =>
    simp only [parseInt64, show ¬ (45 : UInt8) = 43 by decide, if_true, if_false]
    rw [parseUint64_fmtNat (by omega)]
    simp only
    rw [if_neg (by simp), if_neg (by simp; omega)]
    simp; omega
  · next hnn =>
    have hne := fmtNat_ne_nil i.natAbs
    have hdig := fmtNat_digits i.natAbs
    have hpu := parseUint64_fmtNat (n := i.natAbs) (by omega)
    revert hne hdig hpu
    generalize fmtNat i.natAbs = s
    intro hne hdig hpu
    match s, hne with
    | c :: rest, _ =>
      have hc := hdig c (by simp)
      have e1 : c ≠ 43 := by rintro rfl; revert hc; decide
      have e2 : c ≠ 45 := by rintro rfl; revert hc; decide
      simp only [parseInt64, if_neg e1, if_neg e2, hpu]
      rw [if_neg (by simp; omega), if_neg (by simp)]
      simp; omega

end GoNostr
