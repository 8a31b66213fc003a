import Verif.Base.Index
/-!
# base64 (standard encoding with padding), as in Go's `encoding/base64` `StdEncoding`
-/

set_option autoImplicit false

namespace GoNostr

/-- The alphabet. -/
def b64Chars : Bytes := b! "ABCDEFGHIJKLMNOPQRSTUVWXYZabcdefghijklmnopqrstuvwxyz0123456789+/"

/-- The character of a 6-bit value. -/
def b64Char (n : Nat) : UInt8 := b64Chars.getD n 61

/-- The value of a character. -/
def b64Val (c : UInt8) : Option Nat := if c ∈ b64Chars then some (b64Chars.idxOf c) else none

/-- `StdEncoding.EncodeToString`. -/
def b64Enc : Bytes → Bytes
  | [] => []
  | [a] => [b64Char (a.toNat / 4), b64Char (a.toNat % 4 * 16), 61, 61]
  | [a, b] => [b64Char (a.toNat / 4), b64Char (a.toNat % 4 * 16 + b.toNat / 16), b64Char (b.toNat % 16 * 4), 61]
  | a :: b :: c :: rest =>
    b64Char (a.toNat / 4) :: b64Char (a.toNat % 4 * 16 + b.toNat / 16) ::
      b64Char (b.toNat % 16 * 4 + c.toNat / 64) :: b64Char (c.toNat % 64) :: b64Enc rest

/-- Decoding of the groups of four characters; only the last may be padded. Unused trailing bits are ignored
(`StdEncoding` is not strict). -/
def b64Quads : Bytes → Option Bytes
  | [] => some []
  | [a, b, 61, 61] => do
    let x ← b64Val a
    let y ← b64Val b
    return [UInt8.ofNat (x * 4 + y / 16)]
  | [a, b, c, 61] => do
    let x ← b64Val a
    let y ← b64Val b
    let z ← b64Val c
    return [UInt8.ofNat (x * 4 + y / 16), UInt8.ofNat (y % 16 * 16 + z / 4)]
  | a :: b :: c :: d :: rest => do
    let x ← b64Val a
    let y ← b64Val b
    let z ← b64Val c
    let w ← b64Val d
    let r ← b64Quads rest
    return UInt8.ofNat (x * 4 + y / 16) :: UInt8.ofNat (y % 16 * 16 + z / 4) :: UInt8.ofNat (z % 4 * 64 + w) :: r
  | _ => none

/-- `StdEncoding.DecodeString`: line breaks are skipped wherever they are. -/
def b64Dec (s : Bytes) : Option Bytes := b64Quads (s.filter (fun c => !(c == 10 || c == 13)))

theorem b64Char_spec : ∀ n : Fin 64, b64Val (b64Char n) = some n.val ∧ b64Char n ≠ 61 ∧ b64Char n ∈ b64Chars := by decide +kernel

theorem b64Chars_plain : ∀ c ∈ b64Chars, c ≠ 10 ∧ c ≠ 13 ∧ c ≠ 35 ∧ c ≠ 63 ∧ c ≠ 61 := by decide +kernel

theorem b64Val_char {n : Nat} (h : n < 64) : b64Val (b64Char n) = some n := (b64Char_spec ⟨n, h⟩).1
theorem b64Char_ne {n : Nat} (h : n < 64) : b64Char n ≠ 61 := (b64Char_spec ⟨n, h⟩).2.1
theorem b64Char_mem {n : Nat} (h : n < 64) : b64Char n ∈ b64Chars := (b64Char_spec ⟨n, h⟩).2.2

theorem ofNat_eq_of_toNat {a : UInt8} {n : Nat} (h : n = a.toNat) : UInt8.ofNat n = a := by rw [h]; simp

theorem b64Quads_cons (a b c d : UInt8) (rest : Bytes) (x y z w : Nat) (ha : b64Val a = some x) (hb : b64Val b = some y)
    (hc : b64Val c = some z) (hd : b64Val d = some w) (hc' : c ≠ 61) (hd' : d ≠ 61) : b64Quads (a :: b :: c :: d :: rest) =
      (b64Quads rest).map (fun r => UInt8.ofNat (x * 4 + y / 16) :: UInt8.ofNat (y % 16 * 16 + z / 4) :: UInt8.ofNat (z % 4 * 64 + w) :: r) := by
  rw [b64Quads.eq_def]
  split
  · simp_all
  · simp_all
  · simp_all
  · rename_i h1 h2 h3
    simp only [List.cons.injEq] at h3
    obtain ⟨rfl, rfl, rfl, rfl, rfl⟩ := h3
    simp only [ha, hb, hc, hd, Option.bind_eq_bind, Option.bind_some]
    cases b64Quads rest <;> rfl
  · rename_i h
    exact absurd rfl (h a b c d rest)

/-- Decoding inverts encoding. -/
theorem b64Quads_enc : ∀ s : Bytes, b64Quads (b64Enc s) = some s
  | [] => rfl
  | [a] => by
    have h := a.toNat_lt
    simp only [b64Enc, b64Quads, b64Val_char (show a.toNat / 4 < 64 by omega), b64Val_char (show a.toNat % 4 * 16 < 64 by omega),
      Option.bind_eq_bind, Option.bind_some, Option.pure_def, Option.some.injEq, List.cons.injEq, and_true]
    exact ofNat_eq_of_toNat (by omega)
  | [a, b] => by
    have h := a.toNat_lt
    have h2 := b.toNat_lt
    have hne : b64Char (b.toNat % 16 * 4) ≠ 61 := b64Char_ne (by omega)
    rw [b64Enc, b64Quads]
    · simp only [b64Val_char (show a.toNat / 4 < 64 by omega), b64Val_char (show a.toNat % 4 * 16 + b.toNat / 16 < 64 by omega),
        b64Val_char (show b.toNat % 16 * 4 < 64 by omega), Option.bind_eq_bind, Option.bind_some, Option.pure_def, Option.some.injEq,
        List.cons.injEq, and_true]
      exact ⟨ofNat_eq_of_toNat (by omega), ofNat_eq_of_toNat (by omega)⟩
    · exact hne
  | a :: b :: c :: rest => by
    have h := a.toNat_lt
    have h2 := b.toNat_lt
    have h3 := c.toNat_lt
    rw [b64Enc, b64Quads_cons _ _ _ _ _ _ _ _ _ (b64Val_char (show a.toNat / 4 < 64 by omega))
      (b64Val_char (show a.toNat % 4 * 16 + b.toNat / 16 < 64 by omega)) (b64Val_char (show b.toNat % 16 * 4 + c.toNat / 64 < 64 by omega))
      (b64Val_char (show c.toNat % 64 < 64 by omega)) (b64Char_ne (by omega)) (b64Char_ne (by omega)), b64Quads_enc rest]
    simp only [Option.map_some, Option.some.injEq, List.cons.injEq, and_true]
    exact ⟨ofNat_eq_of_toNat (by omega), ofNat_eq_of_toNat (by omega), ofNat_eq_of_toNat (by omega)⟩

theorem b64Enc_mem : ∀ (s : Bytes) (c : UInt8), c ∈ b64Enc s → c ∈ b64Chars ∨ c = 61
  | [], c, h => by simp [b64Enc] at h
  | [a], c, h => by
    have := a.toNat_lt
    simp only [b64Enc, List.mem_cons, List.not_mem_nil, or_false] at h
    rcases h with rfl | rfl | rfl | rfl
    · exact Or.inl (b64Char_mem (by omega))
    · exact Or.inl (b64Char_mem (by omega))
    · exact Or.inr rfl
    · exact Or.inr rfl
  | [a, b], c, h => by
    have := a.toNat_lt
    have := b.toNat_lt
    simp only [b64Enc, List.mem_cons, List.not_mem_nil, or_false] at h
    rcases h with rfl | rfl | rfl | rfl
    · exact Or.inl (b64Char_mem (by omega))
    · exact Or.inl (b64Char_mem (by omega))
    · exact Or.inl (b64Char_mem (by omega))
    · exact Or.inr rfl
  | a :: b :: d :: rest, c, h => by
    have := a.toNat_lt
    have := b.toNat_lt
    have := d.toNat_lt
    simp only [b64Enc, List.mem_cons] at h
    rcases h with rfl | rfl | rfl | rfl | h
    · exact Or.inl (b64Char_mem (by omega))
    · exact Or.inl (b64Char_mem (by omega))
    · exact Or.inl (b64Char_mem (by omega))
    · exact Or.inl (b64Char_mem (by omega))
    · exact b64Enc_mem rest c h

theorem b64Enc_plain {s : Bytes} {c : UInt8} (h : c ∈ b64Enc s) : c ≠ 10 ∧ c ≠ 13 ∧ c ≠ 35 ∧ c ≠ 63 := by
  rcases b64Enc_mem s c h with h | rfl
  · have := b64Chars_plain c h; exact ⟨this.1, this.2.1, this.2.2.1, this.2.2.2.1⟩
  · decide

theorem b64Dec_enc (s : Bytes) : b64Dec (b64Enc s) = some s := by
  unfold b64Dec
  rw [List.filter_eq_self.2, b64Quads_enc]
  intro c hc
  have := b64Enc_plain hc
  simp [this.1, this.2.1]

theorem b64Enc_length : ∀ s : Bytes, (b64Enc s).length = 4 * ((s.length + 2) / 3)
  | [] => rfl
  | [a] => by simp [b64Enc]
  | [a, b] => by simp [b64Enc]
  | a :: b :: c :: rest => by
    simp only [b64Enc, List.length_cons, b64Enc_length rest]; omega

theorem b64Enc_injective {a b : Bytes} (h : b64Enc a = b64Enc b) : a = b := by
  have := b64Dec_enc a
  rw [h, b64Dec_enc] at this
  exact (Option.some.inj this).symm

/-- Decoding yields nothing exactly when only line breaks are left. -/
theorem b64Quads_nil {s : Bytes} (h : b64Quads s = some []) : s = [] := by
  rw [b64Quads.eq_def] at h
  split at h
  · rfl
  · rename_i a b
    cases h1 : b64Val a <;> cases h2 : b64Val b <;> simp [h1, h2] at h
  · rename_i a b c _
    cases h1 : b64Val a <;> cases h2 : b64Val b <;> cases h3 : b64Val c <;> simp [h1, h2, h3] at h
  · rename_i a b c d r _ _
    cases h1 : b64Val a <;> cases h2 : b64Val b <;> cases h3 : b64Val c <;> cases h4 : b64Val d <;> cases h5 : b64Quads r <;>
      simp [h1, h2, h3, h4, h5] at h
  · simp at h

theorem b64Dec_nil_iff (s : Bytes) : b64Dec s = some [] ↔ ∀ c ∈ s, c = 10 ∨ c = 13 := by
  unfold b64Dec
  constructor
  · intro h c hc
    have := b64Quads_nil h
    rw [List.filter_eq_nil_iff] at this
    have := this c hc
    by_cases h1 : c = 10
    · exact Or.inl h1
    · simp [h1] at this; exact Or.inr this
  · intro h
    rw [List.filter_eq_nil_iff.2]
    · rfl
    · intro c hc
      rcases h c hc with rfl | rfl <;> decide

end GoNostr
