import Verif.Helpers.Theorems
/-!
# C16: which ids name a subscription

`C16_subid_roundtrip` says that a subscription's own id is read back; here is the converse: which other ids a relay could use and be understood to mean that subscription, and that all others name none.
-/

set_option autoImplicit false

namespace GoNostr

/-- Specification: decimal digits, at least one, possibly after a plus sign and possibly with zeros in front, for this number. -/
def Written (s : Bytes) (n : Nat) : Prop := ∃ d, (s = d ∨ s = 43 :: d) ∧ d ≠ [] ∧ (∀ c ∈ d, 48 ≤ c ∧ c ≤ 57) ∧ d.foldl (fun v c => v * 10 + (c.toNat - 48)) 0 = n

theorem digitsValue_ge : ∀ (s : Bytes) (n : Nat), n ≤ digitsValue s n
  | [], n => Nat.le_refl _
  | c :: s, n => by
    have := digitsValue_ge s (n * 10 + (c.toNat - 48))
    simp only [digitsValue, List.foldl_cons] at this ⊢
    omega

theorem parseUintLoop_ok : ∀ {s : Bytes} {n : Nat} {v : Int}, parseUintLoop s n = .ok v → (∀ c ∈ s, IsDigitByte c) ∧ v = digitsValue s n
  | [], n, v, h => by simp only [parseUintLoop, ParseNum.ok.injEq] at h; exact ⟨by simp, by simp [digitsValue, ← h]⟩
  | c :: s, n, v, h => by
    simp only [parseUintLoop] at h
    split at h
    · next hc =>
      split at h
      · cases h
      · obtain ⟨h1, h2⟩ := parseUintLoop_ok h
        refine ⟨?_, h2⟩
        intro x hx
        rcases List.mem_cons.1 hx with rfl | hx
        · exact hc
        · exact h1 x hx
    · cases h

/-- Reading digits fails with a syntax error, is out of range, or gives their value. -/
theorem parseUint64_ok_iff {s : Bytes} {n : Nat} (hn : n < 2 ^ 64) : parseUint64 s = .ok n ↔ s ≠ [] ∧ (∀ c ∈ s, IsDigitByte c) ∧ digitsValue s 0 = n := by
  unfold parseUint64
  constructor
  · intro h
    split at h
    · cases h
    · next hs =>
      obtain ⟨h1, h2⟩ := parseUintLoop_ok h
      exact ⟨hs, h1, by exact_mod_cast h2.symm⟩
  · rintro ⟨h1, h2, h3⟩
    rw [if_neg h1, parseUintLoop_digits h2 (by omega), h3]

theorem parseUintLoop_nonneg : ∀ {s : Bytes} {n : Nat} {v : Int}, parseUintLoop s n = .ok v → 0 ≤ v := by
  intro s n v h
  rw [(parseUintLoop_ok h).2]
  omega

theorem parseUint64_nonneg {s : Bytes} {v : Int} (h : parseUint64 s = .ok v) : 0 ≤ v := by
  unfold parseUint64 at h
  split at h
  · cases h
  · exact parseUintLoop_nonneg h

/-- What is read as a positive number below the largest one is that number written down. -/
theorem value_iff {s : Bytes} {n : Nat} (h0 : 0 < n) (hn : n < 2 ^ 63 - 1) : (parseInt64 s).value = n ↔ Written s n := by
  cases s with
  | nil =>
    constructor
    · intro h; simp [parseInt64, ParseNum.value] at h; omega
    · rintro ⟨d, h1 | h1, h2, -⟩
      · exact absurd h1.symm h2
      · cases h1
  | cons c rest =>
    have key : ∀ d : Bytes, (∃ u : Int, parseUint64 d = .ok u ∧ u = n) ↔ d ≠ [] ∧ (∀ x ∈ d, IsDigitByte x) ∧ digitsValue d 0 = n := by
      intro d
      rw [← parseUint64_ok_iff (by omega)]
      exact ⟨fun ⟨u, h1, h2⟩ => h2 ▸ h1, fun h => ⟨_, h, rfl⟩⟩
    by_cases hp : c = 43
    · subst hp
      have e : (parseInt64 (43 :: rest)).value = n ↔ ∃ u : Int, parseUint64 rest = .ok u ∧ u = n := by
        unfold parseInt64
        simp only [if_true]
        cases hu : parseUint64 rest with
        | syntaxErr => simp [ParseNum.value]; omega
        | rangeErr r => simp [ParseNum.value]; omega
        | ok u =>
          simp only [ParseNum.ok.injEq, exists_eq_left']
          by_cases hge : (9223372036854775808 : Int) ≤ u <;> simp [hge, ParseNum.value]
          omega
      rw [e, key]
      constructor
      · rintro ⟨h1, h2, h3⟩; exact ⟨rest, Or.inr rfl, h1, h2, h3⟩
      · rintro ⟨d, h | h, h1, h2, h3⟩
        · subst h
          have := h2 43 List.mem_cons_self
          exact absurd this (by decide)
        · cases h; exact ⟨h1, h2, h3⟩
    · by_cases hm : c = 45
      · subst hm
        constructor
        · intro h
          exfalso
          unfold parseInt64 at h
          simp only [show ¬ (45 : UInt8) = 43 by decide, if_false, if_true] at h
          cases hu : parseUint64 rest with
          | syntaxErr => rw [hu] at h; simp [ParseNum.value] at h; omega
          | rangeErr r => rw [hu] at h; simp [ParseNum.value] at h
          | ok u =>
            rw [hu] at h
            have := parseUint64_nonneg hu
            by_cases hgt : (9223372036854775808 : Int) < u <;> simp [hgt, ParseNum.value] at h; omega
        · rintro ⟨d, h | h, h1, h2, h3⟩
          · subst h
            have := h2 45 List.mem_cons_self
            exact absurd this (by decide)
          · cases h
      · have e : (parseInt64 (c :: rest)).value = n ↔ ∃ u : Int, parseUint64 (c :: rest) = .ok u ∧ u = n := by
          unfold parseInt64
          simp only [hp, hm, if_false]
          cases hu : parseUint64 (c :: rest) with
          | syntaxErr => simp [ParseNum.value]; omega
          | rangeErr r => simp [ParseNum.value]; omega
          | ok u =>
            simp only [ParseNum.ok.injEq, exists_eq_left']
            by_cases hge : (9223372036854775808 : Int) ≤ u <;> simp [hge, ParseNum.value]
            omega
        rw [e, key]
        constructor
        · rintro ⟨h1, h2, h3⟩; exact ⟨_, Or.inl rfl, h1, h2, h3⟩
        · rintro ⟨d, h | h, h1, h2, h3⟩
          · subst h; exact ⟨h1, h2, h3⟩
          · cases h; exact absurd rfl hp

/-- **C16, which ids name a subscription.** An id names the subscription with number `n` (they count from 1) exactly if it is `n` written down, a colon, and anything after it. So whatever a relay writes, no id without such a number is taken for a subscription's. -/
theorem C16_names_iff (s : Bytes) (n : Nat) (h0 : 0 < n) (hn : n < 2 ^ 63 - 1) : subIdToSerial s = .val n ↔ ∃ w label, s = w ++ 58 :: label ∧ Written w n := by
  have hw : ∀ w, Written w n → (58 : UInt8) ∉ w := by
    rintro w ⟨d, h | h, -, h2, -⟩ hm
    · subst h; exact absurd (h2 _ hm) (by decide)
    · subst h
      rcases List.mem_cons.1 hm with hm | hm
      · cases hm
      · exact absurd (h2 _ hm) (by decide)
  rcases indexOf_singleton_cases 58 s with ⟨_, h2⟩ | ⟨pre, post, rfl, hpre, hi⟩
  · rw [C16_no_colon s h2]
    constructor
    · intro h; simp only [Out.val.injEq] at h; omega
    · rintro ⟨w, label, rfl, -⟩; simp at h2
  · have e : subIdToSerial (pre ++ 58 :: post) = .val (parseInt64 pre).value := by
      simp only [subIdToSerial, hi]
      rw [if_neg (by simp; omega), goSlice_prefix]
      rfl
    rw [e]
    simp only [Out.val.injEq]
    rw [value_iff h0 hn]
    constructor
    · intro h; exact ⟨pre, post, rfl, h⟩
    · rintro ⟨w, label, he, hwn⟩
      have i1 : indexOf [58] (pre ++ 58 :: post) = pre.length := indexOf_singleton_eq hpre
      have i2 : indexOf [58] (w ++ 58 :: label) = w.length := indexOf_singleton_eq (hw w hwn)
      rw [he, i2] at i1
      have := List.append_inj he (by omega)
      rw [this.1]; exact hwn

/-- An id with a number that is not written down properly names no subscription; several spellings name the same. -/
example : subIdToSerial (b! "x:1") = .val 0 ∧ subIdToSerial (b! ":") = .val 0 ∧ subIdToSerial (b! "7a:") = .val 0 ∧ subIdToSerial (b! "+007:x") = .val 7 := by decide +kernel
example : Written (b! "+007") 7 := ⟨b! "007", Or.inr rfl, by decide +kernel, by decide +kernel, by decide +kernel⟩

end GoNostr
