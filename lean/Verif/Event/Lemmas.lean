import Verif.Event.Model
import Verif.Event.Spec
/-! Helper lemmas about escaping and serialization. -/

set_option autoImplicit false

namespace GoNostr

/-- The escaped characters of a string, without the quotes. -/
def escBody : Bytes → Bytes
  | [] => []
  | c :: s => escapeByte c ++ escBody s

theorem escapeLoop_eq (dst s : Bytes) : escapeLoop dst s = dst ++ escBody s := by
  induction s generalizing dst with
  | nil => simp [escapeLoop, escBody]
  | cons c s ih => simp [escapeLoop, escBody, ih]

theorem escapeString_eq (dst s : Bytes) : escapeString dst s = dst ++ 34 :: (escBody s ++ [34]) := by
  simp [escapeString, escapeLoop_eq]

/-- What a byte's escape looks like to the decoder. -/
theorem stringBody_escapeByte (c : UInt8) (rest : Bytes) :
    JSON.stringBody (escapeByte c ++ rest) =
      match JSON.stringBody rest with
      | some (s, r) => some (c :: s, r)
      | none => none := by
  have key : ∀ c : UInt8,
      (c ≥ 0x20 ∧ c ≠ 34 ∧ c ≠ 92 ∧ escapeByte c = [c]) ∨
      (∃ e : UInt8, e ≠ 117 ∧ escapeByte c = [92, e] ∧ JSON.simpleEscape e = some c) ∨
      (∃ d e : UInt8, escapeByte c = [92, 117, 48, 48, d, e] ∧ ∃ x y : Fin 16,
        JSON.hex d = some x.val ∧ JSON.hex e = some y.val ∧ x.val * 16 + y.val < 0x80 ∧
        UInt8.ofNat (x.val * 16 + y.val) = c) := by
    have h : ∀ c : UInt8,
      (c ≥ 0x20 ∧ c ≠ 34 ∧ c ≠ 92 ∧ escapeByte c = [c]) ∨
      (match escapeByte c with
        | [a, e] => a = 92 ∧ e ≠ 117 ∧ JSON.simpleEscape e = some c
        | [a, b, x, y, d, e] => a = 92 ∧ b = 117 ∧ x = 48 ∧ y = 48 ∧
            (match JSON.hex d, JSON.hex e with
              | some u, some v => u < 16 ∧ v < 16 ∧ u * 16 + v < 0x80 ∧ UInt8.ofNat (u * 16 + v) = c
              | _, _ => False)
        | _ => False) := by
      intro c
      have h2 : ∀ c : UInt8, (decide (c ≥ 0x20 ∧ c ≠ 34 ∧ c ≠ 92 ∧ escapeByte c = [c]) ||
        (match escapeByte c with
        | [a, e] => a = 92 && e ≠ 117 && JSON.simpleEscape e = some c
        | [a, b, x, y, d, e] => a = 92 && b = 117 && x = 48 && y = 48 &&
            (match JSON.hex d, JSON.hex e with
              | some u, some v => u < 16 && v < 16 && u * 16 + v < 0x80 && UInt8.ofNat (u * 16 + v) = c
              | _, _ => false)
        | _ => false)) = true := by decide +kernel
      have := h2 c
      rw [Bool.or_eq_true] at this
      rcases this with h | h
      · exact Or.inl (by simpa using h)
      · right
        split at h
        · simpa [and_assoc] using h
        · simp only [Bool.and_eq_true] at h
          obtain ⟨h1, h2⟩ := h
          simp at h1
          refine ⟨h1.1.1.1, h1.1.1.2, h1.1.2, h1.2, ?_⟩
          split at h2
          · simpa [and_assoc] using h2
          · cases h2
        · cases h
    intro c
    rcases h c with h | h
    · exact Or.inl h
    · right
      revert h
      split
      · next a e heq =>
        rintro ⟨rfl, h1, h2⟩
        exact Or.inl ⟨e, h1, heq, h2⟩
      · next a b x y d e heq =>
        rintro ⟨rfl, rfl, rfl, rfl, h2⟩
        revert h2
        split
        · next u v hu hv =>
          rintro ⟨h1, h2, h3, h4⟩
          exact Or.inr ⟨d, e, heq, ⟨u, h1⟩, ⟨v, h2⟩, hu, hv, h3, h4⟩
        · exact False.elim
      · exact False.elim
  rcases key c with ⟨h1, h2, h3, h4⟩ | ⟨e, h1, h2, h3⟩ | ⟨d, e, h1, x, y, hx, hy, h2, h3⟩
  · rw [h4]
    have hlt : ¬ (c < 0x20 ∨ c = 92) := by
      rintro (h | h)
      · exact absurd h (by simpa using h1)
      · exact h3 h
    show JSON.stringBody (c :: rest) = _
    rw [JSON.stringBody.eq_def]
    split
    · simp_all
    · simp_all
    · simp_all
    · simp_all
    · next c' r' _ _ _ heq =>
      injection heq with e1 e2
      subst e1; subst e2
      rw [if_neg hlt]
      cases JSON.stringBody rest <;> rfl
  · rw [h2]
    show JSON.stringBody (92 :: e :: rest) = _
    rw [JSON.stringBody.eq_def]
    split
    · simp_all
    · next heq => simp at heq
    · next heq => simp at heq; exact absurd heq.1 h1
    · next e' r' _ heq =>
      simp at heq
      obtain ⟨rfl, rfl⟩ := heq
      simp only [h3]
      cases JSON.stringBody rest <;> rfl
    · next c' r' hn1 hn2 hn3 heq =>
      simp at heq
      obtain ⟨rfl, rfl⟩ := heq
      exact absurd rfl (hn3 e rest rfl)
  · rw [h1]
    show JSON.stringBody (92 :: 117 :: 48 :: 48 :: d :: e :: rest) = _
    have h48 : JSON.hex 48 = some 0 := by decide
    rw [JSON.stringBody]
    simp only [h48, hx, hy]
    simp only [Nat.zero_mul, Nat.zero_add, JSON.utf8, h2, if_true, h3]
    cases JSON.stringBody rest <;> rfl

theorem stringBody_escBody (s rest : Bytes) :
    JSON.stringBody (escBody s ++ 34 :: rest) = some (s, rest) := by
  induction s with
  | nil => simp [escBody, JSON.stringBody]
  | cons c s ih => simp [escBody, stringBody_escapeByte, ih]

theorem escBody_injective {a b : Bytes} (h : escBody a = escBody b) : a = b := by
  have h1 := stringBody_escBody a []
  rw [h, stringBody_escBody] at h1
  simpa using h1.symm

/-- A quote inside an escaped body is always preceded by a backslash. -/
theorem quote_in_escBody (s : Bytes) : ∀ {Z W : Bytes}, escBody s = Z ++ 34 :: W → ∃ Z0, Z = Z0 ++ [92] := by
  have hk : ∀ c : UInt8, escapeByte c = [92, 34] ∨ (34 ∉ escapeByte c) := by decide +kernel
  induction s with
  | nil => intro Z W h; simp [escBody] at h
  | cons c s ih =>
    intro Z W h
    rw [escBody] at h
    rcases List.append_eq_append_iff.mp h with ⟨T, hZ, hs⟩ | ⟨T, hc, hW⟩
    · -- the quote lies in the body of the rest
      obtain ⟨Z0, hZ0⟩ := ih hs
      exact ⟨escapeByte c ++ Z0, by rw [hZ, hZ0, List.append_assoc]⟩
    · rcases T with _ | ⟨t, T⟩
      · simp at hW hc
        obtain ⟨Z0, hZ0⟩ := ih (Z := []) (W := W) (by simpa using hW.symm)
        simp at hZ0
      · simp at hW
        obtain ⟨ht, hW⟩ := hW
        subst ht
        rcases hk c with hc2 | hc2
        · rw [hc2] at hc
          match Z, hc with
          | [], hc => simp at hc
          | [z], hc => simp at hc; exact ⟨[], by simp [hc.1]⟩
          | z :: z' :: Z, hc => simp at hc
        · exact absurd (by rw [hc]; simp) hc2

/-- `X` does not end with a backslash. -/
def NoTrailBS (X : Bytes) : Prop := ∀ X0, X ≠ X0 ++ [92]

theorem noTrailBS_snoc (X : Bytes) {c : UInt8} (h : c ≠ 92) : NoTrailBS (X ++ [c]) := by
  intro X0 hx
  have := List.append_inj_right' hx rfl
  simp at this
  exact h this

theorem esc_cancel_aux {X Y a b : Bytes} (hY : NoTrailBS Y) (hle : X.length ≤ Y.length)
    (h : X ++ 34 :: escBody a = Y ++ 34 :: escBody b) : X = Y ∧ a = b := by
  rcases List.append_eq_append_iff.mp h with ⟨T, hYT, hT⟩ | ⟨T, hXT, hT⟩
  · rcases T with _ | ⟨t, T⟩
    · simp at hYT hT
      exact ⟨hYT.symm, escBody_injective hT⟩
    · simp at hT
      obtain ⟨ht, hT⟩ := hT
      obtain ⟨Z0, hZ0⟩ := quote_in_escBody a hT
      exact absurd (by rw [hYT, hZ0]; simp) (hY (X ++ t :: Z0))
  · have hl : T.length = 0 := by
      have := congrArg List.length hXT
      simp at this; omega
    have : T = [] := List.length_eq_zero_iff.mp hl
    subst this
    simp at hXT hT
    exact ⟨hXT, escBody_injective hT.symm⟩

/-- Right cancellation of an escaped string after prefixes that do not end with a backslash. -/
theorem esc_cancel {X Y a b : Bytes} (hX : NoTrailBS X) (hY : NoTrailBS Y)
    (h : escapeString X a = escapeString Y b) : X = Y ∧ a = b := by
  rw [escapeString_eq, escapeString_eq] at h
  have h' : X ++ 34 :: escBody a = Y ++ 34 :: escBody b := by
    have := List.append_inj_left' (s₁ := X ++ 34 :: escBody a) (t₁ := [34]) (s₂ := Y ++ 34 :: escBody b) (t₂ := [34])
      (by simpa using h) rfl
    exact this
  rcases Nat.le_total X.length Y.length with hle | hle
  · exact esc_cancel_aux hY hle h'
  · have := esc_cancel_aux hX hle h'.symm
    exact ⟨this.1.symm, this.2.symm⟩

theorem serializeItems_snoc (dst : Bytes) (i : Nat) (t : Tag) (s : Bytes) :
    serializeItems dst i (t ++ [s]) =
      escapeString (if i + t.length > 0 then serializeItems dst i t ++ [44] else serializeItems dst i t) s := by
  induction t generalizing dst i with
  | nil => simp [serializeItems]
  | cons a t ih =>
    simp only [List.cons_append, serializeItems, ih, List.length_cons]
    congr 1
    have : i + 1 + t.length = i + (t.length + 1) := by omega
    rw [this]

theorem serializeTags_snoc (dst : Bytes) (i : Nat) (ts : Tags) (t : Tag) :
    serializeTags dst i (ts ++ [t]) =
      serializeItems ((if i + ts.length > 0 then serializeTags dst i ts ++ [44] else serializeTags dst i ts) ++ [91]) 0 t
        ++ [93] := by
  induction ts generalizing dst i with
  | nil => simp [serializeTags]
  | cons a ts ih =>
    simp only [List.cons_append, serializeTags, ih, List.length_cons]
    have : i + 1 + ts.length = i + (ts.length + 1) := by omega
    rw [this]

theorem snoc_cases {α : Type} (l : List α) : l = [] ∨ ∃ i a, l = i ++ [a] := by
  rcases List.eq_nil_or_concat l with h | ⟨i, a, h⟩
  · exact Or.inl h
  · exact Or.inr ⟨i, a, by simpa using h⟩

/-- Last bytes of the two item-loop shapes. -/
theorem serializeItems_last (P : Bytes) (t : Tag) (h : t ≠ []) : ∃ Q, serializeItems P 0 t = Q ++ [34] := by
  rcases snoc_cases t with rfl | ⟨i, s, rfl⟩
  · exact absurd rfl h
  · rw [serializeItems_snoc]
    exact ⟨_, rfl⟩

theorem snoc_inj {α : Type} {a b : List α} {x y : α} (h : a ++ [x] = b ++ [y]) : a = b ∧ x = y := by
  have := List.append_inj' h rfl
  exact ⟨this.1, by simpa using this.2⟩

/-- Right-to-left unambiguity of the items of a tag. -/
theorem serializeItems_cancel (P P' : Bytes) (t t' : Tag)
    (h : serializeItems (P ++ [91]) 0 t = serializeItems (P' ++ [91]) 0 t') : P = P' ∧ t = t' := by
  generalize hn : t.length = n
  induction n generalizing t t' with
  | zero =>
    have ht : t = [] := List.length_eq_zero_iff.mp hn
    subst ht
    by_cases ht' : t' = []
    · subst ht'
      exact ⟨by simpa [serializeItems] using h, rfl⟩
    · obtain ⟨Q, hQ⟩ := serializeItems_last (P' ++ [91]) t' ht'
      rw [hQ] at h
      simp [serializeItems] at h
  | succ n ih =>
    rcases snoc_cases t with rfl | ⟨i, s, rfl⟩
    · simp at hn
    rcases snoc_cases t' with rfl | ⟨i', s', rfl⟩
    · obtain ⟨Q, hQ⟩ := serializeItems_last (P ++ [91]) (i ++ [s]) (by simp)
      rw [hQ] at h
      simp [serializeItems] at h
    rw [serializeItems_snoc, serializeItems_snoc] at h
    simp only [Nat.zero_add] at h
    have hshape : ∀ (P : Bytes) (i : Tag),
        (if i.length > 0 then serializeItems (P ++ [91]) 0 i ++ [44] else serializeItems (P ++ [91]) 0 i) =
          if i.length > 0 then serializeItems (P ++ [91]) 0 i ++ [44] else P ++ [91] := by
      intro P i
      split
      · rfl
      · have : i = [] := List.length_eq_zero_iff.mp (by omega)
        subst this; rfl
    rw [hshape, hshape] at h
    have hnt : ∀ (P : Bytes) (i : Tag),
        NoTrailBS (if i.length > 0 then serializeItems (P ++ [91]) 0 i ++ [44] else P ++ [91]) := by
      intro P i
      split
      · exact noTrailBS_snoc _ (by decide)
      · exact noTrailBS_snoc _ (by decide)
    obtain ⟨h1, h2⟩ := esc_cancel (hnt P i) (hnt P' i') h
    subst h2
    by_cases hi : i.length > 0 <;> by_cases hi' : i'.length > 0
    · rw [if_pos hi, if_pos hi'] at h1
      have h3 := ih i i' (snoc_inj h1).1 (by simpa using hn)
      exact ⟨h3.1, by rw [h3.2]⟩
    · rw [if_pos hi, if_neg hi'] at h1
      have := (snoc_inj h1).2; simp at this
    · rw [if_neg hi, if_pos hi'] at h1
      have := (snoc_inj h1).2; simp at this
    · rw [if_neg hi, if_neg hi'] at h1
      have e1 : i = [] := List.length_eq_zero_iff.mp (by omega)
      have e2 : i' = [] := List.length_eq_zero_iff.mp (by omega)
      subst e1; subst e2
      exact ⟨(snoc_inj h1).1, rfl⟩

/-- Right-to-left unambiguity of the tag list. -/
theorem serializeTags_cancel (P P' : Bytes) (t t' : Tags)
    (h : serializeTags (P ++ [91]) 0 t = serializeTags (P' ++ [91]) 0 t') : P = P' ∧ t = t' := by
  generalize hn : t.length = n
  induction n generalizing t t' with
  | zero =>
    have ht : t = [] := List.length_eq_zero_iff.mp hn
    subst ht
    rcases snoc_cases t' with rfl | ⟨i', s', rfl⟩
    · exact ⟨by simpa [serializeTags] using h, rfl⟩
    · rw [serializeTags_snoc] at h
      simp [serializeTags] at h
  | succ n ih =>
    rcases snoc_cases t with rfl | ⟨i, s, rfl⟩
    · simp at hn
    rcases snoc_cases t' with rfl | ⟨i', s', rfl⟩
    · rw [serializeTags_snoc] at h
      simp [serializeTags] at h
    rw [serializeTags_snoc, serializeTags_snoc] at h
    have h1 := (snoc_inj h).1
    simp only [Nat.zero_add] at h1
    obtain ⟨h2, h3⟩ := serializeItems_cancel _ _ _ _ h1
    subst h3
    by_cases hi : i.length > 0 <;> by_cases hi' : i'.length > 0
    · rw [if_pos hi, if_pos hi'] at h2
      have h4 := ih i i' (snoc_inj h2).1 (by simpa using hn)
      exact ⟨h4.1, by rw [h4.2]⟩
    · rw [if_pos hi, if_neg hi'] at h2
      have e2 : i' = [] := List.length_eq_zero_iff.mp (by omega)
      subst e2
      simp [serializeTags] at h2
    · rw [if_neg hi, if_pos hi'] at h2
      have e2 : i = [] := List.length_eq_zero_iff.mp (by omega)
      subst e2
      simp [serializeTags] at h2
    · rw [if_neg hi, if_neg hi'] at h2
      have e1 : i = [] := List.length_eq_zero_iff.mp (by omega)
      have e2 : i' = [] := List.length_eq_zero_iff.mp (by omega)
      subst e1; subst e2
      exact ⟨by simpa [serializeTags] using h2, rfl⟩

/-- Splitting at the last occurrence of a separator is unambiguous. -/
theorem sep_cancel {A B x y : Bytes} {c : UInt8} (hx : c ∉ x) (hy : c ∉ y) (h : A ++ c :: x = B ++ c :: y) :
    A = B ∧ x = y := by
  rcases List.append_eq_append_iff.mp h with ⟨T, hB, hT⟩ | ⟨T, hA, hT⟩
  · rcases T with _ | ⟨t, T⟩
    · simp at hB hT; exact ⟨hB.symm, hT⟩
    · simp at hT
      exact absurd (by rw [hT.2]; simp) hx
  · rcases T with _ | ⟨t, T⟩
    · simp at hA hT; exact ⟨hA, hT.symm⟩
    · simp at hT
      exact absurd (by rw [hT.2]; simp) hy

theorem comma_not_in_fmtInt (i : Int) : (44 : UInt8) ∉ fmtInt i := by
  intro h
  rcases fmtInt_chars i 44 h with h | h
  · simp at h
  · revert h; decide

end GoNostr
