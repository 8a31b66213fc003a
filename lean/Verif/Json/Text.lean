import Verif.Base.Num
/-!
# JSON strings: what is written and how it is read back

go-nostr writes JSON strings with easyjson's `jwriter.Writer.String` (events, filters) and json-iterator's `WriteString` (notices, reasons, ids), and reads them with easyjson's
`jlexer` (events, filters) and `gjson` (the envelopes around them). These libraries (easyjson v0.9.0, json-iterator v1.1.12 with `ConfigFastest`, gjson v1.18.0, see go.mod) are not in
/repo; the definitions marked *library* are written down from their documented behaviour and are part of the trusted base.

`Esc body val` says that `body` is a proper JSON string body (between the quotes) for the text `val`. Every writer produces such a body and every reader inverts it.
-/

set_option autoImplicit false

namespace GoNostr.Json

/-! ## UTF-8 -/

/-- A continuation byte. -/
def isCont (c : UInt8) : Bool := 0x80 ≤ c && c ≤ 0xBF

/-- The range of the second byte, which excludes overlong forms, surrogates and code points above 0x10FFFF. -/
def least (c0 : UInt8) : UInt8 := if c0 = 0xE0 then 0xA0 else if c0 = 0xF0 then 0x90 else 0x80
/-- Auxiliary function of the specification; models no code. -/
def most (c0 : UInt8) : UInt8 := if c0 = 0xED then 0x9F else if c0 = 0xF4 then 0x8F else 0xBF

/-- *library* `utf8.DecodeRuneInString`: the width of the valid encoding the text starts with (RFC 3629), `none` if it starts with none (`RuneError`, 1). -/
def runeWidth : Bytes → Option Nat
  | [] => none
  | c0 :: s =>
    if c0 < 0x80 then some 1
    else if 0xC2 ≤ c0 && c0 ≤ 0xDF then
      match s with
      | c1 :: _ => if isCont c1 then some 2 else none
      | _ => none
    else if 0xE0 ≤ c0 && c0 ≤ 0xEF then
      match s with
      | c1 :: c2 :: _ =>
        if least c0 ≤ c1 && c1 ≤ most c0 && isCont c2 then some 3 else none
      | _ => none
    else if 0xF0 ≤ c0 && c0 ≤ 0xF4 then
      match s with
      | c1 :: c2 :: c3 :: _ =>
        if least c0 ≤ c1 && c1 ≤ most c0 && isCont c2 && isCont c3 then some 4 else none
      | _ => none
    else none

/-- Valid UTF-8: a sequence of valid encodings. -/
inductive Utf8 : Bytes → Prop
  | nil : Utf8 []
  | char {p s : Bytes} (h : runeWidth p = some p.length) (hs : Utf8 s) : Utf8 (p ++ s)

/-- *library* `utf8.EncodeRune` for code points below 0x110000; surrogates become U+FFFD. -/
def encodeRune (r : Nat) : Bytes :=
  if r < 0x80 then [UInt8.ofNat r]
  else if r < 0x800 then [UInt8.ofNat (0xC0 + r / 0x40), UInt8.ofNat (0x80 + r % 0x40)]
  else if 0xD800 ≤ r ∧ r < 0xE000 then [0xEF, 0xBF, 0xBD]
  else if r < 0x10000 then [UInt8.ofNat (0xE0 + r / 0x1000), UInt8.ofNat (0x80 + r / 0x40 % 0x40), UInt8.ofNat (0x80 + r % 0x40)]
  else [UInt8.ofNat (0xF0 + r / 0x40000), UInt8.ofNat (0x80 + r / 0x1000 % 0x40), UInt8.ofNat (0x80 + r / 0x40 % 0x40), UInt8.ofNat (0x80 + r % 0x40)]

/-! ## Proper string bodies -/

/-- A hex digit of either case. -/
def hexNibble (c : UInt8) : Option Nat :=
  if 48 ≤ c ∧ c ≤ 57 then some (c.toNat - 48)
  else if 97 ≤ c ∧ c ≤ 102 then some (c.toNat - 87)
  else if 65 ≤ c ∧ c ≤ 70 then some (c.toNat - 55)
  else none

/-- Four hex digits. -/
def u4 (a b c d : UInt8) : Option Nat :=
  match hexNibble a, hexNibble b, hexNibble c, hexNibble d with
  | some a, some b, some c, some d => some (((a * 16 + b) * 16 + c) * 16 + d)
  | _, _, _, _ => none

/-- The two-character escapes. -/
def shortEscape (c : UInt8) : Option UInt8 :=
  if c = 34 then some 34
  else if c = 92 then some 92
  else if c = 47 then some 47
  else if c = 98 then some 8
  else if c = 102 then some 12
  else if c = 110 then some 10
  else if c = 114 then some 13
  else if c = 116 then some 9
  else none

/-- `body` is a JSON string body for `val` (RFC 8259, without surrogate pairs, which the writers do not use). -/
inductive Esc : Bytes → Bytes → Prop
  | nil : Esc [] []
  | raw {c : UInt8} {b v : Bytes} (h32 : 32 ≤ c) (h34 : c ≠ 34) (h92 : c ≠ 92) (h : Esc b v) : Esc (c :: b) (c :: v)
  | short {e c : UInt8} {b v : Bytes} (he : shortEscape e = some c) (h : Esc b v) : Esc (92 :: e :: b) (c :: v)
  | u {h1 h2 h3 h4 : UInt8} {r : Nat} {b v : Bytes} (hr : u4 h1 h2 h3 h4 = some r) (hs : ¬ (0xD800 ≤ r ∧ r < 0xE000)) (h : Esc b v) :
      Esc (92 :: 117 :: h1 :: h2 :: h3 :: h4 :: b) (encodeRune r ++ v)

theorem Esc.append {b1 v1 b2 v2 : Bytes} (h1 : Esc b1 v1) (h2 : Esc b2 v2) : Esc (b1 ++ b2) (v1 ++ v2) := by
  induction h1 with
  | nil => exact h2
  | raw a b c _ ih => exact .raw a b c ih
  | short a _ ih => exact .short a ih
  | u a b _ ih => rw [List.append_assoc]; exact .u a b ih

/-- Bytes that need no escape. -/
theorem Esc.plain {s : Bytes} (h : ∀ c ∈ s, 32 ≤ c ∧ c ≠ 34 ∧ c ≠ 92) : Esc s s := by
  induction s with
  | nil => exact .nil
  | cons c s ih =>
    obtain ⟨a, b, d⟩ := h c (by simp)
    exact .raw a b d (ih (fun x hx => h x (List.mem_cons_of_mem _ hx)))

/-! ## Writers -/

/-- The hex digits of the writers. -/
def lowHex (n : UInt8) : UInt8 := hexDigit n

/-- *library* `jwriter.Writer.String` on one ASCII byte, without HTML escaping: control characters, DEL, quote and backslash are escaped. -/
def wByte (c : UInt8) : Bytes :=
  if c = 9 then [92, 116]
  else if c = 13 then [92, 114]
  else if c = 10 then [92, 110]
  else if c = 92 then [92, 92]
  else if c = 34 then [92, 34]
  else if c < 32 ∨ c = 127 then [92, 117, 48, 48, lowHex (c >>> 4), lowHex (c &&& 15)]
  else [c]

/-- *library* `jwriter.Writer.String`: the body. Invalid bytes become the escape of U+FFFD; U+2028 and U+2029 are escaped. The first argument bounds the iterations. -/
def wBody : Nat → Bytes → Bytes
  | 0, _ => []
  | _, [] => []
  | n + 1, c :: s =>
    if c < 0x80 then wByte c ++ wBody n s
    else match runeWidth (c :: s) with
      | none => [92, 117, 102, 102, 102, 100] ++ wBody n s
      | some w =>
        if (c :: s).take 3 = [0xE2, 0x80, 0xA8] then [92, 117, 50, 48, 50, 56] ++ wBody n ((c :: s).drop w)
        else if (c :: s).take 3 = [0xE2, 0x80, 0xA9] then [92, 117, 50, 48, 50, 57] ++ wBody n ((c :: s).drop w)
        else (c :: s).take w ++ wBody n ((c :: s).drop w)

/-- *library* `jwriter.Writer.String`. -/
def wString (s : Bytes) : Bytes := [34] ++ wBody s.length s ++ [34]

/-- *library* `jsoniter` `WriteString` on one byte, without HTML escaping. -/
def jByte (c : UInt8) : Bytes :=
  if c = 92 ∨ c = 34 then [92, c]
  else if c = 10 then [92, 110]
  else if c = 13 then [92, 114]
  else if c = 9 then [92, 116]
  else if c < 32 then [92, 117, 48, 48, lowHex (c >>> 4), lowHex (c &&& 15)]
  else [c]

/-- Auxiliary definition of the specification and the proofs; models no code. -/
def jBody (s : Bytes) : Bytes := s.flatMap jByte

/-- *library* `json.Marshal` of a string (json-iterator, `ConfigFastest`). -/
def jString (s : Bytes) : Bytes := [34] ++ jBody s ++ [34]

theorem wByte_cases : ∀ c : UInt8, c < 0x80 → (32 ≤ c ∧ c ≠ 34 ∧ c ≠ 92 ∧ wByte c = [c]) ∨ (∃ e : UInt8, wByte c = [92, e] ∧ shortEscape e = some c) ∨
    (∃ a b : UInt8, wByte c = [92, 117, 48, 48, a, b] ∧ u4 48 48 a b = some c.toNat ∧ encodeRune c.toNat = [c]) := by
  intro c hc
  have key : ∀ c : UInt8, c < 0x80 → (32 ≤ c ∧ c ≠ 34 ∧ c ≠ 92 ∧ wByte c = [c]) ∨ (wByte c = [92, (wByte c)[1]?.getD 0] ∧ shortEscape ((wByte c)[1]?.getD 0) = some c) ∨
    (wByte c = [92, 117, 48, 48, (wByte c)[4]?.getD 0, (wByte c)[5]?.getD 0] ∧ u4 48 48 ((wByte c)[4]?.getD 0) ((wByte c)[5]?.getD 0) = some c.toNat ∧ encodeRune c.toNat = [c]) := by
    decide +kernel
  rcases key c hc with h | h | h
  · exact .inl h
  · exact .inr (.inl ⟨_, h⟩)
  · exact .inr (.inr ⟨_, _, h⟩)

theorem jByte_cases : ∀ c : UInt8, (32 ≤ c ∧ c ≠ 34 ∧ c ≠ 92 ∧ jByte c = [c]) ∨ (∃ e : UInt8, jByte c = [92, e] ∧ shortEscape e = some c) ∨
    (∃ a b : UInt8, jByte c = [92, 117, 48, 48, a, b] ∧ u4 48 48 a b = some c.toNat ∧ encodeRune c.toNat = [c] ∧ c.toNat < 0x80) := by
  intro c
  have key : ∀ c : UInt8, (32 ≤ c ∧ c ≠ 34 ∧ c ≠ 92 ∧ jByte c = [c]) ∨ (jByte c = [92, (jByte c)[1]?.getD 0] ∧ shortEscape ((jByte c)[1]?.getD 0) = some c) ∨
    (jByte c = [92, 117, 48, 48, (jByte c)[4]?.getD 0, (jByte c)[5]?.getD 0] ∧ u4 48 48 ((jByte c)[4]?.getD 0) ((jByte c)[5]?.getD 0) = some c.toNat ∧ encodeRune c.toNat = [c] ∧ c.toNat < 0x80) := by
    decide +kernel
  rcases key c with h | h | h
  · exact .inl h
  · exact .inr (.inl ⟨_, h⟩)
  · exact .inr (.inr ⟨_, _, h⟩)

theorem wByte_esc {c : UInt8} (hc : c < 0x80) {b v : Bytes} (h : Esc b v) : Esc (wByte c ++ b) (c :: v) := by
  rcases wByte_cases c hc with ⟨a1, a2, a3, e⟩ | ⟨x, e, hx⟩ | ⟨x, y, e, hu, he⟩
  · rw [e]; exact .raw a1 a2 a3 h
  · rw [e]; exact .short hx h
  · rw [e]
    have hlt : c.toNat < 128 := hc
    have := Esc.u hu (by omega) h
    rw [he] at this
    exact this

/-- json-iterator's strings read back as any bytes whatsoever. -/
theorem jBody_esc (s : Bytes) : Esc (jBody s) s := by
  induction s with
  | nil => exact .nil
  | cons c s ih =>
    show Esc (jByte c ++ jBody s) (c :: s)
    rcases jByte_cases c with ⟨a1, a2, a3, e⟩ | ⟨x, e, hx⟩ | ⟨x, y, e, hu, he, hlt⟩
    · rw [e]; exact .raw a1 a2 a3 ih
    · rw [e]; exact .short hx ih
    · rw [e]
      have := Esc.u hu (by omega) ih
      rw [he] at this
      exact this

theorem runeWidth_ascii {c : UInt8} (h : c < 0x80) (s : Bytes) : runeWidth (c :: s) = some 1 := by simp [runeWidth, h]

/-- The bytes of an encoding that is not ASCII. -/
theorem runeWidth_high {s : Bytes} {w : Nat} {c : UInt8} {t : Bytes} (hs : s = c :: t) (hc : ¬ c < 0x80) (h : runeWidth s = some w) :
    1 ≤ w ∧ w ≤ s.length ∧ ∀ x ∈ s.take w, 0x80 ≤ x := by
  subst hs
  have hc' : 0x80 ≤ c := UInt8.not_lt.1 hc
  have cont : ∀ x, isCont x = true → 0x80 ≤ x := by
    intro x hx
    simp only [isCont, Bool.and_eq_true, decide_eq_true_eq] at hx
    exact hx.1
  have lo : ∀ c0 y : UInt8, least c0 ≤ y → 0x80 ≤ y := by
    intro c0 y h
    refine UInt8.le_trans ?_ h
    unfold least
    split
    · decide
    · split <;> decide
  unfold runeWidth at h
  simp only [if_neg hc] at h
  split at h
  · split at h
    · next c1 r =>
      split at h
      · next h1 =>
        cases h
        refine ⟨by omega, by simp, ?_⟩
        intro x hx
        simp only [List.take_succ_cons, List.take_zero, List.mem_cons, List.not_mem_nil, or_false] at hx
        rcases hx with rfl | rfl
        · exact hc'
        · exact cont _ h1
      · cases h
    · cases h
  · split at h
    · split at h
      · next c1 c2 r =>
        split at h
        · next h1 =>
          cases h
          simp only [Bool.and_eq_true, decide_eq_true_eq] at h1
          refine ⟨by omega, by simp, ?_⟩
          intro x hx
          simp only [List.take_succ_cons, List.take_zero, List.mem_cons, List.not_mem_nil, or_false] at hx
          rcases hx with rfl | rfl | rfl
          · exact hc'
          · exact lo _ _ h1.1.1
          · exact cont _ h1.2
        · cases h
      · cases h
    · split at h
      · split at h
        · next c1 c2 c3 r =>
          split at h
          · next h1 =>
            cases h
            simp only [Bool.and_eq_true, decide_eq_true_eq] at h1
            refine ⟨by omega, by simp, ?_⟩
            intro x hx
            simp only [List.take_succ_cons, List.take_zero, List.mem_cons, List.not_mem_nil, or_false] at hx
            rcases hx with rfl | rfl | rfl | rfl
            · exact hc'
            · exact lo _ _ h1.1.1.1
            · exact cont _ h1.1.2
            · exact cont _ h1.2
          · cases h
        · cases h
      · cases h

/-- What a text becomes on its way through the writer: invalid bytes are replaced by U+FFFD. -/
def sanitize : Nat → Bytes → Bytes
  | 0, _ => []
  | _, [] => []
  | n + 1, c :: s => match runeWidth (c :: s) with
    | none => [0xEF, 0xBF, 0xBD] ++ sanitize n s
    | some w => (c :: s).take w ++ sanitize n ((c :: s).drop w)

theorem wBody_esc : ∀ (n : Nat) (s : Bytes), s.length ≤ n → Esc (wBody n s) (sanitize n s)
  | 0, s, h => by
    have : s = [] := List.length_eq_zero_iff.1 (by omega)
    subst this
    exact .nil
  | n + 1, [], _ => .nil
  | n + 1, c :: s, h => by
    have hl : s.length ≤ n := by simpa using h
    unfold wBody sanitize
    by_cases hc : c < 0x80
    · rw [if_pos hc, runeWidth_ascii hc]
      exact wByte_esc hc (wBody_esc n s hl)
    · rw [if_neg hc]
      cases hw : runeWidth (c :: s) with
      | none =>
        have := Esc.u (h1 := 102) (h2 := 102) (h3 := 102) (h4 := 100) (r := 0xFFFD) (by decide +kernel) (by decide) (wBody_esc n s hl)
        exact this
      | some w =>
        obtain ⟨w1, w2, w3⟩ := runeWidth_high rfl hc hw
        have ih := wBody_esc n ((c :: s).drop w) (by rw [List.length_drop, List.length_cons]; omega)
        simp only
        have w3' : ∀ rest, c :: s = [0xE2, 0x80, 0xA8] ++ rest ∨ c :: s = [0xE2, 0x80, 0xA9] ++ rest → w = 3 := by
          intro rest hr
          rcases hr with hr | hr
          · rw [hr] at hw
            simp only [List.cons_append, List.nil_append] at hw
            have : runeWidth (0xE2 :: 0x80 :: 0xA8 :: rest) = some 3 := by
              simp [runeWidth, isCont, least, most]
            rw [this] at hw
            exact (Option.some.inj hw).symm
          · rw [hr] at hw
            simp only [List.cons_append, List.nil_append] at hw
            have : runeWidth (0xE2 :: 0x80 :: 0xA9 :: rest) = some 3 := by
              simp [runeWidth, isCont, least, most]
            rw [this] at hw
            exact (Option.some.inj hw).symm
        split
        · next h3 =>
          have : w = 3 := w3' ((c :: s).drop 3) (.inl (by rw [← h3, List.take_append_drop]))
          subst this
          rw [h3]
          exact Esc.u (h1 := 50) (h2 := 48) (h3 := 50) (h4 := 56) (r := 0x2028) (by decide +kernel) (by decide) ih
        · split
          · next h3 =>
            have : w = 3 := w3' ((c :: s).drop 3) (.inr (by rw [← h3, List.take_append_drop]))
            subst this
            rw [h3]
            exact Esc.u (h1 := 50) (h2 := 48) (h3 := 50) (h4 := 57) (r := 0x2029) (by decide +kernel) (by decide) ih
          · refine Esc.append (Esc.plain ?_) ih
            intro x hx
            have := w3 x hx
            refine ⟨UInt8.le_trans (by decide) this, ?_, ?_⟩
            · rintro rfl; exact absurd this (by decide)
            · rintro rfl; exact absurd this (by decide)

/-! ### Valid text is not changed -/

theorem runeWidth_append {p : Bytes} {w : Nat} (h : runeWidth p = some w) (s : Bytes) : runeWidth (p ++ s) = some w := by
  match p with
  | [] => cases h
  | [c0] =>
    unfold runeWidth at h ⊢
    simp only [List.cons_append, List.nil_append] at h ⊢
    split at h
    · next hc => rw [if_pos hc]; exact h
    · split at h
      · cases h
      · split at h
        · cases h
        · split at h <;> cases h
  | [c0, c1] =>
    unfold runeWidth at h ⊢
    simp only [List.cons_append, List.nil_append] at h ⊢
    split at h
    · next hc => rw [if_pos hc]; exact h
    · next hc =>
      rw [if_neg hc]
      split at h
      · next h1 => rw [if_pos h1]; exact h
      · split at h
        · cases h
        · split at h <;> cases h
  | [c0, c1, c2] =>
    unfold runeWidth at h ⊢
    simp only [List.cons_append, List.nil_append] at h ⊢
    split at h
    · next hc => rw [if_pos hc]; exact h
    · next hc =>
      rw [if_neg hc]
      split at h
      · next h1 => rw [if_pos h1]; exact h
      · next h1 =>
        rw [if_neg h1]
        split at h
        · next h2 => rw [if_pos h2]; exact h
        · split at h <;> cases h
  | c0 :: c1 :: c2 :: c3 :: r => exact h

theorem runeWidth_pos {s : Bytes} {w : Nat} (h : runeWidth s = some w) : 1 ≤ w ∧ w ≤ s.length := by
  cases s with
  | nil => cases h
  | cons c t =>
    by_cases hc : c < 0x80
    · rw [runeWidth_ascii hc] at h
      cases h
      exact ⟨Nat.le_refl _, by simp⟩
    · exact ⟨(runeWidth_high rfl hc h).1, (runeWidth_high rfl hc h).2.1⟩

theorem sanitize_utf8 {s : Bytes} (h : Utf8 s) : ∀ n, s.length ≤ n → sanitize n s = s := by
  induction h with
  | nil => intro n _; cases n <;> rfl
  | @char p s hp hs ih =>
    intro n hn
    obtain ⟨hpos, -⟩ := runeWidth_pos hp
    match p, hpos with
    | c :: t, _ =>
      rw [List.length_append, List.length_cons] at hn
      match n, hn with
      | 0, hn => omega
      | n + 1, hn =>
        have hw := runeWidth_append hp s
        simp only [List.cons_append] at hw ⊢
        unfold sanitize
        rw [hw]
        simp only
        rw [show c :: (t ++ s) = (c :: t) ++ s from rfl, List.take_left, List.drop_left, ih n (by omega)]

/-- easyjson's strings read back as the text that was written, if it is UTF-8. -/
theorem wBody_utf8 {s : Bytes} (h : Utf8 s) : Esc (wBody s.length s) s := by
  have := wBody_esc s.length s (Nat.le_refl _)
  rwa [sanitize_utf8 h _ (Nat.le_refl _)] at this

theorem Utf8.ascii {s : Bytes} (h : ∀ c ∈ s, c < 0x80) : Utf8 s := by
  induction s with
  | nil => exact .nil
  | cons c s ih => exact .char (p := [c]) (runeWidth_ascii (h c (by simp)) []) (ih (fun x hx => h x (List.mem_cons_of_mem _ hx)))

/-! ## Readers -/

/-- *library* The end of a string: both `jlexer` and `gjson` stop at the first quote that is preceded by an even number of backslashes. The flag says whether the next character is
escaped. Result: body and what follows the closing quote. -/
def scan : Bool → Bytes → Option (Bytes × Bytes)
  | _, [] => none
  | esc, c :: s =>
    if c = 34 ∧ esc = false then some ([], s)
    else (scan (c = 92 ∧ esc = false) s).map (fun r => (c :: r.1, r.2))

/-- *library* `jlexer` `unescapeStringToken` and `decodeEscape`. The first argument bounds the iterations. -/
def unescape : Nat → Bytes → Option Bytes
  | 0, _ => some []
  | _, [] => some []
  | n + 1, c :: s =>
    if c ≠ 92 then (unescape n s).map (c :: ·)
    else match s with
      | [] => none
      | e :: s =>
        match shortEscape e with
        | some d => (unescape n s).map (d :: ·)
        | none =>
          if e ≠ 117 then none
          else match s with
            | a :: b :: c :: d :: s =>
              match u4 a b c d with
              | none => none
              | some r =>
                if 0xD800 ≤ r ∧ r < 0xE000 then
                  match s with
                  | 92 :: 117 :: a' :: b' :: c' :: d' :: s' =>
                    match u4 a' b' c' d' with
                    | some r' => if r < 0xDC00 ∧ 0xDC00 ≤ r' ∧ r' < 0xE000
                      then (unescape n s').map (encodeRune (0x10000 + (r - 0xD800) * 0x400 + (r' - 0xDC00)) ++ ·)
                      else (unescape n s).map (encodeRune 0xFFFD ++ ·)
                    | none => (unescape n s).map (encodeRune 0xFFFD ++ ·)
                  | _ => (unescape n s).map (encodeRune 0xFFFD ++ ·)
                else (unescape n s).map (encodeRune r ++ ·)
            | _ => none

/-- *library* `gjson` `unescape`: stops silently at a control character or a broken escape. The first argument bounds the iterations. -/
def gUnescape : Nat → Bytes → Bytes
  | 0, _ => []
  | _, [] => []
  | n + 1, c :: s =>
    if c < 32 then []
    else if c ≠ 92 then c :: gUnescape n s
    else match s with
      | [] => []
      | e :: s =>
        match shortEscape e with
        | some d => d :: gUnescape n s
        | none =>
          if e ≠ 117 then []
          else match s with
            | a :: b :: c :: d :: s =>
              let r := (u4 a b c d).getD 0
              if 0xD800 ≤ r ∧ r < 0xE000 then
                match s with
                | 92 :: 117 :: a' :: b' :: c' :: d' :: s' =>
                  let r' := (u4 a' b' c' d').getD 0
                  (if r < 0xDC00 ∧ 0xDC00 ≤ r' ∧ r' < 0xE000 then encodeRune (0x10000 + (r - 0xD800) * 0x400 + (r' - 0xDC00)) else encodeRune 0xFFFD) ++ gUnescape n s'
                | _ => encodeRune r ++ gUnescape n s
              else encodeRune r ++ gUnescape n s
            | _ => []

theorem hexNibble_not_special {c : UInt8} {n : Nat} (h : hexNibble c = some n) : c ≠ 34 ∧ c ≠ 92 := by
  constructor <;> · rintro rfl; revert h; simp [hexNibble]

theorem u4_not_special {a b c d : UInt8} {r : Nat} (h : u4 a b c d = some r) : (a ≠ 34 ∧ a ≠ 92) ∧ (b ≠ 34 ∧ b ≠ 92) ∧ (c ≠ 34 ∧ c ≠ 92) ∧ (d ≠ 34 ∧ d ≠ 92) := by
  unfold u4 at h
  split at h
  · next h1 h2 h3 h4 => exact ⟨hexNibble_not_special h1, hexNibble_not_special h2, hexNibble_not_special h3, hexNibble_not_special h4⟩
  · cases h

theorem scan_plain {c : UInt8} (h34 : c ≠ 34) (h92 : c ≠ 92) (s : Bytes) : scan false (c :: s) = (scan false s).map (fun r => (c :: r.1, r.2)) := by
  rw [scan, if_neg (by simp [h34])]
  simp [h92]

theorem scan_escaped (c : UInt8) (s : Bytes) : scan true (c :: s) = (scan false s).map (fun r => (c :: r.1, r.2)) := by
  rw [scan, if_neg (by simp)]
  simp

theorem scan_backslash (s : Bytes) : scan false (92 :: s) = (scan true s).map (fun r => (92 :: r.1, r.2)) := by
  rw [scan, if_neg (by simp)]
  simp

/-- Readers find the end of a proper string. -/
theorem scan_esc {b v : Bytes} (h : Esc b v) (rest : Bytes) : scan false (b ++ 34 :: rest) = some (b, rest) := by
  induction h with
  | nil => simp [scan]
  | @raw c b v _ h34 h92 _ ih => rw [List.cons_append, scan_plain h34 h92, ih]; rfl
  | @short e c b v he _ ih => rw [List.cons_append, List.cons_append, scan_backslash, scan_escaped, ih]; rfl
  | @u h1 h2 h3 h4 r b v hr hs _ ih =>
    obtain ⟨⟨a1, a2⟩, ⟨b1, b2⟩, ⟨c1, c2⟩, ⟨d1, d2⟩⟩ := u4_not_special hr
    simp only [List.cons_append]
    rw [scan_backslash, scan_escaped, scan_plain a1 a2, scan_plain b1 b2, scan_plain c1 c2, scan_plain d1 d2, ih]
    rfl

theorem unescape_esc {b v : Bytes} (h : Esc b v) : ∀ n, b.length ≤ n → unescape n b = some v := by
  induction h with
  | nil => intro n _; cases n <;> rfl
  | @raw c b v _ h34 h92 _ ih =>
    intro n hn
    match n, hn with
    | n + 1, hn =>
      unfold unescape
      simp only [if_pos h92]
      rw [ih n (by simpa using hn)]
      rfl
  | @short e c b v he _ ih =>
    intro n hn
    match n, hn with
    | n + 1, hn =>
      simp only [List.length_cons] at hn
      unfold unescape
      rw [if_neg (by simp)]
      simp only [he]
      rw [ih n (by omega)]
      rfl
  | @u h1 h2 h3 h4 r b v hr hs _ ih =>
    intro n hn
    match n, hn with
    | n + 1, hn =>
      simp only [List.length_cons] at hn
      have e117 : shortEscape 117 = none := by decide +kernel
      unfold unescape
      rw [if_neg (by simp)]
      simp only [e117, hr, if_neg hs, ne_eq, not_true_eq_false, if_false]
      rw [ih n (by omega)]
      rfl

theorem shortEscape_not_control : ∀ e : UInt8, ∀ c : UInt8, shortEscape e = some c → 32 ≤ e := by
  intro e c h
  have key : ∀ e : UInt8, (shortEscape e).isSome → 32 ≤ e := by decide +kernel
  exact key e (by rw [h]; rfl)

theorem gUnescape_esc {b v : Bytes} (h : Esc b v) : ∀ n, b.length ≤ n → gUnescape n b = v := by
  induction h with
  | nil => intro n _; cases n <;> rfl
  | @raw c b v h32 h34 h92 _ ih =>
    intro n hn
    match n, hn with
    | n + 1, hn =>
      unfold gUnescape
      simp only [if_neg (UInt8.not_lt.2 h32), if_pos h92]
      rw [ih n (by simpa using hn)]
  | @short e c b v he _ ih =>
    intro n hn
    match n, hn with
    | n + 1, hn =>
      simp only [List.length_cons] at hn
      unfold gUnescape
      rw [if_neg (by decide), if_neg (by simp)]
      simp only [he]
      rw [ih n (by omega)]
  | @u h1 h2 h3 h4 r b v hr hs _ ih =>
    intro n hn
    match n, hn with
    | n + 1, hn =>
      simp only [List.length_cons] at hn
      have e117 : shortEscape 117 = none := by decide +kernel
      unfold gUnescape
      rw [if_neg (by decide), if_neg (by simp)]
      simp only [e117, hr, Option.getD_some, if_neg hs, ne_eq, not_true_eq_false, if_false]
      rw [ih n (by omega)]

end GoNostr.Json
