import Verif.Helpers.Model
import Verif.Base.Index
/-!
# C16, C17, C19, C20
-/

set_option autoImplicit false

namespace GoNostr

/-! ## C16 -/

/-- **C16.** The id made from a counter and any label maps back to the counter. -/
theorem C16_subid_roundtrip (counter : Int) (h1 : -(2 ^ 63) ≤ counter) (h2 : counter < 2 ^ 63) (label : Bytes) :
    subIdToSerial (makeSubID counter label) = .val counter := by
  have hc : (58 : UInt8) ∉ fmtInt counter := by
    intro h
    rcases fmtInt_chars counter _ h with h | h
    · revert h; decide
    · revert h; decide
  have hidx : indexOf [58] (fmtInt counter ++ 58 :: label) = (fmtInt counter).length := indexOf_singleton_eq hc
  unfold subIdToSerial makeSubID
  simp only [List.append_assoc, List.singleton_append, hidx]
  rw [if_neg (by simp; omega), goSlice_prefix]
  simp [parseInt64_fmtInt h1 h2, ParseNum.value]

/-- **C16.** Ids of different counters never collide, whatever the labels. -/
theorem C16_subid_distinct (c d : Int) (hc : -(2 ^ 63) ≤ c ∧ c < 2 ^ 63) (hd : -(2 ^ 63) ≤ d ∧ d < 2 ^ 63)
    (l m : Bytes) (h : makeSubID c l = makeSubID d m) : c = d := by
  have h1 := C16_subid_roundtrip c hc.1 hc.2 l
  rw [h, C16_subid_roundtrip d hd.1 hd.2 m] at h1
  simpa using h1.symm

/-- **C16.** A string without a colon maps to -1. -/
theorem C16_no_colon (s : Bytes) (h : (58 : UInt8) ∉ s) : subIdToSerial s = .val (-1) := by
  have := indexOf_singleton_none.mpr h
  simp [subIdToSerial, this]

/-- **C16.** `subIdToSerial` never panics. -/
theorem C16_never_panics (s : Bytes) : ∃ n, subIdToSerial s = .val n := by
  rcases indexOf_singleton_cases 58 s with ⟨_, h2⟩ | ⟨pre, post, rfl, hn, hi⟩
  · exact ⟨_, C16_no_colon s h2⟩
  · refine ⟨(parseInt64 pre).value, ?_⟩
    simp only [subIdToSerial, hi]
    rw [if_neg (by simp; omega), goSlice_prefix]
    rfl

example : subIdToSerial (makeSubID 4294967299 (b! "a:7:\"b")) = .val 4294967299 := by decide +kernel

/-! ## C17 -/

/-- Dropping a decomposed prefix of known length. -/
theorem goSliceFrom_at {α : Type} {s a b : List α} (h : s = a ++ b) {n : Int} (hn : n = a.length) :
    goSliceFrom s n = .val b := by
  subst h hn; exact goSliceFrom_split a b

theorem goSlice_at {α : Type} {s a b c : List α} (h : s = a ++ b ++ c) {n m : Int} (hn : n = a.length)
    (hm : m = a.length + b.length) : goSlice s n m = .val b := by
  subst h
  have := goSlice_split a b c
  rw [hn, hm]; exact_mod_cast this

/-- **C17.** `extractDTag` never panics, on any byte string. -/
theorem C17_extractDTag_total (s : Bytes) : ∃ r, extractDTag s = .val r := by
  unfold extractDTag
  rcases indexOf_cases (b! "[\"d\"") s with ⟨h, _⟩ | ⟨pre, post, ⟨hs, _⟩, hi⟩
  · exact ⟨[], by simp [h]⟩
  · simp only [hi]
    rw [if_neg (by omega), goSliceFrom_at hs (by simp)]
    simp only [Out.val_bind]
    rcases indexOf_singleton_cases 34 post with ⟨h1, h2⟩ | ⟨p, q, hp, hnp, h1⟩
    · rw [h1, goSliceFrom_at hs (by simp)]
      simp only [Out.val_bind, h1]
      exact ⟨[], by simp⟩
    · rw [h1]
      have hs' : s = (pre ++ b! "[\"d\"" ++ p ++ [34]) ++ q := by simp [hs, hp]
      rw [goSliceFrom_at hs' (by simp; omega)]
      simp only [Out.val_bind]
      rcases indexOf_singleton_cases 34 q with ⟨h3, _⟩ | ⟨u, v, hu, _, h3⟩
      · exact ⟨[], by simp [h3]⟩
      · rw [h3, if_neg (by omega)]
        exact ⟨u, goSlice_at (a := pre ++ b! "[\"d\"" ++ p ++ [34]) (c := 34 :: v) (by rw [hs', hu]; simp) (by simp; omega) (by simp; omega)⟩

/-- **C17.** `extractTimestamp` never panics, on any byte string. -/
theorem C17_extractTimestamp_total (s : Bytes) : ∃ r, extractTimestamp s = .val r := by
  unfold extractTimestamp
  rcases indexOf_cases (b! "\"created_at\"") s with ⟨h, _⟩ | ⟨pre, post, ⟨hs, _⟩, hi⟩
  · exact ⟨0, by simp [h]⟩
  · simp only [hi]
    rw [if_neg (by omega), goSliceFrom_at hs (by simp)]
    simp only [Out.val_bind]
    rcases indexAny_cases (fun c => 48 ≤ c && c ≤ 57) post with ⟨h1, _⟩ | ⟨p, c, q, hp, _, _, h1⟩
    · exact ⟨0, by simp [h1]⟩
    · rw [h1, if_neg (by omega)]
      have hs' : s = (pre ++ b! "\"created_at\"" ++ p) ++ (c :: q) := by simp [hs, hp]
      rw [goSliceFrom_at hs' (by simp; omega)]
      simp only [Out.val_bind]
      rcases indexAny_cases (fun c => c = 44 || c = 125 || c = 32) (c :: q) with ⟨h2, _⟩ | ⟨u, d, v, hu, _, _, h2⟩
      · exact ⟨0, by simp [h2]⟩
      · rw [h2, if_neg (by omega)]
        rw [goSlice_at (a := pre ++ b! "\"created_at\"" ++ p) (b := u) (c := d :: v) (by rw [hs', hu]; simp) (by simp; omega) (by simp; omega)]
        exact ⟨_, rfl⟩

/-- **C17.** Exactly when `extractSubID` panics: after the first `"EVENT"` there is exactly one more quote character. -/
theorem C17_extractSubID_panics_iff (s : Bytes) : extractSubID s = .panic ↔
    ∃ pre p q, FirstSplit (b! "\"EVENT\"") s pre (p ++ 34 :: q) ∧ (34 : UInt8) ∉ p ∧ (34 : UInt8) ∉ q := by
  constructor
  · intro h
    unfold extractSubID at h
    rcases indexOf_cases (b! "\"EVENT\"") s with ⟨h0, _⟩ | ⟨pre, post, hf, hi⟩
    · simp [h0] at h
    · simp only [hi] at h
      rw [if_neg (by omega), goSliceFrom_at hf.1 (by simp)] at h
      simp only [Out.val_bind] at h
      rcases indexOf_singleton_cases 34 post with ⟨h1, h2⟩ | ⟨p, q, hp, hnp, h1⟩
      · simp [h1] at h
      · rw [h1, if_neg (by omega)] at h
        have hs' : s = (pre ++ b! "\"EVENT\"" ++ p ++ [34]) ++ q := by simp [hf.1, hp]
        rw [goSliceFrom_at hs' (by simp; omega)] at h
        simp only [Out.val_bind] at h
        rcases indexOf_singleton_cases 34 q with ⟨h3, h4⟩ | ⟨u, v, hu, _, h3⟩
        · exact ⟨pre, p, q, hp ▸ hf, hnp, h4⟩
        · rw [h3, goSlice_at (a := pre ++ b! "\"EVENT\"" ++ p ++ [34]) (b := u) (c := 34 :: v) (by rw [hs', hu]; simp) (by simp; omega) (by simp; omega)] at h
          cases h
  · rintro ⟨pre, p, q, hf, hp, hq⟩
    have hi := hf.index
    unfold extractSubID
    simp only [hi]
    rw [if_neg (by omega), goSliceFrom_at hf.1 (by simp)]
    simp only [Out.val_bind]
    rw [indexOf_singleton_eq hp, if_neg (by omega)]
    have hs' : s = (pre ++ b! "\"EVENT\"" ++ p ++ [34]) ++ q := by simp [hf.1]
    rw [goSliceFrom_at hs' (by simp; omega)]
    simp only [Out.val_bind, indexOf_singleton_none.mpr hq]
    rw [goSlice_panic_iff]
    omega

/-- Shared shape of `extractEventID` and `extractEventPubKey`. -/
theorem extract64_panics_iff (key : Bytes) (s : Bytes) (n : Nat) (hk : key.length = n) :
    (if indexOf key s = -1 then Out.val [] else do
      let t ← goSliceFrom s (indexOf key s + n)
      goSlice s (indexOf key s + (n + indexOf [34] t + 1)) (indexOf key s + (n + indexOf [34] t + 1) + 64)) = Out.panic ↔
    ∃ pre post, FirstSplit key s pre post ∧
      (((34 : UInt8) ∉ post ∧ post.length < 64) ∨ ∃ p q, post = p ++ 34 :: q ∧ (34 : UInt8) ∉ p ∧ q.length < 64) := by
  constructor
  · intro h
    rcases indexOf_cases key s with ⟨h0, _⟩ | ⟨pre, post, hf, hi⟩
    · simp [h0] at h
    · rw [hi, if_neg (by omega), goSliceFrom_at hf.1 (by simp [hk])] at h
      simp only [Out.val_bind] at h
      rw [goSlice_panic_iff] at h
      refine ⟨pre, post, hf, ?_⟩
      have hlen : s.length = pre.length + key.length + post.length := by rw [hf.1]; simp; omega
      rcases indexOf_singleton_cases 34 post with ⟨h1, h2⟩ | ⟨p, q, hp, hnp, h1⟩
      · left; rw [h1] at h; exact ⟨h2, by omega⟩
      · right; rw [h1] at h
        refine ⟨p, q, hp, hnp, ?_⟩
        have : post.length = p.length + 1 + q.length := by rw [hp]; simp; omega
        omega
  · rintro ⟨pre, post, hf, hcase⟩
    rw [hf.index, if_neg (by omega), goSliceFrom_at hf.1 (by simp [hk])]
    simp only [Out.val_bind]
    rw [goSlice_panic_iff]
    have hlen : s.length = pre.length + key.length + post.length := by rw [hf.1]; simp; omega
    rcases hcase with ⟨h1, h2⟩ | ⟨p, q, hp, hnp, hq⟩
    · rw [indexOf_singleton_none.mpr h1]; omega
    · have : post.length = p.length + 1 + q.length := by rw [hp]; simp; omega
      rw [hp, indexOf_singleton_eq hnp]; omega

/-- **C17.** Exactly when `extractEventID` panics: fewer than 64 bytes follow the quote after the first `"id"`. -/
theorem C17_extractEventID_panics_iff (s : Bytes) : extractEventID s = .panic ↔
    ∃ pre post, FirstSplit (b! "\"id\"") s pre post ∧
      (((34 : UInt8) ∉ post ∧ post.length < 64) ∨ ∃ p q, post = p ++ 34 :: q ∧ (34 : UInt8) ∉ p ∧ q.length < 64) :=
  extract64_panics_iff (b! "\"id\"") s 4 rfl

/-- **C17.** The same for `extractEventPubKey`. -/
theorem C17_extractEventPubKey_panics_iff (s : Bytes) : extractEventPubKey s = .panic ↔
    ∃ pre post, FirstSplit (b! "\"pubkey\"") s pre post ∧
      (((34 : UInt8) ∉ post ∧ post.length < 64) ∨ ∃ p q, post = p ++ 34 :: q ∧ (34 : UInt8) ∉ p ∧ q.length < 64) :=
  extract64_panics_iff (b! "\"pubkey\"") s 8 rfl

/-- **C17**, negation: short messages a relay can send crash the pre-parser: the subscription-id step (on any message),
and the id and pubkey steps (on a JSON event with an empty id). -/
theorem C17_relay_can_crash_reader :
    extractSubID (b! "[\"EVENT\",\"x") = .panic ∧
    readerEventID (b! "[\"EVENT\",\"1:\",{\"id\":\"\"}]") = .panic ∧
    extractEventPubKey (b! "[\"EVENT\",\"1:\",{\"pubkey\":\"\"}]") = .panic ∧
    readerEventID (b! "\"EVENT\"\"1:\"") = .panic := by decide +kernel

theorem extractSubID_event (subid rest : Bytes) (hq : (34 : UInt8) ∉ subid) :
    extractSubID (b! "[\"EVENT\",\"" ++ subid ++ 34 :: rest) = .val subid := by
  have hs : b! "[\"EVENT\",\"" ++ subid ++ 34 :: rest = [91] ++ b! "\"EVENT\"" ++ ([44] ++ 34 :: (subid ++ 34 :: rest)) := by
    simp
  have hf : FirstSplit (b! "\"EVENT\"") (b! "[\"EVENT\",\"" ++ subid ++ 34 :: rest) [91]
      ([44] ++ 34 :: (subid ++ 34 :: rest)) := by
    refine ⟨hs, ?_⟩
    intro j hj
    have : j = 0 := by simp at hj; omega
    subst this
    rw [occursAt_zero]
    simp [List.isPrefixOf]
  unfold extractSubID
  simp only [hf.index]
  rw [if_neg (by simp), goSliceFrom_at hf.1 (by simp)]
  simp only [Out.val_bind]
  rw [indexOf_singleton_eq (by decide), if_neg (by simp)]
  rw [goSliceFrom_at (a := b! "[\"EVENT\",\"") (b := subid ++ 34 :: rest) (by simp) (by simp)]
  simp only [Out.val_bind]
  rw [indexOf_singleton_eq hq]
  exact goSlice_at (a := b! "[\"EVENT\",\"") (c := 34 :: rest) (by simp) (by simp) (by simp)

/-- **C17.** What is true: the whole pre-parse of a message that starts like a NIP-01 EVENT message, has a subscription id
without quotes, and carries an `"id"` key whose value string is followed by at least 64 bytes, returns normally, with the
first 64 bytes of that value. -/
theorem C17_preparse_ok_partial (subid mid ws body : Bytes) (hq : (34 : UInt8) ∉ subid)
    (hmid : FirstSplit (b! "\"id\"") (34 :: mid ++ b! "\"id\"" ++ (ws ++ 34 :: body)) (34 :: mid) (ws ++ 34 :: body))
    (hws : (34 : UInt8) ∉ ws) (hb : 64 ≤ body.length) :
    readerEventID (b! "[\"EVENT\",\"" ++ subid ++ (34 :: mid ++ b! "\"id\"" ++ (ws ++ 34 :: body))) =
      .val (body.take 64) := by
  unfold readerEventID
  have h1 := extractSubID_event subid (mid ++ b! "\"id\"" ++ (ws ++ 34 :: body)) hq
  simp only [List.cons_append] at h1 ⊢
  rw [h1]
  simp only [Out.val_bind]
  rw [goSliceFrom_at (a := b! "[\"EVENT\",\"" ++ subid)
    (b := 34 :: mid ++ b! "\"id\"" ++ (ws ++ 34 :: body)) (by simp) (by simp; omega)]
  simp only [Out.val_bind]
  unfold extractEventID
  simp only [hmid.index]
  rw [if_neg (by omega), goSliceFrom_at hmid.1 (by simp; omega)]
  simp only [Out.val_bind]
  rw [indexOf_singleton_eq hws]
  refine goSlice_at (a := 34 :: mid ++ b! "\"id\"" ++ ws ++ [34]) (c := body.drop 64) (by simp) (by simp; omega) ?_
  simp only [List.length_take, List.length_append, List.length_cons, List.length_nil]
  omega

example : readerEventID (b! "[\"EVENT\",\"7:x\",{\"kind\":1,\"id\":\"" ++ List.replicate 64 97 ++ b! "\"}]") =
    .val (List.replicate 64 97) := by decide +kernel

/-! ## C19 -/

theorem isLowerHex_iff (s : Bytes) : isLowerHex s = true ↔ ∀ c ∈ s, IsLowerHexByte c := by
  induction s with
  | nil => simp [isLowerHex]
  | cons c s ih =>
    have hc : ((c ≥ 48 && c ≤ 57) || (c ≥ 97 && c ≤ 102)) = true ↔ IsLowerHexByte c := by
      simp [IsLowerHexByte]
    by_cases h : IsLowerHexByte c
    · simp [isLowerHex, hc.mpr h, ih, h]
    · have h' : ((c ≥ 48 && c ≤ 57) || (c ≥ 97 && c ≤ 102)) = false := by
        rw [← Bool.not_eq_true, hc]; exact h
      simp [isLowerHex, h', h]

/-- **C19.** `IsValid32ByteHex` accepts exactly the strings of 64 characters from `[0-9a-f]`. -/
theorem C19_isValid32ByteHex_iff (s : Bytes) :
    isValid32ByteHex s = true ↔ s.length = 64 ∧ ∀ c ∈ s, (48 ≤ c ∧ c ≤ 57) ∨ (97 ≤ c ∧ c ≤ 102) := by
  unfold isValid32ByteHex
  have hl := isLowerHex_iff s
  unfold IsLowerHexByte at hl
  by_cases h : isLowerHex s = true
  · by_cases h2 : s.length = 64
    · obtain ⟨r, hr, _⟩ := hexEnc_hexDec_lower (s := s) (hl.mp h) (by omega)
      simp only [h, h2, hr]
      simpa using hl.mp h
    · simp [h, h2]
  · simp only [h, not_false_eq_true, if_true, Bool.false_eq_true, false_iff]
    rintro ⟨_, h2⟩
    exact h (hl.mpr h2)

/-- **C19.** The accepted strings are exactly the encodings of 32-byte values. -/
theorem C19_accepts_encodings (s : Bytes) : isValid32ByteHex s = true ↔ ∃ b : Bytes, b.length = 32 ∧ s = hexEnc b := by
  rw [C19_isValid32ByteHex_iff]
  constructor
  · rintro ⟨h1, h2⟩
    obtain ⟨r, hr, he⟩ := hexEnc_hexDec_lower (s := s) h2 (by omega)
    exact ⟨r, by have := hexDec_length hr; omega, he.symm⟩
  · rintro ⟨b, hb, rfl⟩
    exact ⟨by simp [hb], hexEnc_lower b⟩

theorem hexDecPartial_eq : ∀ {s r : Bytes}, hexDec s = some r → hexDecPartial s = r
  | [], r, h => by simp [hexDec] at h; subst h; rfl
  | [_], r, h => by simp [hexDec] at h
  | a :: b :: rest, r, h => by
    unfold hexDec at h
    split at h
    · next x y q hx hy hq =>
      simp at h; subst h
      simp [hexDecPartial, hx, hy, hexDecPartial_eq hq]
    · cases h

theorem hexDecPartial_length : ∀ s : Bytes, 2 * (hexDecPartial s).length ≤ s.length
  | [] => by simp [hexDecPartial]
  | [_] => by simp [hexDecPartial]
  | a :: b :: rest => by
    have := hexDecPartial_length rest
    unfold hexDecPartial
    split
    · simp; omega
    · simp

theorem hexDecPartial_lower : ∀ {s : Bytes}, (∀ c ∈ s, IsLowerHexByte c) →
    2 * (hexDecPartial s).length = s.length - s.length % 2
  | [], _ => by simp [hexDecPartial]
  | [_], _ => by simp [hexDecPartial]
  | a :: b :: rest, h => by
    have ih := hexDecPartial_lower (s := rest) (fun c hc => h c (by simp [hc]))
    have hv : ∀ a : UInt8, IsLowerHexByte a → (hexVal a).isSome := by decide +kernel
    obtain ⟨x, hx⟩ := Option.isSome_iff_exists.mp (hv a (h a (by simp)))
    obtain ⟨y, hy⟩ := Option.isSome_iff_exists.mp (hv b (h b (by simp)))
    simp [hexDecPartial, hx, hy]
    omega

/-- **C19.** `IsValidPublicKey`: what is accepted is lowercase hex; every accepted string of 64 characters is the
encoding of a key the library parses, and every such encoding is accepted. -/
theorem C19_isValidPublicKey_64 (parsePub : Bytes → Bool) (s : Bytes) (hlen : s.length = 64) :
    isValidPublicKey parsePub s = true ↔ ∃ b : Bytes, b.length = 32 ∧ s = hexEnc b ∧ parsePub b = true := by
  unfold isValidPublicKey
  constructor
  · intro h
    by_cases hl : isLowerHex s = true
    · obtain ⟨r, hr, he⟩ := hexEnc_hexDec_lower (s := s) ((isLowerHex_iff s).mp hl) (by omega)
      simp [hl, hexDecPartial_eq hr] at h
      exact ⟨r, by have := hexDec_length hr; omega, he.symm, h⟩
    · simp [hl] at h
  · rintro ⟨b, hb, rfl, hp⟩
    have hl : isLowerHex (hexEnc b) = true := (isLowerHex_iff _).mpr (hexEnc_lower b)
    simp [hl, hexDecPartial_eq (hexDec_hexEnc b), hp]

/-- **C19.** If the library only parses 32-byte keys, an accepted string has 64 or 65 characters. -/
theorem C19_isValidPublicKey_length_partial (parsePub : Bytes → Bool) (h32 : ∀ b, parsePub b = true → b.length = 32)
    (s : Bytes) (h : isValidPublicKey parsePub s = true) :
    (s.length = 64 ∨ s.length = 65) ∧ ∀ c ∈ s, (48 ≤ c ∧ c ≤ 57) ∨ (97 ≤ c ∧ c ≤ 102) := by
  unfold isValidPublicKey at h
  by_cases hl : isLowerHex s = true
  · simp only [hl, not_true_eq_false, if_false] at h
    have := h32 _ h
    have h2 := hexDecPartial_lower ((isLowerHex_iff s).mp hl)
    exact ⟨by omega, (isLowerHex_iff s).mp hl⟩
  · simp [hl] at h

/-- **C19**, negation for keys: the decoding error is ignored, so a valid key followed by one more hex character (65
characters) is accepted. -/
theorem C19_isValidPublicKey_accepts_65 (parsePub : Bytes → Bool) (b : Bytes) (hb : b.length = 32)
    (hp : parsePub b = true) :
    ∃ s : Bytes, s.length = 65 ∧ isValidPublicKey parsePub s = true := by
  refine ⟨hexEnc b ++ [48], by simp [hb], ?_⟩
  have hl : isLowerHex (hexEnc b ++ [48]) = true := by
    rw [isLowerHex_iff]
    intro c hc
    simp at hc
    rcases hc with hc | rfl
    · exact hexEnc_lower b c hc
    · decide
  have hd : ∀ b : Bytes, hexDecPartial (hexEnc b ++ [48]) = b := by
    intro b
    induction b with
    | nil => rfl
    | cons x b ih =>
      simp [hexEnc, hexDecPartial, hexVal_hexDigit_hi, hexVal_hexDigit_lo, ih, nibbles]
  simp [isValidPublicKey, hl, hd, hp]

example : isValid32ByteHex (List.replicate 64 97) = true ∧ isValid32ByteHex (List.replicate 64 65) = false ∧
    isValid32ByteHex (List.replicate 63 97) = false := by decide +kernel

/-! ## C20 -/

/-- The message starts with a machine-readable prefix: a word without spaces followed by `: `. -/
def HasPrefix (m : Bytes) : Prop := ∃ word rest : Bytes, m = word ++ 58 :: 32 :: rest ∧ (32 : UInt8) ∉ word

theorem occurs_pair {a b : UInt8} {s : Bytes} {i : Nat} : OccursAt [a, b] s i ↔ s[i]? = some a ∧ s[i+1]? = some b := by
  constructor
  · rintro ⟨pre, post, rfl, rfl⟩
    simp
  · rintro ⟨h1, h2⟩
    obtain ⟨hi, hc⟩ := List.getElem?_eq_some_iff.mp h1
    obtain ⟨hi2, hc2⟩ := List.getElem?_eq_some_iff.mp h2
    refine ⟨s.take i, s.drop (i + 2), ?_, by simp; omega⟩
    subst hc hc2
    simp

theorem firstSplit_of_word {word rest : Bytes} (h : (32 : UInt8) ∉ word) :
    FirstSplit [58, 32] (word ++ 58 :: 32 :: rest) word rest := by
  refine ⟨by simp, ?_⟩
  intro j hj ho
  obtain ⟨_, h2⟩ := occurs_pair.mp ho
  by_cases hlt : j + 1 < word.length
  · rw [List.getElem?_append_left hlt] at h2
    exact h (List.mem_of_getElem? h2)
  · have : j + 1 = word.length := by omega
    rw [this] at h2
    simp at h2

/-- The function never panics and its result is given by a simple case distinction. -/
theorem normalize_cases (reason pre : Bytes) :
    (HasPrefix reason ∧ normalizeOKMessage reason pre = .val reason) ∨
    (¬ HasPrefix reason ∧ normalizeOKMessage reason pre = .val (pre ++ b! ": " ++ reason)) := by
  rcases indexOf_cases [58, 32] reason with ⟨h1, h2⟩ | ⟨w, r, hf, hi⟩
  · right
    refine ⟨?_, by simp [normalizeOKMessage, h1]⟩
    rintro ⟨w, r, rfl, hw⟩
    exact h2 w.length ⟨w, r, by simp, rfl⟩
  · have hsl : goSlice reason 0 (indexOf [58, 32] reason) = .val w := by
      rw [hi, hf.1, List.append_assoc]; exact goSlice_prefix _ _
    have hne : ¬ indexOf [58, 32] reason = -1 := by omega
    by_cases hw : (32 : UInt8) ∈ w
    · right
      constructor
      · rintro ⟨w', r', he, hw'⟩
        have hidx := (firstSplit_of_word (rest := r') hw').index
        rw [← he, hi] at hidx
        have hlen : w.length = w'.length := by exact_mod_cast hidx
        have := hf.1
        rw [he] at this
        have := List.append_inj_left (t₁ := [58, 32] ++ r) (by simpa using this.symm) hlen
        exact hw' (this ▸ hw)
      · have : ¬ indexOf [32] w = -1 := fun h => indexOf_singleton_none.mp h hw
        simp only [normalizeOKMessage, hne, if_false, hsl, Out.val_bind, ne_eq, this, not_false_eq_true, if_true]
        rfl
    · left
      refine ⟨⟨w, r, by simpa using hf.1, hw⟩, ?_⟩
      have : indexOf [32] w = -1 := indexOf_singleton_none.mpr hw
      simp only [normalizeOKMessage, hne, if_false, hsl, Out.val_bind, ne_eq, this, not_true_eq_false]
      rfl

/-- **C20.** The result is the reason itself when it already starts with a machine-readable prefix, and otherwise the
reason with the given prefix put in front. -/
theorem C20_normalize_spec (reason pre : Bytes) :
    (HasPrefix reason → normalizeOKMessage reason pre = .val reason) ∧
    (¬ HasPrefix reason → normalizeOKMessage reason pre = .val (pre ++ b! ": " ++ reason)) := by
  rcases normalize_cases reason pre with ⟨h1, h2⟩ | ⟨h1, h2⟩
  · exact ⟨fun _ => h2, fun h => absurd h1 h⟩
  · exact ⟨fun h => absurd h h1, fun _ => h2⟩

/-- **C20.** For a prefix without spaces, the result always starts with a machine-readable prefix and a second
application (with any prefix) changes nothing. -/
theorem C20_normalize_idempotent (reason pre pre' : Bytes) (hp : (32 : UInt8) ∉ pre) :
    ∃ m, normalizeOKMessage reason pre = .val m ∧ HasPrefix m ∧ normalizeOKMessage m pre' = .val m := by
  rcases normalize_cases reason pre with ⟨h1, h2⟩ | ⟨_, h2⟩
  · exact ⟨reason, h2, h1, (C20_normalize_spec reason pre').1 h1⟩
  · have hh : HasPrefix (pre ++ b! ": " ++ reason) := ⟨pre, reason, by simp, hp⟩
    exact ⟨_, h2, hh, (C20_normalize_spec _ pre').1 hh⟩

/-- **C20**, limit of the claim: with a prefix containing a space the function is not idempotent. -/
theorem C20_space_in_prefix_not_idempotent : ∃ reason pre m, normalizeOKMessage reason pre = .val m ∧
    normalizeOKMessage m pre ≠ .val m :=
  ⟨b! "x", b! "a b", b! "a b: x", by decide +kernel, by decide +kernel⟩

example : normalizeOKMessage (b! "no way: really") (b! "blocked") = .val (b! "blocked: no way: really") ∧
    normalizeOKMessage (b! "pow: 3 bits") (b! "blocked") = .val (b! "pow: 3 bits") := by decide +kernel

end GoNostr
