import Verif.Nip44.Model
import Mathlib.Tactic.Ring
import Mathlib.Tactic.Linarith
import Mathlib.Data.Nat.Log
/-!
# C55, C56, C57: NIP-44
-/

set_option autoImplicit false

namespace GoNostr.Nip44

/-! ## C55: padding -/

theorem calcPadding_pos_chunk (n : Nat) : 0 < max 32 (2 ^ (Nat.log2 (n - 1) + 1) / 8) := by
  have : 32 ≤ max 32 (2 ^ (Nat.log2 (n - 1) + 1) / 8) := le_max_left _ _
  omega

theorem calcPadding_ge (n : Nat) : n ≤ calcPadding n := by
  unfold calcPadding
  split
  · assumption
  · simp only
    have hc := calcPadding_pos_chunk n
    generalize max 32 (2 ^ (Nat.log2 (n - 1) + 1) / 8) = c at hc ⊢
    have := Nat.div_add_mod (n - 1) c
    have := Nat.mod_lt (n - 1) hc
    rw [Nat.mul_add, Nat.mul_one]
    omega

/-- **C55 (bucket rule).** Up to 32 bytes the padded size is 32; beyond, with `2^(k-1) < n ≤ 2^k`, it is the least
multiple of `max 32 (2^k / 8)` that is at least `n`. -/
theorem C55_bucket_rule (n k : Nat) (h32 : 32 < n) (hk1 : 2 ^ (k - 1) < n) (hk2 : n ≤ 2 ^ k) :
    max 32 (2 ^ k / 8) ∣ calcPadding n ∧ n ≤ calcPadding n ∧ ∀ m, max 32 (2 ^ k / 8) ∣ m → n ≤ m → calcPadding n ≤ m := by
  have hk0 : k ≠ 0 := by rintro rfl; omega
  have hlog : Nat.log2 (n - 1) = k - 1 := by
    rw [Nat.log2_eq_log_two]
    apply (Nat.log_eq_iff (Or.inr ⟨by norm_num, by omega⟩)).2
    rw [Nat.sub_add_cancel (by omega)]
    omega
  have e : Nat.log2 (n - 1) + 1 = k := by omega
  have hge := calcPadding_ge n
  have hdef : calcPadding n = max 32 (2 ^ k / 8) * ((n - 1) / max 32 (2 ^ k / 8) + 1) := by
    unfold calcPadding
    rw [if_neg (by omega), e]
  refine ⟨⟨_, hdef⟩, hge, ?_⟩
  have hc : 0 < max 32 (2 ^ k / 8) := by
    have : 32 ≤ max 32 (2 ^ k / 8) := le_max_left _ _
    omega
  rw [hdef]
  generalize max 32 (2 ^ k / 8) = c at hc ⊢
  rintro m ⟨q, rfl⟩ hm
  apply Nat.mul_le_mul_left
  have : (n - 1) / c < q := by
    rw [Nat.div_lt_iff_lt_mul hc, Nat.mul_comm q c]
    omega
  omega

/-- **C55 (small messages).** -/
theorem C55_small (n : Nat) (h : n ≤ 32) : calcPadding n = 32 := by
  unfold calcPadding
  rw [if_pos h]

theorem calcPadding_le (n : Nat) (h : n ≤ 65535) : calcPadding n ≤ 65536 := by
  by_cases h32 : n ≤ 32
  · rw [C55_small n h32]; norm_num
  · obtain ⟨k, hk1, hk2⟩ : ∃ k, 2 ^ (k - 1) < n ∧ n ≤ 2 ^ k := by
      refine ⟨Nat.log2 (n - 1) + 1, ?_, ?_⟩
      · rw [Nat.add_sub_cancel, Nat.log2_eq_log_two]
        have := Nat.pow_log_le_self 2 (show n - 1 ≠ 0 by omega)
        omega
      · have := Nat.lt_pow_succ_log_self (b := 2) (by norm_num) (n - 1)
        rw [Nat.log2_eq_log_two]
        rw [Nat.succ_eq_add_one] at this
        omega
    have hk16 : k ≤ 16 := by
      by_contra hcon
      have : 2 ^ 16 ≤ 2 ^ (k - 1) := Nat.pow_le_pow_right (by norm_num) (by omega)
      norm_num at this
      omega
    refine (C55_bucket_rule n k (by omega) hk1 hk2).2.2 65536 ?_ (by omega)
    by_cases h8 : k ≤ 8
    · rw [max_eq_left]
      · exact ⟨2048, by norm_num⟩
      · have : 2 ^ k ≤ 2 ^ 8 := Nat.pow_le_pow_right (by norm_num) h8
        norm_num at this
        omega
    · obtain ⟨j, rfl⟩ : ∃ j, k = j + 3 := ⟨k - 3, by omega⟩
      have : 2 ^ (j + 3) / 8 = 2 ^ j := by rw [pow_add]; norm_num
      rw [this, max_eq_right]
      · have : (65536 : Nat) = 2 ^ 16 := by norm_num
        rw [this]
        exact pow_dvd_pow 2 (by omega)
      · have : 2 ^ 5 ≤ 2 ^ j := Nat.pow_le_pow_right (by norm_num) (by omega)
        norm_num at this
        exact this

/-- **C55 (size limits).** -/
theorem C55_rejects (plain : Bytes) : pad plain = none ↔ plain.length = 0 ∨ 65535 < plain.length := by
  have e : pad plain = if plain.length < 1 ∨ plain.length > 65535 then none else
      some (UInt8.ofNat (plain.length / 256) :: UInt8.ofNat (plain.length % 256) ::
        (plain ++ List.replicate (calcPadding plain.length - plain.length) 0)) := rfl
  by_cases h : plain.length < 1 ∨ plain.length > 65535
  · rw [e, if_pos h]
    exact ⟨fun _ => by omega, fun _ => rfl⟩
  · rw [e, if_neg h]
    exact ⟨fun h => (by cases h), fun h2 => by omega⟩

theorem pad_length {plain padded : Bytes} (h : pad plain = some padded) : padded.length = 2 + calcPadding plain.length ∧
    1 ≤ plain.length ∧ plain.length ≤ 65535 := by
  unfold pad at h
  simp only at h
  split at h
  · cases h
  · rename_i hs
    cases h
    have := calcPadding_ge plain.length
    simp only [List.length_cons, List.length_append, List.length_replicate]
    omega

/-- **C55 (length hiding).** The padded length is a function of the plaintext length only, at most 2 + 65536. -/
theorem C55_padded_length (plain padded : Bytes) (h : pad plain = some padded) :
    padded.length = 2 + calcPadding plain.length ∧ 34 ≤ padded.length ∧ padded.length ≤ 65538 := by
  obtain ⟨h1, h2, h3⟩ := pad_length h
  have := calcPadding_le _ h3
  refine ⟨h1, ?_, by omega⟩
  have : 32 ≤ calcPadding plain.length := by
    unfold calcPadding
    split
    · exact le_refl _
    · simp only
      have hc : 32 ≤ max 32 (2 ^ (Nat.log2 (plain.length - 1) + 1) / 8) := le_max_left _ _
      calc 32 ≤ max 32 (2 ^ (Nat.log2 (plain.length - 1) + 1) / 8) * 1 := by omega
        _ ≤ _ := Nat.mul_le_mul_left _ (Nat.le_add_left 1 _)
  omega

/-- **C55 (round trip).** Unpadding the padded plaintext returns it, for every plaintext of 1 to 65535 bytes. -/
theorem C55_unpad_pad (plain : Bytes) (h1 : 1 ≤ plain.length) (h2 : plain.length ≤ 65535) :
    ∃ padded, pad plain = some padded ∧ unpad padded = .ok plain := by
  have hge := calcPadding_ge plain.length
  have hp : pad plain = some (UInt8.ofNat (plain.length / 256) :: UInt8.ofNat (plain.length % 256) ::
      (plain ++ List.replicate (calcPadding plain.length - plain.length) 0)) := by
    unfold pad
    simp only
    rw [if_neg (by omega)]
  refine ⟨_, hp, ?_⟩
  have hn : (UInt8.ofNat (plain.length / 256)).toNat * 256 + (UInt8.ofNat (plain.length % 256)).toNat = plain.length := by
    rw [UInt8.toNat_ofNat', UInt8.toNat_ofNat']; omega
  unfold unpad
  simp only [hn]
  rw [if_neg (by simp only [List.length_cons, List.length_append, List.length_replicate]; omega)]
  rw [goSlice, if_pos (by simp only [List.length_append]; omega)]
  simp only [Int.toNat_zero, List.drop_zero, Int.sub_zero, Int.toNat_natCast, List.take_left']
  rw [if_neg (by omega)]

example : calcPadding 33 = 64 ∧ calcPadding 65535 = 65536 ∧ calcPadding 1025 = 1280 := by decide +kernel
example : unpad (0 :: 1 :: 65 :: List.replicate 31 0) = .ok [65] := by decide +kernel

/-! ## C56: round trip -/

theorem xorStream_involutive (ks : Nat → UInt8) (s : Bytes) (i : Nat) : xorStream ks i (xorStream ks i s) = s := by
  induction s generalizing i with
  | nil => rfl
  | cons c rest ih =>
    simp only [xorStream, ih, UInt8.xor_assoc, UInt8.xor_self, UInt8.xor_zero]

theorem xorStream_length (ks : Nat → UInt8) (s : Bytes) (i : Nat) : (xorStream ks i s).length = s.length := by
  induction s generalizing i with
  | nil => rfl
  | cons c rest ih => simp [xorStream, ih]

theorem chacha_involutive (P : Prims) (k n s : Bytes) : chacha P k n (chacha P k n s) = s := xorStream_involutive _ _ _
theorem chacha_length (P : Prims) (k n s : Bytes) : (chacha P k n s).length = s.length := xorStream_length _ _ _

theorem mac_length (P : Prims) (k c n : Bytes) : (mac P k c n).length = 32 := (P.hmac k _).property

/-- How `Decrypt` cuts a payload. -/
theorem decryptRaw_layout (P : Prims) (key nonce ct m : Bytes) (hn : nonce.length = 32) (hm : m.length = 32) (hc1 : 34 ≤ ct.length)
    (hc2 : ct.length ≤ 65538) : decryptRaw P key (2 :: (nonce ++ ct ++ m)) =
      if m ≠ mac P (P.keys key nonce).2.2 ct nonce then .err () else unpad (chacha P (P.keys key nonce).1 (P.keys key nonce).2.1 ct) := by
  have e1 : (nonce ++ ct ++ m).take 32 = nonce := by rw [List.append_assoc, List.take_left' hn]
  have e2 : ((nonce ++ ct ++ m).drop 32).take ((2 :: (nonce ++ ct ++ m)).length - 65) = ct := by
    rw [List.append_assoc, List.drop_left' hn, List.take_left']
    simp only [List.length_cons, List.length_append]; omega
  have e3 : (nonce ++ ct ++ m).drop ((2 :: (nonce ++ ct ++ m)).length - 33) = m := by
    rw [List.drop_left']
    simp only [List.length_cons, List.length_append]; omega
  unfold decryptRaw
  simp only [e1, e2, e3]
  rw [if_neg (by simp), if_neg (by simp only [List.length_cons, List.length_append]; omega)]

theorem decrypt_b64 (P : Prims) (key raw : Bytes) (h1 : 99 ≤ raw.length) (h2 : raw.length ≤ 65603) :
    decrypt P key (b64Enc raw) = decryptRaw P key raw := by
  have hl := b64Enc_length raw
  unfold decrypt
  rw [if_neg (by omega), if_neg, b64Dec_enc]
  intro h
  have : (35 : UInt8) ∈ (b64Enc raw).take 1 := by rw [h]; simp
  exact (b64Enc_plain (List.mem_of_mem_take this)).2.2.1 rfl

/-- **C56.** For all primitives, keys, nonces (custom or random) and plaintexts of 1 to 65535 bytes, decrypting the
encryption returns the plaintext; the nonce is any 32 bytes. -/
theorem C56_roundtrip (P : Prims) (key : Bytes) (custom : Option Bytes) (rnd plain : Bytes)
    (hc : ∀ c, custom = some c → c.length = 32) (hr : rnd.length = 32) (h1 : 1 ≤ plain.length) (h2 : plain.length ≤ 65535) :
    ∃ payload, encrypt P key custom rnd plain = .ok payload ∧ decrypt P key payload = .ok plain := by
  obtain ⟨padded, p1, p2⟩ := C55_unpad_pad plain h1 h2
  obtain ⟨l1, l2, l3⟩ := C55_padded_length plain padded p1
  have hcl : (custom.map List.length).getD 32 = 32 := by
    cases custom with
    | none => rfl
    | some c => exact hc c rfl
  have hn0 : (custom.getD (List.replicate 32 0)).length = 32 := by
    cases custom with
    | none => simp
    | some c => exact hc c rfl
  unfold encrypt
  rw [if_neg (by simp [hcl])]
  simp only [p1]
  refine ⟨_, rfl, ?_⟩
  generalize hnn : (if custom.getD (List.replicate 32 0) = List.replicate 32 0 then rnd else custom.getD (List.replicate 32 0)) = nonce
  have hn : nonce.length = 32 := by
    rw [← hnn]; split
    · exact hr
    · exact hn0
  have hcl := chacha_length P (P.keys key nonce).1 (P.keys key nonce).2.1 padded
  have hml := mac_length P (P.keys key nonce).2.2 (chacha P (P.keys key nonce).1 (P.keys key nonce).2.1 padded) nonce
  rw [decrypt_b64 _ _ _ (by simp only [List.length_cons, List.length_append, hcl, hml, hn]; omega)
      (by simp only [List.length_cons, List.length_append, hcl, hml, hn]; omega),
    decryptRaw_layout P key _ _ _ hn hml (by rw [chacha_length]; omega) (by rw [chacha_length]; omega), if_neg (by simp), chacha_involutive]
  exact p2

/-- **C56 (sizes).** Encryption fails exactly for empty or too long plaintexts (with a valid nonce option), and never
panics. -/
theorem C56_encrypt_errors (P : Prims) (key : Bytes) (custom : Option Bytes) (rnd plain : Bytes)
    (hc : ∀ c, custom = some c → c.length = 32) :
    (encrypt P key custom rnd plain = .err () ↔ plain.length = 0 ∨ 65535 < plain.length) ∧
    encrypt P key custom rnd plain ≠ .panic := by
  have hcl : (custom.map List.length).getD 32 = 32 := by
    cases custom with
    | none => rfl
    | some c => exact hc c rfl
  rw [← C55_rejects]
  unfold encrypt
  rw [if_neg (by simp [hcl])]
  cases pad plain <;> simp

theorem xorStream_get (ks : Nat → UInt8) (s : Bytes) (i j : Nat) : (xorStream ks i s)[j]? = s[j]?.map (· ^^^ ks (i + j)) := by
  induction s generalizing i j with
  | nil => rfl
  | cons c s ih =>
    cases j with
    | zero => rfl
    | succ j => rw [xorStream, List.getElem?_cons_succ, List.getElem?_cons_succ, ih, show i + 1 + j = i + (j + 1) by omega]

/-- **C56 (what is sent).** The payload is what NIP-44 says, so every other implementation of it reads it: the base64 of the version 2, the nonce, the text with its length in front and zeros behind, each byte combined with the byte of the
ChaCha20 key stream at its own position, from the first on, and the HMAC of the nonce and the ciphertext; the three keys come from the conversation key and the nonce. The nonce is the one given, unless none is or it is all zeros. -/
theorem C56_layout (P : Prims) (key : Bytes) (custom : Option Bytes) (rnd plain payload : Bytes) (h : encrypt P key custom rnd plain = .ok payload) :
    ∃ nonce ct, payload = b64Enc ([2] ++ nonce ++ ct ++ (P.hmac (P.keys key nonce).2.2 (nonce ++ ct)).val) ∧
      (nonce = rnd ∧ (custom = none ∨ custom = some (List.replicate 32 0)) ∨ custom = some nonce) ∧
      ct.length = 2 + calcPadding plain.length ∧
      ∀ i, ct[i]? = (UInt8.ofNat (plain.length / 256) :: UInt8.ofNat (plain.length % 256) :: (plain ++ List.replicate (calcPadding plain.length - plain.length) 0))[i]?.map
        (· ^^^ P.stream (P.keys key nonce).1 (P.keys key nonce).2.1 i) := by
  unfold encrypt at h
  split at h
  · cases h
  · dsimp only at h
    cases hp : pad plain with
    | none => rw [hp] at h; cases h
    | some padded =>
      rw [hp] at h
      have hl := C55_padded_length plain padded hp
      unfold pad at hp
      dsimp only at hp
      split at hp
      · cases hp
      · cases hp
        generalize hnn : (if custom.getD (List.replicate 32 0) = List.replicate 32 0 then rnd else custom.getD (List.replicate 32 0)) = nonce at h
        cases h
        refine ⟨nonce, _, rfl, ?_, ?_, ?_⟩
        · cases custom with
          | none => left; simp at hnn; exact ⟨hnn.symm, .inl rfl⟩
          | some c =>
            simp only [Option.getD_some] at hnn
            split at hnn
            · next hc => left; exact ⟨hnn.symm, .inr (by rw [hc])⟩
            · right; rw [hnn]
        · rw [chacha_length]; exact hl.1
        · intro i
          unfold chacha
          rw [xorStream_get, Nat.zero_add]

/-! ## C57: malformed and tampered payloads -/

theorem unpad_no_panic {s : Bytes} (h : 2 ≤ s.length) : unpad s ≠ .panic := by
  match s, h with
  | hi :: lo :: rest, _ =>
    unfold unpad
    simp only
    split
    · simp
    · rename_i hn
      have := calcPadding_ge (hi.toNat * 256 + lo.toNat)
      simp only [List.length_cons] at hn
      rw [goSlice, if_pos (by omega)]
      simp only
      split <;> simp

/-- What an accepted padding looks like. -/
theorem unpad_ok {s m : Bytes} (h : unpad s = .ok m) : ∃ hi lo rest, s = hi :: lo :: rest ∧ m.length = hi.toNat * 256 + lo.toNat ∧
    1 ≤ m.length ∧ s.length = 2 + calcPadding m.length ∧ m = rest.take m.length := by
  match s with
  | [] => simp [unpad] at h
  | [_] => simp [unpad] at h
  | hi :: lo :: rest =>
    refine ⟨hi, lo, rest, rfl, ?_⟩
    unfold unpad at h
    simp only at h
    split at h
    · cases h
    · rename_i hn
      have := calcPadding_ge (hi.toNat * 256 + lo.toNat)
      simp only [List.length_cons] at hn
      rw [goSlice, if_pos (by omega)] at h
      simp only [Int.toNat_zero, List.drop_zero, Int.sub_zero, Int.toNat_natCast] at h
      split at h
      · cases h
      · rename_i hu
        cases h
        have hu' : (rest.take (hi.toNat * 256 + lo.toNat)).length = hi.toNat * 256 + lo.toNat := by omega
        rw [hu']
        refine ⟨rfl, by omega, ?_, rfl⟩
        simp only [List.length_cons]; omega

/-- **C57 (acceptance).** `Decrypt` returns a plaintext only for a base64 payload made of version 2, a 32-byte nonce, a
ciphertext and a tag equal to the HMAC, under the conversation key, of nonce and ciphertext; the plaintext is then the one
the ciphertext carries with a correct padding. -/
theorem C57_accepts_only_authentic (P : Prims) (key payload plain : Bytes) (h : decrypt P key payload = .ok plain) :
    ∃ nonce ct tag, b64Dec payload = some (2 :: (nonce ++ ct ++ tag)) ∧ nonce.length = 32 ∧ tag.length = 32 ∧
      tag = (P.hmac (P.keys key nonce).2.2 (nonce ++ ct)).val ∧
      ∃ padded, chacha P (P.keys key nonce).1 (P.keys key nonce).2.1 padded = ct ∧ unpad padded = .ok plain := by
  unfold decrypt at h
  split at h
  · cases h
  · split at h
    · cases h
    · cases hd : b64Dec payload with
      | none => rw [hd] at h; cases h
      | some decoded =>
        rw [hd] at h
        simp only at h
        match decoded with
        | [] => simp [decryptRaw] at h
        | v :: body =>
          unfold decryptRaw at h
          simp only at h
          split at h
          · cases h
          · split at h
            · cases h
            · rename_i hv hl
              simp only [List.length_cons] at hl
              split at h
              · cases h
              · rename_i hm
                have hv' : v = 2 := by simpa using hv
                have h1 : (body.take 32).length = 32 := by rw [List.length_take]; omega
                have hsplit : body = body.take 32 ++ (body.drop 32).take ((v :: body).length - 65) ++ body.drop ((v :: body).length - 33) := by
                  have : (v :: body).length - 33 = 32 + ((v :: body).length - 65) := by simp only [List.length_cons]; omega
                  rw [this, ← List.drop_drop, List.append_assoc, List.take_append_drop, List.take_append_drop]
                refine ⟨body.take 32, (body.drop 32).take ((v :: body).length - 65), body.drop ((v :: body).length - 33), ?_, h1, ?_, ?_, ?_⟩
                · rw [← hsplit, hv']
                · rw [List.length_drop, List.length_cons]; omega
                · simpa [mac] using hm
                · exact ⟨_, chacha_involutive _ _ _ _, h⟩

/-- **C57 (tampering).** Replace anything in an encrypted payload: unless the new tag is the HMAC of the new nonce and
ciphertext, or the version byte differs, decryption returns an error, not a plaintext and not a panic. -/
theorem C57_tampered_rejected (P : Prims) (key nonce ct tag : Bytes) (v : UInt8) (hn : nonce.length = 32) (ht : tag.length = 32)
    (hbad : v ≠ 2 ∨ tag ≠ (P.hmac (P.keys key nonce).2.2 (nonce ++ ct)).val) :
    decrypt P key (b64Enc (v :: (nonce ++ ct ++ tag))) = .err () := by
  have hl : (v :: (nonce ++ ct ++ tag)).length = 65 + ct.length := by
    simp only [List.length_cons, List.length_append]; omega
  unfold decrypt
  split
  · rfl
  · split
    · rfl
    · rw [b64Dec_enc]
      simp only
      unfold decryptRaw
      simp only
      split
      · rfl
      · rename_i hv
        have hv' : v = 2 := by simpa using hv
        subst hv'
        split
        · rfl
        · rename_i hlen
          have := decryptRaw_layout P key nonce ct tag hn ht (by omega) (by omega)
          unfold decryptRaw at this
          simp only at this
          rw [if_neg (by simp), if_neg hlen] at this
          rw [this, if_pos]
          rcases hbad with h | h
          · exact absurd rfl h
          · exact h

/-- **C57 (no panic, partial).** `Decrypt` panics exactly on the payloads of 132 to 87472 line breaks; on every other
string it returns a plaintext or an error. -/
theorem C57_panics_iff_only_line_breaks (P : Prims) (key payload : Bytes) :
    decrypt P key payload = .panic ↔ (132 ≤ payload.length ∧ payload.length ≤ 87472 ∧ ∀ c ∈ payload, c = 10 ∨ c = 13) := by
  unfold decrypt
  split
  · simp; intro h1 h2; omega
  · rename_i hl
    split
    · rename_i h35
      simp only [reduceCtorEq, false_iff]
      rintro ⟨_, _, h⟩
      have : (35 : UInt8) ∈ payload := List.mem_of_mem_take (by rw [h35]; simp)
      rcases h _ this with h | h <;> simp at h
    · rw [← b64Dec_nil_iff]
      cases hd : b64Dec payload with
      | none => simp
      | some decoded =>
        simp only [Option.some.injEq]
        match decoded with
        | [] => simp [decryptRaw]; omega
        | v :: body =>
          simp only [reduceCtorEq, and_false, iff_false]
          unfold decryptRaw
          simp only
          split
          · simp
          · split
            · simp
            · rename_i hlen
              split
              · simp
              · apply unpad_no_panic
                rw [chacha_length, List.length_take, List.length_drop]
                simp only [List.length_cons] at hlen ⊢
                omega

/-- Sample primitives for the examples. -/
def samplePrims : Prims where
  keys := fun k n => (k, n, k)
  stream := fun _ _ i => UInt8.ofNat (i + 7)
  hmac := fun _ m => ⟨(m ++ List.replicate 32 9).take 32, by rw [List.length_take, List.length_append, List.length_replicate]; omega⟩

/-- The panic is real. -/
example : decrypt samplePrims [] (List.replicate 132 10) = .panic :=
  (C57_panics_iff_only_line_breaks _ _ _).2 ⟨by simp, by simp, fun c hc => Or.inl (List.eq_of_mem_replicate hc)⟩

example : (match encrypt samplePrims [1] none (List.replicate 32 5) (b! "hi") with
    | .ok p => decrypt samplePrims [1] p == .ok (b! "hi")
    | _ => false) = true := by decide +kernel

end GoNostr.Nip44
