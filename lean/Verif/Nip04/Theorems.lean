import Verif.Nip04.Model
/-!
# C58: NIP-04
-/

set_option autoImplicit false

namespace GoNostr.Nip04

theorem xorB_length (a b : Bytes) : (xorB a b).length = min a.length b.length := by simp [xorB]

theorem xorB_cancel : ∀ (a b : Bytes), a.length = b.length → xorB (xorB a b) b = a
  | [], [], _ => rfl
  | [], _ :: _, h => by simp at h
  | _ :: _, [], h => by simp at h
  | x :: a, y :: b, h => by
    have := xorB_cancel a b (by simpa using h)
    simp only [xorB] at this ⊢
    simp only [List.zipWith_cons_cons, this, UInt8.xor_assoc, UInt8.xor_self, UInt8.xor_zero]

theorem cbc_roundtrip (A : Aes) (hA : A.Correct) (key : Bytes) : ∀ (n : Nat) (prev s : Bytes), prev.length = 16 → s.length = 16 * n →
    (cbcEnc (A.enc key) n prev s).length = 16 * n ∧ cbcDec (A.dec key) n prev (cbcEnc (A.enc key) n prev s) = s := by
  intro n
  induction n with
  | zero =>
    intro prev s _ hs
    have : s = [] := List.length_eq_zero_iff.1 (by omega)
    simp [cbcEnc, cbcDec, this]
  | succ n ih =>
    intro prev s hp hs
    have ht : (s.take 16).length = 16 := by rw [List.length_take]; omega
    have hx : (xorB (s.take 16) prev).length = 16 := by rw [xorB_length]; omega
    obtain ⟨e1, e2⟩ := hA key _ hx
    obtain ⟨i1, i2⟩ := ih (A.enc key (xorB (s.take 16) prev)) (s.drop 16) e1 (by rw [List.length_drop]; omega)
    refine ⟨?_, ?_⟩
    · rw [cbcEnc, List.length_append, e1, i1]; omega
    · rw [cbcEnc, cbcDec, List.take_left' e1, List.drop_left' e1, e2, i2, xorB_cancel _ _ (by omega), List.take_append_drop]

theorem pad_length (m : Bytes) : (pad m).length = 16 * (m.length / 16 + 1) := by
  simp only [pad, List.length_append, List.length_replicate]; omega

theorem unpad_pad (m : Bytes) : unpad (pad m) = .ok m := by
  have hl := pad_length m
  have hp : 1 ≤ 16 - m.length % 16 ∧ 16 - m.length % 16 ≤ 16 := by omega
  have hlen : (pad m).length = m.length + (16 - m.length % 16) := by simp [pad]
  unfold unpad
  rw [if_pos (by omega)]
  have hi : goIndex (pad m) (((pad m).length : Int) - 1) = .val (UInt8.ofNat (16 - m.length % 16)) := by
    unfold goIndex
    rw [if_pos (by omega)]
    have e : (((pad m).length : Int) - 1).toNat = m.length + (16 - m.length % 16 - 1) := by omega
    rw [e]
    have : (pad m)[m.length + (16 - m.length % 16 - 1)]? = some (UInt8.ofNat (16 - m.length % 16)) := by
      unfold pad
      simp only
      rw [List.getElem?_append_right (by omega), List.getElem?_replicate]
      rw [if_pos (by omega)]
    rw [this]
  rw [hi]
  have hc : (UInt8.ofNat (16 - m.length % 16)).toNat = 16 - m.length % 16 := by
    rw [UInt8.toNat_ofNat']; omega
  simp only [hc]
  rw [if_neg (by omega), goSlice, if_pos (by omega)]
  simp only [Int.toNat_zero, List.drop_zero]
  have : (((pad m).length : Int) - ((16 - m.length % 16 : Nat) : Int) - 0).toNat = m.length := by omega
  rw [this]
  unfold pad
  simp

theorem split2_spec (a b : Bytes) (ha : ∀ c ∈ a, c ≠ 63) (hb : ∀ c ∈ b, c ≠ 63) : split2 (a ++ b! "?iv=" ++ b) = some (a, b) := by
  have none63 : ∀ s : Bytes, (∀ c ∈ s, c ≠ 63) → indexOf (b! "?iv=") s = -1 := by
    intro s
    induction s with
    | nil => intro _; rfl
    | cons c rest ih =>
      intro h
      have h1 := ih (fun x hx => h x (List.mem_cons_of_mem _ hx))
      rw [indexOf, if_neg, h1]
      · rfl
      · have := h c List.mem_cons_self
        simp [List.isPrefixOf, Ne.symm this]
  have pos63 : ∀ s t : Bytes, (∀ c ∈ s, c ≠ 63) → indexOf (b! "?iv=") (s ++ (b! "?iv=" ++ t)) = s.length := by
    intro s t
    induction s with
    | nil => intro _; simp [indexOf, List.isPrefixOf]
    | cons c rest ih =>
      intro h
      have h1 := ih (fun x hx => h x (List.mem_cons_of_mem _ hx))
      rw [List.cons_append, indexOf, if_neg, h1]
      · simp only [List.length_cons]
        rw [if_neg (by omega)]
        push_cast
        rfl
      · have := h c List.mem_cons_self
        simp [List.isPrefixOf, Ne.symm this]
  unfold split2
  rw [List.append_assoc, pos63 a b ha]
  simp only [Int.toNat_natCast]
  have hd : (a ++ (b! "?iv=" ++ b)).drop (a.length + 4) = b := by
    rw [← List.append_assoc, List.drop_left' (by simp)]
  rw [if_neg (by omega), hd, none63 b hb, if_pos (by decide), List.take_left]

/-- **C58 (round trip).** For every correct block cipher, valid key, 16-byte iv and message of any length. -/
theorem C58_roundtrip (A : Aes) (hA : A.Correct) (iv message key : Bytes) (hk : key.length = 16 ∨ key.length = 24 ∨ key.length = 32)
    (hiv : iv.length = 16) : ∃ content, encrypt A iv message key = .ok content ∧ decrypt A content key = .ok message := by
  have hv : validKey key = true := by
    unfold validKey
    rcases hk with h | h | h <;> simp [h]
  have hl := pad_length message
  obtain ⟨c1, c2⟩ := cbc_roundtrip A hA key ((pad message).length / 16) iv (pad message) hiv (by omega)
  unfold encrypt
  rw [if_neg (by simp [hv])]
  refine ⟨_, rfl, ?_⟩
  unfold decrypt
  rw [split2_spec _ _ (fun c hc => (b64Enc_plain hc).2.2.2) (fun c hc => (b64Enc_plain hc).2.2.2)]
  simp only [b64Dec_enc]
  rw [if_neg (by simp [hv]), if_neg (by omega), if_neg (by rw [c1]; omega), c1]
  have : 16 * ((pad message).length / 16) / 16 = (pad message).length / 16 := by omega
  rw [this, c2, unpad_pad]

/-- **C58 (malformed content, partial).** `Decrypt` panics exactly when the content splits into two base64 parts, the key
size is valid and the second part is not 16 bytes or the first is not whole blocks; otherwise it returns a message or an
error. -/
theorem C58_decrypt_panics_iff (A : Aes) (content key : Bytes) : decrypt A content key = .panic ↔
    ∃ p0 p1 ct iv, split2 content = some (p0, p1) ∧ b64Dec p0 = some ct ∧ b64Dec p1 = some iv ∧ validKey key = true ∧
      (iv.length ≠ 16 ∨ ct.length % 16 ≠ 0) := by
  have hu : ∀ s, unpad s ≠ .panic := by
    intro s
    unfold unpad
    split
    · rename_i hs
      unfold goIndex
      rw [if_pos (by omega)]
      have : ((s.length : Int) - 1).toNat < s.length := by omega
      rw [List.getElem?_eq_getElem this]
      simp only
      split
      · simp
      · rw [goSlice, if_pos (by omega)]
        simp
    · simp
  unfold decrypt
  cases hs : split2 content with
  | none => simp
  | some p =>
    obtain ⟨p0, p1⟩ := p
    simp only [Option.some.injEq, Prod.mk.injEq]
    cases h0 : b64Dec p0 with
    | none => simp only [reduceCtorEq, false_iff]; rintro ⟨_, _, _, _, ⟨rfl, rfl⟩, h, _⟩; rw [h0] at h; cases h
    | some ct =>
      simp only
      cases h1 : b64Dec p1 with
      | none => simp only [reduceCtorEq, false_iff]; rintro ⟨_, _, _, _, ⟨rfl, rfl⟩, _, h, _⟩; rw [h1] at h; cases h
      | some iv =>
        simp only
        by_cases hv : validKey key = true
        · rw [if_neg (by simp [hv])]
          by_cases hi : iv.length ≠ 16
          · rw [if_pos hi]
            exact ⟨fun _ => ⟨p0, p1, ct, iv, ⟨rfl, rfl⟩, h0, h1, hv, Or.inl hi⟩, fun _ => rfl⟩
          · rw [if_neg hi]
            by_cases hc : ct.length % 16 ≠ 0
            · rw [if_pos hc]
              exact ⟨fun _ => ⟨p0, p1, ct, iv, ⟨rfl, rfl⟩, h0, h1, hv, Or.inr hc⟩, fun _ => rfl⟩
            · rw [if_neg hc]
              refine ⟨fun h => absurd h (hu _), ?_⟩
              rintro ⟨_, _, _, _, ⟨rfl, rfl⟩, h, h', _, hx⟩
              rw [h0] at h; rw [h1] at h'
              cases h; cases h'
              rcases hx with hx | hx
              · exact absurd hx hi
              · exact absurd hx hc
        · rw [if_pos (by simpa using hv)]
          simp only [reduceCtorEq, false_iff]
          rintro ⟨_, _, _, _, _, _, _, h, _⟩
          exact hv h

/-- A block "cipher" for the examples: XOR with the first key byte. -/
def sampleAes : Aes where
  enc := fun k b => b.map (· ^^^ k.headD 0)
  dec := fun k b => b.map (· ^^^ k.headD 0)

theorem sampleAes_correct : sampleAes.Correct := by
  intro k b h
  refine ⟨by simpa [sampleAes] using h, ?_⟩
  simp only [sampleAes, List.map_map]
  conv => rhs; rw [← List.map_id b]
  apply List.map_congr_left
  intro c _
  simp [UInt8.xor_assoc]

/-- The full C58 ("malformed content yields an error") is false: `"?iv="` alone crashes `Decrypt`. -/
theorem C58_panic_witness (A : Aes) : decrypt A (b! "?iv=") (List.replicate 32 0) = .panic := by
  rw [C58_decrypt_panics_iff]
  exact ⟨[], [], [], [], by decide +kernel, by decide, by decide, by decide, Or.inl (by decide)⟩

example : (match encrypt sampleAes (List.replicate 16 3) (b! "hello") (List.replicate 32 9) with
    | .ok c => decrypt sampleAes c (List.replicate 32 9) == .ok (b! "hello")
    | _ => false) = true := by decide +kernel

end GoNostr.Nip04
