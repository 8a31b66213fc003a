import Verif.Nip49.Model
import Verif.Nip19.Theorems
/-!
# C59: NIP-49
-/

set_option autoImplicit false

namespace GoNostr.Nip49
open Nip19

theorem decrypt_encodeData (P : Prims) (data password : Bytes) : ∃ code, encodeData (b! "ncryptsec") data = .ok code ∧
    decryptToBytes P code password = decryptData P data password := by
  obtain ⟨g, g1, g2, g3⟩ := C51_regroup_roundtrip (nats data) (by
    intro x hx
    obtain ⟨c, _, rfl⟩ := List.mem_map.1 hx
    exact c.toNat_lt)
  obtain ⟨s, s1, s2⟩ := C51_bech32_roundtrip (b! "ncryptsec") g (by decide +kernel) g2
  refine ⟨s, ?_, ?_⟩
  · unfold encodeData; rw [g1, Res.ok_bind, s1]
  · unfold decryptToBytes
    rw [s2, Res.ok_bind]
    simp only
    rw [if_neg (by simp), g3, Res.ok_bind, bytesOf_nats]

/-- **C59 (round trip).** For every 32-byte key in lower-case hexadecimal, password, security byte, logn the key
derivation accepts, salt and nonce. -/
theorem C59_roundtrip (P : Prims) (hP : P.Correct) (sk password salt nonce : Bytes) (logn ksb : UInt8) (hsk : IsHex32 sk)
    (hs : salt.length = 16) (hn : nonce.length = 24) (hkey : (P.getKey password salt logn).isSome) :
    ∃ code, encrypt P salt nonce sk password logn ksb = .ok code ∧ decrypt P code password = .ok sk := by
  obtain ⟨b, b1, b2, b3⟩ := hsk.dec
  obtain ⟨key, hk⟩ := Option.isSome_iff_exists.1 hkey
  obtain ⟨hlen, hop⟩ := hP key nonce b [ksb]
  rw [b2] at hlen
  have hcopy : copy (List.replicate 48 0) (P.aeadSeal key nonce b [ksb]) = P.aeadSeal key nonce b [ksb] := by
    unfold copy
    rw [List.take_of_length_le (by simp; omega), List.drop_eq_nil_of_le (by simp; omega), List.append_nil]
  obtain ⟨code, c1, c2⟩ := decrypt_encodeData P ([2, logn] ++ salt ++ nonce ++ [ksb] ++ P.aeadSeal key nonce b [ksb]) password
  refine ⟨code, ?_, ?_⟩
  · unfold encrypt
    rw [b1]
    simp only
    rw [if_neg (by omega)]
    unfold encryptBytes
    rw [hk]
    simp only [hcopy]
    exact c1
  · unfold decrypt
    rw [c2]
    have e : [2, logn] ++ salt ++ nonce ++ [ksb] ++ P.aeadSeal key nonce b [ksb] =
        2 :: logn :: (salt ++ (nonce ++ ([ksb] ++ P.aeadSeal key nonce b [ksb]))) := by simp
    rw [e]
    unfold decryptData
    simp only
    rw [if_neg (by simp), if_neg (by simp only [List.length_append, List.length_singleton]; omega)]
    have t1 : (salt ++ (nonce ++ ([ksb] ++ P.aeadSeal key nonce b [ksb]))).take 16 = salt := List.take_left' hs
    have t2 : (salt ++ (nonce ++ ([ksb] ++ P.aeadSeal key nonce b [ksb]))).drop 16 = nonce ++ ([ksb] ++ P.aeadSeal key nonce b [ksb]) :=
      List.drop_left' hs
    have t3 : (salt ++ (nonce ++ ([ksb] ++ P.aeadSeal key nonce b [ksb]))).drop 40 = [ksb] ++ P.aeadSeal key nonce b [ksb] := by
      rw [← List.append_assoc, List.drop_left' (by simp; omega)]
    have t4 : (salt ++ (nonce ++ ([ksb] ++ P.aeadSeal key nonce b [ksb]))).drop 41 = P.aeadSeal key nonce b [ksb] := by
      have : salt ++ (nonce ++ ([ksb] ++ P.aeadSeal key nonce b [ksb])) = (salt ++ nonce ++ [ksb]) ++ P.aeadSeal key nonce b [ksb] := by simp
      rw [this, List.drop_left' (by simp; omega)]
    rw [t1, t2, t3, t4, List.take_left' hn, hk]
    simp only [List.singleton_append, List.take_succ_cons, List.take_zero, hop, Res.ok_bind, Res.pure_eq, b3]

/-- **C59 (rejection).** A secret that is not 32 bytes of hexadecimal is refused. -/
theorem C59_encrypt_rejects (P : Prims) (sk password salt nonce : Bytes) (logn ksb : UInt8)
    (h : ∀ b, hexDec sk = some b → b.length ≠ 32) : encrypt P salt nonce sk password logn ksb = .err () := by
  unfold encrypt
  cases hd : hexDec sk with
  | none => rfl
  | some b => simp only; rw [if_pos (h b hd)]

/-- **C59 (malformed codes, partial).** `Decrypt` panics exactly on checksummed `ncryptsec` codes whose payload is empty or
is version 2 with fewer than 43 bytes; every other string gives a key or an error. -/
theorem C59_decrypt_panics_iff (P : Prims) (code password : Bytes) : decrypt P code password = .panic ↔
    ∃ bits5 data, bechDecode code = .ok (b! "ncryptsec", bits5) ∧ convertBits bits5 5 8 false = .ok data ∧
      (data = [] ∨ ∃ rest, bytesOf data = 2 :: rest ∧ data.length < 43) := by
  have hraw : ∀ data : List Nat, decryptData P (bytesOf data) password = .panic ↔
      (data = [] ∨ ∃ rest, bytesOf data = 2 :: rest ∧ data.length < 43) := by
    intro data
    have hl : (bytesOf data).length = data.length := by simp [bytesOf]
    have hnil : bytesOf data = [] ↔ data = [] := by simp [bytesOf]
    rw [← hl, ← hnil]
    generalize bytesOf data = d
    match d with
    | [] => simp [decryptData]
    | v :: rest =>
      unfold decryptData
      simp only
      by_cases hv : v = 2
      · subst hv
        rw [if_neg (by simp)]
        match rest with
        | [] => simp
        | logn :: rest =>
          simp only
          by_cases hr : rest.length < 41
          · rw [if_pos hr]
            simp; omega
          · rw [if_neg hr]
            have : ¬ ((2 :: logn :: rest : Bytes).length < 43) := by simp only [List.length_cons]; omega
            simp only [this, and_false, exists_false, or_false, reduceCtorEq, iff_false]
            cases P.getKey password (rest.take 16) logn with
            | none => simp
            | some key =>
              simp only
              cases P.aeadOpen key ((rest.drop 16).take 24) (rest.drop 41) ((rest.drop 40).take 1) <;> simp
      · rw [if_pos hv]
        simp [hv]
  unfold decrypt decryptToBytes
  cases hb : bechDecode code with
  | panic => exact absurd hb (bechDecode_no_panic _)
  | err e => simp
  | ok r =>
    obtain ⟨pre, bits5⟩ := r
    simp only [Res.ok_bind]
    by_cases hp : pre = b! "ncryptsec"
    · subst hp
      rw [if_neg (by simp)]
      cases hc : convertBits bits5 5 8 false with
      | panic => exact absurd hc (convertBits_no_panic _ _ _ _)
      | err e =>
        simp only [Res.err_bind, reduceCtorEq, false_iff]
        rintro ⟨b5, d, h1, h2, _⟩
        cases h1
        rw [hc] at h2; cases h2
      | ok data =>
        simp only [Res.ok_bind]
        constructor
        · intro h
          refine ⟨bits5, data, rfl, hc, (hraw data).1 ?_⟩
          cases hd : decryptData P (bytesOf data) password with
          | panic => rfl
          | err e => rw [hd] at h; simp at h
          | ok x => rw [hd] at h; simp at h
        · rintro ⟨b5, d, h1, h2, h3⟩
          cases h1
          rw [hc] at h2; cases h2
          rw [(hraw data).2 h3]; rfl
    · rw [if_pos hp]
      simp only [Res.err_bind, reduceCtorEq, false_iff]
      rintro ⟨b5, d, h1, _⟩
      simp only [Res.ok.injEq, Prod.mk.injEq] at h1
      exact hp h1.1

/-- The full C59 is false: a checksummed `ncryptsec` code with an empty payload crashes `Decrypt`. -/
theorem C59_panic_witness (P : Prims) (password : Bytes) : ∃ code, encodeData (b! "ncryptsec") [] = .ok code ∧
    decrypt P code password = .panic := by
  obtain ⟨c, c1, c2⟩ := decrypt_encodeData P [] password
  refine ⟨c, c1, ?_⟩
  unfold decrypt
  rw [c2]
  rfl

/-- Sample primitives. -/
def samplePrims : Prims where
  getKey := fun p s _ => some (p ++ s)
  aeadSeal := fun _ _ t _ => t ++ List.replicate 16 1
  aeadOpen := fun _ _ c _ => some (c.take (c.length - 16))

theorem samplePrims_correct : samplePrims.Correct := by
  intro k n t ad
  simp [samplePrims]

example : (samplePrims.getKey (b! "pw") (List.replicate 16 1) 16).isSome ∧ IsHex32 sampleHex := by decide +kernel

end GoNostr.Nip49
