import Verif.Base.Base64
/-!
# nip04: AES-256-CBC encrypted content

The AES block functions are a parameter; CBC chaining, padding and the text format are modelled.
-/

set_option autoImplicit false

namespace GoNostr.Nip04

/-- AES on one block: encryption and decryption under a key. -/
structure Aes where
  enc : Bytes → Bytes → Bytes
  dec : Bytes → Bytes → Bytes

/-- What a block cipher guarantees: 16-byte blocks go to 16-byte blocks and decryption inverts encryption. -/
def Aes.Correct (A : Aes) : Prop := ∀ key b, b.length = 16 → (A.enc key b).length = 16 ∧ A.dec key (A.enc key b) = b

/-- `aes.NewCipher` accepts keys of 16, 24 or 32 bytes. -/
def validKey (key : Bytes) : Bool := key.length == 16 || key.length == 24 || key.length == 32

/-- Bytewise XOR. -/
def xorB (a b : Bytes) : Bytes := List.zipWith (· ^^^ ·) a b

/-- `CryptBlocks` of the CBC encrypter on `n` blocks. -/
def cbcEnc (E : Bytes → Bytes) : Nat → Bytes → Bytes → Bytes
  | 0, _, _ => []
  | n + 1, prev, s => E (xorB (s.take 16) prev) ++ cbcEnc E n (E (xorB (s.take 16) prev)) (s.drop 16)

/-- `CryptBlocks` of the CBC decrypter on `n` blocks. -/
def cbcDec (D : Bytes → Bytes) : Nat → Bytes → Bytes → Bytes
  | 0, _, _ => []
  | n + 1, prev, s => xorB (D (s.take 16)) prev ++ cbcDec D n (s.take 16) (s.drop 16)

/-- nip04.go:60-68: PKCS#7 padding. -/
def pad (plaintext : Bytes) : Bytes :=
  let padding := 16 - plaintext.length % 16
  plaintext ++ List.replicate padding (UInt8.ofNat padding)

/-- nip04.go:42-74 `Encrypt`; `iv` is the 16 random bytes. -/
def encrypt (A : Aes) (iv message key : Bytes) : Res Unit Bytes :=
  if ¬ validKey key then .err ()
  else
    let padded := pad message
    .ok (b64Enc (cbcEnc (A.enc key) (padded.length / 16) iv padded) ++ b! "?iv=" ++ b64Enc iv)

/-- The first two parts of `strings.Split(content, "?iv=")`; `none` if there are fewer than two. -/
def split2 (content : Bytes) : Option (Bytes × Bytes) :=
  let i := indexOf (b! "?iv=") content
  if i < 0 then none
  else
    let rest := content.drop (i.toNat + 4)
    let j := indexOf (b! "?iv=") rest
    some (content.take i.toNat, if j < 0 then rest else rest.take j.toNat)

/-- nip04.go:103-115: removing the padding. -/
def unpad (plaintext : Bytes) : Res Unit Bytes :=
  if plaintext.length > 0 then
    match goIndex plaintext ((plaintext.length : Int) - 1) with
    | .panic => .panic
    | .val c =>
      if c.toNat > plaintext.length then .err ()
      else match goSlice plaintext 0 ((plaintext.length : Int) - c.toNat) with
        | .panic => .panic
        | .val m => .ok m
  else .ok plaintext

/-- nip04.go:78-116 `Decrypt`. `cipher.NewCBCDecrypter` panics on an iv that is not one block, `CryptBlocks` on input that
is not whole blocks. -/
def decrypt (A : Aes) (content key : Bytes) : Res Unit Bytes :=
  match split2 content with
  | none => .err ()
  | some (p0, p1) =>
    match b64Dec p0 with
    | none => .err ()
    | some ciphertext =>
      match b64Dec p1 with
      | none => .err ()
      | some iv =>
        if ¬ validKey key then .err ()
        else if iv.length ≠ 16 then .panic
        else if ciphertext.length % 16 ≠ 0 then .panic
        else unpad (cbcDec (A.dec key) (ciphertext.length / 16) iv ciphertext)

end GoNostr.Nip04
