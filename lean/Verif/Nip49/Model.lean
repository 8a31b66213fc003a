import Verif.Nip19.Model
/-!
# nip49: password-encrypted secret keys

Scrypt with password normalization and XChaCha20-Poly1305 are parameters.
-/

set_option autoImplicit false

namespace GoNostr.Nip49

/-- `getKey password salt logn` (nip49.go:111-122: NFKC normalization and scrypt with `n = 2^logn`; `none` is an error);
`aeadSeal`/`aeadOpen` are the AEAD with key, nonce, text and associated data. -/
structure Prims where
  getKey : Bytes → Bytes → UInt8 → Option Bytes
  aeadSeal : Bytes → Bytes → Bytes → Bytes → Bytes
  aeadOpen : Bytes → Bytes → Bytes → Bytes → Option Bytes

/-- The AEAD contract: opening what was sealed with the same key, nonce and associated data gives the text; the tag is 16
bytes. -/
def Prims.Correct (P : Prims) : Prop := ∀ k n t ad, (P.aeadSeal k n t ad).length = t.length + 16 ∧ P.aeadOpen k n (P.aeadSeal k n t ad) ad = some t

/-- `copy(dst, src)`. -/
def copy (dst src : Bytes) : Bytes := src.take dst.length ++ dst.drop src.length

/-- nip49.go:32-64 `EncryptBytes`; `salt` (16 bytes) and `nonce` (24 bytes) come from `rand.Read`. The 91-byte buffer
holds version, logn, salt, nonce, associated byte and the first 48 bytes of the ciphertext. -/
def encryptBytes (P : Prims) (salt nonce secretKey password : Bytes) (logn ksb : UInt8) : Res Unit Bytes :=
  match P.getKey password salt logn with
  | none => .err ()
  | some key =>
    let ciphertext := P.aeadSeal key nonce secretKey [ksb]
    let concat := [2, logn] ++ salt ++ nonce ++ [ksb] ++ copy (List.replicate 48 0) ciphertext
    Nip19.encodeData (b! "ncryptsec") concat

/-- nip49.go:24-30 `Encrypt`. -/
def encrypt (P : Prims) (salt nonce secretKey password : Bytes) (logn ksb : UInt8) : Res Unit Bytes :=
  match hexDec secretKey with
  | none => .err ()
  | some skb => if skb.length ≠ 32 then .err () else encryptBytes P salt nonce skb password logn ksb

/-- nip49.go:85-108: `DecryptToBytes` once the payload bytes are known. The slice expressions up to index 43 are within
the capacity of `data` or panic; the last one, `data[43:]`, panics when there are fewer than 43 bytes. -/
def decryptData (P : Prims) (data password : Bytes) : Res Unit Bytes :=
  match data with
  | [] => .panic
  | version :: rest =>
    if version ≠ 2 then .err ()
    else match rest with
      | [] => .panic
      | logn :: rest =>
        if rest.length < 41 then .panic
        else
          let salt := rest.take 16
          let nonce := (rest.drop 16).take 24
          let ad := (rest.drop 40).take 1
          let encryptedKey := rest.drop 41
          match P.getKey password salt logn with
          | none => .err ()
          | some key =>
            match P.aeadOpen key nonce encryptedKey ad with
            | none => .err ()
            | some sk => .ok sk

/-- nip49.go:71-109 `DecryptToBytes`. -/
def decryptToBytes (P : Prims) (code password : Bytes) : Res Unit Bytes := do
  let (pre, bits5) ← Nip19.bechDecode code
  if pre ≠ b! "ncryptsec" then .err ()
  else do
    let data ← Nip19.convertBits bits5 5 8 false
    decryptData P (Nip19.bytesOf data) password

/-- nip49.go:66-69 `Decrypt`. -/
def decrypt (P : Prims) (code password : Bytes) : Res Unit Bytes := do
  let b ← decryptToBytes P code password
  return hexEnc b

end GoNostr.Nip49
