import Verif.Base.Base64
import Verif.Event.Model
/-!
# nip44: versioned encryption

HKDF, the ChaCha20 key stream and HMAC-SHA256 are parameters; everything around them is modelled.
-/

set_option autoImplicit false

namespace GoNostr.Nip44

/-- The primitives. `keys` is `messageKeys` (nip44.go:192-211: HKDF-Expand of 76 bytes never fails); `stream key nonce i`
is byte `i` of the ChaCha20 key stream; `hmac` is HMAC-SHA256. -/
structure Prims where
  keys : Bytes → Bytes → Bytes × Bytes × Bytes
  stream : Bytes → Bytes → Nat → UInt8
  hmac : Bytes → Bytes → { d : Bytes // d.length = 32 }

/-- XOR with the key stream from position `i` on. -/
def xorStream (ks : Nat → UInt8) : Nat → Bytes → Bytes
  | _, [] => []
  | i, c :: rest => (c ^^^ ks i) :: xorStream ks (i + 1) rest

/-- nip44.go:174-183 `chacha` (keys and nonces from `messageKeys` have the right sizes, so no error). -/
def chacha (P : Prims) (key nonce message : Bytes) : Bytes := xorStream (P.stream key nonce) 0 message

/-- nip44.go:185-190 `sha256Hmac`: the nonce, then the ciphertext. -/
def mac (P : Prims) (key ciphertext nonce : Bytes) : Bytes := (P.hmac key (nonce ++ ciphertext)).val

/-- nip44.go:213-220 `calcPadding`. `math.Floor(math.Log2(x))` for integers `x < 2^16` is the integer logarithm. -/
def calcPadding (sLen : Nat) : Nat :=
  if sLen ≤ 32 then 32
  else
    let nextPower := 2 ^ (Nat.log2 (sLen - 1) + 1)
    let chunk := max 32 (nextPower / 8)
    chunk * ((sLen - 1) / chunk + 1)

/-- nip44.go:67-75: the size check and the padded buffer. `none` is the error. -/
def pad (plain : Bytes) : Option Bytes :=
  let size := plain.length
  if size < 1 ∨ size > 65535 then none
  else
    let padding := calcPadding size
    some (UInt8.ofNat (size / 256) :: UInt8.ofNat (size % 256) :: (plain ++ List.replicate (padding - size) 0))

/-- nip44.go:142-153: reading the length and removing the padding; `padded[0:2]` and the slices carry panics. -/
def unpad (padded : Bytes) : Res Unit Bytes :=
  match padded with
  | hi :: lo :: rest =>
    let n := hi.toNat * 256 + lo.toNat
    if n < 1 ∨ n > 65535 ∨ padded.length ≠ 2 + calcPadding n then .err ()
    else match goSlice rest 0 n with
      | .panic => .panic
      | .val u => if u.length = 0 ∨ u.length ≠ n then .err () else .ok u
  | _ => .panic

/-- nip44.go:44-94 `Encrypt`. `custom` is the nonce given to `WithCustomNonce` (nip44.go:35-42), `rnd` the bytes of
`rand.Read`, used when the nonce is all zeros. -/
def encrypt (P : Prims) (key : Bytes) (custom : Option Bytes) (rnd : Bytes) (plain : Bytes) : Res Unit Bytes :=
  if (custom.map List.length).getD 32 ≠ 32 then .err ()
  else
    let nonce0 := custom.getD (List.replicate 32 0)
    let nonce := if nonce0 = List.replicate 32 0 then rnd else nonce0
    let (ck, cn, hk) := P.keys key nonce
    match pad plain with
    | none => .err ()
    | some padded =>
      let ciphertext := chacha P ck cn padded
      .ok (b64Enc (2 :: (nonce ++ ciphertext ++ mac P hk ciphertext nonce)))

/-- nip44.go:110-153: `Decrypt` after base64 decoding. -/
def decryptRaw (P : Prims) (key : Bytes) (decoded : Bytes) : Res Unit Bytes :=
  match decoded with
  | [] => .panic
  | v :: body =>
    if v ≠ 2 then .err ()
    else
      let dLen := decoded.length
      if dLen < 99 ∨ dLen > 65603 then .err ()
      else
        let nonce := body.take 32
        let ciphertext := (body.drop 32).take (dLen - 65)
        let given := body.drop (dLen - 33)
        let (ck, cn, hk) := P.keys key nonce
        if given ≠ mac P hk ciphertext nonce then .err ()
        else unpad (chacha P ck cn ciphertext)

/-- nip44.go:96-154 `Decrypt`. -/
def decrypt (P : Prims) (key : Bytes) (payload : Bytes) : Res Unit Bytes :=
  if payload.length < 132 ∨ payload.length > 87472 then .err ()
  else if payload.take 1 = b! "#" then .err ()
  else match b64Dec payload with
    | none => .err ()
    | some decoded => decryptRaw P key decoded

end GoNostr.Nip44
