import Verif.Helpers.Model
/-!
# nip19: bech32 and the bech32-encoded entities

The bech32 package (`github.com/btcsuite/btcd/btcutil/bech32`, v1.1.5) is not in /repo; it is modelled here from its
source as used: `Encode`, `DecodeNoLimit` and `ConvertBits`. `nip19/nip19.go`, `helpers.go` and `pointer.go` are modelled
function by function.
-/

set_option autoImplicit false

namespace GoNostr.Nip19

/-! ## bech32 (external package) -/

/-- `const charset = "qpzry9x8gf2tvdw0s3jn54khce6mua7l"`. -/
def charset : Bytes := b! "qpzry9x8gf2tvdw0s3jn54khce6mua7l"

/-- The generator terms selected by the five top bits `chk >> 25`. -/
def genTerm (c : BitVec 30) : BitVec 30 :=
  (if c.getLsbD 25 then 0x3b6a57b2#30 else 0#30) ^^^ (if c.getLsbD 26 then 0x26508e6d#30 else 0#30) ^^^
  (if c.getLsbD 27 then 0x1ea119fa#30 else 0#30) ^^^ (if c.getLsbD 28 then 0x3d4233dd#30 else 0#30) ^^^
  (if c.getLsbD 29 then 0x2a1462b3#30 else 0#30)

/-- One step of `bech32Polymod`: `chk = (chk&0x1ffffff)<<5 ^ v`, then the generator terms. `chk` is an `int` that stays
below 2^30 because every `v` is below 32. -/
def polyStep (c : BitVec 30) (v : Nat) : BitVec 30 := (c <<< 5) ^^^ BitVec.ofNat 30 v ^^^ genTerm c

/-- `bech32Polymod(hrp, values, checksum)`: high bits of the prefix, a zero, low bits, values, checksum. -/
def polymod (hrp : Bytes) (values checksum : List Nat) : BitVec 30 :=
  (hrp.map (fun (c : UInt8) => c.toNat / 32) ++ [0] ++ hrp.map (fun (c : UInt8) => c.toNat % 32) ++ values ++ checksum).foldl polyStep 1#30

/-- `writeBech32Checksum`: the six 5-bit groups of `polymod ^ 1`, computed with a zero checksum. -/
def checksum (hrp : Bytes) (values : List Nat) : List Nat :=
  let p := polymod hrp values (List.replicate 6 0) ^^^ 1#30
  [p.toNat / 33554432 % 32, p.toNat / 1048576 % 32, p.toNat / 32768 % 32, p.toNat / 1024 % 32, p.toNat / 32 % 32, p.toNat % 32]

/-- `charset[b]` for every value; `none` if a value is not below 32 (`ErrInvalidDataByte`). -/
def toChars : List Nat → Option Bytes
  | [] => some []
  | v :: rest => match charset[v]?, toChars rest with
    | some c, some r => some (c :: r)
    | _, _ => none

/-- ASCII lower-casing of one byte (`strings.ToLower` on strings already known to be ASCII). -/
def lowerByte (c : UInt8) : UInt8 := if 65 ≤ c ∧ c ≤ 90 then c + 32 else c

/-- `Encode(hrp, data)` (`encodeGeneric` with the bech32 constant); the prefixes used are ASCII. -/
def bechEncode (hrp : Bytes) (data : List Nat) : Res Unit Bytes :=
  let hrp := hrp.map lowerByte
  match toChars data, toChars (checksum hrp data) with
  | some d, some s => .ok (hrp ++ [49] ++ d ++ s)
  | _, _ => .err ()

/-- `strings.IndexByte(charset, c)` for every byte (`toBytes`). -/
def fromChars : Bytes → Option (List Nat)
  | [] => some []
  | c :: rest =>
    if c ∈ charset then
      match fromChars rest with
      | some r => some (charset.idxOf c :: r)
      | none => none
    else none

/-- `strings.LastIndexByte(s, '1')`. -/
def lastOne : Bytes → Option Nat
  | [] => none
  | c :: rest => match lastOne rest with
    | some i => some (i + 1)
    | none => if c = 49 then some 0 else none

/-- `DecodeNoLimit`. The checksum may be that of bech32 (1) or of bech32m (0x2bc830a3). -/
def bechDecode (bech : Bytes) : Res Unit (Bytes × List Nat) :=
  if bech.length < 8 then .err ()
  else if bech.any (fun c => c < 33 || c > 126) then .err ()
  else if bech.any (fun c => 97 ≤ c && c ≤ 122) && bech.any (fun c => 65 ≤ c && c ≤ 90) then .err ()
  else
    let bech := bech.map lowerByte
    match lastOne bech with
    | none => .err ()
    | some one =>
      if one < 1 ∨ one + 7 > bech.length then .err ()
      else
        let hrp := bech.take one
        match fromChars (bech.drop (one + 1)) with
        | none => .err ()
        | some decoded =>
          let values := decoded.take (decoded.length - 6)
          let sum := decoded.drop (decoded.length - 6)
          let p := polymod hrp values sum
          if p = 1#30 ∨ p = 0x2bc830a3#30 then .ok (hrp, values) else .err ()

/-- The `w` low bits of `x`, most significant first. -/
def bitsOf : Nat → Nat → List Bool
  | 0, _ => []
  | w + 1, x => x.testBit w :: bitsOf w x

/-- The number with these bits, most significant first. -/
def ofBits (l : List Bool) : Nat := l.foldl (fun n b => 2 * n + b.toNat) 0

/-- Cut into groups of `w` bits, with the incomplete rest. -/
def groups (w : Nat) : Nat → List Bool → List Nat × List Bool
  | 0, l => ([], l)
  | fuel + 1, l =>
    if l.length < w then ([], l)
    else
      let (gs, rest) := groups w fuel (l.drop w)
      (ofBits (l.take w) :: gs, rest)

/-- `ConvertBits(data, from, to, pad)`, for group sizes 5 and 8. The code moves `min(remFromBits, remToBits)` bits at a
time from the input to the next output byte, most significant first; here the bits are listed and regrouped. -/
def convertBits (data : List Nat) (frm to : Nat) (pad : Bool) : Res Unit (List Nat) :=
  let bits := (data.map (bitsOf frm)).flatten
  let (gs, rest) := groups to bits.length bits
  if rest = [] then .ok gs
  else if pad then .ok (gs ++ [ofBits (rest ++ List.replicate (to - rest.length) false)])
  else if rest.length > 4 ∨ ofBits rest ≠ 0 then .err ()
  else .ok gs

/-- Bytes as numbers and back. -/
def nats (b : Bytes) : List Nat := b.map UInt8.toNat
/-- The bytes of 5-bit groups that are bytes. -/
def bytesOf (l : List Nat) : Bytes := l.map UInt8.ofNat

/-! ## Pointers (types) -/

/-- pointers.go:32-35. A nil slice is `none`. -/
structure ProfilePointer where
  publicKey : Bytes
  relays : Option (List Bytes) := none
  deriving DecidableEq, Repr

/-- pointers.go:68-73. -/
structure EventPointer where
  id : Bytes
  relays : Option (List Bytes) := none
  author : Bytes := []
  kind : Int := 0
  deriving DecidableEq, Repr

/-- pointers.go:115-120. -/
structure EntityPointer where
  publicKey : Bytes
  kind : Int := 0
  identifier : Bytes := []
  relays : Option (List Bytes) := none
  deriving DecidableEq, Repr

/-- The dynamic type of the value `Decode` returns. -/
inductive Value where
  | str (s : Bytes)
  | profile (p : ProfilePointer)
  | event (p : EventPointer)
  | entity (p : EntityPointer)
  deriving DecidableEq, Repr

/-- `append(result.Relays, string(v))`. -/
def addRelay (r : Option (List Bytes)) (v : Bytes) : Option (List Bytes) := some (r.getD [] ++ [v])

/-! ## TLV -/

/-- nip19/helpers.go:14-27 `readTLVEntry`; `none` for a nil value. -/
def readTLV : Bytes → UInt8 × Option Bytes
  | typ :: len :: rest => if rest.length < len.toNat then (typ, none) else (typ, some (rest.take len.toNat))
  | _ => (0, none)

/-- nip19/helpers.go:29-34 `writeTLVEntry`. -/
def tlv (typ : UInt8) (value : Bytes) : Bytes := typ :: UInt8.ofNat value.length :: value

/-- `binary.BigEndian.Uint32(v)`: panics on fewer than four bytes. -/
def beUint32 : Bytes → Out Nat
  | a :: b :: c :: d :: _ => .val (a.toNat * 16777216 + b.toNat * 65536 + c.toNat * 256 + d.toNat)
  | _ => .panic

/-- `binary.BigEndian.PutUint32(kindBytes, uint32(kind))`. -/
def putUint32 (kind : Int) : Bytes :=
  let n := (kind % 4294967296).toNat
  [UInt8.ofNat (n / 16777216), UInt8.ofNat (n / 65536 % 256), UInt8.ofNat (n / 256 % 256), UInt8.ofNat (n % 256)]

/-- nip19.go:32-58: the `nprofile` loop (`fuel = len(data)+1`, each entry takes at least two bytes). -/
def decodeProfile : Nat → Bytes → ProfilePointer → Res Unit ProfilePointer
  | 0, _, _ => .err ()
  | fuel + 1, data, result =>
    match readTLV data with
    | (_, none) => if result.publicKey = [] then .err () else .ok result
    | (t, some v) =>
      let next := data.drop (2 + v.length)
      if t = 0 then
        if v.length ≠ 32 then .err () else decodeProfile fuel next { result with publicKey := hexEnc v }
      else if t = 1 then decodeProfile fuel next { result with relays := addRelay result.relays v }
      else decodeProfile fuel next result

/-- nip19.go:60-96: the `nevent` loop. -/
def decodeEvent : Nat → Bytes → EventPointer → Res Unit EventPointer
  | 0, _, _ => .err ()
  | fuel + 1, data, result =>
    match readTLV data with
    | (_, none) => if result.id = [] then .err () else .ok result
    | (t, some v) =>
      let next := data.drop (2 + v.length)
      if t = 0 then
        if v.length ≠ 32 then .err () else decodeEvent fuel next { result with id := hexEnc v }
      else if t = 1 then decodeEvent fuel next { result with relays := addRelay result.relays v }
      else if t = 2 then
        if v.length ≠ 32 then .err () else decodeEvent fuel next { result with author := hexEnc v }
      else if t = 3 then
        if v.length ≠ 4 then .err ()
        else match beUint32 v with
          | .panic => .panic
          | .val k => decodeEvent fuel next { result with kind := k }
      else decodeEvent fuel next result

/-- nip19.go:98-128: the `naddr` loop. -/
def decodeEntity : Nat → Bytes → EntityPointer → Res Unit EntityPointer
  | 0, _, _ => .err ()
  | fuel + 1, data, result =>
    match readTLV data with
    | (_, none) => if result.kind = 0 ∨ result.identifier = [] ∨ result.publicKey = [] then .err () else .ok result
    | (t, some v) =>
      let next := data.drop (2 + v.length)
      if t = 0 then decodeEntity fuel next { result with identifier := v }
      else if t = 1 then decodeEntity fuel next { result with relays := addRelay result.relays v }
      else if t = 2 then
        if v.length ≠ 32 then .err () else decodeEntity fuel next { result with publicKey := hexEnc v }
      else if t = 3 then
        match beUint32 v with
        | .panic => .panic
        | .val k => decodeEntity fuel next { result with kind := k }
      else decodeEntity fuel next result

/-- nip19.go:24-131: the `switch` on the prefix. -/
def decodeData (pre data : Bytes) : Res Unit (Bytes × Value) :=
  if pre = b! "npub" ∨ pre = b! "nsec" ∨ pre = b! "note" then
    if data.length ≠ 32 then .err () else .ok (pre, .str (hexEnc data))
  else if pre = b! "nprofile" then do
    let p ← decodeProfile (data.length + 1) data { publicKey := [] }
    return (pre, .profile p)
  else if pre = b! "nevent" then do
    let p ← decodeEvent (data.length + 1) data { id := [] }
    return (pre, .event p)
  else if pre = b! "naddr" then do
    let p ← decodeEntity (data.length + 1) data { publicKey := [] }
    return (pre, .entity p)
  else .err ()

/-- nip19.go:13-132 `Decode`. On an error the code also returns the prefix (and sometimes a partial value); only the fact
that there is an error is kept. -/
def decode (code : Bytes) : Res Unit (Bytes × Value) := do
  let (pre, bits5) ← bechDecode code
  let data ← convertBits bits5 5 8 false
  decodeData pre (bytesOf data)

/-- `bech32.Encode(prefix, ConvertBits(data, 8, 5, true))`. -/
def encodeData (pre data : Bytes) : Res Unit Bytes := do
  let bits5 ← convertBits (nats data) 8 5 true
  bechEncode pre bits5

/-- nip19.go:134-174 `EncodePrivateKey`, `EncodePublicKey`, `EncodeNote` (they differ in the prefix only). -/
def encodeHex (pre h : Bytes) : Res Unit Bytes :=
  match hexDec h with
  | none => .err ()
  | some b => encodeData pre b

/-- nip19/nip19.go:134-146 -/
def encodePrivateKey (h : Bytes) : Res Unit Bytes := encodeHex (b! "nsec") h
/-- nip19/nip19.go:148-160 -/
def encodePublicKey (h : Bytes) : Res Unit Bytes := encodeHex (b! "npub") h
/-- nip19/nip19.go:162-174 -/
def encodeNote (h : Bytes) : Res Unit Bytes := encodeHex (b! "note") h

/-- The relay entries of nip19.go:184-186, 204-206, 225-227. -/
def relayEntries (relays : List Bytes) : Bytes := (relays.map (tlv 1)).flatten

/-- nip19.go:176-194 `EncodeProfile`. -/
def encodeProfile (publicKey : Bytes) (relays : List Bytes) : Res Unit Bytes :=
  match hexDec publicKey with
  | none => .err ()
  | some pk => encodeData (b! "nprofile") (tlv 0 pk ++ relayEntries relays)

/-- nip19.go:196-218 `EncodeEvent`. `hex.DecodeString` of the author ignores the error: the decoded prefix counts. -/
def encodeEvent (id : Bytes) (relays : List Bytes) (author : Bytes) : Res Unit Bytes :=
  match hexDec id with
  | none => .err ()
  | some b =>
    if b.length ≠ 32 then .err ()
    else
      let a := hexDecPartial author
      encodeData (b! "nevent") (tlv 0 b ++ relayEntries relays ++ (if a.length = 32 then tlv 2 a else []))

/-- nip19.go:220-245 `EncodeEntity`. -/
def encodeEntity (publicKey : Bytes) (kind : Int) (identifier : Bytes) (relays : List Bytes) : Res Unit Bytes :=
  match hexDec publicKey with
  | none => .err ()
  | some pk => encodeData (b! "naddr") (tlv 0 identifier ++ relayEntries relays ++ tlv 2 pk ++ tlv 3 (putUint32 kind))

/-- The pointer types behind the `Pointer` interface. -/
inductive Pointer where
  | profile (p : ProfilePointer)
  | event (p : EventPointer)
  | entity (p : EntityPointer)
  deriving DecidableEq, Repr

/-- `res, _ := …`: the empty string on error. -/
def orEmpty : Res Unit Bytes → Bytes
  | .ok s => s
  | _ => []

/-- nip19/pointer.go:9-27 `EncodePointer`. -/
def encodePointer : Pointer → Bytes
  | .profile p => match p.relays with
    | none => orEmpty (encodePublicKey p.publicKey)
    | some r => orEmpty (encodeProfile p.publicKey r)
  | .event p => orEmpty (encodeEvent p.id (p.relays.getD []) p.author)
  | .entity p => orEmpty (encodeEntity p.publicKey p.kind p.identifier (p.relays.getD []))

/-- nip19/pointer.go:29-49 `ToPointer`; a failing type assertion panics. -/
def toPointer (code : Bytes) : Res Unit Pointer := do
  let (pre, v) ← decode code
  if pre = b! "npub" then match v with
    | .str s => return .profile { publicKey := s }
    | _ => .panic
  else if pre = b! "nprofile" then match v with
    | .profile p => return .profile p
    | _ => .panic
  else if pre = b! "nevent" then match v with
    | .event p => return .event p
    | _ => .panic
  else if pre = b! "note" then match v with
    | .str s => return .event { id := s }
    | _ => .panic
  else if pre = b! "naddr" then match v with
    | .entity p => return .entity p
    | _ => .panic
  else .err ()

end GoNostr.Nip19
