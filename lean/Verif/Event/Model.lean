import Verif.Base.Num
/-!
# Events: serialization, ids and signatures

Model of `event.go`, `signature.go` and `escapeString` of `helpers.go`.
-/

set_option autoImplicit false

namespace GoNostr

/-- tags.go:10 `type Tag []string`. -/
abbrev Tag := List Bytes

/-- tags.go:54 (`type Tags []Tag`). A nil `Tags` and an empty one are the same value here: nothing modelled with this
type distinguishes them. -/
abbrev Tags := List Tag

/-- event.go:12-20. `CreatedAt` (int64) and `Kind` (int) are unbounded integers here. -/
structure Event where
  id : Bytes
  pubkey : Bytes
  createdAt : Int
  kind : Int
  tags : Tags
  content : Bytes
  sig : Bytes
  deriving DecidableEq, Repr

/-- helpers.go:57-86: what one byte of the string appends to the output. -/
def escapeByte (c : UInt8) : Bytes :=
  if c = 34 then [92, 34]
  else if c = 92 then [92, 92]
  else if c ≥ 0x20 then [c]
  else if c = 0x08 then [92, 98]
  else if c < 0x09 then [92, 117, 48, 48, 48, 48 + c]
  else if c = 0x09 then [92, 116]
  else if c = 0x0a then [92, 110]
  else if c = 0x0c then [92, 102]
  else if c = 0x0d then [92, 114]
  else if c < 0x10 then [92, 117, 48, 48, 48, 0x57 + c]
  else if c < 0x1a then [92, 117, 48, 48, 49, 0x20 + c]
  else if c < 0x20 then [92, 117, 48, 48, 49, 0x47 + c]
  else []

/-- helpers.go:56-87: the loop of `escapeString`. -/
def escapeLoop (dst : Bytes) : Bytes → Bytes
  | [] => dst
  | c :: s => escapeLoop (dst ++ escapeByte c) s

/-- helpers.go:54-90 `escapeString(dst, s)`. -/
def escapeString (dst s : Bytes) : Bytes := escapeLoop (dst ++ [34]) s ++ [34]

/-- event.go:87-92: the loop over the items of one tag; `i` is the loop index. -/
def serializeItems (dst : Bytes) (i : Nat) : Tag → Bytes
  | [] => dst
  | s :: rest => serializeItems (escapeString (if i > 0 then dst ++ [44] else dst) s) (i + 1) rest

/-- event.go:81-94: the loop over the tags; `i` is the loop index. -/
def serializeTags (dst : Bytes) (i : Nat) : Tags → Bytes
  | [] => dst
  | tag :: rest =>
    serializeTags (serializeItems ((if i > 0 then dst ++ [44] else dst) ++ [91]) 0 tag ++ [93]) (i + 1) rest

/-- event.go:68-102 `serializeEventInto(evt, dst)`. -/
def serializeEventInto (evt : Event) (dst : Bytes) : Bytes :=
  let dst := dst ++ b! "[0,\""
  let dst := dst ++ evt.pubkey
  let dst := dst ++ b! "\","
  let dst := dst ++ fmtInt evt.createdAt
  let dst := dst ++ b! ","
  let dst := dst ++ fmtInt evt.kind
  let dst := dst ++ b! ","
  let dst := dst ++ b! "["
  let dst := serializeTags dst 0 evt.tags
  let dst := dst ++ b! "],"
  let dst := escapeString dst evt.content
  dst ++ b! "]"

/-- event.go:61-66 `Serialize`. -/
def serialize (evt : Event) : Bytes := serializeEventInto evt []

/-- A hash function with a 32-byte digest (`crypto/sha256.Sum256` is one; the model never looks inside). -/
abbrev Hash32 := Bytes → { d : Bytes // d.length = 32 }

/-- event.go:28-31 `GetID`. -/
def getID (H : Hash32) (evt : Event) : Bytes := hexEnc (H (serialize evt)).val

/-- event.go:45-55: the comparison loop of `CheckID`; `n` is the number of iterations left, `i` the index. Reads of
`h[i]` and `evt.ID[i*2]` go through bounds checks. -/
def checkIDLoop (h id : Bytes) : Nat → Nat → Out Bool
  | 0, _ => .val true
  | n + 1, i => do
    let hi ← goIndex h i
    let c0 ← goIndex id (i * 2 : Nat)
    if hexDigit (hi >>> 4) ≠ c0 then return false
    let c1 ← goIndex id (i * 2 + 1 : Nat)
    if hexDigit (hi &&& 0x0f) ≠ c1 then return false
    checkIDLoop h id n (i + 1)

/-- event.go:34-58 `CheckID`. -/
def checkID (H : Hash32) (evt : Event) : Out Bool :=
  if evt.id.length ≠ 64 then .val false
  else checkIDLoop (H (serializeEventInto evt [])).val evt.id 32 0

/-- The operations of btcec/schnorr that `signature.go` uses, on bytes. -/
structure Schnorr where
  /-- `schnorr.SerializePubKey` of the key of `btcec.PrivKeyFromBytes` (x-only, equal to `SerializeCompressed()[1:]`) -/
  pubOf : Bytes → Bytes
  /-- `schnorr.ParsePubKey` succeeds -/
  parsePub : Bytes → Bool
  /-- `schnorr.ParseSignature` succeeds -/
  parseSig : Bytes → Bool
  /-- `sig.Verify(hash, pubkey)` -/
  verify : (sig hash pub : Bytes) → Bool
  /-- `schnorr.Sign`; `none` is an error -/
  sign : (sk hash : Bytes) → Option Bytes

/-- signature.go:17-42 `CheckSignature`: `some b` is `(b, nil)`, `none` an error. -/
def checkSignature (H : Hash32) (S : Schnorr) (evt : Event) : Option Bool :=
  match hexDec evt.pubkey with
  | none => none
  | some pk =>
    if ¬ S.parsePub pk then none
    else match hexDec evt.sig with
      | none => none
      | some s =>
        if ¬ S.parseSig s then none
        else some (S.verify s (H (serialize evt)).val pk)

/-- keys.go:31-39 `GetPublicKey`; `none` is an error. -/
def getPublicKey (S : Schnorr) (sk : Bytes) : Option Bytes :=
  (hexDec sk).map (fun b => hexEnc (S.pubOf b))

/-- signature.go:47-71 `Sign`. Returns the event as left behind and whether the error is nil: as in the code, the public
key is already overwritten when signing itself fails. -/
def signEvent (H : Hash32) (S : Schnorr) (evt : Event) (secretKey : Bytes) : Event × Bool :=
  match hexDec secretKey with
  | none => (evt, false)
  | some sk =>
    let evt := { evt with pubkey := hexEnc (S.pubOf sk) }
    let h := (H (serialize evt)).val
    match S.sign sk h with
    | none => (evt, false)
    | some sg => ({ evt with id := hexEnc h, sig := hexEnc sg }, true)

end GoNostr
