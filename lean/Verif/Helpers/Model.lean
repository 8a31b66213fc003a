import Verif.Event.Model
/-!
# helpers.go, utils.go, normalize.go, keys.go: subscription ids, the pre-parser, hex validation, OK messages
-/

set_option autoImplicit false

namespace GoNostr

/-- relay.go:457-463: the subscription id of a counter and a label. -/
def makeSubID (counter : Int) (label : Bytes) : Bytes := fmtInt counter ++ [58] ++ label

/-- helpers.go:102-109 `subIdToSerial`. -/
def subIdToSerial (subId : Bytes) : Out Int :=
  let n := indexOf (b! ":") subId
  if n < 0 ∨ n > subId.length then .val (-1)
  else do
    let s ← goSlice subId 0 n
    return (parseInt64 s).value

/-- helpers.go:111-119 `isLowerHex`. Go ranges over runes; every byte of a multi-byte or invalid sequence yields a rune
outside the accepted ASCII ranges, so ranging over bytes decides the same. -/
def isLowerHex : Bytes → Bool
  | [] => true
  | c :: rest => if (c ≥ 48 && c ≤ 57) || (c ≥ 97 && c ≤ 102) then isLowerHex rest else false

/-- utils.go:23-32 `IsValid32ByteHex`. -/
def isValid32ByteHex (thing : Bytes) : Bool :=
  if ¬ isLowerHex thing then false
  else if thing.length ≠ 64 then false
  else (hexDec thing).isSome

/-- `hex.DecodeString` with the error ignored: the bytes decoded before the first error. -/
def hexDecPartial : Bytes → Bytes
  | a :: b :: rest =>
    match hexVal a, hexVal b with
    | some x, some y => ((x <<< 4) ||| y) :: hexDecPartial rest
    | _, _ => []
  | _ => []

/-- keys.go:41-49 `IsValidPublicKey`; `parsePub` is `schnorr.ParsePubKey` succeeding. -/
def isValidPublicKey (parsePub : Bytes → Bool) (pk : Bytes) : Bool :=
  if ¬ isLowerHex pk then false else parsePub (hexDecPartial pk)

/-- helpers.go:121-141 `extractSubID`. -/
def extractSubID (s : Bytes) : Out Bytes :=
  let start := indexOf (b! "\"EVENT\"") s
  if start = -1 then .val []
  else do
    let t ← goSliceFrom s (start + 7)
    let offset := indexOf (b! "\"") t
    if offset = -1 then return []
    let start := start + (7 + offset + 1)
    let u ← goSliceFrom s start
    let e := indexOf (b! "\"") u
    goSlice s start (start + e)

/-- helpers.go:143-156 `extractEventID`. -/
def extractEventID (s : Bytes) : Out Bytes :=
  let start := indexOf (b! "\"id\"") s
  if start = -1 then .val []
  else do
    let t ← goSliceFrom s (start + 4)
    let offset := indexOf (b! "\"") t
    let start := start + (4 + offset + 1)
    goSlice s start (start + 64)

/-- helpers.go:158-171 `extractEventPubKey`. -/
def extractEventPubKey (s : Bytes) : Out Bytes :=
  let start := indexOf (b! "\"pubkey\"") s
  if start = -1 then .val []
  else do
    let t ← goSliceFrom s (start + 8)
    let offset := indexOf (b! "\"") t
    let start := start + (8 + offset + 1)
    goSlice s start (start + 64)

/-- helpers.go:173-192 `extractDTag`. -/
def extractDTag (s : Bytes) : Out Bytes :=
  let start := indexOf (b! "[\"d\"") s
  if start = -1 then .val []
  else do
    let t ← goSliceFrom s (start + 4)
    let offset := indexOf (b! "\"") t
    let start := start + (4 + offset + 1)
    let u ← goSliceFrom s start
    let e := indexOf (b! "\"") u
    if e = -1 then return []
    goSlice s start (start + e)

/-- helpers.go:194-217 `extractTimestamp`. -/
def extractTimestamp (s : Bytes) : Out Int :=
  let start := indexOf (b! "\"created_at\"") s
  if start = -1 then .val 0
  else do
    let t ← goSliceFrom s (start + 12)
    let offset := indexAny (fun c => 48 ≤ c && c ≤ 57) t
    if offset = -1 then return 0
    let start := start + (12 + offset)
    let u ← goSliceFrom s start
    let e := indexAny (fun c => c = 44 || c = 125 || c = 32) u
    if e = -1 then return 0
    let w ← goSlice s start (start + e)
    return (parseInt64 w).value

/-- relay.go:240: the id the reader hands to the duplicate check for a message. -/
def readerEventID (message : Bytes) : Out Bytes := do
  let subid ← extractSubID message
  let m ← goSliceFrom message (10 + subid.length)
  extractEventID m

/-- normalize.go:109-114 `NormalizeOKMessage`. -/
def normalizeOKMessage (reason pre : Bytes) : Out Bytes :=
  let idx := indexOf (b! ": ") reason
  if idx = -1 then .val (pre ++ b! ": " ++ reason)
  else do
    let head ← goSlice reason 0 idx
    if indexOf (b! " ") head ≠ -1 then return pre ++ b! ": " ++ reason
    return reason

end GoNostr
