import Verif.Filter.Model
import Verif.Helpers.Model
import Mathlib.Data.List.Dedup
/-!
# Negentropy (nip77/negentropy)

Byte-level model of `encoding.go`, `hex.go`, `types.go`, `storage/accumulator.go`, `storage/vector/vector.go` and
`negentropy.go`. Messages are hex strings, as in the code.
-/

set_option autoImplicit false

namespace GoNostr.Neg

/-- Go's `int` (64 bits): the value kept after an overflowing operation. -/
def wrap64 (x : Int) : Int := (x + 2 ^ 63) % 2 ^ 64 - 2 ^ 63

/-- negentropy.go:14 `maxTimestamp`. -/
def maxTimestamp : Int := 2 ^ 63 - 1

/-- types.go:34-37 `Item`; types.go:48 a `Bound` is an item too. -/
structure Item where
  ts : Int
  id : Bytes
  deriving DecidableEq, Repr

/-- negentropy.go:18 `InfiniteBound`. -/
def infiniteBound : Item := ⟨maxTimestamp, []⟩

/-- types.go:39-44 `ItemCompare`. -/
def itemCompare (a b : Item) : Int := if a.ts = b.ts then compareStrings a.id b.id else compareInts a.ts b.ts

/-! ## Varints -/

/-- encoding.go:131-135: the digit loop; `idx` is one more than the index written next, `acc` the bytes written so far.
Writing at index -1 panics. -/
def encDigits : Nat → Nat → Bytes → Out Bytes
  | idx, n, acc =>
    if n = 0 then .val acc
    else match idx with
      | 0 => .panic
      | idx + 1 => encDigits idx (n / 128) (UInt8.ofNat (n % 128) :: acc)

/-- encoding.go:138-140: set the high bit on all bytes but the last. -/
def setHigh : Bytes → Bytes
  | [] => []
  | [b] => [b]
  | b :: rest => (b ||| 0x80) :: setHigh rest

/-- encoding.go:123-143 `EncodeVarInt`. For negative `n` the arithmetic shift never reaches 0, so the index leaves the
buffer. -/
def encodeVarInt (n : Int) : Out Bytes :=
  if n = 0 then .val [0]
  else if n < 0 then .panic
  else do
    let r ← encDigits 8 n.toNat []
    return setHigh r

/-- hex.go:12-17 `StringHexReader`. -/
structure Reader where
  source : Bytes
  idx : Int
  deriving DecidableEq, Repr

/-- hex.go:19-21. -/
def Reader.len (r : Reader) : Int := r.source.length - r.idx

/-- hex.go:23-36 `ReadHexByte` (through `ReadHexBytes` with a one-byte buffer). The index cannot overflow: a source
has fewer than 2^62 bytes. -/
def Reader.readHexByte (r : Reader) : Res Unit (UInt8 × Reader) :=
  let idx := r.idx + 2
  if (r.source.length : Int) < idx then .err ()
  else match goSlice r.source r.idx idx with
    | .panic => .panic
    | .val s => match hexDec s with
      | some [b] => .ok (b, { r with idx := idx })
      | _ => .err ()

/-- hex.go:38-44 `ReadString`. When `r.idx + size` exceeds 64 bits the sum wraps to a negative number, the end-of-input
test is false and the slice expression panics. -/
def Reader.readString (r : Reader) (size : Int) : Res Unit (Bytes × Reader) :=
  let idx := r.idx + size
  if (r.source.length : Int) < idx then (if 2 ^ 63 ≤ idx then .panic else .err ())
  else match goSlice r.source r.idx idx with
    | .panic => .panic
    | .val s => .ok (s, { r with idx := idx })

/-- encoding.go:99-109: the loop of `readVarInt`. Each iteration consumes two characters, so `fuel = len(source)` is
enough; running out of fuel cannot happen and is reported as an error. -/
def readVarIntLoop : Nat → Reader → Int → Res Unit (Int × Reader)
  | 0, _, _ => .err ()
  | fuel + 1, r, res => do
    let (b, r) ← r.readHexByte
    let res := wrap64 (res * 128) + (b &&& 127).toNat
    if b &&& 128 = 0 then return (res, r)
    readVarIntLoop fuel r res

/-- encoding.go:96-112 `readVarInt`. -/
def readVarInt (r : Reader) : Res Unit (Int × Reader) := readVarIntLoop (r.source.length + 1) r 0

/-- encoding.go:114-121 `writeVarInt`; `w` is the writer's hex buffer. -/
def writeVarInt (w : Bytes) (n : Int) : Out Bytes :=
  if n = 0 then .val (w ++ hexEnc [0])
  else do
    let e ← encodeVarInt n
    return w ++ hexEnc e

/-! ## Timestamps and bounds -/

/-- encoding.go:9-32 `readTimestamp`; `last` is `lastTimestampIn`. Returns the timestamp, which is also the new cached
value. -/
def readTimestamp (last : Int) (r : Reader) : Res Unit (Int × Reader) := do
  let (delta, r) ← readVarInt r
  if delta = 0 then return (maxTimestamp, r)
  return (wrap64 (last + wrap64 (delta - 1)), r)

/-- encoding.go:34-51 `readBound`; the new cached timestamp is the bound's timestamp. -/
def readBound (last : Int) (r : Reader) : Res Unit (Item × Reader) := do
  let (ts, r) ← readTimestamp last r
  let (length, r) ← readVarInt r
  let (id, r) ← r.readString (wrap64 (length * 2))
  return (⟨ts, id⟩, r)

/-- encoding.go:53-70 `writeTimestamp`; `last` is `lastTimestampOut`, whose new value is `timestamp`. -/
def writeTimestamp (last : Int) (w : Bytes) (timestamp : Int) : Out Bytes :=
  if timestamp = maxTimestamp then writeVarInt w 0
  else writeVarInt w (wrap64 (wrap64 (timestamp - last) + 1))

/-- encoding.go:72-76 `writeBound`. -/
def writeBound (last : Int) (w : Bytes) (bound : Item) : Out Bytes := do
  let w ← writeTimestamp last w bound.ts
  let w ← writeVarInt w ((bound.id.length / 2 : Nat) : Int)
  return w ++ bound.id

/-- encoding.go:85-90: the loop counting equal leading byte pairs; `n` iterations left, at pair `k`. -/
def sharedLoop (curr prev : Bytes) : Nat → Nat → Out Nat
  | 0, k => .val k
  | n + 1, k => do
    let a ← goSlice curr (2 * k : Nat) (2 * k + 2 : Nat)
    let b ← goSlice prev (2 * k : Nat) (2 * k + 2 : Nat)
    if a ≠ b then return k
    sharedLoop curr prev n (k + 1)

/-- encoding.go:78-94 `getMinimalBound`. -/
def getMinimalBound (prev curr : Item) : Out Item :=
  if curr.ts ≠ prev.ts then .val ⟨curr.ts, []⟩
  else do
    let k ← sharedLoop curr.id prev.id 16 0
    let id ← goSlice curr.id 0 ((k + 1) * 2 : Nat)
    return ⟨curr.ts, id⟩

/-! ## Accumulator and fingerprint -/

/-- `binary.LittleEndian.Uint32` of four bytes. -/
def le32 (a b c d : UInt8) : Nat := a.toNat + 256 * b.toNat + 65536 * c.toNat + 16777216 * d.toNat

/-- `binary.LittleEndian.PutUint32`. -/
def put32 (n : Nat) : Bytes :=
  [UInt8.ofNat (n % 256), UInt8.ofNat (n / 256 % 256), UInt8.ofNat (n / 65536 % 256), UInt8.ofNat (n / 16777216 % 256)]

/-- storage/accumulator.go:28-41: the loop over the words of `acc.Buf[:32]` (first argument) and `other`, with the
carry. Reading past the end of `other` panics. -/
def addWords : Bytes → Bytes → Nat → Out Bytes
  | a0 :: a1 :: a2 :: a3 :: as, b0 :: b1 :: b2 :: b3 :: bs, carry => do
    let orig := le32 a0 a1 a2 a3
    let other := le32 b0 b1 b2 b3
    let next := (orig + carry + other) % 2 ^ 32
    let nextCarry := if next < orig ∨ next < other then 1 else 0
    let rest ← addWords as bs nextCarry
    return put32 next ++ rest
  | [], _, _ => .val []
  | _, _, _ => .panic

/-- storage/accumulator.go:25-42 `AddBytes` on the 32 bytes of the buffer. -/
def accAdd (acc other : Bytes) : Out Bytes := addWords acc other 0

/-- `hex.Decode(tmp, id)` with the error ignored: the decoded prefix overwrites the buffer. -/
def hexDecodeInto (tmp id : Bytes) : Bytes := hexDecPartial id ++ tmp.drop (hexDecPartial id).length

/-- storage/vector/vector.go:72-75: the loop of `Fingerprint`. -/
def accumulate (acc tmp : Bytes) : List Item → Out Bytes
  | [] => .val acc
  | item :: rest => do
    let tmp := hexDecodeInto tmp item.id
    let acc ← accAdd acc tmp
    accumulate acc tmp rest

/-- storage/accumulator.go:44-49 `GetFingerprint`. -/
def getFingerprint (H : Hash32) (acc : Bytes) (n : Int) : Out Bytes := do
  let v ← encodeVarInt n
  return hexEnc ((H (acc ++ v)).val.take 16)

/-- Items `begin..end-1` as `Range(begin, end)` yields them (vector.go:53-61); indexing past the end panics. -/
def vecRange (items : List Item) (b e : Nat) : Out (List Item) :=
  if b < e ∧ items.length < e then .panic else .val ((items.drop b).take (e - b))

/-- storage/vector/vector.go:68-78 `Fingerprint`. -/
def fingerprint (H : Hash32) (items : List Item) (b e : Nat) : Out Bytes := do
  let r ← vecRange items b e
  let acc ← accumulate (List.replicate 32 0) (List.replicate 32 0) r
  getFingerprint H acc ((e : Int) - b)

/-! ## Vector storage -/

/-- storage/vector/vector.go:27-34 `Insert`. -/
def vecInsert (items : List Item) (ts : Int) (id : Bytes) : Out (List Item) :=
  if id.length ≠ 64 then .panic else .val (items ++ [⟨ts, id⟩])

/-- `slices.SortFunc(items, ItemCompare)` modelled as an insertion sort (any sorting algorithm gives the same list up to
equal items, which are identical). -/
def insertSorted (x : Item) : List Item → List Item
  | [] => [x]
  | y :: ys => if itemCompare x y ≤ 0 then x :: y :: ys else y :: insertSorted x ys

/-- storage/vector/vector.go:38-44 `Seal` (the sort). -/
def vecSeal : List Item → List Item
  | [] => []
  | x :: xs => insertSorted x (vecSeal xs)

/-- `slices.BinarySearchFunc`: the loop on `i, j` (`fuel` bounds the iterations; `j - i` halves). -/
def binarySearch (xs : List Item) (target : Item) : Nat → Nat → Nat → Nat
  | 0, i, _ => i
  | fuel + 1, i, j =>
    if i < j then
      let h := (i + j) / 2
      match xs[h]? with
      | none => i
      | some x => if itemCompare x target < 0 then binarySearch xs target fuel (h + 1) j
                  else binarySearch xs target fuel i h
    else i

/-- storage/vector/vector.go:63-66 `FindLowerBound(begin, end, bound)`; slicing out of range panics. -/
def findLowerBound (items : List Item) (b e : Nat) (bound : Item) : Out Nat :=
  if b ≤ e ∧ e ≤ items.length then
    let xs := (items.drop b).take (e - b)
    .val (b + binarySearch xs bound xs.length 0 xs.length)
  else .panic

/-! ## negentropy.go -/

/-- negentropy.go:20-30 `Negentropy` over a sealed vector. `limit = none` is frame size limit 0, which the code turns into
`math.MaxInt` (never reached). The two channels are the lists of what was sent on them (their consumers are assumed to
keep reading). -/
structure Neg where
  items : List Item
  limit : Option Int := none
  isClient : Bool := false
  lastIn : Int := 0
  lastOut : Int := 0
  haves : List Bytes := []
  haveNots : List Bytes := []
  deriving Repr

/-- negentropy.go:32-45 `New`. -/
def Neg.new (items : List Item) (frameSizeLimit : Int) : Out Neg :=
  if frameSizeLimit = 0 then .val { items := items }
  else if frameSizeLimit < 4096 then .panic
  else .val { items := items, limit := some frameSizeLimit }

/-- The writer together with `lastTimestampOut`. -/
structure Wr where
  buf : Bytes
  last : Int
  deriving DecidableEq, Repr

/-- `n.writeBound(w, bound)`. -/
def Wr.bound (w : Wr) (b : Item) : Out Wr := do
  let buf ← writeBound w.last w.buf b
  return ⟨buf, b.ts⟩

/-- `w.WriteByte(b)`. -/
def Wr.byte (w : Wr) (b : UInt8) : Wr := { w with buf := w.buf ++ hexEnc [b] }

/-- `writeVarInt(w, n)`. -/
def Wr.varInt (w : Wr) (n : Int) : Out Wr := do
  let buf ← writeVarInt w.buf n
  return { w with buf := buf }

/-- `w.WriteHex(s)`. -/
def Wr.hex (w : Wr) (s : Bytes) : Wr := { w with buf := w.buf ++ s }

/-- negentropy.go:278-284: the items around a bucket boundary. -/
def boundaryItems (items : List Item) (curr : Nat) : Out (Item × Item) := do
  let r ← vecRange items (curr - 1) (curr + 1)
  match r with
  | [p, c] => return (p, c)
  | _ => .panic

/-- negentropy.go:264-293: the bucket loop of `SplitRange`; `k` buckets left, at bucket number `i`. -/
def splitLoop (H : Hash32) (items : List Item) (upper : Nat) (upperBound : Item) (per extra : Nat) :
    Nat → Nat → Nat → Wr → Out Wr
  | 0, _, _, w => .val w
  | k + 1, i, curr, w => do
    let size := if i < extra then per + 1 else per
    let fp ← fingerprint H items curr (curr + size)
    let curr := curr + size
    let nextBound ← (if curr = upper then .val upperBound else do
      let (p, c) ← boundaryItems items curr
      getMinimalBound p c)
    let w ← w.bound nextBound
    splitLoop H items upper upperBound per extra k (i + 1) curr ((w.byte 1).hex fp)

/-- negentropy.go:247-295 `SplitRange` (`lower ≤ upper`). -/
def splitRange (H : Hash32) (items : List Item) (lower upper : Nat) (upperBound : Item) (w : Wr) : Out Wr :=
  let numElems := upper - lower
  if numElems < 32 then do
    let w ← w.bound upperBound
    let w ← (w.byte 2).varInt numElems
    let r ← vecRange items lower upper
    return w.hex (r.map (·.id)).flatten
  else splitLoop H items upper upperBound (numElems / 16) (numElems % 16) 16 0 lower w

/-- negentropy.go:58-67 `Start`. -/
def start (H : Hash32) (n : Neg) : Out (Bytes × Neg) := do
  let w ← splitRange H n.items 0 n.items.length infiniteBound ⟨hexEnc [0x61], n.lastOut⟩
  return (w.buf, { n with isClient := true, lastOut := w.last })

/-- negentropy.go:162-168: the loop reading ids. -/
def readIds : Nat → Reader → Res Unit (List Bytes × Reader)
  | 0, r => .ok ([], r)
  | k + 1, r => do
    let (id, r) ← r.readString 64
    let (ids, r) ← readIds k r
    return (id :: ids, r)

/-- negentropy.go:171-183: the loop over our own items; `theirs` is the set `theirItems`. Returns the ids they lack and
what is left of the set. -/
def cancelIds : List Bytes → List Bytes → List Bytes × List Bytes
  | theirs, [] => ([], theirs)
  | theirs, id :: mine =>
    if id ∈ theirs then cancelIds (theirs.filter (· ≠ id)) mine
    else
      let (h, t) := cancelIds theirs mine
      (id :: h, t)

/-- negentropy.go:204-212: the loop collecting response ids; returns the ids, and the item at which it stopped with its
index, if it stopped. `full` is `fullOutput.Len()`, `resp` the length collected so far. -/
def respLoop (limit : Option Int) (full : Nat) : Nat → Nat → List Item → List Bytes × Option (Item × Nat)
  | _, _, [] => ([], none)
  | resp, index, item :: rest =>
    if (match limit with | none => false | some l => decide (l - 200 < ((full / 2 + resp / 2 : Nat) : Int))) then
      ([], some (item, index))
    else
      let (ids, stop) := respLoop limit full (resp + item.id.length) (index + 1) rest
      (item.id :: ids, stop)

/-- State of the message loop of `reconcileAux`. -/
structure Loop where
  n : Neg
  r : Reader
  /-- `fullOutput` -/
  full : Bytes
  prevBound : Item
  prevIndex : Nat
  skipping : Bool

/-- negentropy.go:114-121 `finishSkip`. -/
def finishSkip (skipping : Bool) (prevBound : Item) (w : Wr) : Out Wr :=
  if skipping then do
    let w ← w.bound prevBound
    return w.byte 0
  else .val w

/-- Turn a panicking computation into one with errors. -/
def lift {α : Type} : Out α → Res Unit α
  | .val a => .ok a
  | .panic => .panic

/-- The test `n.frameSizeLimit-200 < a/2 + b/2` (negentropy.go:227). -/
def exceeded (limit : Option Int) (a b : Nat) : Bool :=
  match limit with
  | none => false
  | some l => decide (l - 200 < ((a / 2 + b / 2 : Nat) : Int))

/-- What the `switch` on the mode leaves behind. -/
structure Sw where
  n : Neg
  r : Reader
  /-- `partialOutput` with `lastTimestampOut` -/
  part : Wr
  full : Bytes
  upper : Nat
  skipping : Bool

/-- negentropy.go:140-152: fingerprint mode. -/
def switchFingerprint (H : Hash32) (s : Loop) (n : Neg) (r : Reader) (currBound : Item) (lower upper : Nat) :
    Res Unit Sw := do
  let (theirs, r) ← r.readString 32
  let ours ← lift (fingerprint H n.items lower upper)
  if theirs = ours then return ⟨n, r, ⟨[], n.lastOut⟩, s.full, upper, true⟩
  else
    let w ← lift (finishSkip s.skipping s.prevBound ⟨[], n.lastOut⟩)
    let w ← lift (splitRange H n.items lower upper currBound w)
    return ⟨n, r, w, s.full, upper, false⟩

/-- negentropy.go:185-193: a client that got a list of ids reports the differences. -/
def switchIdsClient (s : Loop) (n : Neg) (r : Reader) (ids : List Bytes) (mine : List Item) (upper : Nat) : Sw :=
  let c := cancelIds ids.dedup (mine.map (·.id))
  ⟨{ n with haves := n.haves ++ c.1, haveNots := n.haveNots ++ c.2 }, r, ⟨[], n.lastOut⟩, s.full, upper, true⟩

/-- negentropy.go:194-221: a server that got a list of ids answers with its own. -/
def switchIdsServer (s : Loop) (n : Neg) (r : Reader) (currBound : Item) (mine : List Item) (lower upper : Nat) :
    Out Sw := do
  let w ← finishSkip s.skipping s.prevBound ⟨[], n.lastOut⟩
  let (resp, stop) := respLoop n.limit s.full.length 0 lower mine
  let (endBound, upper) := match stop with
    | none => (currBound, upper)
    | some (item, index) => (item, index)
  let w ← w.bound endBound
  let w ← (w.byte 2).varInt resp.length
  let w := w.hex resp.flatten
  return ⟨n, r, ⟨[], w.last⟩, s.full ++ w.buf, upper, false⟩

/-- negentropy.go:154-221: id list mode. -/
def switchIds (s : Loop) (n : Neg) (r : Reader) (currBound : Item) (lower upper : Nat) : Res Unit Sw := do
  let (numIds, r) ← readVarInt r
  let (ids, r) ← readIds numIds.toNat r
  let mine ← lift (vecRange n.items lower upper)
  if n.isClient then return switchIdsClient s n r ids mine upper
  else lift (switchIdsServer s n r currBound mine lower upper)

/-- negentropy.go:136-225: the `switch`. -/
def switchMode (H : Hash32) (s : Loop) (n : Neg) (r : Reader) (currBound : Item) (lower upper : Nat) (mode : Int) :
    Res Unit Sw :=
  if mode = 0 then .ok ⟨n, r, ⟨[], n.lastOut⟩, s.full, upper, true⟩
  else if mode = 1 then switchFingerprint H s n r currBound lower upper
  else if mode = 2 then switchIds s n r currBound lower upper
  else .err ()

/-- negentropy.go:227-241: the frame size test at the end of an iteration; the flag tells to stop (`break`). -/
def stepEnd (H : Hash32) (s : Loop) (currBound : Item) (w : Sw) : Out (Loop × Bool) :=
  let n := { w.n with lastOut := w.part.last }
  if exceeded n.limit w.full.length w.part.buf.length then do
    let rem ← fingerprint H n.items w.upper n.items.length
    let o ← (⟨w.full, n.lastOut⟩ : Wr).bound infiniteBound
    let o := (o.byte 1).hex rem
    return ({ n := { n with lastOut := o.last }, r := w.r, full := o.buf, prevBound := s.prevBound,
              prevIndex := s.prevIndex, skipping := w.skipping }, true)
  else
    return ({ n := n, r := w.r, full := w.full ++ w.part.buf, prevBound := currBound, prevIndex := w.upper,
              skipping := w.skipping }, false)

/-- negentropy.go:111-242: one iteration of the message loop. -/
def loopStep (H : Hash32) (s : Loop) : Res Unit (Loop × Bool) := do
  let (currBound, r) ← readBound s.n.lastIn s.r
  let n := { s.n with lastIn := currBound.ts }
  let (modeVal, r) ← readVarInt r
  let upper ← lift (findLowerBound n.items s.prevIndex n.items.length currBound)
  -- Mode is a uint8
  let w ← switchMode H s n r currBound s.prevIndex upper (modeVal % 256)
  lift (stepEnd H s currBound w)

/-- negentropy.go:111: the message loop. Each iteration consumes input, so `fuel = len(message) + 1` is enough. -/
def loop (H : Hash32) : Nat → Loop → Res Unit Loop
  | 0, _ => .err ()
  | fuel + 1, s =>
    if s.r.len > 0 then do
      let (s', stop) ← loopStep H s
      if stop then return s'
      loop H fuel s'
    else .ok s

/-- negentropy.go:87-245 `reconcileAux`. -/
def reconcileAux (H : Hash32) (n : Neg) (msg : Bytes) : Res Unit (Bytes × Neg) := do
  let n := { n with lastIn := 0, lastOut := 0 }
  let (pv, r) ← (⟨msg, 0⟩ : Reader).readHexByte
  if pv ≠ 0x61 then
    if n.isClient then .err () else return (hexEnc [0x61], n)
  else do
    let s ← loop H (msg.length + 1)
      { n := n, r := r, full := hexEnc [0x61], prevBound := ⟨0, []⟩, prevIndex := 0, skipping := false }
    return (s.full, s.n)

/-- negentropy.go:69-85 `Reconcile`: the flag tells that both channels were closed (done). -/
def reconcile (H : Hash32) (n : Neg) (msg : Bytes) : Res Unit (Bytes × Neg × Bool) := do
  let (output, n) ← reconcileAux H n msg
  if output.length = 2 ∧ n.isClient then return ([], n, true)
  return (output, n, false)

end GoNostr.Neg
