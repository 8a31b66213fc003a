import Verif.Filter.Model
import Verif.Helpers.Model
/-!
# HyperLogLog (nip45)

Model of `nip45/hyperloglog` (registers, merging; the estimate is in `Count`) and of the offset functions of `nip45`.
-/

set_option autoImplicit false

namespace GoNostr.HLL

/-- nip45/hyperloglog/hll.go:10-13. Registers are `uint8`s in the code; only compared and copied here. -/
structure Sketch where
  offset : Nat
  registers : List Nat
  deriving DecidableEq, Repr

/-- hll.go:15-25 `New`. -/
def new (offset : Int) : Out Sketch :=
  if offset < 0 ∨ offset > 32 - 8 then .panic
  else .val { offset := offset.toNat, registers := List.replicate 256 0 }

/-- hll.go:27-35 `NewWithRegisters`. -/
def newWithRegisters (registers : List Nat) (offset : Int) : Out Sketch :=
  if offset < 0 ∨ offset > 32 - 8 then .panic
  else if registers.length ≠ 256 then .panic
  else .val { offset := offset.toNat, registers := registers }

/-- `if v > hll.registers[i] { hll.registers[i] = v }` (hll.go:41-43, 61-63, 74-76, 81-83). -/
def setMax (regs : List Nat) (i v : Nat) : Out (List Nat) := do
  let r ← goIndex regs i
  if v > r then return regs.set i v
  return regs

/-- The loop `for i, v := range other` of `MergeRegisters`/`Merge` (nip45/hyperloglog/hll.go:39-44, 79-84). -/
def mergeLoop (regs : List Nat) (i : Nat) : List Nat → Out (List Nat)
  | [] => .val regs
  | v :: rest => do
    let regs' ← setMax regs i v
    mergeLoop regs' (i + 1) rest

/-- hll.go:39-45 `MergeRegisters`. -/
def mergeRegisters (h : Sketch) (other : List Nat) : Out Sketch := do
  let r ← mergeLoop h.registers 0 other
  return { h with registers := r }

/-- hll.go:79-85 `Merge`. -/
def merge (h other : Sketch) : Out Sketch := mergeRegisters h other.registers

/-- hll.go:47-51 `Clear`. -/
def clear (h : Sketch) : Sketch := { h with registers := h.registers.map (fun _ => 0) }

/-- `binary.BigEndian.Uint64` of the first 8 bytes. -/
def beUint64 (x : Bytes) : Nat := (x.take 8).foldl (fun n c => n * 256 + c.toNat) 0

/-- helpers.go:14-20 `clz56`: the mask runs over bits 55..0 (`n` bits left to test). -/
def clzLoop (x : Nat) : Nat → Nat
  | 0 => 0
  | n + 1 => if x.testBit n then 0 else clzLoop x n + 1

/-- nip45/hyperloglog/helpers.go:14-20 `clz56`. -/
def clz56 (x : Nat) : Nat := clzLoop x 56

/-- hll.go:56-63 and 69-76: what `Add` and `AddBytes` do with the 8 bytes `x`; `x[0]` and `Uint64(x)` panic on short
input. -/
def addKey (h : Sketch) (x : Bytes) : Out Sketch := do
  let j ← goIndex x 0
  let _ ← goIndex x 7
  let zeroBits := clz56 (beUint64 x) + 1
  let r ← setMax h.registers j.toNat zeroBits
  return { h with registers := r }

/-- hll.go:54-64 `Add`. -/
def add (h : Sketch) (pubkey : Bytes) : Out Sketch := do
  let s ← goSlice pubkey (h.offset * 2) (h.offset * 2 + 8 * 2)
  addKey h (hexDecPartial s)

/-- hll.go:67-77 `AddBytes`. -/
def addBytes (h : Sketch) (pubkey : Bytes) : Out Sketch := do
  let x ← goSlice pubkey h.offset (h.offset + 8)
  addKey h x

/-- Adding pubkeys one after the other. -/
def addAll (h : Sketch) : List Bytes → Out Sketch
  | [] => .val h
  | p :: rest => do
    let h' ← add h p
    addAll h' rest

/-! ## nip45 offsets -/

/-- `strconv.ParseInt(v[32:33], 16, 64)`: `none` is an error. -/
def nibble32 (v : Bytes) : Out (Option Int) := do
  let s ← goSlice v 32 33
  let c ← goIndex s 0
  return (hexVal c).map (fun x => (x.toNat : Int))

/-- The value used when the error is ignored (`p, _ := …`): 0 on error. -/
def nibble32Value (v : Bytes) : Out Int := do
  return (← nibble32 v).getD 0

/-- nip45/hll_event.go:13-24 (kind 3): one pair per valid "p" tag. -/
def offsetsKind3 : Tags → Out (List (Bytes × Int))
  | [] => .val []
  | tag :: rest =>
    match tag with
    | k :: v :: _ =>
      if k = b! "p" ∧ isValid32ByteHex v then do
        let p ← nibble32Value v
        let r ← offsetsKind3 rest
        return (v, p + 8) :: r
      else offsetsKind3 rest
    | _ => offsetsKind3 rest

/-- nip45/…:29-39 and 43-53: one pair for the chosen tag, if any. -/
def offsetsOfTag : Option Tag → Out (List (Bytes × Int))
  | none => .val []
  | some t => do
    let v ← goIndex t 1
    if isValid32ByteHex v then
      let p ← nibble32Value v
      return [(v, p + 8)]
    else return []

/-- nip45 `HyperLogLogEventPubkeyOffsetsAndReferencesForEvent`: the sequence yielded to a consumer that never stops (nip45/hll_event.go:10-56). -/
def offsetsForEvent (evt : Event) : Out (List (Bytes × Int)) :=
  if evt.kind = 3 then offsetsKind3 evt.tags
  else if evt.kind = 7 then offsetsOfTag (Tags.findLast (b! "e") evt.tags)
  else if evt.kind = 1111 then offsetsOfTag (Tags.find (b! "E") evt.tags)
  else .val []

/-- One of the three branches of `HyperLogLogEventPubkeyOffsetForFilter`: the only value of the tag and the kind (nip45/hll_filter.go:21-59). -/
def offsetBranch (kind : Int) (kinds : List Int) (vals : List Bytes) : Out Int :=
  match vals with
  | [v] =>
    if isValid32ByteHex v then do
      let k ← goIndex kinds 0
      if k = kind then
        match (← nibble32 v) with
        | none => return -1
        | some p => return p + 8
      else return -1
    else .val (-1)
  | _ => .val (-1)

/-- nip45 `HyperLogLogEventPubkeyOffsetForFilter` (nip45/hll_filter.go:13-64). -/
def offsetForFilter (f : Filter) : Out Int :=
  if f.ids ≠ none ∨ f.since ≠ none ∨ f.until ≠ none ∨ f.authors ≠ none ∨ (elems f.kinds).length ≠ 1 ∨ f.search ≠ [] ∨
      (tagEntries f.tags).length ≠ 1 then .val (-1)
  else match mapLookup (tagEntries f.tags) (b! "p") with
    | some v => offsetBranch 3 (elems f.kinds) (elems v)
    | none => match mapLookup (tagEntries f.tags) (b! "e") with
      | some v => offsetBranch 7 (elems f.kinds) (elems v)
      | none => match mapLookup (tagEntries f.tags) (b! "E") with
        | some v => offsetBranch 1111 (elems f.kinds) (elems v)
        | none => .val (-1)

end GoNostr.HLL
