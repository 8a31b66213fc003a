import Verif.Event.Model
/-!
# Tag operations

Model of `tags.go`.
-/

set_option autoImplicit false

namespace GoNostr

/-- tags.go:21-25: the equality loop of `StartsWith` over the first `n` positions starting at `i` (`n = prefixLen-1-i`);
indexing is bounds-checked. -/
def startsWithLoop (tag pre : List Bytes) : Nat → Nat → Out Bool
  | 0, _ => .val true
  | n + 1, i => do
    let a ← goIndex pre i
    let b ← goIndex tag i
    if a ≠ b then return false
    startsWithLoop tag pre n (i + 1)

/-- tags.go:14-28 `Tag.StartsWith`. `tag[prefixLen-1]` with an empty prefix is an out-of-range index. -/
def Tag.startsWith (tag : Tag) (pre : List Bytes) : Out Bool :=
  if pre.length > tag.length then .val false
  else do
    let eq ← startsWithLoop tag pre (pre.length - 1) 0
    if eq = false then return false
    let t ← goIndex tag ((pre.length : Int) - 1)
    let p ← goIndex pre ((pre.length : Int) - 1)
    return p.isPrefixOf t

/-- tags.go:31-36 `Tag.Key`. -/
def Tag.key : Tag → Bytes
  | [] => []
  | k :: _ => k

/-- tags.go:39-44 `Tag.Value`. -/
def Tag.value : Tag → Bytes
  | _ :: v :: _ => v
  | _ => []

/-- tags.go:57-64 `Tags.GetD`. -/
def Tags.getD : Tags → Bytes
  | [] => []
  | (k :: v :: _) :: rest => if k = b! "d" then v else Tags.getD rest
  | _ :: rest => Tags.getD rest

/-- tags.go:67-74 `Tags.GetFirst` (`none` is the nil pointer). -/
def Tags.getFirst (pre : List Bytes) : Tags → Out (Option Tag)
  | [] => .val none
  | v :: rest => do
    if (← Tag.startsWith v pre) then return some v
    Tags.getFirst pre rest

/-- tags.go:77-85 `Tags.GetLast`: the same loop from the end. -/
def Tags.getLast (pre : List Bytes) (tags : Tags) : Out (Option Tag) := Tags.getFirst pre tags.reverse

/-- tags.go:88-96 `Tags.GetAll`. -/
def Tags.getAll (pre : List Bytes) : Tags → Out Tags
  | [] => .val []
  | v :: rest => do
    let s ← Tag.startsWith v pre
    let r ← Tags.getAll pre rest
    return if s then v :: r else r

/-- tags.go:112-120 `Tags.FilterOut`. -/
def Tags.filterOut (pre : List Bytes) : Tags → Out Tags
  | [] => .val []
  | v :: rest => do
    let s ← Tag.startsWith v pre
    let r ← Tags.filterOut pre rest
    return if s then r else v :: r

/-- tags.go:124-133: the loop of `FilterOutInPlace` on the slice `tags` at index `i`. Each iteration either advances `i`
or shortens the slice, so `fuel = len(tags) - i` iterations are enough. -/
def filterOutInPlaceLoop (pre : List Bytes) : Nat → Tags → Nat → Out Tags
  | 0, tags, _ => .val tags
  | fuel + 1, tags, i =>
    if i < tags.length then do
      let tag ← goIndex tags i
      if (← Tag.startsWith tag pre) then
        let last := tags.length - 1
        let l ← goIndex tags last
        filterOutInPlaceLoop pre fuel ((tags.set i l).take last) i
      else filterOutInPlaceLoop pre fuel tags (i + 1)
    else .val tags

/-- tags.go:123-134 `Tags.FilterOutInPlace`: the value of `*tags` afterwards. -/
def Tags.filterOutInPlace (pre : List Bytes) (tags : Tags) : Out Tags :=
  filterOutInPlaceLoop pre tags.length tags 0

/-- tags.go:137-147 `Tags.AppendUnique`. -/
def Tags.appendUnique (tags : Tags) (tag : Tag) : Out Tags := do
  let r ← Tags.getFirst (tag.take (if tag.length > 2 then 2 else tag.length)) tags
  return match r with
    | none => tags ++ [tag]
    | some _ => tags

/-- tags.go:150-157 `Tags.Find` (`none` is a nil tag). -/
def Tags.find (key : Bytes) : Tags → Option Tag
  | [] => none
  | v :: rest =>
    match v with
    | k :: _ :: _ => if k = key then some v else Tags.find key rest
    | _ => Tags.find key rest

/-- tags.go:160-170 `Tags.FindAll`: the sequence yielded to a consumer that never stops. -/
def Tags.findAll (key : Bytes) : Tags → List Tag
  | [] => []
  | v :: rest =>
    match v with
    | k :: _ :: _ => if k = key then v :: Tags.findAll key rest else Tags.findAll key rest
    | _ => Tags.findAll key rest

/-- tags.go:173-180 `Tags.FindWithValue`. -/
def Tags.findWithValue (key value : Bytes) : Tags → Option Tag
  | [] => none
  | v :: rest =>
    match v with
    | k :: x :: _ => if x = value ∧ k = key then some v else Tags.findWithValue key value rest
    | _ => Tags.findWithValue key value rest

/-- tags.go:183-191: the loop of `FindLast` over indices `i-1, …, 0`. -/
def findLastLoop (key : Bytes) (tags : Tags) : Nat → Option Tag
  | 0 => none
  | i + 1 =>
    match tags[i]? with
    | some (k :: x :: r) => if k = key then some (k :: x :: r) else findLastLoop key tags i
    | _ => findLastLoop key tags i

/-- tags.go:183-191 `Tags.FindLast`. -/
def Tags.findLast (key : Bytes) (tags : Tags) : Option Tag := findLastLoop key tags tags.length

/-- tags.go:194-202: the loop of `FindLastWithValue`. -/
def findLastWithValueLoop (key value : Bytes) (tags : Tags) : Nat → Option Tag
  | 0 => none
  | i + 1 =>
    match tags[i]? with
    | some (k :: x :: r) =>
      if x = value ∧ k = key then some (k :: x :: r) else findLastWithValueLoop key value tags i
    | _ => findLastWithValueLoop key value tags i

/-- tags.go:194-202 `Tags.FindLastWithValue`. -/
def Tags.findLastWithValue (key value : Bytes) (tags : Tags) : Option Tag :=
  findLastWithValueLoop key value tags tags.length

/-- tags.go:205-209 `Tags.Clone`: builds a copy and returns nil (the result type is `Tag`). -/
def Tags.clone (tags : Tags) : Option Tag :=
  let _newArr := tags
  none

/-- tags.go:221-225 `Tag.Clone`: builds a copy and returns nil. -/
def Tag.clone (tag : Tag) : Option Tag :=
  let _newArr := tag
  none

/-- tags.go:212-218 `Tags.CloneDeep`: builds an array of (nil) clones and returns nil. -/
def Tags.cloneDeep (tags : Tags) : Option Tag :=
  let _newArr := tags.map Tag.clone
  none

/-- tags.go:244-260 `Tags.ContainsAny`. -/
def Tags.containsAny (tagName : Bytes) (values : List Bytes) : Tags → Bool
  | [] => false
  | tag :: rest =>
    match tag with
    | k :: v :: _ =>
      if k ≠ tagName then Tags.containsAny tagName values rest
      else if v ∈ values then true
      else Tags.containsAny tagName values rest
    | _ => Tags.containsAny tagName values rest

end GoNostr
