import Verif.Tags.Model
/-!
# Filters and kinds

Model of `filter.go`, `kinds.go`, `similar`/`arePointerValuesEqual` of `helpers.go` and the comparators of `utils.go`.
-/

set_option autoImplicit false

namespace GoNostr

/-- filter.go:25 `TagMap`: the entries of the map in some iteration order (keys are distinct in a Go map; theorems that
need it assume it); a value may be a nil slice. -/
abbrev TagMap := List (Bytes × Option (List Bytes))

/-- filter.go:11-23. `none` is a nil slice/map/pointer. -/
structure Filter where
  ids : Option (List Bytes) := none
  kinds : Option (List Int) := none
  authors : Option (List Bytes) := none
  tags : Option TagMap := none
  since : Option Int := none
  «until» : Option Int := none
  limit : Int := 0
  search : Bytes := []
  limitZero : Bool := false
  deriving DecidableEq, Repr

/-- `v != nil && !slices.Contains(v, x)` is false: the condition lets `x` through (filter.go:71-95). -/
def passes {α : Type} [DecidableEq α] (v : Option (List α)) (x : α) : Bool :=
  match v with
  | none => true
  | some l => l.contains x

/-- filter.go:88-92: the loop over the tag conditions. -/
def matchTagsLoop (evTags : Tags) : TagMap → Bool
  | [] => true
  | (f, v) :: rest =>
    match v with
    | none => matchTagsLoop evTags rest
    | some vals => if ¬ Tags.containsAny f vals evTags then false else matchTagsLoop evTags rest

/-- Ranging over a nil map does nothing. -/
def tagEntries (t : Option TagMap) : TagMap :=
  match t with
  | none => []
  | some m => m

/-- filter.go:71-95 `MatchesIgnoringTimestampConstraints` (`none` is a nil event). -/
def Filter.matchesIgnoringTimestamps (ef : Filter) : Option Event → Bool
  | none => false
  | some e =>
    if ¬ passes ef.ids e.id then false
    else if ¬ passes ef.kinds e.kind then false
    else if ¬ passes ef.authors e.pubkey then false
    else matchTagsLoop e.tags (tagEntries ef.tags)

/-- filter.go:55-69 `Matches`. -/
def Filter.matches (ef : Filter) (event : Option Event) : Bool :=
  if ¬ ef.matchesIgnoringTimestamps event then false
  else match event with
    | none => false
    | some e =>
      if (match ef.since with | some s => decide (e.createdAt < s) | none => false) then false
      else if (match ef.until with | some u => decide (e.createdAt > u) | none => false) then false
      else true

/-- filter.go:32-39 `Filters.Match`. -/
def Filters.match (event : Option Event) : List Filter → Bool
  | [] => false
  | f :: rest => if f.matches event then true else Filters.match event rest

/-- filter.go:41-48 `Filters.MatchIgnoringTimestampConstraints`. -/
def Filters.matchIgnoringTimestamps (event : Option Event) : List Filter → Bool
  | [] => false
  | f :: rest => if f.matchesIgnoringTimestamps event then true else Filters.matchIgnoringTimestamps event rest

/-- helpers.go:31-50 `similar`: the outer loop. -/
def similarLoop {α : Type} [DecidableEq α] (bs : List α) : List α → Bool
  | [] => true
  | a :: rest => if bs.contains a then similarLoop bs rest else false

/-- The elements of a possibly nil slice, as `len` and `range` see them. -/
def elems {α : Type} (v : Option (List α)) : List α :=
  match v with
  | none => []
  | some l => l

/-- helpers.go:31-50 `similar`. -/
def similar {α : Type} [DecidableEq α] (as bs : Option (List α)) : Bool :=
  if (elems as).length ≠ (elems bs).length then false else similarLoop (elems bs) (elems as)

/-- Go map lookup `v, ok := m[k]`. -/
def mapLookup (m : TagMap) (k : Bytes) : Option (Option (List Bytes)) :=
  match m with
  | [] => none
  | (k', v) :: rest => if k' = k then some v else mapLookup rest k

/-- filter.go:114-122: the loop over the tags of `a`. -/
def filterEqualTags (bt : TagMap) : TagMap → Bool
  | [] => true
  | (f, av) :: rest =>
    match mapLookup bt f with
    | none => false
    | some bv => if ¬ similar av bv then false else filterEqualTags bt rest

/-- filter.go:97-141 `FilterEqual` (helpers.go:92-100 `arePointerValuesEqual` is equality of optional values). -/
def filterEqual (a b : Filter) : Bool :=
  if ¬ similar a.kinds b.kinds then false
  else if ¬ similar a.ids b.ids then false
  else if ¬ similar a.authors b.authors then false
  else if (tagEntries a.tags).length ≠ (tagEntries b.tags).length then false
  else if ¬ filterEqualTags (tagEntries b.tags) (tagEntries a.tags) then false
  else if a.since ≠ b.since then false
  else if a.until ≠ b.until then false
  else if a.search ≠ b.search then false
  else if a.limitZero ≠ b.limitZero then false
  else true

/-! ## kinds.go -/

/-- kinds.go:138-140. -/
def isRegularKind (kind : Int) : Bool := kind < 10000 && kind ≠ 0 && kind ≠ 3

/-- kinds.go:142-144. -/
def isReplaceableKind (kind : Int) : Bool := kind = 0 || kind = 3 || (10000 ≤ kind && kind < 20000)

/-- kinds.go:146-148. -/
def isEphemeralKind (kind : Int) : Bool := 20000 ≤ kind && kind < 30000

/-- kinds.go:150-152. -/
def isAddressableKind (kind : Int) : Bool := 30000 ≤ kind && kind < 40000

/-- filter.go:189-195, 201-207: "all kinds satisfy `q`" loop. -/
def allKinds (q : Int → Bool) : List Int → Bool
  | [] => true
  | k :: rest => if ¬ q k then false else allKinds q rest

/-- `filter.Tags["d"]` (nil when absent). -/
def dValues (t : Option TagMap) : List Bytes :=
  match mapLookup (tagEntries t) (b! "d") with
  | none => []
  | some v => elems v

/-- filter.go:179-215 `GetTheoreticalLimit` (no overflow of the products is modelled). -/
def getTheoreticalLimit (f : Filter) : Int :=
  if (elems f.ids).length > 0 then (elems f.ids).length
  else if (elems f.kinds).length = 0 then -1
  else if (elems f.authors).length > 0 then
    if allKinds isReplaceableKind (elems f.kinds) then (elems f.authors).length * (elems f.kinds).length
    else if (dValues f.tags).length > 0 ∧ allKinds isAddressableKind (elems f.kinds) then
      (elems f.authors).length * (elems f.kinds).length * (dValues f.tags).length
    else -1
  else -1

/-! ## utils.go: comparators -/

/-- `strings.Compare`: three-way lexicographic comparison of byte strings. -/
def compareStrings : Bytes → Bytes → Int
  | [], [] => 0
  | [], _ :: _ => -1
  | _ :: _, [] => 1
  | a :: as, b :: bs => if a < b then -1 else if b < a then 1 else compareStrings as bs

/-- `cmp.Compare` on timestamps. -/
def compareInts (a b : Int) : Int := if a < b then -1 else if a > b then 1 else 0

/-- utils.go:35-40 `CompareEvent`. -/
def compareEvent (a b : Event) : Int :=
  if a.createdAt = b.createdAt then compareStrings a.id b.id else compareInts a.createdAt b.createdAt

/-- utils.go:43-48 `CompareEventReverse(b, a)`: note the parameter order. -/
def compareEventReverse (b a : Event) : Int :=
  if a.createdAt = b.createdAt then compareStrings a.id b.id else compareInts a.createdAt b.createdAt

/-- utils.go:51-66 `CompareEventPtr`. -/
def compareEventPtr (a b : Option Event) : Int :=
  match a, b with
  | none, none => 0
  | none, some _ => -1
  | some _, none => 1
  | some a, some b =>
    if a.createdAt = b.createdAt then compareStrings a.id b.id else compareInts a.createdAt b.createdAt

/-- utils.go:69-84 `CompareEventPtrReverse(b, a)`. -/
def compareEventPtrReverse (b a : Option Event) : Int :=
  match a, b with
  | none, none => 0
  | none, some _ => -1
  | some _, none => 1
  | some a, some b =>
    if a.createdAt = b.createdAt then compareStrings a.id b.id else compareInts a.createdAt b.createdAt

end GoNostr
