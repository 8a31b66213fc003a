import Verif.Filter.Model
import Mathlib.Tactic.Common
/-!
# Filter.Clone on a heap

`filter.go:143-171` with slices, maps and pointers as references into a heap, so that aliasing can be stated.
-/

set_option autoImplicit false

namespace GoNostr.FilterHeap

/-- A heap object: a string slice's array, an int slice's array, a `Timestamp` variable, or a `TagMap` (whose values are
references to string slices; `none` is a nil slice). A slice refers to a whole array (no sub-slicing). -/
inductive Cell where
  | strs (l : List Bytes)
  | ints (l : List Int)
  | ts (t : Int)
  | map (m : List (Bytes × Option Nat))
  deriving DecidableEq, Repr

/-- Objects by address; `next` is the next free address. -/
structure Heap where
  cells : Nat → Option Cell
  next : Nat

/-- Nothing lives at or above `next`. -/
def Heap.WF (h : Heap) : Prop := ∀ a, h.next ≤ a → h.cells a = none

/-- Allocate an object. -/
def Heap.alloc (h : Heap) (c : Cell) : Heap × Nat :=
  ({ cells := fun a => if a = h.next then some c else h.cells a, next := h.next + 1 }, h.next)

/-- Overwrite the object at an address (any later in-place mutation through a slice, map or pointer). -/
def Heap.write (h : Heap) (a : Nat) (c : Cell) : Heap :=
  { h with cells := fun x => if x = a then some c else h.cells x }

/-- filter.go:11-23 with references (`none` is nil). -/
structure HFilter where
  ids : Option Nat
  kinds : Option Nat
  authors : Option Nat
  tags : Option Nat
  since : Option Nat
  «until» : Option Nat
  limit : Int
  search : Bytes
  limitZero : Bool

/-! ## Reading a filter out of the heap (`none` = dangling or ill-typed reference) -/

/-- Contents of a string slice reference. -/
def viewStrs (h : Heap) : Option Nat → Option (Option (List Bytes))
  | none => some none
  | some a => match h.cells a with
    | some (.strs l) => some (some l)
    | _ => none

/-- Contents of an int slice reference. -/
def viewInts (h : Heap) : Option Nat → Option (Option (List Int))
  | none => some none
  | some a => match h.cells a with
    | some (.ints l) => some (some l)
    | _ => none

/-- Contents of a timestamp pointer. -/
def viewTs (h : Heap) : Option Nat → Option (Option Int)
  | none => some none
  | some a => match h.cells a with
    | some (.ts t) => some (some t)
    | _ => none

/-- Contents of the entries of a tag map. -/
def viewEntries (h : Heap) : List (Bytes × Option Nat) → Option TagMap
  | [] => some []
  | (k, r) :: rest =>
    match viewStrs h r, viewEntries h rest with
    | some v, some m => some ((k, v) :: m)
    | _, _ => none

/-- Contents of a tag map reference. -/
def viewMap (h : Heap) : Option Nat → Option (Option TagMap)
  | none => some none
  | some a => match h.cells a with
    | some (.map m) => (viewEntries h m).map some
    | _ => none

/-- The filter value a program sees through the references. -/
def view (h : Heap) (f : HFilter) : Option Filter :=
  match viewStrs h f.ids, viewInts h f.kinds, viewStrs h f.authors, viewMap h f.tags, viewTs h f.since,
      viewTs h f.until with
  | some ids, some kinds, some authors, some tags, some since, some until_ =>
    some { ids := ids, kinds := kinds, authors := authors, tags := tags, since := since, «until» := until_,
           limit := f.limit, search := f.search, limitZero := f.limitZero }
  | _, _, _, _, _, _ => none

/-! ## Clone -/

/-- `slices.Clone(s)` and `x := *p; &x`: nil stays nil, otherwise a fresh copy (`none` = dangling reference) (filter.go:143-177). -/
def cloneRef (h : Heap) : Option Nat → Option (Heap × Option Nat)
  | none => some (h, none)
  | some a => match h.cells a with
    | some c => some ((h.alloc c).1, some (h.alloc c).2)
    | none => none

/-- filter.go:155-157: the loop cloning the values of the map. -/
def cloneEntries (h : Heap) : List (Bytes × Option Nat) → Option (Heap × List (Bytes × Option Nat))
  | [] => some (h, [])
  | (k, r) :: rest =>
    match cloneRef h r with
    | none => none
    | some (h1, r') =>
      match cloneEntries h1 rest with
      | none => none
      | some (h2, rest') => some (h2, (k, r') :: rest')

/-- filter.go:153-158: the map (allocated here once its entries are known). -/
def cloneMap (h : Heap) : Option Nat → Option (Heap × Option Nat)
  | none => some (h, none)
  | some a => match h.cells a with
    | some (.map m) =>
      match cloneEntries h m with
      | none => none
      | some (h1, m') => some ((h1.alloc (.map m')).1, some (h1.alloc (.map m')).2)
    | _ => none

/-- filter.go:143-171 `Filter.Clone`. -/
def clone (h : Heap) (f : HFilter) : Option (Heap × HFilter) := do
  let (h, ids) ← cloneRef h f.ids
  let (h, authors) ← cloneRef h f.authors
  let (h, kinds) ← cloneRef h f.kinds
  let (h, tags) ← cloneMap h f.tags
  let (h, since) ← cloneRef h f.since
  let (h, until_) ← cloneRef h f.until
  return (h, { ids := ids, kinds := kinds, authors := authors, tags := tags, since := since, «until» := until_,
               limit := f.limit, search := f.search, limitZero := f.limitZero })

/-! ## Lemmas -/

/-- `h'` extends `h`: same objects below `h.next`. -/
structure Ext (h h' : Heap) : Prop where
  wf : h'.WF
  le : h.next ≤ h'.next
  same : ∀ a, a < h.next → h'.cells a = h.cells a

theorem Ext.refl {h : Heap} (w : h.WF) : Ext h h := ⟨w, Nat.le_refl _, fun _ _ => rfl⟩

theorem Ext.trans {a b c : Heap} (x : Ext a b) (y : Ext b c) : Ext a c :=
  ⟨y.wf, Nat.le_trans x.le y.le, fun i hi => by rw [y.same i (Nat.lt_of_lt_of_le hi x.le), x.same i hi]⟩

theorem ext_alloc {h : Heap} (w : h.WF) (c : Cell) : Ext h (h.alloc c).1 := by
  refine ⟨?_, by simp [Heap.alloc], ?_⟩
  · intro a ha
    simp only [Heap.alloc] at ha ⊢
    rw [if_neg (by omega)]
    exact w a (by omega)
  · intro a ha
    simp only [Heap.alloc]
    rw [if_neg (by omega)]

theorem cell_lt {h : Heap} (w : h.WF) {a : Nat} {c : Cell} (hc : h.cells a = some c) : a < h.next := by
  rcases Nat.lt_or_ge a h.next with hl | hl
  · exact hl
  · rw [w a hl] at hc; cases hc

/-- A reference lies in the address range `[lo, hi)`. -/
def RefIn (lo hi : Nat) : Option Nat → Prop
  | none => True
  | some a => lo ≤ a ∧ a < hi

theorem RefIn.mono {lo lo' hi hi' : Nat} {r : Option Nat} (h : RefIn lo hi r) (h1 : lo' ≤ lo) (h2 : hi ≤ hi') :
    RefIn lo' hi' r := by
  cases r with
  | none => trivial
  | some a => exact ⟨Nat.le_trans h1 h.1, Nat.lt_of_lt_of_le h.2 h2⟩

/-- Reading a plain cell through a reference; `none` = dangling. -/
def look (h : Heap) : Option Nat → Option (Option Cell)
  | none => some none
  | some a => (h.cells a).map some

theorem look_congr {h1 h2 : Heap} {lo hi : Nat} (hs : ∀ a, lo ≤ a → a < hi → h1.cells a = h2.cells a) {r : Option Nat}
    (hr : RefIn lo hi r) : look h1 r = look h2 r := by
  cases r with
  | none => rfl
  | some a => simp [look, hs a hr.1 hr.2]

theorem viewStrs_of_look {h1 h2 : Heap} {r1 r2 : Option Nat} (h : look h1 r1 = look h2 r2) :
    viewStrs h1 r1 = viewStrs h2 r2 := by
  cases r1 <;> cases r2
  · rfl
  · rename_i a; cases hc : h2.cells a <;> simp [look, hc] at h
  · rename_i a; cases hc : h1.cells a <;> simp [look, hc] at h
  · rename_i a b; simp only [look] at h
    cases hc : h1.cells a <;> cases hd : h2.cells b <;> simp [hc, hd] at h <;> simp [viewStrs, hc, hd, h]

theorem viewInts_of_look {h1 h2 : Heap} {r1 r2 : Option Nat} (h : look h1 r1 = look h2 r2) :
    viewInts h1 r1 = viewInts h2 r2 := by
  cases r1 <;> cases r2
  · rfl
  · rename_i a; cases hc : h2.cells a <;> simp [look, hc] at h
  · rename_i a; cases hc : h1.cells a <;> simp [look, hc] at h
  · rename_i a b; simp only [look] at h
    cases hc : h1.cells a <;> cases hd : h2.cells b <;> simp [hc, hd] at h <;> simp [viewInts, hc, hd, h]

theorem viewTs_of_look {h1 h2 : Heap} {r1 r2 : Option Nat} (h : look h1 r1 = look h2 r2) :
    viewTs h1 r1 = viewTs h2 r2 := by
  cases r1 <;> cases r2
  · rfl
  · rename_i a; cases hc : h2.cells a <;> simp [look, hc] at h
  · rename_i a; cases hc : h1.cells a <;> simp [look, hc] at h
  · rename_i a b; simp only [look] at h
    cases hc : h1.cells a <;> cases hd : h2.cells b <;> simp [hc, hd] at h <;> simp [viewTs, hc, hd, h]

theorem cloneRef_spec {h : Heap} (w : h.WF) {r : Option Nat} {v : Option Cell} (hv : look h r = some v) :
    ∃ h' r', cloneRef h r = some (h', r') ∧ Ext h h' ∧ look h' r' = some v ∧ RefIn h.next h'.next r' := by
  cases r with
  | none => exact ⟨h, none, rfl, Ext.refl w, hv, trivial⟩
  | some a =>
    cases hc : h.cells a with
    | none => simp [look, hc] at hv
    | some c =>
      refine ⟨(h.alloc c).1, some (h.alloc c).2, by simp [cloneRef, hc], ext_alloc w c, ?_, ?_⟩
      · simp [look, hc] at hv
        subst hv
        simp [look, Heap.alloc]
      · simp [RefIn, Heap.alloc]

/-- All references of a map's entries lie in a range. -/
def EntriesIn (lo hi : Nat) (m : List (Bytes × Option Nat)) : Prop := ∀ e ∈ m, RefIn lo hi e.2

theorem viewEntries_congr {h1 h2 : Heap} {lo hi : Nat} (hs : ∀ a, lo ≤ a → a < hi → h1.cells a = h2.cells a)
    {m : List (Bytes × Option Nat)} (hm : EntriesIn lo hi m) : viewEntries h1 m = viewEntries h2 m := by
  induction m with
  | nil => rfl
  | cons e m ih =>
    obtain ⟨k, r⟩ := e
    have e1 := viewStrs_of_look (look_congr hs (hm (k, r) (by simp)))
    have e2 := ih (fun e he => hm e (by simp [he]))
    simp [viewEntries, e1, e2]

theorem look_isSome_of_viewStrs {h : Heap} {r : Option Nat} {v} (hv : viewStrs h r = some v) : ∃ c, look h r = some c := by
  cases r with
  | none => exact ⟨none, rfl⟩
  | some a =>
    simp only [viewStrs] at hv
    split at hv
    · next hc => exact ⟨_, by simp only [look, hc]; rfl⟩
    · cases hv

theorem look_isSome_of_viewInts {h : Heap} {r : Option Nat} {v} (hv : viewInts h r = some v) : ∃ c, look h r = some c := by
  cases r with
  | none => exact ⟨none, rfl⟩
  | some a =>
    simp only [viewInts] at hv
    split at hv
    · next hc => exact ⟨_, by simp only [look, hc]; rfl⟩
    · cases hv

theorem look_isSome_of_viewTs {h : Heap} {r : Option Nat} {v} (hv : viewTs h r = some v) : ∃ c, look h r = some c := by
  cases r with
  | none => exact ⟨none, rfl⟩
  | some a =>
    simp only [viewTs] at hv
    split at hv
    · next hc => exact ⟨_, by simp only [look, hc]; rfl⟩
    · cases hv

theorem refIn_of_look {h : Heap} (w : h.WF) {r : Option Nat} {v} (hv : look h r = some v) : RefIn 0 h.next r := by
  cases r with
  | none => trivial
  | some a =>
    cases hc : h.cells a with
    | none => simp [look, hc] at hv
    | some c => exact ⟨Nat.zero_le _, cell_lt w hc⟩

theorem entriesIn_of_view {h : Heap} (w : h.WF) {m : List (Bytes × Option Nat)} {v} (hv : viewEntries h m = some v) :
    EntriesIn 0 h.next m := by
  induction m generalizing v with
  | nil => intro e he; simp at he
  | cons e m ih =>
    obtain ⟨k, r⟩ := e
    simp only [viewEntries] at hv
    split at hv
    · next x y hx hy =>
      intro e he
      simp at he
      rcases he with rfl | he
      · obtain ⟨c, hc⟩ := look_isSome_of_viewStrs hx
        exact refIn_of_look w hc
      · exact ih hy e he
    · cases hv

theorem cloneEntries_spec {m : List (Bytes × Option Nat)} : ∀ {h : Heap} (_ : h.WF) {v : TagMap}
    (_ : viewEntries h m = some v),
    ∃ h' m', cloneEntries h m = some (h', m') ∧ Ext h h' ∧ viewEntries h' m' = some v ∧
      EntriesIn h.next h'.next m' := by
  induction m with
  | nil => intro h w v hv; exact ⟨h, [], rfl, Ext.refl w, hv, by intro e he; simp at he⟩
  | cons e m ih =>
    obtain ⟨k, r⟩ := e
    intro h w v hv
    have hin := entriesIn_of_view w hv
    simp only [viewEntries] at hv
    split at hv
    · next x y hx hy =>
      injection hv with hv
      obtain ⟨c, hc⟩ := look_isSome_of_viewStrs hx
      obtain ⟨h1, r', e1, x1, l1, in1⟩ := cloneRef_spec w hc
      have hy1 : viewEntries h1 m = some y := by
        rw [viewEntries_congr (h2 := h) (lo := 0) (hi := h.next) (fun a _ ha => x1.same a ha)
          (fun e he => hin e (by simp [he]))]
        exact hy
      obtain ⟨h2, m', e2, x2, v2, in2⟩ := ih x1.wf hy1
      refine ⟨h2, (k, r') :: m', by simp [cloneEntries, e1, e2], x1.trans x2, ?_, ?_⟩
      · have hr' : viewStrs h2 r' = some x := by
          have a1 : look h2 r' = look h1 r' := look_congr (lo := h.next) (hi := h1.next) (fun a _ ha => x2.same a ha) in1
          rw [viewStrs_of_look a1, ← hx]
          exact viewStrs_of_look (by rw [l1, hc])
        simp [viewEntries, hr', v2, hv]
      · intro e he
        simp at he
        rcases he with rfl | he
        · exact in1.mono (Nat.le_refl _) x2.le
        · exact (in2 e he).mono x1.le (Nat.le_refl _)
    · cases hv

/-- References of a filter, including those held by its tag map, lie in `[lo, hi)`. -/
structure Within (h : Heap) (lo hi : Nat) (f : HFilter) : Prop where
  ids : RefIn lo hi f.ids
  kinds : RefIn lo hi f.kinds
  authors : RefIn lo hi f.authors
  tags : RefIn lo hi f.tags
  entries : ∀ a m, f.tags = some a → h.cells a = some (.map m) → EntriesIn lo hi m
  since : RefIn lo hi f.since
  until_ : RefIn lo hi f.until

theorem viewMap_congr {h1 h2 : Heap} {lo hi : Nat} (hs : ∀ a, lo ≤ a → a < hi → h1.cells a = h2.cells a) {r : Option Nat}
    (hr : RefIn lo hi r) (he : ∀ a m, r = some a → h2.cells a = some (.map m) → EntriesIn lo hi m) :
    viewMap h1 r = viewMap h2 r := by
  cases r with
  | none => rfl
  | some a =>
    simp only [viewMap, hs a hr.1 hr.2]
    split
    · next m hm => rw [viewEntries_congr hs (he a m rfl hm)]
    · rfl

/-- The value of a filter depends only on the heap within its range. -/
theorem view_congr {h1 h2 : Heap} {lo hi : Nat} (hs : ∀ a, lo ≤ a → a < hi → h1.cells a = h2.cells a) {f : HFilter}
    (hw : Within h2 lo hi f) : view h1 f = view h2 f := by
  simp only [view, viewStrs_of_look (look_congr hs hw.ids), viewInts_of_look (look_congr hs hw.kinds),
    viewStrs_of_look (look_congr hs hw.authors), viewMap_congr hs hw.tags hw.entries,
    viewTs_of_look (look_congr hs hw.since), viewTs_of_look (look_congr hs hw.until_)]

theorem view_parts {h : Heap} {f : HFilter} {v : Filter} (hv : view h f = some v) :
    viewStrs h f.ids = some v.ids ∧ viewInts h f.kinds = some v.kinds ∧ viewStrs h f.authors = some v.authors ∧
    viewMap h f.tags = some v.tags ∧ viewTs h f.since = some v.since ∧ viewTs h f.until = some v.until ∧
    f.limit = v.limit ∧ f.search = v.search ∧ f.limitZero = v.limitZero := by
  unfold view at hv
  split at hv
  · next h1 h2 h3 h4 h5 h6 => injection hv with hv; subst hv; exact ⟨h1, h2, h3, h4, h5, h6, rfl, rfl, rfl⟩
  · cases hv

theorem within_of_view {h : Heap} (w : h.WF) {f : HFilter} {v : Filter} (hv : view h f = some v) :
    Within h 0 h.next f := by
  obtain ⟨h1, h2, h3, h4, h5, h6, _⟩ := view_parts hv
  obtain ⟨_, c1⟩ := look_isSome_of_viewStrs h1
  obtain ⟨_, c2⟩ := look_isSome_of_viewInts h2
  obtain ⟨_, c3⟩ := look_isSome_of_viewStrs h3
  obtain ⟨_, c5⟩ := look_isSome_of_viewTs h5
  obtain ⟨_, c6⟩ := look_isSome_of_viewTs h6
  have mt : RefIn 0 h.next f.tags ∧ ∀ a m, f.tags = some a → h.cells a = some (.map m) → EntriesIn 0 h.next m := by
    cases ht : f.tags with
    | none => exact ⟨trivial, by simp⟩
    | some a =>
      rw [ht] at h4
      simp only [viewMap] at h4
      split at h4
      · next m hm =>
        refine ⟨⟨Nat.zero_le _, cell_lt w hm⟩, ?_⟩
        rintro a' m' h1 h2
        cases h1
        rw [hm] at h2; cases h2
        cases hve : viewEntries h m with
        | none => simp [hve] at h4
        | some y => exact entriesIn_of_view w hve
      · cases h4
  exact ⟨refIn_of_look w c1, refIn_of_look w c2, refIn_of_look w c3, mt.1, mt.2, refIn_of_look w c5, refIn_of_look w c6⟩

theorem cloneMap_spec {h : Heap} (w : h.WF) {r : Option Nat} {v : Option TagMap} (hv : viewMap h r = some v) :
    ∃ h' r', cloneMap h r = some (h', r') ∧ Ext h h' ∧ viewMap h' r' = some v ∧ RefIn h.next h'.next r' ∧
      ∀ a m, r' = some a → h'.cells a = some (.map m) → EntriesIn h.next h'.next m := by
  cases r with
  | none => exact ⟨h, none, rfl, Ext.refl w, hv, trivial, by simp⟩
  | some a =>
    simp only [viewMap] at hv
    split at hv
    · next m hm =>
      cases hve : viewEntries h m with
      | none => simp [hve] at hv
      | some y =>
        simp [hve] at hv
        obtain ⟨h1, m', e1, x1, v1, in1⟩ := cloneEntries_spec w hve
        refine ⟨(h1.alloc (.map m')).1, some (h1.alloc (.map m')).2, by simp [cloneMap, hm, e1],
          x1.trans (ext_alloc x1.wf _), ?_, ?_, ?_⟩
        · have hx := ext_alloc x1.wf (.map m')
          have : viewEntries (h1.alloc (.map m')).1 m' = viewEntries h1 m' :=
            viewEntries_congr (lo := h.next) (hi := h1.next) (fun a _ ha => hx.same a ha) in1
          have hcell : (h1.alloc (.map m')).1.cells (h1.alloc (.map m')).2 = some (.map m') := by simp [Heap.alloc]
          subst hv
          simp only [viewMap, hcell, this, v1, Option.map_some]
        · exact ⟨x1.le, by simp [Heap.alloc]⟩
        · intro a2 m2 ha2 hm2
          cases ha2
          simp [Heap.alloc] at hm2
          subst hm2
          intro e he
          exact (in1 e he).mono (Nat.le_refl _) (by simp [Heap.alloc])
    · cases hv

theorem clone_spec {h : Heap} (w : h.WF) {f : HFilter} {v : Filter} (hv : view h f = some v) :
    ∃ h' f', clone h f = some (h', f') ∧ Ext h h' ∧ view h' f' = some v ∧ Within h' h.next h'.next f' := by
  have hwith := within_of_view w hv
  obtain ⟨p1, p2, p3, p4, p5, p6, q1, q2, q3⟩ := view_parts hv
  obtain ⟨c1, l1⟩ := look_isSome_of_viewStrs p1
  obtain ⟨c2, l2⟩ := look_isSome_of_viewInts p2
  obtain ⟨c3, l3⟩ := look_isSome_of_viewStrs p3
  obtain ⟨c5, l5⟩ := look_isSome_of_viewTs p5
  obtain ⟨c6, l6⟩ := look_isSome_of_viewTs p6
  -- ids
  obtain ⟨hA, ids', eA, xA, lA, iA⟩ := cloneRef_spec w l1
  -- authors
  have l3A : look hA f.authors = some c3 := by
    rw [look_congr (h2 := h) (fun a _ ha => xA.same a ha) hwith.authors]; exact l3
  obtain ⟨hB, au', eB, xB, lB, iB⟩ := cloneRef_spec xA.wf l3A
  have xAB := xA.trans xB
  -- kinds
  have l2B : look hB f.kinds = some c2 := by
    rw [look_congr (h2 := h) (fun a _ ha => xAB.same a ha) hwith.kinds]; exact l2
  obtain ⟨hC, ki', eC, xC, lC, iC⟩ := cloneRef_spec xB.wf l2B
  have xAC := xAB.trans xC
  -- tags
  have p4C : viewMap hC f.tags = some v.tags := by
    rw [viewMap_congr (h2 := h) (fun a _ ha => xAC.same a ha) hwith.tags hwith.entries]; exact p4
  obtain ⟨hD, tg', eD, xD, vD, iD, enD⟩ := cloneMap_spec xC.wf p4C
  have xAD := xAC.trans xD
  -- since
  have l5D : look hD f.since = some c5 := by
    rw [look_congr (h2 := h) (fun a _ ha => xAD.same a ha) hwith.since]; exact l5
  obtain ⟨hE, si', eE, xE, lE, iE⟩ := cloneRef_spec xD.wf l5D
  have xAE := xAD.trans xE
  -- until
  have l6E : look hE f.until = some c6 := by
    rw [look_congr (h2 := h) (fun a _ ha => xAE.same a ha) hwith.until_]; exact l6
  obtain ⟨hF, un', eF, xF, lF, iF⟩ := cloneRef_spec xE.wf l6E
  have xAF := xAE.trans xF
  -- values in the final heap
  have xBF := (((xB.trans xC).trans xD).trans xE).trans xF
  have xCF := ((xC.trans xD).trans xE).trans xF
  have xDF := (xD.trans xE).trans xF
  have xEF := xE.trans xF
  have fin_ids : viewStrs hF ids' = some v.ids := by
    rw [viewStrs_of_look (look_congr (h2 := hA) (fun a _ ha => xBF.same a ha) iA), ← p1]
    exact viewStrs_of_look (by rw [lA, l1])
  have fin_au : viewStrs hF au' = some v.authors := by
    rw [viewStrs_of_look (look_congr (h2 := hB) (fun a _ ha => xCF.same a ha) iB), ← p3]
    exact viewStrs_of_look (by rw [lB, l3])
  have fin_ki : viewInts hF ki' = some v.kinds := by
    rw [viewInts_of_look (look_congr (h2 := hC) (fun a _ ha => xDF.same a ha) iC), ← p2]
    exact viewInts_of_look (by rw [lC, l2])
  have fin_tg : viewMap hF tg' = some v.tags := by
    rw [viewMap_congr (h2 := hD) (fun a _ ha => xEF.same a ha) iD enD]; exact vD
  have fin_si : viewTs hF si' = some v.since := by
    rw [viewTs_of_look (look_congr (h2 := hE) (fun a _ ha => xF.same a ha) iE), ← p5]
    exact viewTs_of_look (by rw [lE, l5])
  have fin_un : viewTs hF un' = some v.until := by
    rw [← p6]; exact viewTs_of_look (by rw [lF, l6])
  refine ⟨hF, _, by simp only [clone, eA, eB, eC, eD, eE, eF, Option.bind_eq_bind, Option.bind_some, Option.pure_def]; rfl,
    xAF, ?_, ?_⟩
  · simp only [view, fin_ids, fin_au, fin_ki, fin_tg, fin_si, fin_un, q1, q2, q3]
  · refine ⟨iA.mono (Nat.le_refl _) xBF.le, iC.mono xAB.le xDF.le, iB.mono xA.le xCF.le,
      iD.mono xAC.le xEF.le, ?_, iE.mono xAD.le xF.le, iF.mono xAE.le (Nat.le_refl _)⟩
    intro a m ha hm e he
    have hlt : a < hD.next := by
      have := iD; simp only at ha; rw [ha] at this; exact this.2
    have hm' : hD.cells a = some (.map m) := by rw [← xEF.same a hlt]; exact hm
    exact (enD a m ha hm' e he).mono xAC.le xEF.le

/-- Applying a sequence of in-place writes. -/
def writes (h : Heap) : List (Nat × Cell) → Heap
  | [] => h
  | (a, c) :: rest => writes (h.write a c) rest

theorem writes_same {ws : List (Nat × Cell)} : ∀ {h : Heap} {a : Nat}, (∀ w ∈ ws, w.1 ≠ a) →
    (writes h ws).cells a = h.cells a := by
  induction ws with
  | nil => intros; rfl
  | cons w ws ih =>
    intro h a hne
    obtain ⟨b, c⟩ := w
    rw [writes, ih (fun w hw => hne w (by simp [hw]))]
    have : a ≠ b := fun e => hne (b, c) (by simp) e.symm
    simp [Heap.write, this]

end GoNostr.FilterHeap
