import Verif.Tags.Theorems
import Verif.Helpers.Model
/-!
# C89: relay-based groups (nip29)
-/

set_option autoImplicit false

namespace GoNostr.Group

/-- nip29/nip29.go:9-12 `Role`. Roles are compared by value here, by pointer in Go. -/
structure Role where
  name : Bytes
  description : Bytes
  deriving DecidableEq

/-- A Go map from members to roles: nothing if the key is absent. -/
abbrev Members := Bytes → Option (List Role)

/-- nip29/group.go:38-54 `Group` (with the two fields of `Address`). -/
structure Group where
  relay : Bytes
  id : Bytes
  name : Bytes
  picture : Bytes
  about : Bytes
  members : Members
  priv : Bool
  closed : Bool
  roles : List Role
  lastMetadata : Int
  lastAdmins : Int
  lastMembers : Int

/-- `if tag := evt.Tags.GetFirst([]string{key, ""}); tag != nil { field = (*tag)[1] }` (group.go:227-235). -/
def field (key old : Bytes) (tags : Tags) : Out Bytes := do
  match ← Tags.getFirst [key, []] tags with
  | some tag => goIndex tag 1
  | none => return old

/-- `if tag := evt.Tags.GetFirst([]string{key}); tag != nil { flag = true }` (group.go:237-242). -/
def flag (key : Bytes) (old : Bool) (tags : Tags) : Out Bool := do
  match ← Tags.getFirst [key] tags with
  | some _ => return true
  | none => return old

/-- nip29/group.go:216-245 `MergeInMetadataEvent`; the flag is "no error". -/
def mergeMetadata (g : Group) (e : Event) : Out (Bool × Group) :=
  if e.kind ≠ 39000 then .val (false, g)
  else if e.createdAt < g.lastMetadata then .val (false, g)
  else do
    let name ← field (b! "name") g.id e.tags
    let about ← field (b! "about") g.about e.tags
    let picture ← field (b! "picture") g.picture e.tags
    let priv ← flag (b! "private") g.priv e.tags
    let closed ← flag (b! "closed") g.closed e.tags
    return (true, { g with lastMetadata := e.createdAt, name, about, picture, priv, closed })

/-- nip29/group.go:110-122 `NewGroupFromMetadataEvent`. -/
def newFromMetadata (relay : Bytes) (e : Event) : Out (Bool × Group) :=
  mergeMetadata ⟨relay, Tags.getD e.tags, Tags.getD e.tags, [], [], fun _ => none, false, false, [], 0, 0, 0⟩ e

/-- nip29/group.go:124-155 `ToMetadataEvent`. -/
def toMetadata (g : Group) : Event :=
  { id := [], pubkey := [], createdAt := g.lastMetadata, kind := 39000, content := [], sig := []
    tags := [[b! "d", g.id]] ++ (if g.name ≠ [] then [[b! "name", g.name]] else []) ++ (if g.about ≠ [] then [[b! "about", g.about]] else [])
      ++ (if g.picture ≠ [] then [[b! "picture", g.picture]] else [])
      ++ [if g.priv then [b! "private"] else [b! "public"]] ++ [if g.closed then [b! "closed"] else [b! "open"]] }

/-! ## Specification -/

/-- The value an event states for a field: that of its first tag with this key and a value. -/
def stated (key : Bytes) (tags : Tags) : Option Bytes :=
  match tags.find? (fun t => t.head? == some key && decide (2 ≤ t.length)) with
  | some t => t[1]?
  | none => none

/-- The tag's key begins with the flag. -/
def flagged (key : Bytes) (t : Tag) : Bool := match t with | k :: _ => key.isPrefixOf k | [] => false

/-- The flag is there: some tag's key begins with it. -/
def hasFlag (key : Bytes) (tags : Tags) : Bool := tags.any (flagged key)

/-! ## Proofs -/

theorem getFirst_two (key : Bytes) : ∀ tags : Tags, Tags.getFirst [key, []] tags = .val (tags.find? (fun t => t.head? == some key && decide (2 ≤ t.length)))
  | [] => rfl
  | t :: ts => by
    unfold Tags.getFirst
    rw [getFirst_two key ts]
    have hs : Tag.startsWith t [key, []] = .val (t.head? == some key && decide (2 ≤ t.length)) := by
      unfold Tag.startsWith
      match t with
      | [] => rfl
      | [a] => simp
      | a :: b :: rest =>
        by_cases h : key = a
        · subst h
          simp [startsWithLoop, goIndex]
        · have h' : ¬ a = key := fun e => h e.symm
          simp [startsWithLoop, goIndex, h, h']
    rw [hs]
    simp only [Out.val_bind, List.find?_cons]
    cases (t.head? == some key && decide (2 ≤ t.length)) <;> rfl

theorem getFirst_one (key : Bytes) : ∀ tags : Tags,
    Tags.getFirst [key] tags = .val (tags.find? (flagged key))
  | [] => rfl
  | t :: ts => by
    unfold Tags.getFirst
    rw [getFirst_one key ts]
    have hs : Tag.startsWith t [key] = .val (flagged key t) := by
      unfold Tag.startsWith flagged
      match t with
      | [] => rfl
      | a :: rest =>
        simp [startsWithLoop, goIndex]
    rw [hs]
    simp only [Out.val_bind, List.find?_cons]
    cases flagged key t <;> rfl

theorem field_eq (key old : Bytes) (tags : Tags) : field key old tags = .val ((stated key tags).getD old) := by
  unfold field stated
  rw [getFirst_two]
  simp only [Out.val_bind]
  cases h : tags.find? (fun t => t.head? == some key && decide (2 ≤ t.length)) with
  | none => rfl
  | some t =>
    have := List.find?_some h
    simp only [Bool.and_eq_true, decide_eq_true_eq] at this
    have hl : t[1]? = some (t[1]'(by omega)) := List.getElem?_eq_getElem (by omega)
    simp [goIndex, hl]

theorem flag_eq (key : Bytes) (old : Bool) (tags : Tags) : flag key old tags = .val (hasFlag key tags || old) := by
  unfold flag hasFlag
  rw [getFirst_one]
  simp only [Out.val_bind]
  cases h : tags.find? (flagged key) with
  | none =>
    have : tags.any (flagged key) = false := by
      rw [List.any_eq_false]
      exact List.find?_eq_none.1 h
    simp only [this]
    rfl
  | some t =>
    have : tags.any (flagged key) = true := by
      rw [List.any_eq_true]
      exact ⟨t, List.mem_of_find?_eq_some h, List.find?_some h⟩
    simp only [this]
    rfl

/-- **C89 (what a merge does).** Events of another kind and events older than the last one are refused and change nothing. Any other event sets the time, the name (the group's id if it states none), and the texts
and flags it states. It never panics. -/
theorem C89_merge_partial (g : Group) (e : Event) :
    mergeMetadata g e = .val (if e.kind = 39000 ∧ g.lastMetadata ≤ e.createdAt then
      (true, { g with lastMetadata := e.createdAt, name := (stated (b! "name") e.tags).getD g.id, about := (stated (b! "about") e.tags).getD g.about,
                      picture := (stated (b! "picture") e.tags).getD g.picture, priv := hasFlag (b! "private") e.tags || g.priv, closed := hasFlag (b! "closed") e.tags || g.closed })
      else (false, g)) := by
  unfold mergeMetadata
  by_cases h1 : e.kind = 39000
  · rw [if_neg (by simpa using h1)]
    by_cases h2 : e.createdAt < g.lastMetadata
    · rw [if_pos h2, if_neg (by omega)]
    · rw [if_neg h2, if_pos ⟨h1, by omega⟩]
      simp only [field_eq, flag_eq, Out.val_bind]
      rfl
  · rw [if_pos h1, if_neg (fun h => h1 h.1)]

/-- **C89 is false.** A group that was once private stays private, one that was once closed stays closed, whatever newer metadata says: also when it says `public` and `open`. -/
theorem C89_flags_stuck (g g' : Group) (e : Event) (ok : Bool) (h : mergeMetadata g e = .val (ok, g')) : (g.priv = true → g'.priv = true) ∧ (g.closed = true → g'.closed = true) := by
  rw [C89_merge_partial] at h
  split at h
  · cases h
    exact ⟨fun hp => by simp [hp], fun hc => by simp [hc]⟩
  · cases h
    exact ⟨id, id⟩

/-- **C89 is false.** A description or picture that newer metadata no longer states stays. -/
theorem C89_texts_stuck (g : Group) (e : Event) (h1 : e.kind = 39000) (h2 : g.lastMetadata ≤ e.createdAt) (h3 : stated (b! "about") e.tags = none) (h4 : stated (b! "picture") e.tags = none) :
    ∃ g', mergeMetadata g e = .val (true, g') ∧ g'.about = g.about ∧ g'.picture = g.picture := by
  rw [C89_merge_partial, if_pos ⟨h1, h2⟩]
  exact ⟨_, rfl, by simp [h3], by simp [h4]⟩

/-- **C89 is false.** The group an event is about is not looked at: metadata of another group (another `d` tag) is merged all the same. -/
theorem C89_other_group_merged : mergeMetadata ⟨[], b! "mine", b! "mine", [], [], fun _ => none, false, false, [], 0, 0, 0⟩
      ⟨[], [], 5, 39000, [[b! "d", b! "other"], [b! "name", b! "Other"], [b! "private"]], [], []⟩
    = .val (true, ⟨[], b! "mine", b! "Other", [], [], fun _ => none, true, false, [], 5, 0, 0⟩) := by rw [C89_merge_partial]; rfl

example : ∃ g', mergeMetadata ⟨[], b! "g", b! "G", [], b! "old text", fun _ => none, true, true, [], 3, 0, 0⟩
    ⟨[], [], 5, 39000, [[b! "d", b! "g"], [b! "name", b! "H"], [b! "public"], [b! "open"]], [], []⟩ = .val (true, g') ∧ g'.name = b! "H" ∧ g'.priv = true ∧ g'.closed = true ∧ g'.about = b! "old text" := by
  rw [C89_merge_partial]
  exact ⟨_, rfl, rfl, rfl, rfl, rfl⟩

/-- **C89 (round trip).** The metadata event of a group, read by someone who sees the group for the first time, gives its metadata: texts, flags and time. (A group without a name comes back named by its id, and
one whose last update is before 1970 is refused.) -/
theorem C89_metadata_roundtrip_partial (g : Group) (relay : Bytes) (ht : 0 ≤ g.lastMetadata) :
    newFromMetadata relay (toMetadata g) = .val (true,
      ⟨relay, g.id, if g.name = [] then g.id else g.name, g.picture, g.about, fun _ => none, g.priv, g.closed, [], g.lastMetadata, 0, 0⟩) := by
  have hd : Tags.getD (toMetadata g).tags = g.id := by
    unfold toMetadata
    simp [Tags.getD]
  unfold newFromMetadata
  rw [hd, C89_merge_partial, if_pos ⟨rfl, ht⟩]
  obtain ⟨r, id, name, picture, about, members, priv, closed, roles, lm, la, lmm⟩ := g
  have e1 : stated (b! "name") (toMetadata ⟨r, id, name, picture, about, members, priv, closed, roles, lm, la, lmm⟩).tags = if name = [] then none else some name := by
    unfold toMetadata stated
    by_cases h1 : name = [] <;> by_cases h2 : about = [] <;> by_cases h3 : picture = [] <;> cases priv <;> cases closed <;> simp [h1, h2, h3]
  have e2 : stated (b! "about") (toMetadata ⟨r, id, name, picture, about, members, priv, closed, roles, lm, la, lmm⟩).tags = if about = [] then none else some about := by
    unfold toMetadata stated
    by_cases h1 : name = [] <;> by_cases h2 : about = [] <;> by_cases h3 : picture = [] <;> cases priv <;> cases closed <;> simp [h1, h2, h3]
  have e3 : stated (b! "picture") (toMetadata ⟨r, id, name, picture, about, members, priv, closed, roles, lm, la, lmm⟩).tags = if picture = [] then none else some picture := by
    unfold toMetadata stated
    by_cases h1 : name = [] <;> by_cases h2 : about = [] <;> by_cases h3 : picture = [] <;> cases priv <;> cases closed <;> simp [h1, h2, h3]
  have e4 : hasFlag (b! "private") (toMetadata ⟨r, id, name, picture, about, members, priv, closed, roles, lm, la, lmm⟩).tags = priv := by
    unfold toMetadata hasFlag
    by_cases h1 : name = [] <;> by_cases h2 : about = [] <;> by_cases h3 : picture = [] <;> cases priv <;> cases closed <;> simp [h1, h2, h3, flagged, List.isPrefixOf]
  have e5 : hasFlag (b! "closed") (toMetadata ⟨r, id, name, picture, about, members, priv, closed, roles, lm, la, lmm⟩).tags = closed := by
    unfold toMetadata hasFlag
    by_cases h1 : name = [] <;> by_cases h2 : about = [] <;> by_cases h3 : picture = [] <;> cases priv <;> cases closed <;> simp [h1, h2, h3, flagged, List.isPrefixOf]
  rw [e1, e2, e3, e4, e5]
  simp only [toMetadata, Bool.or_false]
  by_cases h1 : name = [] <;> by_cases h2 : about = [] <;> by_cases h3 : picture = [] <;> simp [h1, h2, h3]

/-! ### Histories -/

/-- Merging a history of events, going on after refusals. -/
def mergeAll : Group → List Event → Out Group
  | g, [] => .val g
  | g, e :: es => do
    let r ← mergeMetadata g e
    mergeAll r.2 es

/-- `e` at position `i` is the newest metadata event of the history: none is newer, and none after it is as new. -/
def Newest (es : List Event) (i : Nat) (e : Event) : Prop :=
  es[i]? = some e ∧ e.kind = 39000 ∧ ∀ j e', es[j]? = some e' → e'.kind = 39000 → e'.createdAt ≤ e.createdAt ∧ (i < j → e'.createdAt < e.createdAt)

/-- **C89 (histories), part.** After any history of events in any order, the group has the time and the name of the newest metadata event (the last received of several as new), unless all were older than what it had.
Missing: the other fields, see `C89_flags_stuck`, `C89_texts_stuck`. -/
theorem C89_newest_name_partial : ∀ (es : List Event) (g : Group), ∃ g', mergeAll g es = .val g' ∧ g'.id = g.id ∧
    ((∃ i e, Newest es i e ∧ g.lastMetadata ≤ e.createdAt ∧ g'.lastMetadata = e.createdAt ∧ g'.name = (stated (b! "name") e.tags).getD g.id) ∨
     ((∀ e ∈ es, e.kind = 39000 → e.createdAt < g.lastMetadata) ∧ g' = g))
  | [], g => ⟨g, rfl, rfl, .inr ⟨by simp, rfl⟩⟩
  | e :: es, g => by
    have hm := C89_merge_partial g e
    by_cases hc : e.kind = 39000 ∧ g.lastMetadata ≤ e.createdAt
    · rw [if_pos hc] at hm
      obtain ⟨g', h1, h2, h3⟩ := C89_newest_name_partial es _
      refine ⟨g', by unfold mergeAll; rw [hm]; exact h1, by rw [h2], .inl ?_⟩
      rcases h3 with ⟨i, e', ⟨n1, n2, n3⟩, hle, ht, hn⟩ | ⟨ho, rfl⟩
      · simp only at hle hn
        refine ⟨i + 1, e', ⟨n1, n2, ?_⟩, by omega, ht, hn⟩
        intro j x hj hk
        cases j with
        | zero =>
          simp only [List.getElem?_cons_zero, Option.some.injEq] at hj
          subst hj
          exact ⟨hle, fun h => by omega⟩
        | succ j =>
          obtain ⟨a, b⟩ := n3 j x hj hk
          exact ⟨a, fun h => b (by omega)⟩
      · refine ⟨0, e, ⟨rfl, hc.1, ?_⟩, hc.2, rfl, rfl⟩
        intro j x hj hk
        cases j with
        | zero =>
          simp only [List.getElem?_cons_zero, Option.some.injEq] at hj
          subst hj
          exact ⟨Int.le_refl _, fun h => by omega⟩
        | succ j =>
          have := ho x (List.mem_of_getElem? hj) hk
          simp only at this
          exact ⟨by omega, fun _ => this⟩
    · rw [if_neg hc] at hm
      obtain ⟨g', h1, h2, h3⟩ := C89_newest_name_partial es g
      refine ⟨g', by unfold mergeAll; rw [hm]; exact h1, h2, ?_⟩
      have hold : e.kind = 39000 → e.createdAt < g.lastMetadata := fun hk => by
        by_cases hl : g.lastMetadata ≤ e.createdAt
        · exact absurd ⟨hk, hl⟩ hc
        · omega
      rcases h3 with ⟨i, e', ⟨n1, n2, n3⟩, hle, ht, hn⟩ | ⟨ho, rfl⟩
      · refine .inl ⟨i + 1, e', ⟨n1, n2, ?_⟩, hle, ht, hn⟩
        intro j x hj hk
        cases j with
        | zero =>
          simp only [List.getElem?_cons_zero, Option.some.injEq] at hj
          subst hj
          have := hold hk
          exact ⟨by omega, fun h => by omega⟩
        | succ j =>
          obtain ⟨a, b⟩ := n3 j x hj hk
          exact ⟨a, fun h => b (by omega)⟩
      · refine .inr ⟨?_, rfl⟩
        intro x hx hk
        rcases List.mem_cons.1 hx with rfl | hx
        · exact hold hk
        · exact ho x hx hk

/-! ## Members and admins -/

/-- nip29/utils.go:5-12 `GetRoleByName`. -/
def roleByName (roles : List Role) (name : Bytes) : Role := (roles.find? (fun r => r.name == name)).getD ⟨name, []⟩

/-- The loop body of `MergeInAdminsEvent` (nip29/group.go:256-270). -/
def adminStep (roles : List Role) (m : Members) (tag : Tag) : Members :=
  match tag with
  | k :: who :: r :: rs =>
    if k ≠ b! "p" then m
    else if ¬ isValid32ByteHex who then m
    else fun x => if x = who then some ((m who).getD [] ++ (r :: rs).map (roleByName roles)) else m x
  | _ => m

/-- nip29/group.go:247-273 `MergeInAdminsEvent`. -/
def mergeAdmins (g : Group) (e : Event) : Bool × Group :=
  if e.kind ≠ 39001 then (false, g)
  else if e.createdAt < g.lastAdmins then (false, g)
  else (true, { g with lastAdmins := e.createdAt, members := e.tags.foldl (adminStep g.roles) g.members })

/-- The loop body of `MergeInMembersEvent` (nip29/group.go:284-299). -/
def memberStep (m : Members) (tag : Tag) : Members :=
  match tag with
  | k :: who :: _ =>
    if k ≠ b! "p" then m
    else if ¬ isValid32ByteHex who then m
    else if m who = none then fun x => if x = who then some [] else m x
    else m
  | _ => m

/-- nip29/group.go:275-302 `MergeInMembersEvent`. -/
def mergeMembers (g : Group) (e : Event) : Bool × Group :=
  if e.kind ≠ 39002 then (false, g)
  else if e.createdAt < g.lastMembers then (false, g)
  else (true, { g with lastMembers := e.createdAt, members := e.tags.foldl memberStep g.members })

/-- nip29/group.go:157-182 `ToAdminsEvent`; `l` is the members map in the order of this iteration. -/
def adminTags (id : Bytes) (l : List (Bytes × List Role)) : Tags :=
  [b! "d", id] :: (l.filter (fun x => !x.2.isEmpty)).map (fun x => b! "p" :: x.1 :: x.2.map Role.name)

/-- nip29/group.go:184-198 `ToMembersEvent`. -/
def memberTags (id : Bytes) (l : List (Bytes × List Role)) : Tags := [b! "d", id] :: l.map (fun x => [b! "p", x.1])

/-- `l` lists the map, in some order. -/
def Lists (l : List (Bytes × List Role)) (m : Members) : Prop := (l.map (·.1)).Nodup ∧ ∀ k v, m k = some v ↔ (k, v) ∈ l

open Classical in
theorem foldl_members : ∀ (tags : Tags) (m : Members) (x : Bytes),
    tags.foldl memberStep m x = if m x ≠ none then m x else if (∃ t ∈ tags, ∃ rest, t = b! "p" :: x :: rest) ∧ isValid32ByteHex x = true then some [] else none
  | [], m, x => by cases h : m x <;> simp [h]
  | t :: ts, m, x => by
    rw [List.foldl_cons, foldl_members ts]
    have key : memberStep m t x = if m x ≠ none then m x else if (∃ rest, t = b! "p" :: x :: rest) ∧ isValid32ByteHex x = true then some [] else none := by
      unfold memberStep
      match t with
      | [] => cases h : m x <;> simp [h]
      | [_] => cases h : m x <;> simp [h]
      | k :: who :: rest =>
        simp only
        by_cases hk : k = b! "p"
        · rw [if_neg (by simpa using hk)]
          by_cases hv : isValid32ByteHex who = true
          · rw [if_neg (by simpa using hv)]
            by_cases hw : x = who
            · subst hw
              cases hm : m x with
              | none => simp [hk, hv]
              | some v => simp [hm]
            · have hw' : ¬ who = x := fun h => hw h.symm
              cases hm : m who with
              | none => cases hx : m x <;> simp [hw, hw', hx]
              | some v => cases hx : m x <;> simp [hw', hx]
          · rw [if_pos (by simpa using hv)]
            by_cases hw : who = x
            · subst hw
              cases hx : m who <;> simp [hv, hx]
            · cases hx : m x <;> simp [hw, hx]
        · rw [if_pos (by simpa using hk)]
          cases hx : m x <;> simp [hk, hx]
    rw [key]
    cases hx : m x with
    | some v => simp
    | none =>
      simp only [ne_eq, not_true_eq_false, if_false]
      by_cases h1 : (∃ rest, t = b! "p" :: x :: rest) ∧ isValid32ByteHex x = true
      · rw [if_pos h1]
        simp only [ne_eq, reduceCtorEq, not_false_eq_true, if_true]
        rw [if_pos ⟨⟨t, List.mem_cons_self, h1.1⟩, h1.2⟩]
      · rw [if_neg h1]
        simp only [ne_eq, not_true_eq_false, if_false]
        by_cases h2 : (∃ t ∈ ts, ∃ rest, t = b! "p" :: x :: rest) ∧ isValid32ByteHex x = true
        · obtain ⟨⟨t', ht, hr⟩, hv⟩ := h2
          rw [if_pos ⟨⟨t', ht, hr⟩, hv⟩, if_pos ⟨⟨t', List.mem_cons_of_mem _ ht, hr⟩, hv⟩]
        · rw [if_neg h2, if_neg]
          rintro ⟨⟨t', ht, hr⟩, hv⟩
          rcases List.mem_cons.1 ht with rfl | ht
          · exact h1 ⟨hr, hv⟩
          · exact h2 ⟨⟨t', ht, hr⟩, hv⟩

open Classical in
/-- **C89 (members).** A members event adds exactly the members it names (with a well-formed key); roles of known members stay. -/
theorem C89_members_added (g : Group) (e : Event) (h1 : e.kind = 39002) (h2 : g.lastMembers ≤ e.createdAt) (x : Bytes) :
    (mergeMembers g e).1 = true ∧ (mergeMembers g e).2.members x =
      if g.members x ≠ none then g.members x
      else if (∃ t ∈ e.tags, ∃ rest, t = b! "p" :: x :: rest) ∧ isValid32ByteHex x = true then some [] else none := by
  unfold mergeMembers
  rw [if_neg (by simpa using h1), if_neg (by omega)]
  exact ⟨rfl, foldl_members e.tags g.members x⟩

/-- **C89 is false for members.** A newer members event that no longer names a member does not remove them. -/
theorem C89_members_never_removed (g : Group) (e : Event) (x : Bytes) (h : g.members x ≠ none) : (mergeMembers g e).2.members x = g.members x := by
  unfold mergeMembers
  split
  · rfl
  · split
    · rfl
    · simp only
      rw [foldl_members, if_pos h]

theorem foldl_admins (roles : List Role) : ∀ (l : List (Bytes × List Role)) (m : Members), (l.map (·.1)).Nodup → (∀ p ∈ l, isValid32ByteHex p.1 = true ∧ p.2 ≠ [] ∧ ∀ r ∈ p.2, roleByName roles r.name = r) →
    (∀ p ∈ l, (m p.1).getD [] = []) → ∀ x, (l.map (fun x => b! "p" :: x.1 :: x.2.map Role.name)).foldl (adminStep roles) m x = match l.find? (fun p => p.1 == x) with | some p => some p.2 | none => m x
  | [], m, _, _, _, x => rfl
  | (k, v) :: l, m, hn, hv, hm, x => by
    obtain ⟨hv1, hv2, hv3⟩ := hv (k, v) List.mem_cons_self
    simp only [List.map_cons, List.nodup_cons] at hn
    have hstep : adminStep roles m (b! "p" :: k :: v.map Role.name) = fun y => if y = k then some v else m y := by
      have hmk : (m k).getD [] = [] := hm (k, v) List.mem_cons_self
      have hmap : v.map (fun r => roleByName roles r.name) = v := by
        conv => rhs; rw [← List.map_id v]
        exact List.map_congr_left (fun r hr => hv3 r hr)
      cases v with
      | nil => exact absurd rfl hv2
      | cons r rs =>
        simp only [List.map_cons, List.cons.injEq] at hmap
        simp only [adminStep, List.map_cons]
        rw [if_neg (by simp), if_neg (by simpa using hv1), hmk]
        simp only [List.nil_append, List.map_map]
        funext y
        rw [hmap.1]
        have : rs.map (roleByName roles ∘ Role.name) = rs := hmap.2
        rw [this]
    rw [List.map_cons, List.foldl_cons]
    simp only
    rw [hstep, foldl_admins roles l _ hn.2 (fun p hp => hv p (List.mem_cons_of_mem _ hp)) ?_ x]
    · rw [List.find?_cons]
      by_cases hx : k = x
      · subst hx
        have : l.find? (fun p => p.1 == k) = none := by
          rw [List.find?_eq_none]
          intro p hp he
          simp only [beq_iff_eq] at he
          exact hn.1 (List.mem_map.2 ⟨p, hp, he⟩)
        simp [this]
      · have hx' : ¬ x = k := fun h => hx h.symm
        have : (k == x) = false := by simpa using hx
        simp only [this]
        cases l.find? (fun p => p.1 == x) <;> simp [hx']
    · intro p hp
      have : ¬ p.1 = k := fun h => hn.1 (List.mem_map.2 ⟨p, hp, h⟩)
      simp only [if_neg this]
      exact hm p (List.mem_cons_of_mem _ hp)

theorem find_of_nodup {l : List (Bytes × List Role)} (hn : (l.map (·.1)).Nodup) {k : Bytes} {v : List Role} (h : (k, v) ∈ l) : l.find? (fun p => p.1 == k) = some (k, v) := by
  induction l with
  | nil => cases h
  | cons a l ih =>
    simp only [List.map_cons, List.nodup_cons] at hn
    rw [List.find?_cons]
    rcases List.mem_cons.1 h with rfl | h
    · simp
    · have : ¬ a.1 = k := fun he => hn.1 (List.mem_map.2 ⟨(k, v), h, he.symm⟩)
      have : (a.1 == k) = false := by simpa using this
      rw [this]
      exact ih hn.2 h

theorem adminTags_spec {m : Members} {roles : List Role} {l : List (Bytes × List Role)} (id : Bytes) (h : Lists l m)
    (hv : ∀ k v, m k = some v → isValid32ByteHex k = true ∧ ∀ r ∈ v, roleByName roles r.name = r) (m0 : Members) (h0 : ∀ k, (m0 k).getD [] = []) (x : Bytes) :
    (adminTags id l).foldl (adminStep roles) m0 x = if (m x).getD [] = [] then m0 x else m x := by
  have ha : (adminTags id l).foldl (adminStep roles) m0 x = match (l.filter (fun x => !x.2.isEmpty)).find? (fun p => p.1 == x) with | some p => some p.2 | none => m0 x := by
    unfold adminTags
    rw [List.foldl_cons]
    have : adminStep roles m0 [b! "d", id] = m0 := rfl
    rw [this]
    refine foldl_admins roles _ _ (List.Nodup.sublist (List.Sublist.map _ List.filter_sublist) h.1) ?_ (fun p _ => h0 p.1) x
    intro p hp
    obtain ⟨hp1, hp2⟩ := List.mem_filter.1 hp
    obtain ⟨q1, q2⟩ := hv p.1 p.2 ((h.2 p.1 p.2).2 hp1)
    refine ⟨q1, ?_, q2⟩
    intro he
    rw [he] at hp2
    simp at hp2
  rw [ha]
  have hnone : (m x).getD [] = [] → (l.filter (fun x => !x.2.isEmpty)).find? (fun p => p.1 == x) = none := by
    intro hx
    rw [List.find?_eq_none]
    intro p hp he
    simp only [beq_iff_eq] at he
    obtain ⟨hp1, hp2⟩ := List.mem_filter.1 hp
    have := (h.2 p.1 p.2).2 hp1
    rw [he] at this
    rw [this] at hx
    simp only [Option.getD_some] at hx
    rw [hx] at hp2
    simp at hp2
  by_cases hx : (m x).getD [] = []
  · rw [hnone hx, if_pos hx]
  · rw [if_neg hx]
    cases hm : m x with
    | none => rw [hm] at hx; simp at hx
    | some v =>
      rw [hm] at hx
      have : (l.filter (fun x => !x.2.isEmpty)).find? (fun p => p.1 == x) = some (x, v) := by
        refine find_of_nodup (List.Nodup.sublist (List.Sublist.map _ List.filter_sublist) h.1) (List.mem_filter.2 ⟨(h.2 x v).1 hm, ?_⟩)
        cases v with
        | nil => simp at hx
        | cons => rfl
      rw [this]

open Classical in
theorem memberTags_spec {m : Members} {l : List (Bytes × List Role)} (id : Bytes) (h : Lists l m) (hv : ∀ k v, m k = some v → isValid32ByteHex k = true) (m0 : Members) (x : Bytes) :
    (memberTags id l).foldl memberStep m0 x = if m0 x ≠ none then m0 x else if (m x).isSome then some [] else none := by
  have hmt : (∃ t ∈ memberTags id l, ∃ rest, t = b! "p" :: x :: rest) ↔ (m x).isSome := by
    unfold memberTags
    constructor
    · rintro ⟨t, ht, rest, rfl⟩
      rcases List.mem_cons.1 ht with h' | h'
      · simp at h'
      · obtain ⟨p, hp, he⟩ := List.mem_map.1 h'
        simp only [List.cons.injEq] at he
        rw [← he.2.1, (h.2 p.1 p.2).2 hp]
        rfl
    · intro h'
      obtain ⟨v, hx⟩ := Option.isSome_iff_exists.1 h'
      exact ⟨_, List.mem_cons_of_mem _ (List.mem_map.2 ⟨(x, v), (h.2 x v).1 hx, rfl⟩), [], rfl⟩
  rw [foldl_members]
  simp only [hmt]
  cases hx : m x with
  | none => simp
  | some v => simp [hv x v hx]

/-- **C89 (members and admins, round trip).** Someone who sees a group for the first time and knows its roles gets the members and their roles from the group's admins and members events, whatever the orders in
which the two were written, and in whichever order the two are merged. -/
theorem C89_members_roundtrip_partial (m : Members) (roles : List Role) (l1 l2 : List (Bytes × List Role)) (id : Bytes) (h1 : Lists l1 m) (h2 : Lists l2 m)
    (hv : ∀ k v, m k = some v → isValid32ByteHex k = true ∧ ∀ r ∈ v, roleByName roles r.name = r) :
    (memberTags id l2).foldl memberStep ((adminTags id l1).foldl (adminStep roles) (fun _ => none)) = m ∧
    (adminTags id l1).foldl (adminStep roles) ((memberTags id l2).foldl memberStep (fun _ => none)) = m := by
  constructor
  · funext x
    rw [memberTags_spec id h2 (fun k v h => (hv k v h).1), adminTags_spec id h1 hv _ (fun _ => rfl)]
    cases hx : m x with
    | none => simp
    | some v => cases v <;> simp
  · funext x
    rw [adminTags_spec id h1 hv]
    · rw [memberTags_spec id h2 (fun k v h => (hv k v h).1)]
      cases hx : m x with
      | none => simp
      | some v => cases v <;> simp
    · intro k
      rw [memberTags_spec id h2 (fun k v h => (hv k v h).1)]
      cases m k <;> simp

/-- **C89 is false for admins.** Merging the same admins event again doubles the roles. -/
theorem C89_admins_doubled : ∃ (g : Group) (e : Event) (x : Bytes), (mergeAdmins g e).2.members x = some [⟨b! "mod", []⟩] ∧
    (mergeAdmins (mergeAdmins g e).2 e).2.members x = some [⟨b! "mod", []⟩, ⟨b! "mod", []⟩] :=
  ⟨⟨[], [], [], [], [], fun _ => none, false, false, [], 0, 0, 0⟩, ⟨[], [], 5, 39001, [[b! "p", List.replicate 64 97, b! "mod"]], [], []⟩, List.replicate 64 97, by decide +kernel, by decide +kernel⟩

example : Lists [(List.replicate 64 97, [⟨b! "mod", b! "moderator"⟩]), (List.replicate 64 98, [])]
    (fun k => if k = List.replicate 64 97 then some [⟨b! "mod", b! "moderator"⟩] else if k = List.replicate 64 98 then some [] else none) ∧
    roleByName [⟨b! "mod", b! "moderator"⟩] (b! "mod") = ⟨b! "mod", b! "moderator"⟩ ∧ isValid32ByteHex (List.replicate 64 97) = true := by
  refine ⟨⟨by decide +kernel, ?_⟩, by decide +kernel, by decide +kernel⟩
  intro k v
  simp only [List.mem_cons, Prod.mk.injEq, List.not_mem_nil, or_false]
  have hne : ¬ (List.replicate 64 98 : Bytes) = List.replicate 64 97 := by decide +kernel
  constructor
  · intro h
    split at h
    · next h1 => cases h; exact .inl ⟨h1, rfl⟩
    · split at h
      · next h2 => cases h; exact .inr ⟨h2, rfl⟩
      · cases h
  · rintro (⟨rfl, rfl⟩ | ⟨rfl, rfl⟩)
    · rw [if_pos rfl]
    · rw [if_neg hne, if_pos rfl]

end GoNostr.Group
