import Verif.Nips.Group
import Mathlib.Data.List.Forall2
import Mathlib.Tactic.Tauto

/-!
# C176: the members and admins of a group, after any history of events

nip29/group.go `MergeInAdminsEvent`, `MergeInMembersEvent`, `ToRolesEvent`, `NewGroup`; nip29/utils.go `GetRoleByName`.
-/

set_option autoImplicit false

namespace GoNostr.Group

/-! ## Specification -/

/-- What a role name stands for: the first role of the group with that name, or else a role of that name without a description. Specification; models no code. -/
def IsRole (roles : List Role) (name : Bytes) (r : Role) : Prop :=
  (∃ pre post, roles = pre ++ r :: post ∧ r.name = name ∧ ∀ q ∈ pre, q.name ≠ name) ∨ (r = ⟨name, []⟩ ∧ ∀ q ∈ roles, q.name ≠ name)

/-- The role names that the tags `["p", x, role, role, …]` give to `x`, in their order. Specification; models no code. -/
def named (x : Bytes) (tags : Tags) : List Bytes :=
  tags.flatMap fun t => match t with
    | k :: who :: names => if k = b! "p" ∧ who = x then names else []
    | _ => []

/-- An event that counts: it is of this kind, and neither what the group knew at first (`last`) nor an event of this kind received before it is newer. Specification; models no code. -/
def Counts (kind last : Int) (before : List Event) (e : Event) : Prop :=
  e.kind = kind ∧ last ≤ e.createdAt ∧ ∀ b ∈ before, b.kind = kind → b.createdAt ≤ e.createdAt

open Classical in
/-- All role names given to `x` by the admins events that count. Specification; models no code. -/
noncomputable def given (last : Int) (x : Bytes) : List Event → List Event → List Bytes
  | _, [] => []
  | before, e :: es => (if Counts 39001 last before e then named x e.tags else []) ++ given last x (before ++ [e]) es

/-! ## Model -/

/-- Every event of a history is offered to `MergeInAdminsEvent` (nip29/group.go:247-273) and to `MergeInMembersEvent` (nip29/group.go:275-302); each refuses the kinds of the other. -/
def offer (g : Group) (e : Event) : Group := (mergeMembers (mergeAdmins g e).2 e).2

/-- `NewGroup` (nip29/group.go:97-108) after `ParseGroupAddress` has found relay and id; `GetRoleByName` and the rest start from it. -/
def newGroup (relay id : Bytes) : Group := ⟨relay, id, id, [], [], fun _ => none, false, false, [], 0, 0, 0⟩

/-- `ToRolesEvent` (nip29/group.go:200-214): the date is `LastMembersUpdate`. -/
def toRoles (g : Group) : Event :=
  ⟨[], [], g.lastMembers, 39003, [b! "d", g.id] :: g.roles.map (fun r => [b! "role", r.name, r.description]), [], []⟩

/-! ## Proofs -/

theorem roleByName_spec (roles : List Role) (name : Bytes) (r : Role) : roleByName roles name = r ↔ IsRole roles name r := by
  unfold roleByName IsRole
  induction roles with
  | nil => simp [eq_comm]
  | cons q qs ih =>
    by_cases hq : q.name = name
    · have : (q :: qs).find? (fun r => r.name == name) = some q := by simp [hq]
      rw [this, Option.getD_some]
      constructor
      · rintro rfl
        exact .inl ⟨[], qs, rfl, hq, by simp⟩
      · rintro (⟨pre, post, h1, h2, h3⟩ | ⟨_, h⟩)
        · cases pre with
          | nil => simp at h1; exact h1.1
          | cons p pre =>
            simp at h1
            exact absurd hq (h1.1 ▸ h3 p (by simp))
        · exact absurd hq (h q (by simp))
    · have : (q :: qs).find? (fun r => r.name == name) = qs.find? (fun r => r.name == name) := by simp [hq]
      rw [this, ih]
      constructor
      · rintro (⟨pre, post, h1, h2, h3⟩ | ⟨h1, h2⟩)
        · refine .inl ⟨q :: pre, post, by simp [h1], h2, ?_⟩
          intro a ha
          rcases List.mem_cons.1 ha with rfl | ha
          · exact hq
          · exact h3 a ha
        · refine .inr ⟨h1, ?_⟩
          intro a ha
          rcases List.mem_cons.1 ha with rfl | ha
          · exact hq
          · exact h2 a ha
      · rintro (⟨pre, post, h1, h2, h3⟩ | ⟨h1, h2⟩)
        · cases pre with
          | nil => simp at h1; exact absurd (h1.1 ▸ h2) hq
          | cons p pre =>
            simp at h1
            exact .inl ⟨pre, post, h1.2, h2, fun a ha => h3 a (List.mem_cons_of_mem _ ha)⟩
        · exact .inr ⟨h1, fun a ha => h2 a (List.mem_cons_of_mem _ ha)⟩

theorem named_cons (x : Bytes) (t : Tag) (ts : Tags) : named x (t :: ts) = named x [t] ++ named x ts := by simp [named]

theorem adminStep_at (roles : List Role) (m : Members) (t : Tag) (x : Bytes) :
    adminStep roles m t x = if isValid32ByteHex x = true ∧ named x [t] ≠ [] then some ((m x).getD [] ++ (named x [t]).map (roleByName roles)) else m x := by
  match t with
  | [] => simp [adminStep, named]
  | [_] => simp [adminStep, named]
  | [k, who] => simp [adminStep, named]
  | k :: who :: r :: rs =>
    simp only [adminStep, named, List.flatMap_cons, List.flatMap_nil, List.append_nil]
    by_cases hk : k = b! "p"
    · by_cases hx : who = x
      · subst hx
        by_cases hv : isValid32ByteHex who = true <;> simp [hk, hv]
      · by_cases hv : isValid32ByteHex who = true <;> simp [hk, hx, hv, Ne.symm hx]
    · simp [hk]

theorem foldl_adminStep (roles : List Role) (x : Bytes) : ∀ (tags : Tags) (m : Members),
    tags.foldl (adminStep roles) m x = if isValid32ByteHex x = true ∧ named x tags ≠ [] then some ((m x).getD [] ++ (named x tags).map (roleByName roles)) else m x
  | [], m => by simp [named]
  | t :: ts, m => by
    rw [List.foldl_cons, foldl_adminStep roles x ts, adminStep_at, named_cons x t ts]
    by_cases hv : isValid32ByteHex x = true
    · by_cases h1 : named x [t] = [] <;> by_cases h2 : named x ts = [] <;> simp [hv, h1, h2]
    · simp [hv]

/-- Whoever merges an admins event that is not refused: everyone with a valid key whom it gives roles has the roles had before and those, in their order, each role name standing for the group's first role of
that name; everyone else has what they had. -/
theorem C176_admins (g : Group) (e : Event) (h1 : e.kind = 39001) (h2 : g.lastAdmins ≤ e.createdAt) (x : Bytes) :
    (mergeAdmins g e).1 = true ∧
    ((isValid32ByteHex x = true ∧ named x e.tags ≠ [] → ∃ new, List.Forall₂ (IsRole g.roles) (named x e.tags) new ∧ (mergeAdmins g e).2.members x = some ((g.members x).getD [] ++ new)) ∧
     (¬ (isValid32ByteHex x = true ∧ named x e.tags ≠ []) → (mergeAdmins g e).2.members x = g.members x)) := by
  unfold mergeAdmins
  rw [if_neg (by simpa using h1), if_neg (by omega)]
  refine ⟨rfl, fun h => ⟨(named x e.tags).map (roleByName g.roles), ?_, ?_⟩, fun h => ?_⟩
  · rw [List.forall₂_map_right_iff]
    exact List.forall₂_same.2 fun n _ => (roleByName_spec g.roles n _).1 rfl
  · show e.tags.foldl (adminStep g.roles) g.members x = _
    rw [foldl_adminStep, if_pos h]
  · show e.tags.foldl (adminStep g.roles) g.members x = _
    rw [foldl_adminStep, if_neg h]

/-- Two roles of one name: the first is meant. -/
example : (⟨[], [], 5, 39001, [[b! "d", b! "g"], [b! "p", List.replicate 64 97, b! "mod", b! "king"], [b! "p", b! "bad", b! "mod"]], [], []⟩ : Event).kind = 39001 ∧
    ((mergeAdmins { newGroup [] (b! "g") with roles := [⟨b! "mod", b! "one"⟩, ⟨b! "mod", b! "two"⟩] }
      ⟨[], [], 5, 39001, [[b! "d", b! "g"], [b! "p", List.replicate 64 97, b! "mod", b! "king"], [b! "p", b! "bad", b! "mod"]], [], []⟩).2.members (List.replicate 64 97) =
        some [⟨b! "mod", b! "one"⟩, ⟨b! "king", []⟩]) := by decide +kernel

/-- The state after the events `before`, as far as the events to come see it. Invariant used in the proofs; models no code. -/
structure After (g0 : Group) (before : List Event) (g : Group) : Prop where
  roles : g.roles = g0.roles
  admins : ∀ t, g.lastAdmins ≤ t ↔ g0.lastAdmins ≤ t ∧ ∀ b ∈ before, b.kind = 39001 → b.createdAt ≤ t
  members : ∀ t, g.lastMembers ≤ t ↔ g0.lastMembers ≤ t ∧ ∀ b ∈ before, b.kind = 39002 → b.createdAt ≤ t

theorem offer_roles (g : Group) (e : Event) : (offer g e).roles = g.roles := by
  unfold offer mergeMembers mergeAdmins
  split <;> split <;> (try split) <;> (try split) <;> rfl

theorem after_step {g0 g : Group} {before : List Event} (e : Event) (h : After g0 before g) : After g0 (before ++ [e]) (offer g e) := by
  refine ⟨by rw [offer_roles, h.roles], fun t => ?_, fun t => ?_⟩
  · have e1 : (offer g e).lastAdmins = if e.kind = 39001 ∧ g.lastAdmins ≤ e.createdAt then e.createdAt else g.lastAdmins := by
      unfold offer mergeMembers mergeAdmins
      by_cases hk : e.kind = 39001
      · have hk2 : e.kind ≠ 39002 := by omega
        by_cases hl : e.createdAt < g.lastAdmins
        · simp [hk, hl, show ¬ g.lastAdmins ≤ e.createdAt by omega]
        · simp [hk, hl, show g.lastAdmins ≤ e.createdAt by omega]
      · by_cases hk2 : e.kind = 39002 <;> simp [hk, hk2]
        split <;> rfl
    have ha := h.admins
    rw [e1]
    by_cases hk : e.kind = 39001
    · by_cases hl : g.lastAdmins ≤ e.createdAt
      · rw [if_pos ⟨hk, hl⟩]
        constructor
        · intro ht
          obtain ⟨a, b⟩ := (ha t).1 (by omega)
          refine ⟨a, fun x hx hxk => ?_⟩
          rcases List.mem_append.1 hx with hx | hx
          · exact b x hx hxk
          · rw [List.mem_singleton.1 hx]; exact ht
        · rintro ⟨a, b⟩
          exact b e (by simp) hk
      · rw [if_neg (by tauto), ha t]
        constructor
        · rintro ⟨a, b⟩
          refine ⟨a, fun x hx hxk => ?_⟩
          rcases List.mem_append.1 hx with hx | hx
          · exact b x hx hxk
          · rw [List.mem_singleton.1 hx]
            have := (ha t).2 ⟨a, b⟩
            omega
        · rintro ⟨a, b⟩
          exact ⟨a, fun x hx => b x (List.mem_append_left _ hx)⟩
    · rw [if_neg (by tauto), ha t]
      constructor
      · rintro ⟨a, b⟩
        refine ⟨a, fun x hx hxk => ?_⟩
        rcases List.mem_append.1 hx with hx | hx
        · exact b x hx hxk
        · exact absurd (List.mem_singleton.1 hx ▸ hxk) hk
      · rintro ⟨a, b⟩
        exact ⟨a, fun x hx => b x (List.mem_append_left _ hx)⟩
  · have e1 : (offer g e).lastMembers = if e.kind = 39002 ∧ g.lastMembers ≤ e.createdAt then e.createdAt else g.lastMembers := by
      unfold offer mergeMembers mergeAdmins
      by_cases hk : e.kind = 39002
      · by_cases hl : e.createdAt < g.lastMembers
        · simp [hk, hl, show ¬ g.lastMembers ≤ e.createdAt by omega]
        · simp [hk, hl, show g.lastMembers ≤ e.createdAt by omega]
      · by_cases hk2 : e.kind = 39001 <;> simp [hk, hk2]
        split <;> rfl
    have ha := h.members
    rw [e1]
    by_cases hk : e.kind = 39002
    · by_cases hl : g.lastMembers ≤ e.createdAt
      · rw [if_pos ⟨hk, hl⟩]
        constructor
        · intro ht
          obtain ⟨a, b⟩ := (ha t).1 (by omega)
          refine ⟨a, fun x hx hxk => ?_⟩
          rcases List.mem_append.1 hx with hx | hx
          · exact b x hx hxk
          · rw [List.mem_singleton.1 hx]; exact ht
        · rintro ⟨a, b⟩
          exact b e (by simp) hk
      · rw [if_neg (by tauto), ha t]
        constructor
        · rintro ⟨a, b⟩
          refine ⟨a, fun x hx hxk => ?_⟩
          rcases List.mem_append.1 hx with hx | hx
          · exact b x hx hxk
          · rw [List.mem_singleton.1 hx]
            have := (ha t).2 ⟨a, b⟩
            omega
        · rintro ⟨a, b⟩
          exact ⟨a, fun x hx => b x (List.mem_append_left _ hx)⟩
    · rw [if_neg (by tauto), ha t]
      constructor
      · rintro ⟨a, b⟩
        refine ⟨a, fun x hx hxk => ?_⟩
        rcases List.mem_append.1 hx with hx | hx
        · exact b x hx hxk
        · exact absurd (List.mem_singleton.1 hx ▸ hxk) hk
      · rintro ⟨a, b⟩
        exact ⟨a, fun x hx => b x (List.mem_append_left _ hx)⟩

theorem counts_admins {g0 g : Group} {before : List Event} {e : Event} (h : After g0 before g) : Counts 39001 g0.lastAdmins before e ↔ e.kind = 39001 ∧ g.lastAdmins ≤ e.createdAt := by
  unfold Counts
  rw [h.admins]

theorem counts_members {g0 g : Group} {before : List Event} {e : Event} (h : After g0 before g) : Counts 39002 g0.lastMembers before e ↔ e.kind = 39002 ∧ g.lastMembers ≤ e.createdAt := by
  unfold Counts
  rw [h.members]

/-- An event of the history makes `x` a member: an admins event that counts and gives `x` a role, or a members event that counts and names `x`. Specification; models no code. -/
def Adds (la lm : Int) (x : Bytes) (before : List Event) (e : Event) : Prop :=
  (Counts 39001 la before e ∧ named x e.tags ≠ []) ∨ (Counts 39002 lm before e ∧ ∃ t ∈ e.tags, ∃ rest, t = b! "p" :: x :: rest)

open Classical in
theorem offer_member {g0 g : Group} {before : List Event} (e : Event) (h : After g0 before g) (x : Bytes) (hv : isValid32ByteHex x = true) :
    (offer g e).members x = if g.members x ≠ none ∨ Adds g0.lastAdmins g0.lastMembers x before e then
      some ((g.members x).getD [] ++ (if Counts 39001 g0.lastAdmins before e then named x e.tags else []).map (roleByName g0.roles)) else none := by
  unfold Adds
  simp only [counts_admins h, counts_members h, ← h.roles]
  unfold offer
  by_cases k1 : e.kind = 39001
  · have k2 : e.kind ≠ 39002 := by omega
    have : (mergeMembers (mergeAdmins g e).2 e).2 = (mergeAdmins g e).2 := by unfold mergeMembers; rw [if_pos k2]
    rw [this]
    by_cases hl : g.lastAdmins ≤ e.createdAt
    · have : (mergeAdmins g e).2.members x = e.tags.foldl (adminStep g.roles) g.members x := by
        unfold mergeAdmins
        rw [if_neg (by simpa using k1), if_neg (by omega)]
      rw [this, foldl_adminStep]
      by_cases hn : named x e.tags = []
      · cases hm : g.members x <;> simp [k1, hl, hn]
      · simp [k1, hl, hn, hv]
    · have : (mergeAdmins g e).2 = g := by
        unfold mergeAdmins
        rw [if_neg (by simpa using k1), if_pos (by omega)]
      rw [this]
      cases hm : g.members x <;> simp [k1, hl]
  · have : (mergeAdmins g e).2 = g := by unfold mergeAdmins; rw [if_pos k1]
    rw [this]
    by_cases k2 : e.kind = 39002
    · by_cases hl : g.lastMembers ≤ e.createdAt
      · have := (C89_members_added g e k2 hl x).2
        rw [this]
        cases hm : g.members x <;> simp [k2, hl, hv]
      · have : (mergeMembers g e).2 = g := by
          unfold mergeMembers
          rw [if_neg (by simpa using k2), if_pos (by omega)]
        rw [this]
        cases hm : g.members x <;> simp [k2, hl]
    · have : (mergeMembers g e).2 = g := by unfold mergeMembers; rw [if_pos k2]
      rw [this]
      cases hm : g.members x <;> simp [k1, k2]

theorem offer_invalid (g : Group) (e : Event) (x : Bytes) (hv : isValid32ByteHex x ≠ true) : (offer g e).members x = g.members x := by
  unfold offer
  have h1 : (mergeAdmins g e).2.members x = g.members x := by
    unfold mergeAdmins
    split
    · rfl
    · split
      · rfl
      · show e.tags.foldl (adminStep g.roles) g.members x = _
        rw [foldl_adminStep, if_neg (by tauto)]
  have h2 : ∀ g : Group, (mergeMembers g e).2.members x = g.members x := by
    intro g
    by_cases k : e.kind = 39002 ∧ g.lastMembers ≤ e.createdAt
    · rw [(C89_members_added g e k.1 k.2 x).2]
      cases hm : g.members x <;> simp [hv]
    · unfold mergeMembers
      split
      · rfl
      · rw [if_pos (by by_contra; apply k; constructor <;> simp_all)]
  rw [h2, h1]

theorem history {g0 : Group} (x : Bytes) (hv : isValid32ByteHex x = true) : ∀ (es before : List Event) (g : Group), After g0 before g →
    ((es.foldl offer g).members x ≠ none ↔ g.members x ≠ none ∨ ∃ pre e post, es = pre ++ e :: post ∧ Adds g0.lastAdmins g0.lastMembers x (before ++ pre) e) ∧
    ((es.foldl offer g).members x).getD [] = (g.members x).getD [] ++ (given g0.lastAdmins x before es).map (roleByName g0.roles)
  | [], before, g, _ => by simp [given]
  | e :: es, before, g, h => by
    classical
    obtain ⟨i1, i2⟩ := history x hv es (before ++ [e]) (offer g e) (after_step e h)
    have hm := offer_member e h x hv
    constructor
    · rw [List.foldl_cons, i1]
      constructor
      · rintro (hne | ⟨pre, e', post, rfl, ha⟩)
        · rw [hm] at hne
          by_cases hc : g.members x ≠ none ∨ Adds g0.lastAdmins g0.lastMembers x before e
          · rcases hc with hc | hc
            · exact .inl hc
            · exact .inr ⟨[], e, es, rfl, by simpa using hc⟩
          · rw [if_neg hc] at hne
            exact absurd rfl hne
        · exact .inr ⟨e :: pre, e', post, rfl, by simpa using ha⟩
      · rintro (hne | ⟨pre, e', post, heq, ha⟩)
        · left
          rw [hm, if_pos (.inl hne)]
          simp
        · cases pre with
          | nil =>
            simp at heq
            left
            rw [hm, if_pos (.inr (by rw [heq.1]; simpa using ha))]
            simp
          | cons p pre =>
            simp at heq
            refine .inr ⟨pre, e', post, heq.2, ?_⟩
            rw [heq.1]
            simpa using ha
    · rw [List.foldl_cons, i2, hm]
      simp only [given, List.map_append]
      by_cases hc : g.members x ≠ none ∨ Adds g0.lastAdmins g0.lastMembers x before e
      · rw [if_pos hc]
        simp
      · rw [if_neg hc]
        have h1 : g.members x = none := by
          by_contra h1
          exact hc (.inl h1)
        have h2 : (if Counts 39001 g0.lastAdmins before e then named x e.tags else []) = [] := by
          split
          · next hcount =>
            by_contra hn
            exact hc (.inr (.inl ⟨hcount, hn⟩))
          · rfl
        rw [h1, h2]
        simp

/-- **C176: what is reported.** Offering a list succeeds exactly if it is of the kind asked for and not older than the last one taken, and a group that refuses a list, with an error, stays as it was. -/
theorem C176_refused (g : Group) (e : Event) :
    ((mergeAdmins g e).1 = true ↔ e.kind = 39001 ∧ g.lastAdmins ≤ e.createdAt) ∧ ((mergeAdmins g e).1 = false → (mergeAdmins g e).2 = g) ∧
    ((mergeMembers g e).1 = true ↔ e.kind = 39002 ∧ g.lastMembers ≤ e.createdAt) ∧ ((mergeMembers g e).1 = false → (mergeMembers g e).2 = g) := by
  unfold mergeAdmins mergeMembers
  refine ⟨?_, ?_, ?_, ?_⟩
  · by_cases h : e.kind = 39001 <;> by_cases h2 : e.createdAt < g.lastAdmins <;> simp [h, h2] <;> omega
  · by_cases h : e.kind = 39001 <;> by_cases h2 : e.createdAt < g.lastAdmins <;> simp [h, h2]
  · by_cases h : e.kind = 39002 <;> by_cases h2 : e.createdAt < g.lastMembers <;> simp [h, h2] <;> omega
  · by_cases h : e.kind = 39002 <;> by_cases h2 : e.createdAt < g.lastMembers <;> simp [h, h2]

example : (mergeMembers (newGroup [] (b! "g")) ⟨[], [], 6, 39001, [], [], []⟩).1 = false ∧ (mergeAdmins (newGroup [] (b! "g")) ⟨[], [], 6, 39001, [], [], []⟩).1 = true := by decide +kernel

/-- **C176 (histories), part.** After any history of events in any order: those with a valid key are members exactly if they were, or if an event that counted made them one; and their roles are the ones they
had, then all those that the admins events that counted gave them, in that order. No other keys become members.
Missing, since it is false: that the members and roles are those of the newest events, see `C176_never_removed`, `C176_demoted_stays`. -/
theorem C176_history_partial (g : Group) (es : List Event) (x : Bytes) :
    (isValid32ByteHex x = true →
      ((es.foldl offer g).members x ≠ none ↔ g.members x ≠ none ∨ ∃ pre e post, es = pre ++ e :: post ∧ Adds g.lastAdmins g.lastMembers x pre e) ∧
      ∃ new, List.Forall₂ (IsRole g.roles) (given g.lastAdmins x [] es) new ∧ ((es.foldl offer g).members x).getD [] = (g.members x).getD [] ++ new) ∧
    (isValid32ByteHex x ≠ true → (es.foldl offer g).members x = g.members x) := by
  refine ⟨fun hv => ?_, fun hv => ?_⟩
  · obtain ⟨h1, h2⟩ := history (g0 := g) x hv es [] g ⟨rfl, by simp, by simp⟩
    refine ⟨by simpa using h1, _, ?_, h2⟩
    rw [List.forall₂_map_right_iff]
    exact List.forall₂_same.2 fun n _ => (roleByName_spec g.roles n _).1 rfl
  · induction es generalizing g with
    | nil => rfl
    | cons e es ih => rw [List.foldl_cons, ih, offer_invalid g e x hv]

/-- A key of the examples. -/
def keyOf (c : UInt8) : Bytes := List.replicate 64 c

/-- **C176 is false: nobody leaves.** Whoever is a member stays one, whatever events are merged, and keeps the roles had, at the front. -/
theorem C176_never_removed (g : Group) (es : List Event) (x : Bytes) (roles : List Role) (h : g.members x = some roles) :
    ∃ more, (es.foldl offer g).members x = some (roles ++ more) := by
  obtain ⟨h1, h2⟩ := C176_history_partial g es x
  by_cases hv : isValid32ByteHex x = true
  · obtain ⟨a, new, -, b⟩ := h1 hv
    have : (es.foldl offer g).members x ≠ none := a.2 (.inl (by simp [h]))
    cases hm : (es.foldl offer g).members x with
    | none => exact absurd hm this
    | some l =>
      rw [hm, h] at b
      exact ⟨new, by simpa using b⟩
  · exact ⟨[], by rw [h2 hv, h, List.append_nil]⟩

/-- **C176 is false: roles that are taken away stay.** The newer list of admins no longer gives a role to someone; the role stays. -/
theorem C176_demoted_stays : ∃ old new : Event, old.kind = 39001 ∧ new.kind = 39001 ∧ old.createdAt < new.createdAt ∧ named (keyOf 97) new.tags = [] ∧
    ([old, new].foldl offer (newGroup [] (b! "g"))).members (keyOf 97) = some [⟨b! "mod", []⟩] :=
  ⟨⟨[], [], 5, 39001, [[b! "d", b! "g"], [b! "p", keyOf 97, b! "mod"]], [], []⟩, ⟨[], [], 6, 39001, [[b! "d", b! "g"], [b! "p", keyOf 98, b! "mod"]], [], []⟩, rfl, rfl, by decide, by decide +kernel, by decide +kernel⟩

/-- A history with a late old event that does not count, and a member who becomes an admin. -/
example : ([⟨[], [], 6, 39002, [[b! "d", b! "g"], [b! "p", keyOf 97], [b! "p", b! "zz"]], [], []⟩, ⟨[], [], 7, 39001, [[b! "p", keyOf 97, b! "mod"]], [], []⟩,
    ⟨[], [], 6, 39001, [[b! "p", keyOf 97, b! "king"]], [], []⟩] : List Event).foldl offer (newGroup (b! "wss://r") (b! "g")) |>.members (keyOf 97) |> (· = some [⟨b! "mod", []⟩]) := by decide +kernel

/-- A new group has its id as its name, no picture, no words about it, no members and no roles, is open to everyone, and has no dates, so that the first event of each kind that is not from before 1970 counts. -/
theorem C176_new (relay id x : Bytes) (e : Event) :
    (newGroup relay id).id = id ∧ (newGroup relay id).name = id ∧ (newGroup relay id).relay = relay ∧ (newGroup relay id).members x = none ∧ (newGroup relay id).roles = [] ∧
    (newGroup relay id).picture = [] ∧ (newGroup relay id).about = [] ∧ (newGroup relay id).priv = false ∧ (newGroup relay id).closed = false ∧
    (0 ≤ e.createdAt → e.kind = 39000 → ∀ changed g, mergeMetadata (newGroup relay id) e = .val (changed, g) → changed = true) ∧
    (0 ≤ e.createdAt → (e.kind = 39001 → (mergeAdmins (newGroup relay id) e).1 = true) ∧ (e.kind = 39002 → (mergeMembers (newGroup relay id) e).1 = true)) := by
  refine ⟨rfl, rfl, rfl, rfl, rfl, rfl, rfl, rfl, rfl, fun h k c g hm => ?_, fun h => ⟨fun k => ?_, fun k => ?_⟩⟩
  · unfold mergeMetadata at hm
    rw [if_neg (by simpa using k), if_neg (by simp [newGroup]; omega)] at hm
    revert hm
    cases field (b! "name") (newGroup relay id).id e.tags with
    | panic => simp
    | val a => cases field (b! "about") (newGroup relay id).about e.tags with
      | panic => simp
      | val b => cases field (b! "picture") (newGroup relay id).picture e.tags with
        | panic => simp
        | val p => cases flag (b! "private") (newGroup relay id).priv e.tags with
          | panic => simp
          | val p => cases flag (b! "closed") (newGroup relay id).closed e.tags with
            | panic => simp
            | val p => simp only [Out.val_bind, Out.pure_eq, Out.val.injEq, Prod.mk.injEq]; exact fun h => h.1.symm
  · unfold mergeAdmins
    rw [if_neg (by simpa using k), if_neg (by simp [newGroup]; omega)]
  · unfold mergeMembers
    rw [if_neg (by simpa using k), if_neg (by simp [newGroup]; omega)]

/-- The roles page lists every role, in the group's order, with its description, under the group's id. -/
theorem C176_roles_page (g : Group) : (toRoles g).kind = 39003 ∧ Tags.getD (toRoles g).tags = g.id ∧
    List.Forall₂ (fun (r : Role) t => t = [b! "role", r.name, r.description]) g.roles (toRoles g).tags.tail := by
  refine ⟨rfl, by simp [toRoles, Tags.getD], ?_⟩
  show List.Forall₂ _ g.roles (g.roles.map _)
  rw [List.forall₂_map_right_iff]
  exact List.forall₂_same.2 fun _ _ => rfl

/-- **C176 is false: the roles page is dated by the members.** Merging a members event, which says nothing of roles, gives the roles page that event's date; merging no other event does. -/
theorem C176_roles_date (g : Group) (e : Event) :
    (e.kind = 39002 → g.lastMembers ≤ e.createdAt → (toRoles (offer g e)).createdAt = e.createdAt ∧ (toRoles (offer g e)).tags = (toRoles g).tags) ∧
    (e.kind ≠ 39002 → toRoles (offer g e) = toRoles g) := by
  constructor
  · intro h1 h2
    have k : e.kind ≠ 39001 := by omega
    have : offer g e = { g with lastMembers := e.createdAt, members := e.tags.foldl memberStep g.members } := by
      unfold offer mergeMembers mergeAdmins
      rw [if_pos k, if_neg (by simpa using h1)]
      simp [show ¬ e.createdAt < g.lastMembers by omega]
    rw [this]
    exact ⟨rfl, rfl⟩
  · intro h
    unfold offer mergeMembers
    rw [if_pos h]
    unfold mergeAdmins
    split
    · rfl
    · split <;> rfl

example : (⟨[], [], 9, 39002, [[b! "p", keyOf 97]], [], []⟩ : Event).kind = 39002 ∧
    (toRoles (offer (newGroup [] (b! "g")) ⟨[], [], 9, 39002, [[b! "p", keyOf 97]], [], []⟩)).createdAt = 9 := by decide +kernel

end GoNostr.Group
