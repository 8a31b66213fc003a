import Verif.Misc.Pointers
/-!
# C66 (nip10), C67 (nip22), C68 (nip40): reading tags of notes, comments and expiring events
-/

set_option autoImplicit false

namespace GoNostr.Thread

open Nip19 (ProfilePointer EventPointer EntityPointer)
open Ptr

/-- `p, _ := EventPointerFromTag(tag); return p`: the zero pointer on an error. -/
def eventOrZero (env : Env) (tag : Tag) : Out EventPointer :=
  match eventFromTag env tag with
  | .ok p => .val p
  | .err _ => .val { id := [] }
  | .panic => .panic

/-- `len(tag) >= 4 && tag[0] == "e" && tag[3] == "root"` (nip10/nip10.go:7). -/
def isRoot : Tag → Bool
  | k :: _ :: _ :: m :: _ => k = b! "e" ∧ m = b! "root"
  | _ => false

/-- The loop of nip10 `GetThreadRoot` (nip10/nip10.go:6-11): the first marked root. -/
def firstRoot : Tags → Option Tag
  | [] => none
  | t :: rest => if isRoot t then some t else firstRoot rest

/-- nip10 `GetThreadRoot` (nip10/nip10.go:5-21); `none` is nil. -/
def threadRoot (env : Env) (tags : Tags) : Out (Option EventPointer) :=
  match firstRoot tags with
  | some t => match eventOrZero env t with
    | .val p => .val (some p)
    | .panic => .panic
  | none => match Tags.find (b! "e") tags with
    | none => .val none
    | some t => match goIndex t 1 with
      | .val id => .val (some { id := id })
      | .panic => .panic

/-- What the loop of nip10 `GetImmediateParent` does with a tag (nip10/nip10.go:27-53). -/
inductive Mark
  | skip | reply | parent | last
  deriving DecidableEq, Repr

/-- nip10/nip10.go:27-53 -/
def markOf : Tag → Mark
  | k :: _ :: r =>
    if k ≠ b! "e" ∧ k ≠ b! "a" then .skip
    else match r with
      | _ :: m :: _ => if m = b! "reply" then .reply else if m = b! "parent" then .parent else if m = b! "mention" then .skip else .last
      | _ => .last
  | _ => .skip

/-- The loop; the state is `parent`, `lastE`. -/
def parentLoop : Tags → Option Tag → Option Tag → Option Tag × Option Tag
  | [], p, l => (p, l)
  | t :: rest, p, l => match markOf t with
    | .skip => parentLoop rest p l
    | .reply => (some t, l)
    | .parent => parentLoop rest (some t) l
    | .last => parentLoop rest p (some t)

/-- nip10 `GetImmediateParent` (nip10/nip10.go:23-72). -/
def immediateParent (env : Env) (tags : Tags) : Out (Option EventPointer) :=
  match parentLoop tags none none with
  | (some t, _) => match eventOrZero env t with
    | .val p => .val (some p)
    | .panic => .panic
  | (none, some t) => match goIndex t 1 with
    | .val id => .val (some { id := id })
    | .panic => .panic
  | (none, none) => .val none

/-! ## Specification and proofs -/

/-- `t` is the first / last tag of the list with the property. -/
def IsFirst (P : Tag → Prop) (tags : Tags) (t : Tag) : Prop := ∃ pre post, tags = pre ++ t :: post ∧ P t ∧ ∀ x ∈ pre, ¬ P x
/-- Auxiliary definition of the specification and the proofs; models no code. -/
def IsLast (P : Tag → Prop) (tags : Tags) (t : Tag) : Prop := ∃ pre post, tags = pre ++ t :: post ∧ P t ∧ ∀ x ∈ post, ¬ P x

/-- An `e` tag with a value / an `e` tag marked as root. -/
def ETag (t : Tag) : Prop := ∃ v r, t = b! "e" :: v :: r
/-- Auxiliary definition of the specification and the proofs; models no code. -/
def RootTag (t : Tag) : Prop := ∃ v w r, t = b! "e" :: v :: w :: b! "root" :: r
/-- An `e` or `a` tag with a value; one with the marker `m` at position 3. -/
def RefTag (t : Tag) : Prop := ∃ k v r, t = k :: v :: r ∧ (k = b! "e" ∨ k = b! "a")
/-- Auxiliary definition of the specification and the proofs; models no code. -/
def Marked (m : Bytes) (t : Tag) : Prop := ∃ k v w r, t = k :: v :: w :: m :: r ∧ (k = b! "e" ∨ k = b! "a")

theorem isRoot_iff (t : Tag) : isRoot t = true ↔ RootTag t := by
  unfold isRoot RootTag
  split
  · simp only [decide_eq_true_eq]
    constructor
    · rintro ⟨rfl, rfl⟩; exact ⟨_, _, _, rfl⟩
    · rintro ⟨v, w, r, h⟩
      simp only [List.cons.injEq] at h
      exact ⟨h.1, h.2.2.2.1⟩
  · rename_i hn
    constructor
    · intro h; cases h
    · rintro ⟨v, w, r, rfl⟩; exact absurd rfl (hn _ _ _ _ _)

theorem firstRoot_spec : ∀ (tags : Tags), (∃ t, firstRoot tags = some t ∧ IsFirst RootTag tags t) ∨ (firstRoot tags = none ∧ ∀ t ∈ tags, ¬ RootTag t)
  | [] => Or.inr ⟨rfl, by simp⟩
  | t :: rest => by
    by_cases h : isRoot t = true
    · exact Or.inl ⟨t, by simp [firstRoot, h], [], rest, rfl, (isRoot_iff t).1 h, by simp⟩
    · have hn : ¬ RootTag t := fun hr => h ((isRoot_iff t).2 hr)
      rcases firstRoot_spec rest with ⟨u, h1, pre, post, h2, h3, h4⟩ | ⟨h1, h2⟩
      · refine Or.inl ⟨u, by simp [firstRoot, h, h1], t :: pre, post, by simp [h2], h3, ?_⟩
        intro x hx
        rcases List.mem_cons.1 hx with rfl | hx
        · exact hn
        · exact h4 x hx
      · refine Or.inr ⟨by simp [firstRoot, h, h1], ?_⟩
        intro x hx
        rcases List.mem_cons.1 hx with rfl | hx
        · exact hn
        · exact h2 x hx

theorem find_spec (key : Bytes) : ∀ (tags : Tags), (∃ t, Tags.find key tags = some t ∧ IsFirst (fun t => ∃ v r, t = key :: v :: r) tags t) ∨
    (Tags.find key tags = none ∧ ∀ t ∈ tags, ¬ ∃ v r, t = key :: v :: r)
  | [] => Or.inr ⟨rfl, by simp⟩
  | t :: rest => by
    by_cases h : ∃ v r, t = key :: v :: r
    · obtain ⟨v, r, rfl⟩ := h
      exact Or.inl ⟨_, by simp [Tags.find], [], rest, rfl, ⟨v, r, rfl⟩, by simp⟩
    · have hf : Tags.find key (t :: rest) = Tags.find key rest := by
        match t, h with
        | [], _ => rfl
        | [_], _ => rfl
        | k :: v :: r, h =>
          have hk : k ≠ key := fun hc => h ⟨v, r, by rw [hc]⟩
          simp [Tags.find, hk]
      rw [hf]
      rcases find_spec key rest with ⟨u, h1, pre, post, h2, h3, h4⟩ | ⟨h1, h2⟩
      · refine Or.inl ⟨u, h1, t :: pre, post, by simp [h2], h3, ?_⟩
        intro x hx
        rcases List.mem_cons.1 hx with rfl | hx
        · exact h
        · exact h4 x hx
      · refine Or.inr ⟨h1, ?_⟩
        intro x hx
        rcases List.mem_cons.1 hx with rfl | hx
        · exact h
        · exact h2 x hx

theorem first_unique {P : Tag → Prop} : ∀ {tags : Tags} {t u : Tag}, IsFirst P tags t → IsFirst P tags u → t = u
  | [], t, u, ⟨pre, post, h, _⟩, _ => by simp at h
  | x :: tags, t, u, ⟨p1, q1, h1, h2, h3⟩, ⟨p2, q2, g1, g2, g3⟩ => by
    cases p1 with
    | nil =>
      simp only [List.nil_append, List.cons.injEq] at h1
      cases p2 with
      | nil =>
        simp only [List.nil_append, List.cons.injEq] at g1
        rw [← h1.1, ← g1.1]
      | cons y p2 =>
        simp only [List.cons_append, List.cons.injEq] at g1
        exact absurd (by rw [← g1.1, h1.1]; exact h2) (g3 y List.mem_cons_self)
    | cons y p1 =>
      simp only [List.cons_append, List.cons.injEq] at h1
      cases p2 with
      | nil =>
        simp only [List.nil_append, List.cons.injEq] at g1
        exact absurd (by rw [← h1.1, g1.1]; exact g2) (h3 y List.mem_cons_self)
      | cons z p2 =>
        simp only [List.cons_append, List.cons.injEq] at g1
        exact first_unique ⟨p1, q1, h1.2, h2, fun x hx => h3 x (List.mem_cons_of_mem _ hx)⟩
          ⟨p2, q2, g1.2, g2, fun x hx => g3 x (List.mem_cons_of_mem _ hx)⟩

theorem eventOrZero_val (env : Env) (t : Tag) (h : 2 ≤ t.length) : ∃ p, eventOrZero env t = .val p := by
  unfold eventOrZero
  cases he : eventFromTag env t with
  | ok p => exact ⟨p, rfl⟩
  | err e => exact ⟨_, rfl⟩
  | panic => have := ((C65_fromTag_panics_iff env t).2.1).1 he; omega

/-- **C66** (root, marked). If a tag is marked as root, the first such tag decides: the result is the pointer it holds, provided its id is
valid (otherwise an empty pointer is returned, `C66_bad_root_gives_empty_pointer`). -/
theorem C66_root_marked (env : Env) (tags : Tags) (t : Tag) (p : EventPointer) (h : IsFirst RootTag tags t) (hp : eventFromTag env t = .ok p) :
    threadRoot env tags = .val (some p) := by
  rcases firstRoot_spec tags with ⟨u, h1, h2⟩ | ⟨-, h2⟩
  · rw [first_unique h2 h] at h1
    simp [threadRoot, h1, eventOrZero, hp]
  · obtain ⟨pre, post, rfl, h3, -⟩ := h
    exact absurd h3 (h2 t (by simp))

/-- **C66** (root, positional). Without a marked root the first `e` tag is taken. -/
theorem C66_root_positional (env : Env) (tags : Tags) (v : Bytes) (r : List Bytes) (hn : ∀ t ∈ tags, ¬ RootTag t)
    (h : IsFirst ETag tags (b! "e" :: v :: r)) : threadRoot env tags = .val (some { id := v }) := by
  rcases firstRoot_spec tags with ⟨u, -, pre, post, rfl, h3, -⟩ | ⟨h1, -⟩
  · exact absurd h3 (hn u (by simp))
  · rcases find_spec (b! "e") tags with ⟨u, h2, h3⟩ | ⟨-, h3⟩
    · rw [first_unique h3 h] at h2
      simp [threadRoot, h1, h2, goIndex_one]
    · obtain ⟨pre, post, rfl, h4, -⟩ := h
      exact absurd h4 (h3 _ (by simp))

/-- **C66** (root, none). The result is nil exactly when there is no `e` tag with a value; it never panics. -/
theorem C66_root_nil_iff (env : Env) (tags : Tags) :
    (threadRoot env tags = .val none ↔ ∀ t ∈ tags, ¬ ETag t) ∧ threadRoot env tags ≠ .panic := by
  have root_e : ∀ t, RootTag t → ETag t := by
    rintro t ⟨v, w, r, rfl⟩; exact ⟨_, _, rfl⟩
  rcases firstRoot_spec tags with ⟨u, h1, pre, post, rfl, h3, -⟩ | ⟨h1, -⟩
  · obtain ⟨v, w, r, rfl⟩ := h3
    obtain ⟨p, hp⟩ := eventOrZero_val env (b! "e" :: v :: w :: b! "root" :: r) (by simp)
    have e : threadRoot env (pre ++ (b! "e" :: v :: w :: b! "root" :: r) :: post) = .val (some p) := by simp [threadRoot, h1, hp]
    rw [e]
    refine ⟨⟨fun h => by simp at h, fun h => absurd ⟨_, _, rfl⟩ (h (b! "e" :: v :: w :: b! "root" :: r) (by simp))⟩, by simp⟩
  · rcases find_spec (b! "e") tags with ⟨u, h2, pre, post, rfl, ⟨v, r, rfl⟩, -⟩ | ⟨h2, h3⟩
    · have e : threadRoot env (pre ++ (b! "e" :: v :: r) :: post) = .val (some { id := v }) := by simp [threadRoot, h1, h2, goIndex_one]
      rw [e]
      refine ⟨⟨fun h => by simp at h, fun h => absurd ⟨_, _, rfl⟩ (h (b! "e" :: v :: r) (by simp))⟩, by simp⟩
    · have e : threadRoot env tags = .val none := by simp [threadRoot, h1, h2]
      rw [e]
      exact ⟨⟨fun _ => h3, fun _ => rfl⟩, by simp⟩

/-- **C66 refuted (invalid root).** A marked root with an invalid id hides a later valid one: an empty pointer is returned. -/
theorem C66_bad_root_gives_empty_pointer (env : Env) (good : Bytes) : threadRoot env
    [[b! "e", b! "zz", [], b! "root"], [b! "e", good, [], b! "root"]] = .val (some { id := [] }) := by
  have h : isValid32ByteHex (b! "zz") = false := by decide +kernel
  simp [threadRoot, firstRoot, isRoot, eventOrZero, eventFromTag, goIndex_one, h]

theorem markOf_cases (t : Tag) :
    (markOf t = .reply ↔ Marked (b! "reply") t) ∧ (markOf t = .parent ↔ Marked (b! "parent") t) ∧
    (markOf t = .last ↔ RefTag t ∧ ¬ Marked (b! "reply") t ∧ ¬ Marked (b! "parent") t ∧ ¬ Marked (b! "mention") t) := by
  match t with
  | [] => simp [markOf, Marked, RefTag]
  | [a] => simp [markOf, Marked, RefTag]
  | [k, v] =>
    by_cases hk : k ≠ b! "e" ∧ k ≠ b! "a"
    · simp only [markOf, Marked, RefTag]
      rw [if_pos hk]
      simp [hk.1, hk.2]
    · simp only [markOf, Marked, RefTag]
      rw [if_neg hk]
      have : k = b! "e" ∨ k = b! "a" := by by_cases h : k = b! "e"; exact Or.inl h; exact Or.inr (by by_contra h2; exact hk ⟨h, h2⟩)
      simp [this]
  | [k, v, w] =>
    by_cases hk : k ≠ b! "e" ∧ k ≠ b! "a"
    · simp only [markOf, Marked, RefTag]
      rw [if_pos hk]
      simp [hk.1, hk.2]
    · simp only [markOf, Marked, RefTag]
      rw [if_neg hk]
      have : k = b! "e" ∨ k = b! "a" := by by_cases h : k = b! "e"; exact Or.inl h; exact Or.inr (by by_contra h2; exact hk ⟨h, h2⟩)
      simp [this]
  | k :: v :: w :: m :: r =>
    have hm : ∀ x, Marked x (k :: v :: w :: m :: r) ↔ m = x ∧ (k = b! "e" ∨ k = b! "a") := by
      intro x
      constructor
      · rintro ⟨k', v', w', r', h, hk⟩
        simp only [List.cons.injEq] at h
        obtain ⟨rfl, rfl, rfl, rfl, rfl⟩ := h
        exact ⟨rfl, hk⟩
      · rintro ⟨rfl, hk⟩; exact ⟨k, v, w, r, rfl, hk⟩
    have hr : RefTag (k :: v :: w :: m :: r) ↔ (k = b! "e" ∨ k = b! "a") := by
      constructor
      · rintro ⟨k', v', r', h, hk⟩
        simp only [List.cons.injEq] at h
        obtain ⟨rfl, rfl, rfl⟩ := h
        exact hk
      · intro hk; exact ⟨k, v, _, rfl, hk⟩
    rw [hm, hm, hm, hr]
    simp only [markOf]
    by_cases hk : k ≠ b! "e" ∧ k ≠ b! "a"
    · rw [if_pos hk]
      simp [hk.1, hk.2]
    · rw [if_neg hk]
      have hk' : k = b! "e" ∨ k = b! "a" := by by_cases h : k = b! "e"; exact Or.inl h; exact Or.inr (by by_contra h2; exact hk ⟨h, h2⟩)
      simp only [hk', and_true, true_and]
      by_cases h1 : m = b! "reply"
      · subst h1; simp
      · by_cases h2 : m = b! "parent"
        · subst h2; simp
        · by_cases h3 : m = b! "mention"
          · subst h3; simp
          · simp [h1, h2, h3]

/-- A candidate of last resort: an `e` or `a` tag not marked reply, parent or mention. -/
def Plain (t : Tag) : Prop := RefTag t ∧ ¬ Marked (b! "reply") t ∧ ¬ Marked (b! "parent") t ∧ ¬ Marked (b! "mention") t

theorem loop_reply (t : Tag) (post : Tags) (ht : Marked (b! "reply") t) : ∀ (pre : Tags) (p l : Option Tag), (∀ x ∈ pre, ¬ Marked (b! "reply") x) →
    (parentLoop (pre ++ t :: post) p l).1 = some t
  | [], p, l, _ => by simp [parentLoop, ((markOf_cases t).1).2 ht]
  | x :: pre, p, l, h => by
    have hx : markOf x ≠ .reply := fun hc => h x List.mem_cons_self (((markOf_cases x).1).1 hc)
    have h' : ∀ y ∈ pre, ¬ Marked (b! "reply") y := fun y hy => h y (List.mem_cons_of_mem _ hy)
    cases hm : markOf x with
    | reply => exact absurd hm hx
    | skip => simp only [List.cons_append, parentLoop, hm]; exact loop_reply t post ht pre _ _ h'
    | parent => simp only [List.cons_append, parentLoop, hm]; exact loop_reply t post ht pre _ _ h'
    | last => simp only [List.cons_append, parentLoop, hm]; exact loop_reply t post ht pre _ _ h'

/-- Without a reply the loop ends with the last `parent` and the last plain candidate. -/
theorem loop_noReply : ∀ (tags : Tags) (p l : Option Tag), (∀ x ∈ tags, ¬ Marked (b! "reply") x) →
    ((parentLoop tags p l).1 = p ∧ (∀ x ∈ tags, ¬ Marked (b! "parent") x) ∨ ∃ t, (parentLoop tags p l).1 = some t ∧ IsLast (Marked (b! "parent")) tags t) ∧
    ((parentLoop tags p l).2 = l ∧ (∀ x ∈ tags, ¬ Plain x) ∨ ∃ t, (parentLoop tags p l).2 = some t ∧ IsLast Plain tags t)
  | [], p, l, _ => ⟨Or.inl ⟨rfl, by simp⟩, Or.inl ⟨rfl, by simp⟩⟩
  | x :: tags, p, l, h => by
    have hx : markOf x ≠ .reply := fun hc => h x List.mem_cons_self (((markOf_cases x).1).1 hc)
    have h' : ∀ y ∈ tags, ¬ Marked (b! "reply") y := fun y hy => h y (List.mem_cons_of_mem _ hy)
    have lift : ∀ {P : Tag → Prop} {t : Tag}, IsLast P tags t → IsLast P (x :: tags) t := by
      rintro P t ⟨pre, post, h1, h2, h3⟩
      exact ⟨x :: pre, post, by simp [h1], h2, h3⟩
    have here : ∀ {P : Tag → Prop}, P x → (∀ y ∈ tags, ¬ P y) → IsLast P (x :: tags) x := fun h1 h2 => ⟨[], tags, rfl, h1, h2⟩
    have cons : ∀ {P : Tag → Prop}, ¬ P x → (∀ y ∈ tags, ¬ P y) → ∀ y ∈ x :: tags, ¬ P y := by
      intro P h1 h2 y hy
      rcases List.mem_cons.1 hy with rfl | hy
      · exact h1
      · exact h2 y hy
    obtain ⟨m1, m2, m3⟩ := markOf_cases x
    cases hm : markOf x with
    | reply => exact absurd hm hx
    | skip =>
      simp only [parentLoop, hm]
      have np : ¬ Marked (b! "parent") x := fun hc => by rw [m2.2 hc] at hm; cases hm
      have nl : ¬ Plain x := fun hc => by rw [m3.2 hc] at hm; cases hm
      obtain ⟨a, b⟩ := loop_noReply tags p l h'
      constructor
      · rcases a with ⟨a1, a2⟩ | ⟨t, a1, a2⟩
        · exact Or.inl ⟨a1, cons np a2⟩
        · exact Or.inr ⟨t, a1, lift a2⟩
      · rcases b with ⟨a1, a2⟩ | ⟨t, a1, a2⟩
        · exact Or.inl ⟨a1, cons nl a2⟩
        · exact Or.inr ⟨t, a1, lift a2⟩
    | parent =>
      simp only [parentLoop, hm]
      have hp : Marked (b! "parent") x := m2.1 hm
      have nl : ¬ Plain x := fun hc => by rw [m3.2 hc] at hm; cases hm
      obtain ⟨a, b⟩ := loop_noReply tags (some x) l h'
      constructor
      · rcases a with ⟨a1, a2⟩ | ⟨t, a1, a2⟩
        · exact Or.inr ⟨x, a1, here hp a2⟩
        · exact Or.inr ⟨t, a1, lift a2⟩
      · rcases b with ⟨a1, a2⟩ | ⟨t, a1, a2⟩
        · exact Or.inl ⟨a1, cons nl a2⟩
        · exact Or.inr ⟨t, a1, lift a2⟩
    | last =>
      simp only [parentLoop, hm]
      have hl : Plain x := m3.1 hm
      have np : ¬ Marked (b! "parent") x := fun hc => by rw [m2.2 hc] at hm; cases hm
      obtain ⟨a, b⟩ := loop_noReply tags p (some x) h'
      constructor
      · rcases a with ⟨a1, a2⟩ | ⟨t, a1, a2⟩
        · exact Or.inl ⟨a1, cons np a2⟩
        · exact Or.inr ⟨t, a1, lift a2⟩
      · rcases b with ⟨a1, a2⟩ | ⟨t, a1, a2⟩
        · exact Or.inr ⟨x, a1, here hl a2⟩
        · exact Or.inr ⟨t, a1, lift a2⟩

theorem last_unique {P : Tag → Prop} {tags : Tags} {t u : Tag} (h : IsLast P tags t) (g : IsLast P tags u) : t = u := by
  obtain ⟨p1, q1, h1, h2, h3⟩ := h
  obtain ⟨p2, q2, g1, g2, g3⟩ := g
  apply first_unique (P := P) (tags := tags.reverse)
  · exact ⟨q1.reverse, p1.reverse, by simp [h1], h2, by simpa using h3⟩
  · exact ⟨q2.reverse, p2.reverse, by simp [g1], g2, by simpa using g3⟩

/-- **C66** (parent, marked reply). The first tag marked `reply` decides, if its id is valid. -/
theorem C66_parent_reply (env : Env) (tags : Tags) (t : Tag) (p : EventPointer) (h : IsFirst (Marked (b! "reply")) tags t)
    (hp : eventFromTag env t = .ok p) : immediateParent env tags = .val (some p) := by
  obtain ⟨pre, post, rfl, h2, h3⟩ := h
  have := loop_reply t post h2 pre none none h3
  unfold immediateParent
  cases hl : parentLoop (pre ++ t :: post) none none with
  | mk a b =>
    rw [hl] at this
    simp only at this
    subst this
    simp [eventOrZero, hp]

/-- **C66** (parent, fallbacks). Without a reply the last tag marked `parent` decides, and without one the last `e` or `a` tag that is not
a mention: its value is taken as an id. -/
theorem C66_parent_fallback (env : Env) (tags : Tags) (hn : ∀ x ∈ tags, ¬ Marked (b! "reply") x) :
    (∀ t p, IsLast (Marked (b! "parent")) tags t → eventFromTag env t = .ok p → immediateParent env tags = .val (some p)) ∧
    ((∀ x ∈ tags, ¬ Marked (b! "parent") x) → ∀ k v r, IsLast Plain tags (k :: v :: r) → immediateParent env tags = .val (some { id := v })) := by
  obtain ⟨a, b⟩ := loop_noReply tags none none hn
  constructor
  · intro t p ht hp
    rcases a with ⟨-, a2⟩ | ⟨u, a1, a2⟩
    · obtain ⟨pre, post, rfl, h2, -⟩ := ht
      exact absurd h2 (a2 t (by simp))
    · rw [last_unique a2 ht] at a1
      unfold immediateParent
      cases hl : parentLoop tags none none with
      | mk x y =>
        rw [hl] at a1
        simp only at a1
        subst a1
        simp [eventOrZero, hp]
  · intro hnp k v r ht
    rcases a with ⟨a1, -⟩ | ⟨u, -, pre, post, rfl, h2, -⟩
    · rcases b with ⟨-, b2⟩ | ⟨u, b1, b2⟩
      · obtain ⟨pre, post, rfl, h2, -⟩ := ht
        exact absurd h2 (b2 _ (by simp))
      · rw [last_unique b2 ht] at b1
        unfold immediateParent
        cases hl : parentLoop tags none none with
        | mk x y =>
          rw [hl] at a1 b1
          simp only at a1 b1
          subst a1 b1
          simp [goIndex_one]
    · exact absurd h2 (hnp u (by simp))

/-- **C66** (parent, none). Nil exactly when every `e` and `a` tag is a mention. -/
theorem C66_parent_nil_iff (env : Env) (tags : Tags) :
    immediateParent env tags = .val none ↔ ∀ t ∈ tags, RefTag t → Marked (b! "mention") t := by
  have sub : ∀ m t, Marked m t → RefTag t := by
    rintro m t ⟨k, v, w, r, rfl, hk⟩; exact ⟨k, v, _, rfl, hk⟩
  have excl : ∀ t, Marked (b! "mention") t → ¬ Marked (b! "reply") t ∧ ¬ Marked (b! "parent") t := by
    rintro t ⟨k, v, w, r, rfl, hk⟩
    constructor
    · rintro ⟨k', v', w', r', h, -⟩
      simp at h
    · rintro ⟨k', v', w', r', h, -⟩
      simp at h
  constructor
  · intro h t ht hr
    by_contra hnm
    by_cases hrep : ∃ x ∈ tags, Marked (b! "reply") x
    · have hfirst : ∃ u, IsFirst (Marked (b! "reply")) tags u := by
        clear h ht
        induction tags with
        | nil => simp at hrep
        | cons y ys ih =>
          by_cases hy : Marked (b! "reply") y
          · exact ⟨y, [], ys, rfl, hy, by simp⟩
          · obtain ⟨x, hx, hx2⟩ := hrep
            rcases List.mem_cons.1 hx with rfl | hx
            · exact absurd hx2 hy
            · obtain ⟨u, pre, post, h1, h2, h3⟩ := ih ⟨x, hx, hx2⟩
              refine ⟨u, y :: pre, post, by simp [h1], h2, ?_⟩
              intro z hz
              rcases List.mem_cons.1 hz with rfl | hz
              · exact hy
              · exact h3 z hz
      obtain ⟨u, pre, post, rfl, h2, h3⟩ := hfirst
      have hl := loop_reply u post h2 pre none none h3
      obtain ⟨k, v, w, r, rfl, -⟩ := h2
      obtain ⟨p, hp⟩ := eventOrZero_val env (k :: v :: w :: b! "reply" :: r) (by simp)
      unfold immediateParent at h
      cases hpl : parentLoop (pre ++ (k :: v :: w :: b! "reply" :: r) :: post) none none with
      | mk a b =>
        rw [hpl] at hl h
        simp only at hl
        subst hl
        simp [hp] at h
    · have hn : ∀ x ∈ tags, ¬ Marked (b! "reply") x := fun x hx hc => hrep ⟨x, hx, hc⟩
      obtain ⟨a, b⟩ := loop_noReply tags none none hn
      unfold immediateParent at h
      cases hpl : parentLoop tags none none with
      | mk x y =>
        rw [hpl] at a b h
        simp only at a b h
        rcases a with ⟨a1, a2⟩ | ⟨u, a1, pre, post, rfl, ⟨k, v, w, r, rfl, -⟩, -⟩
        · subst a1
          rcases b with ⟨-, b2⟩ | ⟨u, b1, pre, post, rfl, ⟨⟨k, v, r, rfl, -⟩, -⟩, -⟩
          · exact b2 t ht ⟨hr, hn t ht, a2 t ht, hnm⟩
          · subst b1
            simp [goIndex_one] at h
        · subst a1
          obtain ⟨p, hp⟩ := eventOrZero_val env (k :: v :: w :: b! "parent" :: r) (by simp)
          simp [hp] at h
  · intro h
    have hn : ∀ x ∈ tags, ¬ Marked (b! "reply") x := fun x hx hc => (excl x (h x hx (sub _ _ hc))).1 hc
    obtain ⟨a, b⟩ := loop_noReply tags none none hn
    unfold immediateParent
    cases hpl : parentLoop tags none none with
    | mk x y =>
      rw [hpl] at a b
      simp only at a b
      rcases a with ⟨a1, -⟩ | ⟨u, -, pre, post, rfl, h2, -⟩
      · subst a1
        rcases b with ⟨b1, -⟩ | ⟨u, -, pre, post, rfl, h2, -⟩
        · subst b1; rfl
        · exact absurd (h u (by simp) h2.1) h2.2.2.2
      · exact absurd h2 (excl u (h u (by simp) (sub _ _ h2))).2

/-- **C66 refuted (`a` replies).** A reply to an addressable event, marked as such, gives an empty event pointer. -/
theorem C66_reply_to_address_lost (env : Env) :
    immediateParent env [[b! "e", b! "x", [], b! "root"], [b! "a", b! "30023:pk:d", [], b! "reply"]] = .val (some { id := [] }) := by
  have h : isValid32ByteHex (b! "30023:pk:d") = false := by decide +kernel
  simp [immediateParent, parentLoop, markOf, eventOrZero, eventFromTag, goIndex_one, h]

/-- A note with a root, a mention and a reply. -/
example : let env : Env := ⟨fun b => b.length = 32, fun _ => true⟩
    let k := hexEnc (List.replicate 32 7)
    let tags : Tags := [[b! "p", b! "q"], [b! "e", b! "aa", [], b! "mention"], [b! "e", k, [], b! "root"], [b! "e", k, b! "r", b! "reply"]]
    threadRoot env tags = .val (some { id := k, relays := some [[]] }) ∧ immediateParent env tags = .val (some { id := k, relays := some [b! "r"] }) := by
  decide +kernel

/-! ## nip22 -/

/-- A pointer as nip22 returns it. -/
inductive Pointer
  | event (p : EventPointer)
  | entity (p : EntityPointer)
  | external (thing : Bytes)
  deriving DecidableEq, Repr

/-- nip22 `GetThreadRoot` with keys `E`, `A`, `I` and `GetImmediateParent` with `e`, `a`, `i` (nip22/nip22.go:8-46); `none` is nil.
nip73/pointer.go `ExternalPointerFromTag` only takes the value. -/
def comment (env : Env) (e a i : Bytes) : Tags → Out (Option Pointer)
  | [] => .val none
  | (k :: v :: r) :: rest =>
    if k = e then match eventFromTag env (k :: v :: r) with
      | .ok p => .val (some (.event p))
      | .err _ => .val (some (.event { id := [] }))
      | .panic => .panic
    else if k = a then match entityFromTag env (k :: v :: r) with
      | .ok p => .val (some (.entity p))
      | .err _ => .val (some (.entity { publicKey := [] }))
      | .panic => .panic
    else if k = i then .val (some (.external v))
    else comment env e a i rest
  | _ :: rest => comment env e a i rest

/-- `GetThreadRoot` (nip22/nip22.go:8-26). -/
def commentRoot (env : Env) (tags : Tags) : Out (Option Pointer) := comment env (b! "E") (b! "A") (b! "I") tags
/-- `GetImmediateParent` (nip22/nip22.go:28-46). -/
def commentParent (env : Env) (tags : Tags) : Out (Option Pointer) := comment env (b! "e") (b! "a") (b! "i") tags

/-- Spec: a tag with a value whose key is one of the three. -/
def RefKey (e a i : Bytes) (t : Tag) : Prop := ∃ k v r, t = k :: v :: r ∧ (k = e ∨ k = a ∨ k = i)

/-- Spec: what a reference tag refers to. -/
def Refers (env : Env) (e a i : Bytes) (t : Tag) (p : Pointer) : Prop :=
  (t.head? = some e ∧ ∃ x, eventFromTag env t = .ok x ∧ p = .event x) ∨
  (t.head? = some a ∧ ∃ x, entityFromTag env t = .ok x ∧ p = .entity x) ∨
  (t.head? = some i ∧ ∃ x, t[1]? = some x ∧ p = .external x)

theorem comment_skip (env : Env) (e a i : Bytes) (t : Tag) (rest : Tags) (h : ¬ RefKey e a i t) :
    comment env e a i (t :: rest) = comment env e a i rest := by
  match t with
  | [] => rfl
  | [_] => rfl
  | k :: v :: r =>
    have h1 : k ≠ e := fun hc => h ⟨k, v, r, rfl, Or.inl hc⟩
    have h2 : k ≠ a := fun hc => h ⟨k, v, r, rfl, Or.inr (Or.inl hc)⟩
    have h3 : k ≠ i := fun hc => h ⟨k, v, r, rfl, Or.inr (Or.inr hc)⟩
    simp [comment, h1, h2, h3]

theorem comment_first (env : Env) (e a i : Bytes) (hea : e ≠ a) (hei : e ≠ i) (hai : a ≠ i) (t : Tag) (p : Pointer) (post : Tags)
    (hr : Refers env e a i t p) : ∀ (pre : Tags), (∀ x ∈ pre, ¬ RefKey e a i x) → RefKey e a i t →
    comment env e a i (pre ++ t :: post) = .val (some p)
  | [], _, hk => by
    obtain ⟨k, v, r, rfl, -⟩ := hk
    rcases hr with ⟨h1, x, h2, rfl⟩ | ⟨h1, x, h2, rfl⟩ | ⟨h1, x, h2, rfl⟩
    · simp only [List.head?_cons, Option.some.injEq] at h1; subst h1
      simp [comment, h2]
    · simp only [List.head?_cons, Option.some.injEq] at h1; subst h1
      simp [comment, h2, hea.symm]
    · simp only [List.head?_cons, Option.some.injEq] at h1; subst h1
      simp only [List.getElem?_cons_succ, List.getElem?_cons_zero, Option.some.injEq] at h2; subst h2
      simp [comment, hei.symm, hai.symm]
  | x :: pre, h, hk => by
    rw [List.cons_append, comment_skip env e a i x _ (h x List.mem_cons_self)]
    exact comment_first env e a i hea hei hai t p post hr pre (fun y hy => h y (List.mem_cons_of_mem _ hy)) hk

theorem comment_nil_iff (env : Env) (e a i : Bytes) : ∀ (tags : Tags),
    (comment env e a i tags = .val none ↔ ∀ t ∈ tags, ¬ RefKey e a i t) ∧ comment env e a i tags ≠ .panic
  | [] => by simp [comment]
  | t :: rest => by
    by_cases h : RefKey e a i t
    · obtain ⟨k, v, r, rfl, hk⟩ := h
      have hp := C65_fromTag_panics_iff env (k :: v :: r)
      have hp2 : eventFromTag env (k :: v :: r) ≠ .panic := fun hc => by have := hp.2.1.1 hc; simp at this; omega
      have hp3 : entityFromTag env (k :: v :: r) ≠ .panic := fun hc => by have := hp.2.2.1 hc; simp at this; omega
      have key : ∃ p, comment env e a i ((k :: v :: r) :: rest) = .val (some p) := by
        unfold comment
        by_cases h1 : k = e
        · rw [if_pos h1]
          cases hx : eventFromTag env (k :: v :: r) with
          | ok p => exact ⟨_, rfl⟩
          | err x => exact ⟨_, rfl⟩
          | panic => exact absurd hx hp2
        · rw [if_neg h1]
          by_cases h2 : k = a
          · rw [if_pos h2]
            cases hx : entityFromTag env (k :: v :: r) with
            | ok p => exact ⟨_, rfl⟩
            | err x => exact ⟨_, rfl⟩
            | panic => exact absurd hx hp3
          · rw [if_neg h2]
            rw [if_pos (by tauto)]
            exact ⟨_, rfl⟩
      obtain ⟨p, hp⟩ := key
      rw [hp]
      refine ⟨⟨fun hc => by simp at hc, fun hc => absurd ⟨k, v, r, rfl, hk⟩ (hc _ List.mem_cons_self)⟩, by simp⟩
    · rw [comment_skip env e a i t rest h]
      have ih := comment_nil_iff env e a i rest
      refine ⟨?_, ih.2⟩
      rw [ih.1]
      constructor
      · intro hr x hx
        rcases List.mem_cons.1 hx with rfl | hx
        · exact h
        · exact hr x hx
      · intro hr x hx; exact hr x (List.mem_cons_of_mem _ hx)

/-- **C67** (root). The first `E`, `A` or `I` tag with a value decides and gives the event, addressable event or external thing it refers
to (an invalid reference gives an empty pointer instead). -/
theorem C67_root (env : Env) (tags : Tags) (t : Tag) (p : Pointer) (h : IsFirst (RefKey (b! "E") (b! "A") (b! "I")) tags t)
    (hr : Refers env (b! "E") (b! "A") (b! "I") t p) : commentRoot env tags = .val (some p) := by
  obtain ⟨pre, post, rfl, h1, h2⟩ := h
  exact comment_first env _ _ _ (by decide) (by decide) (by decide) t p post hr pre h2 h1

/-- **C67** (parent). The same for `e`, `a`, `i`. -/
theorem C67_parent (env : Env) (tags : Tags) (t : Tag) (p : Pointer) (h : IsFirst (RefKey (b! "e") (b! "a") (b! "i")) tags t)
    (hr : Refers env (b! "e") (b! "a") (b! "i") t p) : commentParent env tags = .val (some p) := by
  obtain ⟨pre, post, rfl, h1, h2⟩ := h
  exact comment_first env _ _ _ (by decide) (by decide) (by decide) t p post hr pre h2 h1

/-- **C67** (none). Nil exactly when there is no such tag; neither function panics. -/
theorem C67_nil_iff (env : Env) (tags : Tags) :
    ((commentRoot env tags = .val none ↔ ∀ t ∈ tags, ¬ RefKey (b! "E") (b! "A") (b! "I") t) ∧ commentRoot env tags ≠ .panic) ∧
    ((commentParent env tags = .val none ↔ ∀ t ∈ tags, ¬ RefKey (b! "e") (b! "a") (b! "i") t) ∧ commentParent env tags ≠ .panic) :=
  ⟨comment_nil_iff env _ _ _ tags, comment_nil_iff env _ _ _ tags⟩

/-- A comment on an addressable event, replying to another comment. -/
example : let env : Env := ⟨fun b => b.length = 32, fun _ => true⟩
    let k := hexEnc (List.replicate 32 7)
    let tags : Tags := [[b! "A", b! "30023:" ++ k ++ b! ":x"], [b! "K", b! "30023"], [b! "e", k]]
    commentRoot env tags = .val (some (.entity { publicKey := k, kind := 30023, identifier := b! "x" })) ∧
    commentParent env tags = .val (some (.event { id := k })) := by
  decide +kernel

/-! ## nip40 -/

/-- `GetExpiration` (nip40/nip40.go:11-22). -/
def getExpiration : Tags → Int
  | [] => -1
  | (k :: v :: _) :: rest => if k = b! "expiration" then (match parseInt64 v with
      | .ok n => n
      | _ => -1) else getExpiration rest
  | _ :: rest => getExpiration rest

/-- Spec: a tag `["expiration", value, …]`. -/
def ExpirationTag (t : Tag) : Prop := ∃ v r, t = b! "expiration" :: v :: r

theorem getExpiration_skip (t : Tag) (rest : Tags) (h : ¬ ExpirationTag t) : getExpiration (t :: rest) = getExpiration rest := by
  match t with
  | [] => rfl
  | [_] => rfl
  | k :: v :: r =>
    have : k ≠ b! "expiration" := fun hc => h ⟨v, r, by rw [hc]⟩
    simp [getExpiration, this]

theorem getExpiration_first (v : Bytes) (r : List Bytes) (post : Tags) : ∀ (pre : Tags), (∀ x ∈ pre, ¬ ExpirationTag x) →
    getExpiration (pre ++ (b! "expiration" :: v :: r) :: post) = (match parseInt64 v with
      | .ok n => n
      | _ => -1)
  | [], _ => by simp [getExpiration]
  | x :: pre, h => by
    rw [List.cons_append, getExpiration_skip x _ (h x List.mem_cons_self)]
    exact getExpiration_first v r post pre (fun y hy => h y (List.mem_cons_of_mem _ hy))

/-- **C68** (present). The first expiration tag with a value decides: a decimal 64-bit integer is returned as it is (every one of them,
as the event's author would write it), anything else gives -1. -/
theorem C68_first_tag (tags : Tags) (v : Bytes) (r : List Bytes) (h : IsFirst ExpirationTag tags (b! "expiration" :: v :: r)) :
    (∀ n, parseInt64 v = .ok n → getExpiration tags = n) ∧ ((∀ n, parseInt64 v ≠ .ok n) → getExpiration tags = -1) := by
  obtain ⟨pre, post, rfl, -, h2⟩ := h
  rw [getExpiration_first v r post pre h2]
  constructor
  · intro n hn; rw [hn]
  · intro hn
    split
    · rename_i n hc; exact absurd hc (hn n)
    · rfl

/-- **C68** (written by the author): an expiration tag holding a 64-bit timestamp in decimal is read back. -/
theorem C68_roundtrip (pre post : Tags) (r : List Bytes) (ts : Int) (h1 : -(2 ^ 63) ≤ ts) (h2 : ts < 2 ^ 63) (hp : ∀ t ∈ pre, ¬ ExpirationTag t) :
    getExpiration (pre ++ (b! "expiration" :: fmtInt ts :: r) :: post) = ts := by
  rw [getExpiration_first _ r post pre hp, parseInt64_fmtInt h1 h2]

/-- **C68** (absent). Without such a tag the result is -1. -/
theorem C68_none : ∀ (tags : Tags), (∀ t ∈ tags, ¬ ExpirationTag t) → getExpiration tags = -1
  | [], _ => rfl
  | t :: rest, h => by
    rw [getExpiration_skip t rest (h t List.mem_cons_self)]
    exact C68_none rest (fun x hx => h x (List.mem_cons_of_mem _ hx))

example : getExpiration [[b! "expiration"], [b! "t", b! "5"], [b! "expiration", b! "1700000000"], [b! "expiration", b! "3"]] = 1700000000 := by
  decide +kernel

end GoNostr.Thread
