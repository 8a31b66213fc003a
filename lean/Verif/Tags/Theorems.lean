import Verif.Tags.Model
/-!
# C12–C14: tag lookups, prefix-based tag operations, tag cloning
-/

set_option autoImplicit false

namespace GoNostr

/-! ## Specification -/

/-- A tag with this key and at least one value (at least two items). -/
def HasKey (key : Bytes) (t : Tag) : Prop := ∃ v rest, t = key :: v :: rest

/-- A tag with this key and this first value. -/
def HasKeyValue (key value : Bytes) (t : Tag) : Prop := ∃ rest, t = key :: value :: rest

/-- `r` is the first element of `l` satisfying `q` (none iff no element does). -/
def IsFirst {α : Type} (q : α → Prop) (l : List α) : Option α → Prop
  | none => ∀ x ∈ l, ¬ q x
  | some a => ∃ pre post, l = pre ++ a :: post ∧ q a ∧ ∀ x ∈ pre, ¬ q x

/-- `r` is the last element of `l` satisfying `q` (none iff no element does). -/
def IsLast {α : Type} (q : α → Prop) (l : List α) : Option α → Prop
  | none => ∀ x ∈ l, ¬ q x
  | some a => ∃ pre post, l = pre ++ a :: post ∧ q a ∧ ∀ x ∈ post, ¬ q x

/-- "The tag starts with the prefix": all but the last element of the prefix are equal to the tag's items and the last
one is a string prefix of the item at its position. -/
def StartsWith (tag : Tag) (pre : List Bytes) : Prop :=
  ∃ init last item rest, pre = init ++ [last] ∧ tag = init ++ item :: rest ∧ last <+: item

/-! ## C12 -/

theorem IsFirst.cons_pos {α : Type} {q : α → Prop} {a : α} {l : List α} (h : q a) : IsFirst q (a :: l) (some a) :=
  ⟨[], l, rfl, h, by simp⟩

theorem IsFirst.cons_neg {α : Type} {q : α → Prop} {a : α} {l : List α} {r : Option α} (h : ¬ q a)
    (hr : IsFirst q l r) : IsFirst q (a :: l) r := by
  cases r with
  | none => intro x hx; simp at hx; rcases hx with rfl | hx; exact h; exact hr x hx
  | some b =>
    obtain ⟨pre, post, h1, h2, h3⟩ := hr
    refine ⟨a :: pre, post, by simp [h1], h2, ?_⟩
    intro x hx; simp at hx; rcases hx with rfl | hx; exact h; exact h3 x hx

theorem hasKey_cons {key k x : Bytes} {r : Tag} : HasKey key (k :: x :: r) ↔ k = key := by
  constructor
  · rintro ⟨_, _, h⟩; simp at h; exact h.1
  · rintro rfl; exact ⟨_, _, rfl⟩

theorem not_hasKey_nil {key : Bytes} : ¬ HasKey key [] := by rintro ⟨_, _, h⟩; simp at h
theorem not_hasKey_one {key k : Bytes} : ¬ HasKey key [k] := by rintro ⟨_, _, h⟩; simp at h

theorem hasKeyValue_cons {key value k x : Bytes} {r : Tag} :
    HasKeyValue key value (k :: x :: r) ↔ x = value ∧ k = key := by
  constructor
  · rintro ⟨_, h⟩; simp at h; exact ⟨h.2.1, h.1⟩
  · rintro ⟨rfl, rfl⟩; exact ⟨_, rfl⟩

theorem not_hasKeyValue_nil {key value : Bytes} : ¬ HasKeyValue key value [] := by rintro ⟨_, h⟩; simp at h
theorem not_hasKeyValue_one {key value k : Bytes} : ¬ HasKeyValue key value [k] := by rintro ⟨_, h⟩; simp at h

/-- **C12.** `Find` returns the first tag having the key and a value, or nil iff there is none. -/
theorem C12_find (key : Bytes) (tags : Tags) : IsFirst (HasKey key) tags (Tags.find key tags) := by
  induction tags with
  | nil => intro x hx; simp at hx
  | cons v rest ih =>
    match v with
    | [] => exact IsFirst.cons_neg not_hasKey_nil ih
    | [_] => exact IsFirst.cons_neg not_hasKey_one ih
    | k :: x :: r =>
      simp only [Tags.find]
      split
      · next h => exact IsFirst.cons_pos (hasKey_cons.mpr h)
      · next h => exact IsFirst.cons_neg (fun hh => h (hasKey_cons.mp hh)) ih

/-- **C12.** `FindWithValue` returns the first tag having the key and the value, or nil iff there is none. -/
theorem C12_findWithValue (key value : Bytes) (tags : Tags) :
    IsFirst (HasKeyValue key value) tags (Tags.findWithValue key value tags) := by
  induction tags with
  | nil => intro x hx; simp at hx
  | cons v rest ih =>
    match v with
    | [] => exact IsFirst.cons_neg not_hasKeyValue_nil ih
    | [_] => exact IsFirst.cons_neg not_hasKeyValue_one ih
    | k :: x :: r =>
      simp only [Tags.findWithValue]
      split
      · next h => exact IsFirst.cons_pos (hasKeyValue_cons.mpr h)
      · next h => exact IsFirst.cons_neg (fun hh => h (hasKeyValue_cons.mp hh)) ih

theorem isLast_take_step {α : Type} {q : α → Prop} {l : List α} {i : Nat} {a : α} (ha : l[i]? = some a) :
    (q a → IsLast q (l.take (i + 1)) (some a)) ∧
    (∀ r, ¬ q a → IsLast q (l.take i) r → IsLast q (l.take (i + 1)) r) := by
  have htake : l.take (i + 1) = l.take i ++ [a] := by
    rw [List.take_add_one, ha]; rfl
  constructor
  · intro hq
    exact ⟨l.take i, [], by simp [htake], hq, by simp⟩
  · intro r hq hr
    cases r with
    | none =>
      intro x hx
      rw [htake] at hx; simp at hx
      rcases hx with hx | rfl
      · exact hr x hx
      · exact hq
    | some b =>
      obtain ⟨pre, post, h1, h2, h3⟩ := hr
      refine ⟨pre, post ++ [a], by simp [htake, h1], h2, ?_⟩
      intro x hx; simp at hx
      rcases hx with hx | rfl
      · exact h3 x hx
      · exact hq

/-- **C12.** `FindLast` returns the last tag having the key and a value, or nil iff there is none. -/
theorem C12_findLast (key : Bytes) (tags : Tags) : IsLast (HasKey key) tags (Tags.findLast key tags) := by
  have gen : ∀ i, i ≤ tags.length → IsLast (HasKey key) (tags.take i) (findLastLoop key tags i) := by
    intro i
    induction i with
    | zero => intro _ x hx; simp at hx
    | succ i ih =>
      intro hi
      have ha : tags[i]? = some tags[i] := List.getElem?_eq_getElem (by omega)
      have ih := ih (by omega)
      unfold findLastLoop
      rw [ha]
      have step := isLast_take_step (q := HasKey key) ha
      revert step
      generalize tags[i] = v
      intro step
      match v with
      | [] => exact step.2 _ not_hasKey_nil ih
      | [_] => exact step.2 _ not_hasKey_one ih
      | k :: x :: r =>
        simp only
        split
        · next h => exact step.1 (hasKey_cons.mpr h)
        · next h => exact step.2 _ (fun hh => h (hasKey_cons.mp hh)) ih
  simpa [Tags.findLast] using gen tags.length (Nat.le_refl _)

/-- **C12.** `FindLastWithValue` returns the last tag having the key and the value, or nil iff there is none. -/
theorem C12_findLastWithValue (key value : Bytes) (tags : Tags) :
    IsLast (HasKeyValue key value) tags (Tags.findLastWithValue key value tags) := by
  have gen : ∀ i, i ≤ tags.length →
      IsLast (HasKeyValue key value) (tags.take i) (findLastWithValueLoop key value tags i) := by
    intro i
    induction i with
    | zero => intro _ x hx; simp at hx
    | succ i ih =>
      intro hi
      have ha : tags[i]? = some tags[i] := List.getElem?_eq_getElem (by omega)
      have ih := ih (by omega)
      unfold findLastWithValueLoop
      rw [ha]
      have step := isLast_take_step (q := HasKeyValue key value) ha
      revert step
      generalize tags[i] = v
      intro step
      match v with
      | [] => exact step.2 _ not_hasKeyValue_nil ih
      | [_] => exact step.2 _ not_hasKeyValue_one ih
      | k :: x :: r =>
        simp only
        split
        · next h => exact step.1 (hasKeyValue_cons.mpr h)
        · next h => exact step.2 _ (fun hh => h (hasKeyValue_cons.mp hh)) ih
  simpa [Tags.findLastWithValue] using gen tags.length (Nat.le_refl _)

open Classical in
/-- **C12.** `FindAll` yields exactly the tags having the key and a value, in order and with repetitions. -/
theorem C12_findAll (key : Bytes) (tags : Tags) :
    Tags.findAll key tags = tags.filter (fun t => decide (HasKey key t)) := by
  induction tags with
  | nil => rfl
  | cons v rest ih =>
    match v with
    | [] => simp [Tags.findAll, not_hasKey_nil, ih]
    | [_] => simp [Tags.findAll, not_hasKey_one, ih]
    | k :: x :: r =>
      simp only [Tags.findAll]
      split
      · next h => rw [List.filter_cons_of_pos (by simpa using hasKey_cons.mpr h), ih]
      · next h => rw [List.filter_cons_of_neg (by simpa using fun hh => h (hasKey_cons.mp hh)), ih]

/-- **C12.** `GetD` is the value of the first `d` tag that has a value; empty if there is none. -/
theorem C12_getD (tags : Tags) :
    ((∀ t ∈ tags, ¬ HasKey (b! "d") t) ∧ Tags.getD tags = []) ∨
    (∃ pre v rest post, tags = pre ++ (b! "d" :: v :: rest) :: post ∧ (∀ t ∈ pre, ¬ HasKey (b! "d") t) ∧
      Tags.getD tags = v) := by
  induction tags with
  | nil => left; simp [Tags.getD]
  | cons t rest ih =>
    have skip : ¬ HasKey (b! "d") t → Tags.getD (t :: rest) = Tags.getD rest →
        ((∀ t' ∈ t :: rest, ¬ HasKey (b! "d") t') ∧ Tags.getD (t :: rest) = []) ∨
        (∃ pre v r post, t :: rest = pre ++ (b! "d" :: v :: r) :: post ∧ (∀ t ∈ pre, ¬ HasKey (b! "d") t) ∧
          Tags.getD (t :: rest) = v) := by
      intro hn he
      rcases ih with ⟨h1, h2⟩ | ⟨pre, v, r, post, h1, h2, h3⟩
      · left; refine ⟨?_, by rw [he, h2]⟩
        intro x hx; simp at hx; rcases hx with rfl | hx; exact hn; exact h1 x hx
      · right; refine ⟨t :: pre, v, r, post, by simp [h1], ?_, by rw [he, h3]⟩
        intro x hx; simp at hx; rcases hx with rfl | hx; exact hn; exact h2 x hx
    match t, skip with
    | [], skip => exact skip not_hasKey_nil rfl
    | [_], skip => exact skip not_hasKey_one rfl
    | k :: x :: r, skip =>
      by_cases hk : k = b! "d"
      · right; subst hk; exact ⟨[], x, r, rest, rfl, by simp, by simp [Tags.getD]⟩
      · exact skip (fun hh => hk (hasKey_cons.mp hh)) (by simp [Tags.getD, hk])

/-- **C12.** `ContainsAny` holds iff some tag has the name and its first value among the given ones. -/
theorem C12_containsAny (name : Bytes) (values : List Bytes) (tags : Tags) :
    Tags.containsAny name values tags = true ↔ ∃ t ∈ tags, ∃ v ∈ values, HasKeyValue name v t := by
  induction tags with
  | nil => simp [Tags.containsAny]
  | cons t rest ih =>
    match t with
    | [] => simp [Tags.containsAny, ih, not_hasKeyValue_nil]
    | [_] => simp [Tags.containsAny, ih, not_hasKeyValue_one]
    | k :: x :: r =>
      simp only [Tags.containsAny, List.mem_cons, exists_eq_or_imp]
      by_cases hk : k = name
      · by_cases hx : x ∈ values
        · simp only [hk, hx, ne_eq, not_true_eq_false, if_false, if_true, true_iff]
          exact Or.inl ⟨x, hx, r, rfl⟩
        · simp only [hk, hx, ne_eq, not_true_eq_false, if_false, ih]
          constructor
          · exact Or.inr
          · rintro (⟨v, hv, h⟩ | h)
            · exact absurd ((hasKeyValue_cons.mp h).1 ▸ hv) hx
            · exact h
      · simp only [hk, ne_eq, not_false_eq_true, if_true, ih]
        constructor
        · exact Or.inr
        · rintro (⟨v, hv, h⟩ | h)
          · exact absurd (hasKeyValue_cons.mp h).2 hk
          · exact h

/-- Non-vacuity: tags with missing values, repeated keys and empty tags. -/
def sampleTags : Tags :=
  [[], [b! "e"], [b! "e", b! "1"], [b! "p", b! "2", b! "x"], [b! "e", b! "3"], [b! "d", b! ""], [b! "d", b! "z"]]

example : Tags.find (b! "e") sampleTags = some [b! "e", b! "1"] ∧
    Tags.findLast (b! "e") sampleTags = some [b! "e", b! "3"] ∧
    Tags.findWithValue (b! "e") (b! "3") sampleTags = some [b! "e", b! "3"] ∧
    Tags.findAll (b! "e") sampleTags = [[b! "e", b! "1"], [b! "e", b! "3"]] ∧
    Tags.findLastWithValue (b! "p") (b! "3") sampleTags = none ∧ Tags.getD sampleTags = [] := by decide

/-! ## C13 -/

theorem startsWithLoop_eq (tag pre : List Bytes) : ∀ (n i : Nat), i + n ≤ pre.length → i + n ≤ tag.length →
    startsWithLoop tag pre n i = .val (decide ((pre.drop i).take n = (tag.drop i).take n)) := by
  intro n
  induction n with
  | zero => intro i _ _; simp [startsWithLoop]
  | succ n ih =>
    intro i hp ht
    have g1 : goIndex pre (i : Int) = .val pre[i] := by simp [goIndex, List.getElem?_eq_getElem (by omega : i < pre.length)]
    have g2 : goIndex tag (i : Int) = .val tag[i] := by simp [goIndex, List.getElem?_eq_getElem (by omega : i < tag.length)]
    rw [startsWithLoop, g1, g2, List.drop_eq_getElem_cons (by omega : i < pre.length),
      List.drop_eq_getElem_cons (by omega : i < tag.length)]
    simp only [Out.val_bind, List.take_succ_cons]
    by_cases h : pre[i] = tag[i]
    · simp [h, ih (i + 1) (by omega) (by omega)]
    · simp [h]

theorem append_of_take_eq {pre tag : List Bytes} {n : Nat} (h : pre.take n = tag.take n) : tag = pre.take n ++ tag.drop n := by
  rw [h, List.take_append_drop]

open Classical in
/-- **C13.** With a non-empty prefix `StartsWith` never panics and decides the specification. -/
theorem C13_startsWith_spec (tag : Tag) (pre : List Bytes) (hne : pre ≠ []) :
    Tag.startsWith tag pre = .val (decide (StartsWith tag pre)) := by
  have hpos : 0 < pre.length := List.length_pos_iff.mpr hne
  unfold Tag.startsWith
  split
  · next hgt =>
    have : ¬ StartsWith tag pre := by
      rintro ⟨init, last, item, rest, rfl, rfl, _⟩
      simp at hgt
    simp [this]
  · next hle =>
    have hle : pre.length ≤ tag.length := by omega
    rw [startsWithLoop_eq tag pre _ 0 (by omega) (by omega)]
    simp only [List.drop_zero, Out.val_bind]
    have hi : ((pre.length : Int) - 1) = ((pre.length - 1 : Nat) : Int) := by omega
    have g1 : goIndex tag ((pre.length : Int) - 1) = .val tag[pre.length - 1] := by
      rw [hi]; simp [goIndex, List.getElem?_eq_getElem (by omega : pre.length - 1 < tag.length)]
    have g2 : goIndex pre ((pre.length : Int) - 1) = .val pre[pre.length - 1] := by
      rw [hi]; simp [goIndex, List.getElem?_eq_getElem (by omega : pre.length - 1 < pre.length)]
    have hpre : pre = pre.take (pre.length - 1) ++ [pre[pre.length - 1]] := by
      conv => lhs; rw [← List.take_append_drop (pre.length - 1) pre]
      rw [List.drop_eq_getElem_cons (by omega : pre.length - 1 < pre.length)]
      congr 2
      exact List.drop_eq_nil_of_le (by omega)
    by_cases heq : pre.take (pre.length - 1) = tag.take (pre.length - 1)
    · simp only [heq, decide_true, Bool.true_eq_false, if_false, g1, g2, Out.val_bind, Out.pure_eq, Out.val.injEq]
      have htag : tag = pre.take (pre.length - 1) ++ tag[pre.length - 1] :: tag.drop (pre.length - 1 + 1) := by
        conv => lhs; rw [append_of_take_eq heq]
        rw [List.drop_eq_getElem_cons (by omega : pre.length - 1 < tag.length)]
      by_cases hpx : pre[pre.length - 1] <+: tag[pre.length - 1]
      · have hs : StartsWith tag pre := ⟨_, _, _, _, hpre, htag, hpx⟩
        simp [hs, hpx]
      · have hs : ¬ StartsWith tag pre := by
          rintro ⟨init, last, item, rest, h1, h2, h3⟩
          have hl : init.length = pre.length - 1 := by
            have := congrArg List.length h1; simp at this; omega
          have e1 : pre[pre.length - 1]? = some last := by rw [h1]; simp
          have e2 : tag[pre.length - 1]? = some item := by rw [h2, ← hl]; simp
          rw [List.getElem?_eq_getElem (by omega)] at e1 e2
          injection e1 with e1
          injection e2 with e2
          rw [e1, e2] at hpx
          exact hpx h3
        simp only [hs, decide_false]
        rw [← Bool.not_eq_true, List.isPrefixOf_iff_prefix]
        exact hpx
    · have hs : ¬ StartsWith tag pre := by
        rintro ⟨init, last, item, rest, h1, h2, h3⟩
        have hl : init.length = pre.length - 1 := by
          have := congrArg List.length h1; simp at this; omega
        apply heq
        rw [← hl, h1, h2]; simp
      simp [heq, hs]

/-- **C13**, negation of "none of them panics": an empty prefix panics on every tag whatsoever. -/
theorem C13_startsWith_empty_prefix_panics (tag : Tag) : Tag.startsWith tag [] = .panic := by
  simp [Tag.startsWith, startsWithLoop, goIndex]

/-- So `AppendUnique` of an empty tag onto any non-empty list panics. -/
theorem C13_appendUnique_empty_tag_panics (t : Tag) (tags : Tags) : Tags.appendUnique (t :: tags) [] = .panic := by
  simp [Tags.appendUnique, Tags.getFirst, C13_startsWith_empty_prefix_panics]

open Classical in
theorem filterOut_eq (pre : List Bytes) (hne : pre ≠ []) (tags : Tags) :
    Tags.filterOut pre tags = .val (tags.filter (fun t => decide (¬ StartsWith t pre))) := by
  induction tags with
  | nil => rfl
  | cons t rest ih =>
    simp only [Tags.filterOut, C13_startsWith_spec t pre hne, ih, Out.val_bind, Out.pure_eq]
    by_cases h : StartsWith t pre <;> simp [h]

open Classical in
/-- **C13.** For a non-empty prefix `FilterOut` removes exactly the tags starting with the prefix, keeping the rest in
order. -/
theorem C13_filterOut_partial (pre : List Bytes) (hne : pre ≠ []) (tags : Tags) :
    Tags.filterOut pre tags = .val (tags.filter (fun t => decide (¬ StartsWith t pre))) := filterOut_eq pre hne tags

open Classical in
/-- **C13.** `GetAll` returns exactly the tags starting with the (non-empty) prefix, in order. -/
theorem C13_getAll_partial (pre : List Bytes) (hne : pre ≠ []) (tags : Tags) :
    Tags.getAll pre tags = .val (tags.filter (fun t => decide (StartsWith t pre))) := by
  induction tags with
  | nil => rfl
  | cons t rest ih =>
    simp only [Tags.getAll, C13_startsWith_spec t pre hne, ih, Out.val_bind, Out.pure_eq]
    by_cases h : StartsWith t pre <;> simp [h]

/-- **C13.** `GetFirst` returns the first tag starting with the (non-empty) prefix. -/
theorem C13_getFirst_partial (pre : List Bytes) (hne : pre ≠ []) (tags : Tags) :
    ∃ r, Tags.getFirst pre tags = .val r ∧ IsFirst (fun t => StartsWith t pre) tags r := by
  induction tags with
  | nil => exact ⟨none, rfl, by intro x hx; simp at hx⟩
  | cons t rest ih =>
    obtain ⟨r, hr, hf⟩ := ih
    simp only [Tags.getFirst, C13_startsWith_spec t pre hne, Out.val_bind]
    by_cases h : StartsWith t pre
    · exact ⟨some t, by simp [h], IsFirst.cons_pos h⟩
    · exact ⟨r, by simp [h, hr], IsFirst.cons_neg h hf⟩

/-- **C13.** `GetLast` returns the last tag starting with the (non-empty) prefix. -/
theorem C13_getLast_partial (pre : List Bytes) (hne : pre ≠ []) (tags : Tags) :
    ∃ r, Tags.getLast pre tags = .val r ∧ IsLast (fun t => StartsWith t pre) tags r := by
  obtain ⟨r, hr, hf⟩ := C13_getFirst_partial pre hne tags.reverse
  refine ⟨r, hr, ?_⟩
  cases r with
  | none => intro x hx; exact hf x (by simpa using hx)
  | some a =>
    obtain ⟨p, q, h1, h2, h3⟩ := hf
    refine ⟨q.reverse, p.reverse, ?_, h2, fun x hx => h3 x (by simpa using hx)⟩
    have := congrArg List.reverse h1
    simpa using this

theorem set_take_perm {α : Type} {l : List α} {i : Nat} {a z : α} (hi : l[i]? = some a)
    (hz : l[l.length - 1]? = some z) : List.Perm (a :: (l.set i z).take (l.length - 1)) l := by
  have hlt : i < l.length := by
    rcases Nat.lt_or_ge i l.length with h | h
    · exact h
    · rw [List.getElem?_eq_none h] at hi; cases hi
  have hl : l = l.take (l.length - 1) ++ [z] := by
    conv => lhs; rw [← List.take_append_drop (l.length - 1) l]
    rw [List.drop_eq_getElem_cons (by omega : l.length - 1 < l.length)]
    rw [List.getElem?_eq_getElem (by omega)] at hz
    injection hz with hz
    rw [hz]
    congr 2
    exact List.drop_eq_nil_of_le (by omega)
  by_cases hend : i = l.length - 1
  · subst hend
    rw [hi] at hz; injection hz with hz; subst hz
    have : (l.set (l.length - 1) a).take (l.length - 1) = l.take (l.length - 1) := by
      rw [List.take_set]
      exact List.set_eq_of_length_le (by simp)
    rw [this]
    conv => rhs; rw [hl]
    exact (List.perm_append_singleton a _).symm
  · rw [List.take_set]
    have hi' : i < (l.take (l.length - 1)).length := by simp; omega
    have hai : (l.take (l.length - 1))[i]? = some a := by
      rw [List.getElem?_take]; simp [show i < l.length - 1 by omega, hi]
    conv => rhs; rw [hl]
    generalize l.take (l.length - 1) = m at hi' hai
    have hm : m = m.take i ++ a :: m.drop (i + 1) := by
      conv => lhs; rw [← List.take_append_drop i m]
      rw [List.drop_eq_getElem_cons hi']
      rw [List.getElem?_eq_getElem hi'] at hai
      injection hai with hai
      rw [hai]
    rw [List.set_eq_take_append_cons_drop, if_pos hi']
    conv => rhs; rw [hm]
    have : List.Perm (a :: (m.take i ++ z :: m.drop (i + 1))) (a :: z :: (m.take i ++ m.drop (i + 1))) :=
      List.Perm.cons a List.perm_middle
    refine this.trans ?_
    refine (List.Perm.swap z a _).trans ?_
    have h2 : List.Perm (z :: a :: (m.take i ++ m.drop (i + 1))) (z :: (m.take i ++ a :: m.drop (i + 1))) :=
      List.Perm.cons z List.perm_middle.symm
    refine h2.trans ?_
    exact (List.perm_append_singleton z _).symm

open Classical in
theorem filterOutInPlaceLoop_spec (pre : List Bytes) (hne : pre ≠ []) :
    ∀ (fuel : Nat) (tags : Tags) (i : Nat), i ≤ tags.length → tags.length - i ≤ fuel →
      (∀ t ∈ tags.take i, ¬ StartsWith t pre) →
      ∃ out, filterOutInPlaceLoop pre fuel tags i = .val out ∧
        List.Perm out (tags.filter (fun t => decide (¬ StartsWith t pre))) := by
  intro fuel
  induction fuel with
  | zero =>
    intro tags i hi hf hclean
    have : i = tags.length := by omega
    subst this
    refine ⟨tags, rfl, ?_⟩
    rw [List.filter_eq_self.mpr]
    intro t ht; simpa using hclean t (by simpa using ht)
  | succ f ih =>
    intro tags i hi hf hclean
    unfold filterOutInPlaceLoop
    by_cases hlt : i < tags.length
    · rw [if_pos hlt]
      have gi : goIndex tags (i : Int) = .val tags[i] := by simp [goIndex, List.getElem?_eq_getElem hlt]
      have gl : goIndex tags ((tags.length - 1 : Nat) : Int) = .val tags[tags.length - 1] := by
        unfold goIndex
        rw [if_pos (by omega), Int.toNat_natCast, List.getElem?_eq_getElem (by omega : tags.length - 1 < tags.length)]
      rw [gi]
      simp only [Out.val_bind, C13_startsWith_spec _ pre hne, gl]
      by_cases h : StartsWith tags[i] pre
      · simp only [h, decide_true, if_true]
        have hperm := set_take_perm (l := tags) (i := i) (a := tags[i]) (z := tags[tags.length - 1])
          (List.getElem?_eq_getElem hlt) (List.getElem?_eq_getElem (by omega))
        have hlen : ((tags.set i tags[tags.length - 1]).take (tags.length - 1)).length = tags.length - 1 := by simp
        obtain ⟨out, ho, hp⟩ := ih ((tags.set i tags[tags.length - 1]).take (tags.length - 1)) i
          (by rw [hlen]; omega) (by rw [hlen]; omega) (by
            intro t ht
            apply hclean t
            rw [List.take_take, Nat.min_eq_left (by omega : i ≤ tags.length - 1), List.take_set] at ht
            rwa [List.set_eq_of_length_le (by simp; omega)] at ht)
        refine ⟨out, ho, hp.trans ?_⟩
        have := (hperm.filter (fun t => decide (¬ StartsWith t pre)))
        rw [List.filter_cons_of_neg (by simp [h])] at this
        exact this
      · simp only [h, decide_false, Bool.false_eq_true, if_false]
        apply ih tags (i + 1) (by omega) (by omega)
        intro t ht
        rw [List.take_add_one, List.getElem?_eq_getElem hlt, List.mem_append] at ht
        rcases ht with ht | ht
        · exact hclean t ht
        · simp at ht; subst ht; exact h
    · rw [if_neg hlt]
      have : i = tags.length := by omega
      subst this
      refine ⟨tags, rfl, ?_⟩
      rw [List.filter_eq_self.mpr]
      intro t ht; simpa using hclean t (by simpa using ht)

/-- **C13.** For a non-empty prefix `FilterOutInPlace` terminates without panicking and leaves exactly the same tags as
`FilterOut` (with multiplicity, possibly in another order). -/
theorem C13_filterOutInPlace_partial (pre : List Bytes) (hne : pre ≠ []) (tags : Tags) :
    ∃ inPlace out, Tags.filterOutInPlace pre tags = .val inPlace ∧ Tags.filterOut pre tags = .val out ∧
      List.Perm inPlace out := by
  obtain ⟨r, h1, h2⟩ := filterOutInPlaceLoop_spec pre hne tags.length tags 0 (by omega) (by omega) (by simp)
  exact ⟨r, _, h1, filterOut_eq pre hne tags, h2⟩

/-- **C13.** `AppendUnique` of a non-empty tag never drops a tag: the result is the list itself or the list with the tag
appended, and appending happens exactly when no tag starts with the tag's key and value. -/
theorem C13_appendUnique_partial (tags : Tags) (tag : Tag) (hne : tag ≠ []) :
    (Tags.appendUnique tags tag = .val (tags ++ [tag]) ∧ ∀ t ∈ tags, ¬ StartsWith t (tag.take 2)) ∨
    (Tags.appendUnique tags tag = .val tags ∧ ∃ t ∈ tags, StartsWith t (tag.take 2)) := by
  have htake : tag.take (if tag.length > 2 then 2 else tag.length) = tag.take 2 := by
    split
    · rfl
    · rw [List.take_of_length_le (by omega), List.take_of_length_le (by omega)]
  have hne2 : tag.take 2 ≠ [] := by cases tag <;> simp_all
  obtain ⟨r, hr, hf⟩ := C13_getFirst_partial (tag.take 2) hne2 tags
  unfold Tags.appendUnique
  rw [htake, hr]
  cases r with
  | none => exact Or.inl ⟨rfl, hf⟩
  | some t =>
    obtain ⟨p, q, h1, h2, _⟩ := hf
    exact Or.inr ⟨rfl, t, by simp [h1], h2⟩

/-- **C13**, negation: after `AppendUnique` the key/value need not be present, because an existing tag whose value merely
*starts with* the new value suppresses it. -/
theorem C13_appendUnique_may_drop_value :
    ∃ (tags : Tags) (key value : Bytes), Tags.appendUnique tags [key, value] = .val tags ∧
      Tags.findWithValue key value tags = none :=
  ⟨[[b! "p", b! "abc"]], b! "p", b! "ab", by decide, by decide⟩

example : Tags.filterOutInPlace [b! "e"] sampleTags =
    .val [[], [b! "d", b! "z"], [b! "d", b! ""], [b! "p", b! "2", b! "x"]] := by decide

/-! ## C14 -/

/-- **C14**, negation: for every non-empty receiver the clone differs from the receiver (it is always nil). -/
theorem C14_clone_never_equal :
    (∀ tag : Tag, tag ≠ [] → Tag.clone tag ≠ some tag) ∧ (∀ tag : Tag, Tag.clone tag = none) ∧
    (∀ tags : Tags, Tags.clone tags = none) ∧ (∀ tags : Tags, Tags.cloneDeep tags = none) := by
  refine ⟨?_, ?_, ?_, ?_⟩ <;> intros <;> simp [Tag.clone, Tags.clone, Tags.cloneDeep]

/-- A possibly nil tag read as a list of items. -/
def elemsOfTag : Option Tag → Tag
  | none => []
  | some t => t

/-- **C14.** What remains true: the clone has the receiver's items exactly when the receiver is empty. -/
theorem C14_clone_partial (tag : Tag) : elemsOfTag (Tag.clone tag) = tag ↔ tag = [] := by
  simp [Tag.clone, elemsOfTag, eq_comm]

end GoNostr
