import Verif.Filter.Spec
import Verif.Filter.Heap
import Verif.Tags.Theorems
import Verif.Event.Theorems
import Mathlib.Data.List.ProdSigma
import Mathlib.Data.List.Perm.Subperm
import Mathlib.Data.List.Nodup
/-!
# C06–C11, C15: filters, kinds and comparators
-/

set_option autoImplicit false

namespace GoNostr

/-! ## C06 -/

theorem passes_iff {α : Type} [DecidableEq α] (v : Option (List α)) (x : α) :
    passes v x = true ↔ ∀ l, v = some l → x ∈ l := by
  cases v <;> simp [passes]

theorem matchTagsLoop_iff (evTags : Tags) (m : TagMap) : matchTagsLoop evTags m = true ↔
    ∀ name vals, (name, some vals) ∈ m → ∃ tag ∈ evTags, ∃ v rest, tag = name :: v :: rest ∧ v ∈ vals := by
  induction m with
  | nil => simp [matchTagsLoop]
  | cons p m ih =>
    obtain ⟨f, v⟩ := p
    cases v with
    | none =>
      simp only [matchTagsLoop, ih, List.mem_cons, Prod.mk.injEq, reduceCtorEq, and_false, false_or]
    | some vals =>
      have hca := C12_containsAny f vals evTags
      simp only [matchTagsLoop]
      by_cases h : Tags.containsAny f vals evTags = true
      · simp only [h, not_true_eq_false, if_false, ih]
        constructor
        · intro hall name vals' hmem
          simp only [List.mem_cons, Prod.mk.injEq, Option.some.injEq] at hmem
          rcases hmem with ⟨rfl, rfl⟩ | hmem
          · obtain ⟨t, ht, v, hv, r, hr⟩ := hca.mp h
            exact ⟨t, ht, v, r, hr, hv⟩
          · exact hall _ _ hmem
        · intro hall name vals' hmem
          exact hall _ _ (List.mem_cons_of_mem _ hmem)
      · rw [if_pos h]
        constructor
        · intro hh; cases hh
        · intro hall
          obtain ⟨t, ht, v, r, hr, hv⟩ := hall f vals List.mem_cons_self
          exact absurd (hca.mpr ⟨t, ht, v, hv, r, hr⟩) h

theorem matchesIgnoring_iff (f : Filter) (e : Event) :
    f.matchesIgnoringTimestamps (some e) = true ↔ Spec.MatchesButTime f e := by
  have ht : matchTagsLoop e.tags (tagEntries f.tags) = true ↔ ∀ m, f.tags = some m → ∀ name vals,
      (name, some vals) ∈ m → ∃ tag ∈ e.tags, ∃ v rest, tag = name :: v :: rest ∧ v ∈ vals := by
    rw [matchTagsLoop_iff]
    cases h : f.tags <;> simp [tagEntries]
  unfold Filter.matchesIgnoringTimestamps Spec.MatchesButTime
  rw [← passes_iff, ← passes_iff, ← passes_iff, ← ht]
  by_cases h1 : passes f.ids e.id = true <;> by_cases h2 : passes f.kinds e.kind = true <;>
    by_cases h3 : passes f.authors e.pubkey = true <;> simp [h1, h2, h3]

/-- **C06.** `Matches` decides NIP-01 matching, for every filter and event. -/
theorem C06_matches_iff (f : Filter) (e : Event) : f.matches (some e) = true ↔ Spec.Matches f e := by
  have hm := matchesIgnoring_iff f e
  unfold Filter.matches Spec.Matches Spec.InWindow
  rw [← hm]
  by_cases h : f.matchesIgnoringTimestamps (some e) = true
  · cases hs : f.since <;> cases hu : f.until <;> simp [h] <;> omega
  · simp [h]

/-- **C06.** The variant without the time window decides everything else. -/
theorem C06_matchesIgnoringTimestamps_iff (f : Filter) (e : Event) :
    f.matchesIgnoringTimestamps (some e) = true ↔ Spec.MatchesButTime f e := matchesIgnoring_iff f e

/-- **C06.** A nil event never matches. -/
theorem C06_nil_event (f : Filter) : f.matches none = false ∧ f.matchesIgnoringTimestamps none = false := by
  simp [Filter.matches, Filter.matchesIgnoringTimestamps]

/-- **C06.** A present but empty list matches nothing. -/
theorem C06_empty_list_matches_nothing (f : Filter) (e : Event)
    (h : f.ids = some [] ∨ f.kinds = some [] ∨ f.authors = some [] ∨
      ∃ m name, f.tags = some m ∧ (name, some []) ∈ m) : f.matches (some e) = false := by
  rw [← Bool.not_eq_true, C06_matches_iff]
  rintro ⟨⟨h1, h2, h3, h4⟩, _⟩
  rcases h with h | h | h | ⟨m, name, hm, hmem⟩
  · simpa using h1 _ h
  · simpa using h2 _ h
  · simpa using h3 _ h
  · obtain ⟨_, _, _, _, _, hv⟩ := h4 m hm name [] hmem
    simp at hv

/-- **C06.** The result does not depend on the iteration order of the tag map. -/
theorem C06_map_order_irrelevant (f : Filter) (m m' : TagMap) (hp : m.Perm m') (e : Option Event) :
    { f with tags := some m }.matches e = { f with tags := some m' }.matches e := by
  cases e with
  | none => rw [(C06_nil_event _).1, (C06_nil_event _).1]
  | some e =>
    rw [Bool.eq_iff_iff, C06_matches_iff, C06_matches_iff]
    unfold Spec.Matches Spec.MatchesButTime Spec.InWindow
    simp [hp.mem_iff]

/-- Sample filter and events for the non-vacuity examples. -/
def sampleFilter : Filter :=
  { kinds := some [1, 30023], authors := some [b! "ab\",1"], tags := some [(b! "d", some [b! "q", b! "x\"],[\"\\"])],
    since := some (-7), «until» := some 3 }

example : sampleFilter.matches (some sampleEvent) = true := by decide
example : { sampleFilter with since := some (-6) }.matches (some sampleEvent) = false ∧
    { sampleFilter with since := some (-6) }.matchesIgnoringTimestamps (some sampleEvent) = true := by decide
example : { sampleFilter with ids := some [] }.matches (some sampleEvent) = false := by decide

/-! ## C07 -/

/-- **C07.** `Filters.Match` is the disjunction of the filters. -/
theorem C07_match_iff_exists (fs : List Filter) (e : Event) :
    Filters.match (some e) fs = true ↔ ∃ f ∈ fs, Spec.Matches f e := by
  induction fs with
  | nil => simp [Filters.match]
  | cons f fs ih =>
    have h := C06_matches_iff f e
    by_cases hm : f.matches (some e) = true
    · simp only [Filters.match, hm, if_true, true_iff]
      exact ⟨f, by simp, h.mp hm⟩
    · simp only [Filters.match, hm, List.mem_cons, exists_eq_or_imp]
      rw [h] at hm
      simp [hm, ih]

/-- **C07.** The same for the variant that ignores timestamps. -/
theorem C07_matchIgnoring_iff_exists (fs : List Filter) (e : Event) :
    Filters.matchIgnoringTimestamps (some e) fs = true ↔ ∃ f ∈ fs, Spec.MatchesButTime f e := by
  induction fs with
  | nil => simp [Filters.matchIgnoringTimestamps]
  | cons f fs ih =>
    have h := matchesIgnoring_iff f e
    by_cases hm : f.matchesIgnoringTimestamps (some e) = true
    · simp only [Filters.matchIgnoringTimestamps, hm, if_true, true_iff]
      exact ⟨f, by simp, h.mp hm⟩
    · simp only [Filters.matchIgnoringTimestamps, hm, List.mem_cons, exists_eq_or_imp]
      rw [h] at hm
      simp [hm, ih]

/-- **C07.** Order and repetition of filters are irrelevant. -/
theorem C07_set_semantics (fs gs : List Filter) (h : ∀ f, f ∈ fs ↔ f ∈ gs) (e : Event) :
    Filters.match (some e) fs = Filters.match (some e) gs := by
  rw [Bool.eq_iff_iff, C07_match_iff_exists, C07_match_iff_exists]
  simp [h]

/-- **C07.** No filter matches a nil event, and no filters match nothing. -/
theorem C07_empty_and_nil (fs : List Filter) (e : Option Event) :
    Filters.match none fs = false ∧ Filters.match e [] = false := by
  refine ⟨?_, rfl⟩
  induction fs with
  | nil => rfl
  | cons f fs ih => simp [Filters.match, (C06_nil_event f).1, ih]

/-- **C07.** Matching implies matching without the window, and without windows the two agree. -/
theorem C07_ignoring_is_weaker (fs : List Filter) (e : Event) :
    (Filters.match (some e) fs = true → Filters.matchIgnoringTimestamps (some e) fs = true) ∧
    ((∀ f ∈ fs, Spec.InWindow f e) → Filters.match (some e) fs = Filters.matchIgnoringTimestamps (some e) fs) := by
  constructor
  · rw [C07_match_iff_exists, C07_matchIgnoring_iff_exists]
    rintro ⟨f, hf, hm⟩
    exact ⟨f, hf, hm.1⟩
  · intro hw
    rw [Bool.eq_iff_iff, C07_match_iff_exists, C07_matchIgnoring_iff_exists]
    constructor
    · rintro ⟨f, hf, hm⟩; exact ⟨f, hf, hm.1⟩
    · rintro ⟨f, hf, hm⟩; exact ⟨f, hf, hm, hw f hf⟩

example : Filters.match (some sampleEvent) [{ ids := some [] }, sampleFilter] = true := by decide

/-! ## C08 -/

theorem similarLoop_iff {α : Type} [DecidableEq α] (bs as : List α) : similarLoop bs as = true ↔ ∀ a ∈ as, a ∈ bs := by
  induction as with
  | nil => simp [similarLoop]
  | cons a as ih =>
    by_cases h : bs.contains a = true
    · simp [similarLoop, ih]
    · simp only [similarLoop, h, if_false]
      have : a ∉ bs := by simpa using h
      simp [this]

theorem similar_iff {α : Type} [DecidableEq α] (as bs : Option (List α)) :
    similar as bs = true ↔ (elems as).length = (elems bs).length ∧ ∀ a ∈ elems as, a ∈ elems bs := by
  unfold similar
  by_cases h : (elems as).length = (elems bs).length
  · simp [h, similarLoop_iff]
  · simp [h]

theorem filterEqualTags_iff (bt at_ : TagMap) : filterEqualTags bt at_ = true ↔
    ∀ f av, (f, av) ∈ at_ → ∃ bv, mapLookup bt f = some bv ∧ similar av bv = true := by
  induction at_ with
  | nil => simp [filterEqualTags]
  | cons p m ih =>
    obtain ⟨f, av⟩ := p
    simp only [filterEqualTags]
    cases hl : mapLookup bt f with
    | none =>
      simp only [Bool.false_eq_true, false_iff]
      intro h
      obtain ⟨bv, hb, _⟩ := h f av List.mem_cons_self
      rw [hl] at hb; cases hb
    | some bv =>
      by_cases hs : similar av bv = true
      · simp only [hs, not_true_eq_false, if_false, ih]
        constructor
        · intro h f' av' hmem
          simp only [List.mem_cons, Prod.mk.injEq] at hmem
          rcases hmem with ⟨rfl, rfl⟩ | hmem
          · exact ⟨bv, hl, hs⟩
          · exact h _ _ hmem
        · intro h f' av' hmem; exact h _ _ (List.mem_cons_of_mem _ hmem)
      · simp only [hs, not_false_eq_true, if_true, Bool.false_eq_true, false_iff]
        intro h
        obtain ⟨bv', hb, hs'⟩ := h f av List.mem_cons_self
        rw [hl] at hb; cases hb
        exact hs hs'

theorem filterEqual_iff (a b : Filter) : filterEqual a b = true ↔
    similar a.kinds b.kinds = true ∧ similar a.ids b.ids = true ∧ similar a.authors b.authors = true ∧
    (tagEntries a.tags).length = (tagEntries b.tags).length ∧
    (∀ f av, (f, av) ∈ tagEntries a.tags → ∃ bv, mapLookup (tagEntries b.tags) f = some bv ∧ similar av bv = true) ∧
    a.since = b.since ∧ a.until = b.until ∧ a.search = b.search ∧ a.limitZero = b.limitZero := by
  rw [← filterEqualTags_iff]
  unfold filterEqual
  by_cases h1 : similar a.kinds b.kinds = true
  swap
  · simp [h1]
  by_cases h2 : similar a.ids b.ids = true
  swap
  · simp [h1, h2]
  by_cases h3 : similar a.authors b.authors = true
  swap
  · simp [h1, h2, h3]
  by_cases h4 : (tagEntries a.tags).length = (tagEntries b.tags).length
  swap
  · simp [h1, h2, h3, h4]
  by_cases h5 : filterEqualTags (tagEntries b.tags) (tagEntries a.tags) = true
  swap
  · simp [h1, h2, h3, h4, h5]
  by_cases h6 : a.since = b.since
  swap
  · simp [h1, h2, h3, h4, h5, h6]
  by_cases h7 : a.until = b.until
  swap
  · simp [h1, h2, h3, h4, h5, h6, h7]
  by_cases h8 : a.search = b.search
  swap
  · simp [h1, h2, h3, h4, h5, h6, h7, h8]
  by_cases h9 : a.limitZero = b.limitZero <;> simp [h1, h2, h3, h4, h5, h6, h7, h8, h9]

/-- Keys of a Go map are distinct. -/
def DistinctKeys (f : Filter) : Prop := ((tagEntries f.tags).map (·.1)).Nodup

theorem mapLookup_of_mem {m : TagMap} (hn : (m.map (·.1)).Nodup) {k : Bytes} {v : Option (List Bytes)}
    (h : (k, v) ∈ m) : mapLookup m k = some v := by
  induction m with
  | nil => simp at h
  | cons p m ih =>
    obtain ⟨k', v'⟩ := p
    simp only [List.map_cons, List.nodup_cons] at hn
    simp only [List.mem_cons, Prod.mk.injEq] at h
    rcases h with ⟨rfl, rfl⟩ | h
    · simp [mapLookup]
    · have : k' ≠ k := by
        rintro rfl
        exact hn.1 (List.mem_map.mpr ⟨_, h, rfl⟩)
      simp [mapLookup, this, ih hn.2 h]

theorem mem_of_mapLookup {m : TagMap} {k : Bytes} {v : Option (List Bytes)} (h : mapLookup m k = some v) : (k, v) ∈ m := by
  induction m with
  | nil => simp [mapLookup] at h
  | cons p m ih =>
    obtain ⟨k', v'⟩ := p
    simp only [mapLookup] at h
    split at h
    · next hk => subst hk; injection h with h; subst h; simp
    · exact List.mem_cons_of_mem _ (ih h)

theorem similar_refl {α : Type} [DecidableEq α] (a : Option (List α)) : similar a a = true := by
  rw [similar_iff]; exact ⟨rfl, fun _ h => h⟩

/-- **C08.** `FilterEqual` is reflexive. -/
theorem C08_reflexive (f : Filter) (hk : DistinctKeys f) : filterEqual f f = true := by
  rw [filterEqual_iff]
  exact ⟨similar_refl _, similar_refl _, similar_refl _, rfl,
    fun k v h => ⟨v, mapLookup_of_mem hk h, similar_refl _⟩, rfl, rfl, rfl, rfl⟩

theorem similar_trans {α : Type} [DecidableEq α] {a b c : Option (List α)} (h1 : similar a b = true)
    (h2 : similar b c = true) : similar a c = true := by
  rw [similar_iff] at *
  exact ⟨h1.1.trans h2.1, fun x hx => h2.2 x (h1.2 x hx)⟩

/-- **C08.** `FilterEqual` is transitive. -/
theorem C08_transitive (a b c : Filter) (h1 : filterEqual a b = true) (h2 : filterEqual b c = true) :
    filterEqual a c = true := by
  rw [filterEqual_iff] at *
  obtain ⟨a1, a2, a3, a4, a5, a6, a7, a8, a9⟩ := h1
  obtain ⟨b1, b2, b3, b4, b5, b6, b7, b8, b9⟩ := h2
  refine ⟨similar_trans a1 b1, similar_trans a2 b2, similar_trans a3 b3, a4.trans b4, ?_, a6.trans b6, a7.trans b7,
    a8.trans b8, a9.trans b9⟩
  intro k v hkv
  obtain ⟨bv, hb, hs⟩ := a5 k v hkv
  obtain ⟨cv, hc, hs'⟩ := b5 k bv (mem_of_mapLookup hb)
  exact ⟨cv, hc, similar_trans hs hs'⟩

/-- **C08.** What acceptance means, field by field: lists of the same length with every entry of `a` listed by `b`, the
same number of tag names with each name of `a` present in `b`, and identical since, until, search and limit-zero flag.
(`Limit` is not compared.) -/
theorem C08_equal_iff_fields (a b : Filter) : filterEqual a b = true ↔
    ((elems a.kinds).length = (elems b.kinds).length ∧ ∀ k ∈ elems a.kinds, k ∈ elems b.kinds) ∧
    ((elems a.ids).length = (elems b.ids).length ∧ ∀ i ∈ elems a.ids, i ∈ elems b.ids) ∧
    ((elems a.authors).length = (elems b.authors).length ∧ ∀ x ∈ elems a.authors, x ∈ elems b.authors) ∧
    ((tagEntries a.tags).length = (tagEntries b.tags).length ∧
      ∀ name av, (name, av) ∈ tagEntries a.tags → ∃ bv, mapLookup (tagEntries b.tags) name = some bv ∧
        (elems av).length = (elems bv).length ∧ ∀ v ∈ elems av, v ∈ elems bv) ∧
    a.since = b.since ∧ a.until = b.until ∧ a.search = b.search ∧ a.limitZero = b.limitZero := by
  rw [filterEqual_iff, similar_iff, similar_iff, similar_iff]
  simp only [similar_iff, and_assoc]

/-- **C08.** `Limit` plays no role. -/
theorem C08_limit_ignored (a b : Filter) (n m : Int) :
    filterEqual { a with limit := n } { b with limit := m } = filterEqual a b := rfl

/-- **C08**, negation: `FilterEqual` is not symmetric (repeated list entries). -/
theorem C08_not_symmetric : ∃ a b : Filter, filterEqual a b = true ∧ filterEqual b a = false :=
  ⟨{ kinds := some [1, 1] }, { kinds := some [1, 2] }, by decide, by decide⟩

/-- **C08**, negation: `FilterEqual` filters need not match the same events, (1) because of repeated entries and (2)
because a nil list and an empty list are considered equal. -/
theorem C08_equal_filters_match_differently :
    (∃ (a b : Filter) (e : Event), filterEqual a b = true ∧ a.matches (some e) = false ∧ b.matches (some e) = true) ∧
    (∃ (a b : Filter) (e : Event), filterEqual a b = true ∧ filterEqual b a = true ∧ a.matches (some e) = true ∧
      b.matches (some e) = false) :=
  ⟨⟨{ kinds := some [1, 1] }, { kinds := some [1, 2] }, { sampleEvent with kind := 2 }, by decide, by decide, by decide⟩,
   ⟨{ kinds := none }, { kinds := some [] }, sampleEvent, by decide, by decide, by decide, by decide⟩⟩

/-- All lists in the filter are duplicate-free and the map's keys are distinct. -/
def NoDuplicates (f : Filter) : Prop :=
  (elems f.ids).Nodup ∧ (elems f.kinds).Nodup ∧ (elems f.authors).Nodup ∧ DistinctKeys f ∧
  ∀ k v, (k, v) ∈ tagEntries f.tags → (elems v).Nodup

theorem similar_mem_iff {α : Type} [DecidableEq α] {a b : Option (List α)} (hn : (elems a).Nodup)
    (h : similar a b = true) (x : α) : x ∈ elems a ↔ x ∈ elems b := by
  rw [similar_iff] at h
  exact ((List.subperm_of_subset hn h.2).perm_of_length_le (by omega)).mem_iff

theorem similar_symm {α : Type} [DecidableEq α] {a b : Option (List α)} (hn : (elems a).Nodup)
    (h : similar a b = true) : similar b a = true := by
  have hm := similar_mem_iff hn h
  rw [similar_iff] at *
  exact ⟨h.1.symm, fun x hx => (hm x).mpr hx⟩

theorem keys_perm {a b : TagMap} (ha : (a.map (·.1)).Nodup)
    (hlen : a.length = b.length)
    (h : ∀ k v, (k, v) ∈ a → ∃ v', mapLookup b k = some v') : (a.map (·.1)).Perm (b.map (·.1)) := by
  apply (List.subperm_of_subset ha _).perm_of_length_le
  · simp [hlen]
  · intro k hk
    obtain ⟨⟨k', v⟩, hmem, rfl⟩ := List.mem_map.mp hk
    obtain ⟨v', hv'⟩ := h k' v hmem
    exact List.mem_map.mpr ⟨_, mem_of_mapLookup hv', rfl⟩

/-- **C08.** On duplicate-free filters `FilterEqual` is symmetric. -/
theorem C08_symmetric_partial (a b : Filter) (ha : NoDuplicates a) (hb : DistinctKeys b)
    (h : filterEqual a b = true) : filterEqual b a = true := by
  obtain ⟨n1, n2, n3, n4, n5⟩ := ha
  rw [filterEqual_iff] at *
  obtain ⟨a1, a2, a3, a4, a5, a6, a7, a8, a9⟩ := h
  refine ⟨similar_symm n2 a1, similar_symm n1 a2, similar_symm n3 a3, a4.symm, ?_, a6.symm, a7.symm, a8.symm, a9.symm⟩
  intro k bv hmem
  have hp := keys_perm n4 a4 (fun k v hkv => let ⟨bv, hb, _⟩ := a5 k v hkv; ⟨bv, hb⟩)
  have hk : k ∈ (tagEntries a.tags).map (·.1) := hp.mem_iff.mpr (List.mem_map.mpr ⟨_, hmem, rfl⟩)
  obtain ⟨⟨k', av⟩, hav, rfl⟩ := List.mem_map.mp hk
  obtain ⟨bv', hb', hs⟩ := a5 k' av hav
  rw [mapLookup_of_mem hb hmem] at hb'
  cases hb'
  exact ⟨av, mapLookup_of_mem n4 hav, similar_symm (n5 _ _ hav) hs⟩

/-- The filters agree on which conditions are nil. -/
def SameNils (a b : Filter) : Prop :=
  (a.ids.isSome ↔ b.ids.isSome) ∧ (a.kinds.isSome ↔ b.kinds.isSome) ∧ (a.authors.isSome ↔ b.authors.isSome) ∧
  ∀ k av bv, (k, av) ∈ tagEntries a.tags → (k, bv) ∈ tagEntries b.tags → (av.isSome ↔ bv.isSome)

theorem cond_congr {α : Type} {a b : Option (List α)} (hn : a.isSome ↔ b.isSome)
    (hm : ∀ x, x ∈ elems a ↔ x ∈ elems b) (x : α) : (∀ l, a = some l → x ∈ l) ↔ (∀ l, b = some l → x ∈ l) := by
  cases a <;> cases b <;> simp [elems] at *
  exact hm x

/-- **C08.** Duplicate-free filters with the same nil conditions that are `FilterEqual` match exactly the same events. -/
theorem C08_equal_implies_same_matches_partial (a b : Filter) (ha : NoDuplicates a) (hb : DistinctKeys b)
    (hnil : SameNils a b) (h : filterEqual a b = true) (e : Option Event) : a.matches e = b.matches e := by
  cases e with
  | none => rw [(C06_nil_event _).1, (C06_nil_event _).1]
  | some e =>
    have hsym := C08_symmetric_partial a b ha hb h
    obtain ⟨n1, n2, n3, n4, n5⟩ := ha
    obtain ⟨s1, s2, s3, s4⟩ := hnil
    rw [filterEqual_iff] at h hsym
    obtain ⟨a1, a2, a3, a4, a5, a6, a7, a8, a9⟩ := h
    obtain ⟨_, _, _, _, b5, _⟩ := hsym
    rw [Bool.eq_iff_iff, C06_matches_iff, C06_matches_iff]
    unfold Spec.Matches Spec.MatchesButTime Spec.InWindow
    rw [cond_congr s1 (similar_mem_iff n1 a2), cond_congr s2 (similar_mem_iff n2 a1),
      cond_congr s3 (similar_mem_iff n3 a3), a6, a7]
    have tag : ∀ f : Filter, (∀ m, f.tags = some m → ∀ name vals, (name, some vals) ∈ m →
        ∃ tag ∈ e.tags, ∃ v rest, tag = name :: v :: rest ∧ v ∈ vals) ↔
        (∀ name vals, (name, some vals) ∈ tagEntries f.tags →
        ∃ tag ∈ e.tags, ∃ v rest, tag = name :: v :: rest ∧ v ∈ vals) := by
      intro f; cases f.tags <;> simp [tagEntries]
    rw [tag a, tag b]
    have key : (∀ name vals, (name, some vals) ∈ tagEntries a.tags →
        ∃ tag ∈ e.tags, ∃ v rest, tag = name :: v :: rest ∧ v ∈ vals) ↔
        (∀ name vals, (name, some vals) ∈ tagEntries b.tags →
        ∃ tag ∈ e.tags, ∃ v rest, tag = name :: v :: rest ∧ v ∈ vals) := by
      constructor
      · intro hall name vals hmem
        obtain ⟨av, hav, hs⟩ := b5 name (some vals) hmem
        have hav := mem_of_mapLookup hav
        have hsome := (s4 name av (some vals) hav hmem).mpr rfl
        obtain ⟨avals, rfl⟩ := Option.isSome_iff_exists.mp hsome
        obtain ⟨t, ht, v, r, hr, hv⟩ := hall name avals hav
        obtain ⟨bv, hb1, hb2⟩ := a5 name (some avals) hav
        rw [mapLookup_of_mem hb hmem] at hb1
        cases hb1
        exact ⟨t, ht, v, r, hr, (similar_iff _ _).mp hb2 |>.2 v hv⟩
      · intro hall name vals hmem
        obtain ⟨bv, hbv, hs⟩ := a5 name (some vals) hmem
        have hbv' := mem_of_mapLookup hbv
        have hsome := (s4 name (some vals) bv hmem hbv').mp rfl
        obtain ⟨bvals, rfl⟩ := Option.isSome_iff_exists.mp hsome
        obtain ⟨t, ht, v, r, hr, hv⟩ := hall name bvals hbv'
        refine ⟨t, ht, v, r, hr, ?_⟩
        exact (similar_mem_iff (n5 _ _ hmem) hs v).mpr hv
    rw [key]

/-- Non-vacuity: two different filters meeting all hypotheses. -/
example : ∃ a b : Filter, a ≠ b ∧ filterEqual a b = true ∧ NoDuplicates a ∧ DistinctKeys b ∧ SameNils a b := by
  refine ⟨{ kinds := some [1, 2], tags := some [(b! "e", some [b! "x", b! "y"])] },
    { kinds := some [2, 1], tags := some [(b! "e", some [b! "y", b! "x"])] }, by decide, by decide, ?_, ?_, ?_⟩
  · refine ⟨by decide, by decide, by decide, by simp [DistinctKeys, tagEntries], ?_⟩
    intro k v h; simp [tagEntries] at h; rw [h.2]; decide
  · simp [DistinctKeys, tagEntries]
  · refine ⟨by decide, by decide, by decide, ?_⟩
    intro k av bv h1 h2; simp [tagEntries] at h1 h2; simp [h1.2, h2.2]

/-! ## C09 -/

open FilterHeap in
/-- **C09.** `Clone()` of a filter yields a filter of exactly the same value (nil stays nil), and the original keeps its
value. -/
theorem C09_clone_equal (h : Heap) (w : h.WF) (f : HFilter) (v : Filter) (hv : view h f = some v) :
    ∃ h' f', clone h f = some (h', f') ∧ view h' f' = some v ∧ view h' f = some v := by
  obtain ⟨h', f', hc, hx, hv', _⟩ := clone_spec w hv
  exact ⟨h', f', hc, hv', by rw [view_congr (h2 := h) (fun a _ ha => hx.same a ha) (within_of_view w hv)]; exact hv⟩

open FilterHeap in
/-- **C09.** Independence: after cloning, any sequence of writes to objects that existed before (in particular all those
reachable from the original) or that were allocated later leaves the clone's value unchanged; and any sequence of writes
to objects created by the clone or later leaves the original's value unchanged. -/
theorem C09_clone_independent (h : Heap) (w : h.WF) (f : HFilter) (v : Filter) (hv : view h f = some v)
    (h' : Heap) (f' : HFilter) (hc : clone h f = some (h', f')) (ws : List (Nat × Cell)) :
    ((∀ x ∈ ws, x.1 < h.next ∨ h'.next ≤ x.1) → view (writes h' ws) f' = some v) ∧
    ((∀ x ∈ ws, h.next ≤ x.1) → view (writes h' ws) f = some v) := by
  obtain ⟨h'', f'', hc', hx, hv', hw⟩ := clone_spec w hv
  rw [hc] at hc'
  cases hc'
  constructor
  · intro hws
    rw [view_congr (h2 := h') (lo := h.next) (hi := h'.next) _ hw]
    · exact hv'
    · intro a ha1 ha2
      apply writes_same
      intro x hxm he
      have := hws x hxm
      omega
  · intro hws
    rw [view_congr (h2 := h) (lo := 0) (hi := h.next) _ (within_of_view w hv)]
    · exact hv
    · intro a _ ha2
      rw [writes_same, hx.same a ha2]
      intro x hxm he
      have := hws x hxm
      omega

open FilterHeap in
/-- **C09.** Everything reachable from the original lived below the clone's allocation frontier, and everything reachable
from the clone lies above it: the two share no object. -/
theorem C09_clone_disjoint (h : Heap) (w : h.WF) (f : HFilter) (v : Filter) (hv : view h f = some v)
    (h' : Heap) (f' : HFilter) (hc : clone h f = some (h', f')) :
    Within h 0 h.next f ∧ Within h' h.next h'.next f' := by
  obtain ⟨h'', f'', hc', hx, hv', hw⟩ := clone_spec w hv
  rw [hc] at hc'
  cases hc'
  exact ⟨within_of_view w hv, hw⟩

/-- **C09.** `FilterEqual` accepts a clone. -/
theorem C09_clone_filterEqual (h : FilterHeap.Heap) (w : h.WF) (f : FilterHeap.HFilter) (v : Filter)
    (hv : FilterHeap.view h f = some v) (hk : DistinctKeys v) :
    ∃ h' f' v', FilterHeap.clone h f = some (h', f') ∧ FilterHeap.view h' f' = some v' ∧ filterEqual v v' = true := by
  obtain ⟨h', f', hc, hv', _⟩ := C09_clone_equal h w f v hv
  exact ⟨h', f', v, hc, hv', C08_reflexive v hk⟩

/-- A heap holding a filter with ids, kinds, a tag map with a nil and a non-nil value, and a since pointer. -/
def sampleHeap : FilterHeap.Heap where
  cells := fun a => match a with
    | 0 => some (.strs [b! "id"])
    | 1 => some (.ints [1, 2])
    | 2 => some (.strs [b! "x"])
    | 3 => some (.map [(b! "e", some 2), (b! "p", none)])
    | 4 => some (.ts 17)
    | _ => none
  next := 5

/-- A value of the examples. -/
def sampleHFilter : FilterHeap.HFilter :=
  { ids := some 0, kinds := some 1, authors := none, tags := some 3, since := some 4, «until» := none,
    limit := 9, search := [], limitZero := false }

example : FilterHeap.view sampleHeap sampleHFilter = some
    { ids := some [b! "id"], kinds := some [1, 2], tags := some [(b! "e", some [b! "x"]), (b! "p", none)],
      since := some 17, limit := 9 } := by decide

example : sampleHeap.WF := by
  intro a ha
  simp only [sampleHeap] at ha ⊢
  split <;> simp_all

/-! ## C10 -/

theorem elems_pos {α : Type} {v : Option (List α)} (h : (elems v).length > 0) : v = some (elems v) := by
  cases v with
  | none => simp [elems] at h
  | some l => rfl

theorem allKinds_iff (q : Int → Bool) (ks : List Int) : allKinds q ks = true ↔ ∀ k ∈ ks, q k = true := by
  induction ks with
  | nil => simp [allKinds]
  | cons k ks ih =>
    by_cases h : q k = true <;> simp [allKinds, h, ih]

theorem replaceable_iff (k : Int) : isReplaceableKind k = true ↔ Spec.Replaceable k := by
  simp [isReplaceableKind, Spec.Replaceable]; omega

theorem addressable_iff (k : Int) : isAddressableKind k = true ↔ Spec.Addressable k := by
  simp [isAddressableKind, Spec.Addressable]

theorem count_le {β : Type} (store : List Event) (f : Filter) (key : Event → β) (keys : List β)
    (hnd : (store.map (·.id)).Nodup)
    (hinj : ∀ a ∈ store, ∀ b ∈ store, f.matches (some a) = true → f.matches (some b) = true → key a = key b → a = b)
    (hkey : ∀ a ∈ store, f.matches (some a) = true → key a ∈ keys) :
    (store.filter (fun e => f.matches (some e))).length ≤ keys.length := by
  have hs : store.Nodup := List.Nodup.of_map _ hnd
  have hn : ((store.filter (fun e => f.matches (some e))).map key).Nodup := by
    apply List.Nodup.map_on _ (hs.filter _)
    intro a ha b hb hab
    simp at ha hb
    exact hinj a ha.1 b hb.1 ha.2 hb.2 hab
  have := (List.subperm_of_subset hn (l₂ := keys) (by
    intro k hk
    obtain ⟨a, ha, rfl⟩ := List.mem_map.mp hk
    simp at ha
    exact hkey a ha.1 ha.2)).length_le
  simpa using this

/-- **C10.** If `GetTheoreticalLimit(f) = n ≥ 0`, a conforming store in which every addressable event has at most one `d`
tag holds at most `n` events matching `f`. -/
theorem C10_limit_bounds_results_partial (f : Filter) (store : List Event) (hc : Spec.Conforming store)
    (hd : ∀ e ∈ store, Spec.Addressable e.kind → Spec.SingleD e) (h0 : 0 ≤ getTheoreticalLimit f) :
    ((store.filter (fun e => f.matches (some e))).length : Int) ≤ getTheoreticalLimit f := by
  unfold getTheoreticalLimit at *
  split at h0 <;> rename_i hids
  · -- ids
    rw [if_pos hids]
    have := count_le store f (·.id) (elems f.ids) hc.ids
      (fun a ha b hb _ _ hab => List.inj_on_of_nodup_map hc.ids ha hb hab)
      (fun a _ hm => ((C06_matches_iff f a).mp hm).1.1 _ (elems_pos hids))
    omega
  · rw [if_neg hids]
    split at h0 <;> rename_i hk
    · omega
    rw [if_neg hk]
    split at h0 <;> rename_i hau
    swap
    · omega
    rw [if_pos hau]
    have hkpos : (elems f.kinds).length > 0 := by omega
    have hkind : ∀ a, f.matches (some a) = true → a.kind ∈ elems f.kinds := fun a hm =>
      ((C06_matches_iff f a).mp hm).1.2.1 _ (elems_pos hkpos)
    have hauth : ∀ a, f.matches (some a) = true → a.pubkey ∈ elems f.authors := fun a hm =>
      ((C06_matches_iff f a).mp hm).1.2.2.1 _ (elems_pos hau)
    split at h0 <;> rename_i hrep
    · rw [if_pos hrep]
      rw [allKinds_iff] at hrep
      have := count_le store f (fun e => (e.pubkey, e.kind)) ((elems f.authors) ×ˢ elems f.kinds) hc.ids
        (fun a ha b hb hma _ hab => by
          simp only [Prod.mk.injEq] at hab
          exact hc.replaceable a ha b hb ((replaceable_iff _).mp (hrep _ (hkind a hma))) hab.1 hab.2)
        (fun a _ hm => List.mem_product.mpr ⟨hauth a hm, hkind a hm⟩)
      rw [List.length_product] at this
      exact_mod_cast this
    · rw [if_neg hrep]
      split at h0 <;> rename_i hadd
      swap
      · omega
      rw [if_pos hadd]
      obtain ⟨hdpos, hadd⟩ := hadd
      rw [allKinds_iff] at hadd
      -- the d condition of the filter
      have hdv : ∃ m vals, f.tags = some m ∧ (b! "d", some vals) ∈ m ∧ vals = dValues f.tags := by
        unfold dValues at hdpos ⊢
        cases hl : mapLookup (tagEntries f.tags) (b! "d") with
        | none => simp [hl] at hdpos
        | some v =>
          simp only [hl] at hdpos
          have hmem := mem_of_mapLookup hl
          cases hv : v with
          | none => simp [hv, elems] at hdpos
          | some vals =>
            cases ht : f.tags with
            | none => simp [ht, tagEntries] at hmem
            | some m => exact ⟨m, vals, rfl, by rw [ht] at hmem; rw [hv] at hmem; exact hmem, rfl⟩
      obtain ⟨m, vals, hm1, hm2, hm3⟩ := hdv
      have hgetD : ∀ a ∈ store, f.matches (some a) = true → Tags.getD a.tags ∈ dValues f.tags := by
        intro a ha hm
        obtain ⟨t, ht, v, r, hr, hv⟩ := ((C06_matches_iff f a).mp hm).1.2.2.2 m hm1 _ _ hm2
        have hsd := hd a ha ((addressable_iff _).mp (hadd _ (hkind a hm)))
        rcases C12_getD a.tags with ⟨hno, _⟩ | ⟨pre, v', r', post, he, _, hg⟩
        · exact absurd ⟨v, r, hr⟩ (hno t ht)
        · have := hsd t ht _ (by rw [he]; simp) v r v' r' hr rfl
          rw [hg, ← this, ← hm3]; exact hv
      have := count_le store f (fun e => ((e.pubkey, e.kind), Tags.getD e.tags))
        (((elems f.authors) ×ˢ elems f.kinds) ×ˢ dValues f.tags) hc.ids
        (fun a ha b hb hma _ hab => by
          simp only [Prod.mk.injEq] at hab
          exact hc.addressable a ha b hb ((addressable_iff _).mp (hadd _ (hkind a hma))) hab.1.1 hab.1.2 hab.2)
        (fun a ha hm => List.mem_product.mpr ⟨List.mem_product.mpr ⟨hauth a hm, hkind a hm⟩, hgetD a ha hm⟩)
      rw [List.length_product, List.length_product] at this
      exact_mod_cast this

/-- A store of two addressable events with two `d` tags each. -/
def twoDStore : List Event :=
  [{ sampleEvent with id := b! "1", tags := [[b! "d", b! "x1"], [b! "d", b! "y"]] },
   { sampleEvent with id := b! "2", tags := [[b! "d", b! "x2"], [b! "d", b! "y"]] }]

/-- **C10**, negation of the unrestricted statement: with repeated `d` tags a conforming store can hold more matching
events than the theoretical limit. -/
theorem C10_limit_exceeded_with_two_d_tags :
    ∃ (f : Filter) (store : List Event), Spec.Conforming store ∧ 0 ≤ getTheoreticalLimit f ∧
      getTheoreticalLimit f < ((store.filter (fun e => f.matches (some e))).length : Int) := by
  refine ⟨{ kinds := some [30023], authors := some [sampleEvent.pubkey], tags := some [(b! "d", some [b! "y"])] },
    twoDStore, ?_, by decide, by decide⟩
  constructor
  · decide
  · intro a ha b hb hr
    simp [twoDStore] at ha
    rcases ha with rfl | rfl <;> simp [Spec.Replaceable, sampleEvent] at hr
  · intro a ha b hb _ _ _ hd
    simp [twoDStore] at ha hb
    rcases ha with rfl | rfl <;> rcases hb with rfl | rfl <;> first | rfl | (revert hd; decide)

example : getTheoreticalLimit { kinds := some [0, 3, 10002], authors := some [b! "a", b! "b"] } = 6 := by decide

/-! ## C11 -/

/-- **C11.** The predicates agree with the NIP-01 ranges for every kind; `IsRegularKind` additionally accepts negative
kinds. -/
theorem C11_predicates (k : Int) :
    (isRegularKind k = true ↔ Spec.Regular k ∨ k < 0) ∧ (isReplaceableKind k = true ↔ Spec.Replaceable k) ∧
    (isEphemeralKind k = true ↔ Spec.Ephemeral k) ∧ (isAddressableKind k = true ↔ Spec.Addressable k) := by
  refine ⟨?_, replaceable_iff k, ?_, addressable_iff k⟩
  · simp [isRegularKind, Spec.Regular]; omega
  · simp [isEphemeralKind, Spec.Ephemeral]

/-- **C11.** Every kind below 40000 is in exactly one class; kinds from 40000 on are in none. -/
theorem C11_partition (k : Int) :
    (k < 40000 →
      [isRegularKind k, isReplaceableKind k, isEphemeralKind k, isAddressableKind k].count true = 1) ∧
    (40000 ≤ k →
      [isRegularKind k, isReplaceableKind k, isEphemeralKind k, isAddressableKind k].count true = 0) := by
  obtain ⟨h1, h2, h3, h4⟩ := C11_predicates k
  unfold Spec.Regular at h1
  unfold Spec.Replaceable at h2
  unfold Spec.Ephemeral at h3
  unfold Spec.Addressable at h4
  constructor <;> intro hk
  · cases a : isRegularKind k <;> cases b : isReplaceableKind k <;> cases c : isEphemeralKind k <;>
      cases d : isAddressableKind k <;> simp [a, b, c, d] at h1 h2 h3 h4 ⊢ <;> omega
  · cases a : isRegularKind k <;> cases b : isReplaceableKind k <;> cases c : isEphemeralKind k <;>
      cases d : isAddressableKind k <;> simp [a, b, c, d] at h1 h2 h3 h4 ⊢ <;> omega

example : isReplaceableKind 3 = true ∧ isRegularKind 3 = false ∧ isAddressableKind 39999 = true ∧
    isRegularKind 40000 = false := by decide

/-! ## C15 -/

/-- Strict lexicographic order on byte strings, as a specification. -/
def LexLt : Bytes → Bytes → Prop
  | _, [] => False
  | [], _ :: _ => True
  | a :: as, b :: bs => a < b ∨ (a = b ∧ LexLt as bs)

theorem compareStrings_spec (a b : Bytes) :
    (compareStrings a b = -1 ∧ LexLt a b ∧ ¬ LexLt b a ∧ a ≠ b) ∨ (compareStrings a b = 0 ∧ a = b) ∨
    (compareStrings a b = 1 ∧ LexLt b a ∧ ¬ LexLt a b ∧ a ≠ b) := by
  induction a generalizing b with
  | nil => cases b <;> simp [compareStrings, LexLt]
  | cons x a ih =>
    cases b with
    | nil => simp [compareStrings, LexLt]
    | cons y b =>
      by_cases h1 : x < y
      · have h2 : ¬ y < x := by rw [UInt8.lt_iff_toNat_lt] at *; omega
        have h3 : x ≠ y := by rintro rfl; exact h2 h1
        simp [compareStrings, LexLt, h1, h2, h3, Ne.symm h3]
      · by_cases h2 : y < x
        · have h3 : x ≠ y := by rintro rfl; exact h1 h2
          simp [compareStrings, LexLt, h1, h2, h3, Ne.symm h3]
        · have h3 : x = y := by
            apply UInt8.toNat_inj.mp
            rw [UInt8.lt_iff_toNat_lt] at *; omega
          subst h3
          simp only [compareStrings, LexLt, h1, if_false, true_and, false_or, List.cons.injEq, ne_eq]
          exact ih b

theorem lexLt_irrefl (a : Bytes) : ¬ LexLt a a := by
  induction a with
  | nil => simp [LexLt]
  | cons x a ih =>
    have : ¬ x < x := by rw [UInt8.lt_iff_toNat_lt]; omega
    simp [LexLt, this, ih]

theorem lexLt_trans {a b c : Bytes} (h1 : LexLt a b) (h2 : LexLt b c) : LexLt a c := by
  induction a generalizing b c with
  | nil => cases b <;> cases c <;> simp_all [LexLt]
  | cons x a ih =>
    cases b with
    | nil => simp [LexLt] at h1
    | cons y b =>
      cases c with
      | nil => simp [LexLt] at h2
      | cons z c =>
        simp only [LexLt] at *
        rcases h1 with h1 | ⟨rfl, h1⟩ <;> rcases h2 with h2 | ⟨rfl, h2⟩
        · left; rw [UInt8.lt_iff_toNat_lt] at *; omega
        · left; exact h1
        · left; exact h2
        · right; exact ⟨rfl, ih h1 h2⟩

/-- Specification of the sort order: earlier timestamp first, ties broken by id. -/
def EventLt (a b : Event) : Prop := a.createdAt < b.createdAt ∨ (a.createdAt = b.createdAt ∧ LexLt a.id b.id)

/-- **C15.** `CompareEvent` is the three-way comparison of the order by `(CreatedAt, ID)`: exactly one of less, equal and
greater holds, and it reports which. -/
theorem C15_compareEvent_spec (a b : Event) :
    (compareEvent a b = -1 ∧ EventLt a b ∧ ¬ EventLt b a) ∨
    (compareEvent a b = 0 ∧ a.createdAt = b.createdAt ∧ a.id = b.id) ∨
    (compareEvent a b = 1 ∧ EventLt b a ∧ ¬ EventLt a b) := by
  unfold compareEvent EventLt
  by_cases h : a.createdAt = b.createdAt
  · simp only [h, if_true, Int.lt_irrefl, false_or, true_and]
    rcases compareStrings_spec a.id b.id with ⟨h1, h2, h3, _⟩ | ⟨h1, h2⟩ | ⟨h1, h2, h3, _⟩
    · exact Or.inl ⟨h1, h2, h3⟩
    · exact Or.inr (Or.inl ⟨h1, h2⟩)
    · exact Or.inr (Or.inr ⟨h1, h2, h3⟩)
  · simp only [h, if_false, compareInts, false_and, or_false]
    by_cases hlt : a.createdAt < b.createdAt
    · simp [hlt]; omega
    · have : b.createdAt < a.createdAt := by omega
      simp [hlt, this]

/-- **C15.** The order is a strict order (irreflexive and transitive), so sorting with it is well defined. -/
theorem C15_strict_order : (∀ a, ¬ EventLt a a) ∧ (∀ a b c, EventLt a b → EventLt b c → EventLt a c) := by
  refine ⟨fun a h => ?_, fun a b c h1 h2 => ?_⟩
  · rcases h with h | ⟨_, h⟩
    · omega
    · exact lexLt_irrefl _ h
  · unfold EventLt at *
    rcases h1 with h1 | ⟨e1, h1⟩ <;> rcases h2 with h2 | ⟨e2, h2⟩
    · left; omega
    · left; omega
    · left; omega
    · right; exact ⟨e1.trans e2, lexLt_trans h1 h2⟩

/-- **C15.** Antisymmetry of the reported sign: swapping the arguments negates the result. -/
theorem C15_antisymmetric (a b : Event) : compareEvent b a = - compareEvent a b := by
  rcases C15_compareEvent_spec a b with ⟨h1, h2, h3⟩ | ⟨h1, h2, h3⟩ | ⟨h1, h2, h3⟩ <;>
    rcases C15_compareEvent_spec b a with ⟨g1, g2, g3⟩ | ⟨g1, g2, g3⟩ | ⟨g1, g2, g3⟩ <;>
    first
    | omega
    | contradiction
    | (exfalso
       unfold EventLt at *
       first
       | (rw [h2, h3] at *; simp_all [lexLt_irrefl]; done)
       | (simp_all [lexLt_irrefl]; done))

/-- **C15.** The reversed comparator is the comparator with swapped arguments. -/
theorem C15_reverse (a b : Event) : compareEventReverse a b = compareEvent b a := rfl

/-- **C15.** The pointer comparators agree with the value comparator on non-nil pointers; nil sorts first in the forward
order and last in the reverse order, and two nils are equal. -/
theorem C15_pointer_variants :
    (∀ a b, compareEventPtr (some a) (some b) = compareEvent a b) ∧
    (∀ a b, compareEventPtrReverse a b = compareEventPtr b a) ∧
    (∀ b : Event, compareEventPtr none (some b) = -1 ∧ compareEventPtr (some b) none = 1) ∧
    compareEventPtr none none = 0 := by
  refine ⟨fun _ _ => rfl, fun a b => ?_, fun _ => ⟨rfl, rfl⟩, rfl⟩
  cases a <;> cases b <;> rfl

/-- **C15.** The pointer comparator is transitive as a sort order (nil included): `≤ 0` composes. -/
theorem C15_pointer_transitive (a b c : Option Event) (h1 : compareEventPtr a b ≤ 0) (h2 : compareEventPtr b c ≤ 0) :
    compareEventPtr a c ≤ 0 := by
  have hle : ∀ a b : Event, compareEvent a b ≤ 0 ↔ (EventLt a b ∨ (a.createdAt = b.createdAt ∧ a.id = b.id)) := by
    intro a b
    rcases C15_compareEvent_spec a b with ⟨h1, h2, h3⟩ | ⟨h1, h2, h3⟩ | ⟨h1, h2, h3⟩
    · simp [h1, h2]
    · simp [h1, h2, h3]
    · simp only [h1]
      constructor
      · intro h; omega
      · rintro (h | ⟨e1, e2⟩)
        · exact absurd h h3
        · exfalso
          rcases h2 with h2 | ⟨_, h2⟩
          · omega
          · rw [e2] at h2; exact lexLt_irrefl _ h2
  cases a with
  | none => cases c <;> simp [compareEventPtr]
  | some a =>
    cases b with
    | none => simp [compareEventPtr] at h1
    | some b =>
      cases c with
      | none => simp [compareEventPtr] at h2
      | some c =>
        have h1 : compareEvent a b ≤ 0 := h1
        have h2 : compareEvent b c ≤ 0 := h2
        show compareEvent a c ≤ 0
        rw [hle] at *
        rcases h1 with h1 | ⟨e1, e2⟩ <;> rcases h2 with h2 | ⟨f1, f2⟩
        · exact Or.inl (C15_strict_order.2 a b c h1 h2)
        · left; unfold EventLt at *; rw [← f1, ← f2]; exact h1
        · left; unfold EventLt at *; rw [e1, e2]; exact h2
        · right; exact ⟨e1.trans f1, e2.trans f2⟩

example : compareEvent { sampleEvent with id := b! "a" } { sampleEvent with id := b! "b" } = -1 ∧
    compareEvent { sampleEvent with createdAt := 5 } sampleEvent = 1 := by decide

end GoNostr
