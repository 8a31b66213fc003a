import Verif.Filter.Theorems
/-!
# sdk/feeds.go: pages of a feed

The local store and the relays are functions from a filter to events; the limit per key, which the code computes with
floating point numbers (`PerQueryLimitInBatch`), is a parameter. `FetchOutboxRelays` never returns an empty list (see
`C112_source_partial`), so the branch for no relays is left out.
-/

set_option autoImplicit false

namespace GoNostr.Sdk

/-- `decodeTimestamp(encodeTimestamp(t))` (loader_helpers.go:21-30): four bytes. -/
def stamp (t : Int) : Int := t % 4294967296

/-- The filter of feeds.go:126 with an upper bound. -/
def feedFilter (pubkey : Bytes) (kinds : Option (List Int)) (u : Int) : Filter :=
  { authors := some [pubkey], kinds := kinds, «until» := some u }

/-- What one user's part of a page reads: the mark in the key-value store, the clock, the local store, the relays. -/
structure PageInputs where
  mark : Option Int
  now : Int
  store : Filter → List Event
  network : Filter → List Event

/-- What it yields: the events for the page, the new mark (`none` if it is not written), the events put in the store. -/
structure PagePart where
  events : List Event
  mark : Option Int
  saved : List Event

/-- feeds.go:117-124 -/
def oldestOf (i : PageInputs) : Int :=
  match i.mark with
  | none => 0
  | some t => if stamp t = 0 then i.now else stamp t

/-- feeds.go:160-162, over all fetched events. -/
def lowered (oldest : Int) : List Event → Int
  | [] => oldest
  | e :: es => lowered (if e.createdAt < oldest then e.createdAt else oldest) es

/-- The loop body of `FetchFeedPage` (feeds.go:115-173) for one user; slicing the key panics if it is too short
(feeds.go:22). -/
def pagePart (pubkey : Bytes) (kinds : Option (List Int)) (u : Int) (limit : Int) (i : PageInputs) : Out PagePart :=
  match goSlice pubkey 0 16 with
  | .panic => .panic
  | .val _ =>
    let oldest := oldestOf i
    let res := i.store (feedFilter pubkey kinds u)
    if u > oldest ∧ (res.length : Int) ≥ limit then .val ⟨res, none, []⟩
    else
      let fetched := i.network (feedFilter pubkey kinds (oldest + 1))
      .val ⟨fetched.filter (fun e => decide (e.createdAt < u)), some (lowered oldest fetched), fetched⟩

/-- `FetchFeedPage` (feeds.go:102-179; a failing local store is left out): the parts of all users, before sorting. The inputs are per user. -/
def pageParts (kinds : Option (List Int)) (u limit : Int) : List (Bytes × PageInputs) → Out (List Event)
  | [] => .val []
  | (pk, i) :: rest => do
    let p ← pagePart pk kinds u limit i
    let q ← pageParts kinds u limit rest
    return p.events ++ q

/-- `slices.SortFunc(events, nostr.CompareEventPtrReverse)`: some ordering of the same events, newest first. -/
def IsPage (parts page : List Event) : Prop := page.Perm parts ∧ page.Pairwise (fun a b => b.createdAt ≤ a.createdAt)

/-! ## C113 -/

/-- Spec: the local store and the relays answer with matching events only. -/
def PageInputs.Faithful (i : PageInputs) : Prop := (∀ f e, e ∈ i.store f → Spec.Matches f e) ∧ (∀ f e, e ∈ i.network f → Spec.Matches f e)

theorem feedFilter_matches {pk : Bytes} {kinds : Option (List Int)} {u : Int} {e : Event} (h : Spec.Matches (feedFilter pk kinds u) e) :
    e.pubkey = pk ∧ (∀ ks, kinds = some ks → e.kind ∈ ks) ∧ e.createdAt ≤ u := by
  obtain ⟨⟨_, h2, h3, _⟩, _, h5⟩ := h
  exact ⟨by simpa using h3 [pk] rfl, fun ks hk => h2 ks hk, h5 u rfl⟩

theorem pagePart_only {pk : Bytes} {kinds : Option (List Int)} {u limit : Int} {i : PageInputs} {p : PagePart} (hf : i.Faithful)
    (h : pagePart pk kinds u limit i = .val p) : ∀ e ∈ p.events, e.pubkey = pk ∧ (∀ ks, kinds = some ks → e.kind ∈ ks) ∧ e.createdAt ≤ u := by
  unfold pagePart at h
  split at h
  · cases h
  · simp only at h
    split at h
    · simp only [Out.val.injEq] at h
      subst h
      intro e he
      exact feedFilter_matches (hf.1 _ _ he)
    · simp only [Out.val.injEq] at h
      subst h
      intro e he
      simp only [List.mem_filter, decide_eq_true_eq] at he
      obtain ⟨h1, h2, _⟩ := feedFilter_matches (hf.2 _ _ he.1)
      exact ⟨h1, h2, by omega⟩

/-- **C113 (partial).** A page has only events of the given users and kinds, none newer than asked for, newest first.
Missing: that it has them all, see `C113_first_page_empty` and `C113_local_events_missing`. -/
theorem C113_only_asked_partial (kinds : Option (List Int)) (u limit : Int) : ∀ (users : List (Bytes × PageInputs)) (parts page : List Event),
    (∀ x ∈ users, x.2.Faithful) → pageParts kinds u limit users = .val parts → IsPage parts page →
    (∀ e ∈ page, e.pubkey ∈ users.map (·.1) ∧ (∀ ks, kinds = some ks → e.kind ∈ ks) ∧ e.createdAt ≤ u) ∧
    page.Pairwise (fun a b => b.createdAt ≤ a.createdAt) := by
  intro users parts page hf h hp
  refine ⟨fun e he => ?_, hp.2⟩
  have key : ∀ (users : List (Bytes × PageInputs)) (parts : List Event), (∀ x ∈ users, x.2.Faithful) → pageParts kinds u limit users = .val parts →
      ∀ e ∈ parts, e.pubkey ∈ users.map (·.1) ∧ (∀ ks, kinds = some ks → e.kind ∈ ks) ∧ e.createdAt ≤ u := by
    intro users
    induction users with
    | nil =>
      intro parts _ h e he
      simp only [pageParts, Out.val.injEq] at h
      rw [← h] at he
      simp at he
    | cons x rest ih =>
      intro parts hf h e he
      obtain ⟨pk, i⟩ := x
      unfold pageParts at h
      cases h1 : pagePart pk kinds u limit i with
      | panic => rw [h1] at h; cases h
      | val p =>
        rw [h1] at h
        simp only [Out.val_bind] at h
        cases h2 : pageParts kinds u limit rest with
        | panic => rw [h2] at h; cases h
        | val q =>
          rw [h2] at h
          simp only [Out.val_bind, Out.pure_eq, Out.val.injEq] at h
          subst h
          rcases List.mem_append.1 he with he | he
          · obtain ⟨a, b, c⟩ := pagePart_only (hf (pk, i) (by simp)) h1 e he
            exact ⟨by simp [a], b, c⟩
          · obtain ⟨a, b, c⟩ := ih q (fun x hx => hf x (by simp [hx])) h2 e he
            exact ⟨by simp only [List.map_cons, List.mem_cons]; exact Or.inr a, b, c⟩
  exact key users parts hf h e (hp.1.mem_iff.1 he)

/-- The full C113 is false: for a user whose feed was never paged the relays are asked for events up to second 1, so the
first page has nothing unless the local store has enough. -/
theorem C113_first_page_empty (pk : Bytes) (hk : 16 ≤ pk.length) (kinds : Option (List Int)) (u limit : Int) (i : PageInputs) (hm : i.mark = none)
    (hf : i.Faithful) (hreal : ∀ f, ∀ e ∈ i.network f, 1 < e.createdAt) (hstore : ((i.store (feedFilter pk kinds u)).length : Int) < limit) :
    ∃ p, pagePart pk kinds u limit i = .val p ∧ p.events = [] ∧ p.saved = [] ∧ p.mark = some 0 := by
  have hnet : i.network (feedFilter pk kinds (0 + 1)) = [] := by
    rw [List.eq_nil_iff_forall_not_mem]
    intro e he
    have := (feedFilter_matches (hf.2 _ _ he)).2.2
    have := hreal _ e he
    omega
  have hs : goSlice pk 0 16 = .val (pk.take 16) := by
    unfold goSlice
    rw [if_pos (by omega)]
    rfl
  refine ⟨_, by simp only [pagePart, hs, oldestOf, hm, hnet]; rw [if_neg (by omega)], rfl, rfl, rfl⟩

/-- … and when the local store has fewer events than the limit, none of them is returned: the page has only what the
relays have up to one second after the mark, though the store is known to have the newer ones. -/
theorem C113_local_events_missing (pk : Bytes) (kinds : Option (List Int)) (u limit : Int) (i : PageInputs) (hf : i.Faithful)
    (hstore : ((i.store (feedFilter pk kinds u)).length : Int) < limit) (p : PagePart) (h : pagePart pk kinds u limit i = .val p) :
    ∀ e ∈ p.events, e.createdAt ≤ oldestOf i + 1 := by
  unfold pagePart at h
  split at h
  · cases h
  · simp only at h
    rw [if_neg (by omega)] at h
    simp only [Out.val.injEq] at h
    subst h
    intro e he
    simp only [List.mem_filter] at he
    exact (feedFilter_matches (hf.2 _ _ he.1)).2.2

theorem lowered_spec : ∀ (l : List Event) (o : Int), lowered o l ≤ o ∧ (∀ e ∈ l, lowered o l ≤ e.createdAt) ∧
    (lowered o l = o ∨ ∃ e ∈ l, lowered o l = e.createdAt)
  | [], o => by simp [lowered]
  | x :: l, o => by
    obtain ⟨h1, h2, h3⟩ := lowered_spec l (if x.createdAt < o then x.createdAt else o)
    simp only [lowered]
    refine ⟨?_, ?_, ?_⟩
    · by_cases hx : x.createdAt < o
      · rw [if_pos hx] at h1 ⊢; omega
      · rw [if_neg hx] at h1 ⊢; omega
    · intro e he
      rcases List.mem_cons.1 he with rfl | he
      · by_cases hx : e.createdAt < o
        · rw [if_pos hx] at h1 ⊢; omega
        · rw [if_neg hx] at h1 ⊢; omega
      · exact h2 e he
    · rcases h3 with h3 | ⟨e, he, h3⟩
      · by_cases hx : x.createdAt < o
        · rw [if_pos hx] at h3 ⊢; exact Or.inr ⟨x, by simp, h3⟩
        · rw [if_neg hx] at h3 ⊢; exact Or.inl h3
      · exact Or.inr ⟨e, by simp [he], h3⟩

/-- **C113 (partial).** What does work: for a user with a mark, if the relays answer completely, the page has every event
they have at or before the mark and before `until`, all of them are put in the store, and the new mark is the oldest of
them (or stays); later pages start from there. -/
theorem C113_continues_partial (pk : Bytes) (hk : 16 ≤ pk.length) (kinds : Option (List Int)) (u limit : Int) (i : PageInputs) (relay : List Event)
    (hnet : ∀ f, i.network f = relay.filter (fun e => f.matches (some e)))
    (hasked : u ≤ oldestOf i ∨ ((i.store (feedFilter pk kinds u)).length : Int) < limit) :
    ∃ p, pagePart pk kinds u limit i = .val p ∧
      (∀ e ∈ relay, e.pubkey = pk → (∀ ks, kinds = some ks → e.kind ∈ ks) → e.createdAt ≤ oldestOf i + 1 →
        e ∈ p.saved ∧ (e.createdAt < u → e ∈ p.events)) ∧
      (∃ m, p.mark = some m ∧ m ≤ oldestOf i ∧ ∀ e ∈ p.saved, m ≤ e.createdAt) := by
  have hs : goSlice pk 0 16 = .val (pk.take 16) := by
    unfold goSlice
    rw [if_pos (by omega)]
    rfl
  refine ⟨_, by simp only [pagePart, hs]; rw [if_neg (by omega)], ?_, ?_⟩
  · intro e he h1 h2 h3
    have hm : e ∈ i.network (feedFilter pk kinds (oldestOf i + 1)) := by
      rw [hnet, List.mem_filter]
      refine ⟨he, (C06_matches_iff _ _).2 ⟨⟨by simp [feedFilter], fun ks hks => h2 ks hks, ?_, by simp [feedFilter]⟩, by simp [feedFilter], ?_⟩⟩
      · intro as has
        simp only [feedFilter, Option.some.injEq] at has
        rw [← has, h1]; simp
      · intro w hw
        simp only [feedFilter, Option.some.injEq] at hw
        omega
    exact ⟨hm, fun hu => by simp [hm, hu]⟩
  · exact ⟨_, rfl, (lowered_spec _ _).1, (lowered_spec _ _).2.1⟩

/-- **C113: where the next page starts** (partial). A mark of a second from 1 up to the year 2106 is where the next page starts from. Missing: other marks, see `C113_mark_reset`. -/
theorem C113_next_starts_partial (i : PageInputs) (t : Int) (h : i.mark = some t) (h0 : 0 < t) (h1 : t < 2 ^ 32) : oldestOf i = t := by
  have e : stamp t = t := Int.emod_eq_of_lt (by omega) (by omega)
  simp only [oldestOf, h]
  rw [if_neg (by omega), e]

example : oldestOf ⟨some 1700000000, 1800000000, fun _ => [], fun _ => []⟩ = 1700000000 := by decide +kernel

/-- The full C113 is false: one event dated zero, which any author can sign, makes the mark zero, and the next page starts from the present again; one dated before 1970 makes it start in the year
2106. What was already paged through is fetched again. -/
theorem C113_mark_reset (i : PageInputs) (e : Event) (he : e.createdAt ≤ 0) (ho : 0 < oldestOf i) (h : -(2 ^ 32) < e.createdAt) (next : PageInputs) (hm : next.mark = some (lowered (oldestOf i) [e])) :
    oldestOf next = if e.createdAt = 0 then next.now else e.createdAt + 2 ^ 32 := by
  have hl : lowered (oldestOf i) [e] = e.createdAt := by
    simp only [lowered]
    rw [if_pos (by omega)]
  rw [hl] at hm
  simp only [oldestOf, hm]
  by_cases h0 : e.createdAt = 0
  · rw [if_pos (by rw [h0]; rfl), if_pos h0]
  · have : stamp e.createdAt = e.createdAt + 4294967296 := by unfold stamp; omega
    rw [if_neg (by omega), if_neg h0, this]
    rfl

example : oldestOf ⟨some (lowered 1700000000 [⟨[], [], 0, 1, [], [], []⟩]), 1800000000, fun _ => [], fun _ => []⟩ = 1800000000 := by decide +kernel

/-- **C113: the local store suffices.** If the page starts after the mark and the local store has at least `limit` events for it, the page
has exactly those and nothing is fetched, saved or marked, whatever the relays have. -/
theorem C113_local_suffices (pk : Bytes) (hk : 16 ≤ pk.length) (kinds : Option (List Int)) (u limit : Int) (i : PageInputs) (hu : oldestOf i < u)
    (hl : limit ≤ ((i.store (feedFilter pk kinds u)).length : Int)) :
    pagePart pk kinds u limit i = .val ⟨i.store (feedFilter pk kinds u), none, []⟩ := by
  have hs : goSlice pk 0 16 = .val (pk.take 16) := by
    unfold goSlice
    rw [if_pos (by omega)]
    rfl
  simp only [pagePart, hs]
  rw [if_pos ⟨hu, hl⟩]

/-- A value of the examples. -/
def note (ts : Int) (pk : Bytes) : Event := { id := b! "i", pubkey := pk, createdAt := ts, kind := 1, tags := [], content := [], sig := [] }

/-- Inputs with a mark, a store and a relay. -/
def pageIn (mark : Option Int) (stored relay : List Event) : PageInputs :=
  ⟨mark, 1000, fun f => stored.filter (fun e => f.matches (some e)), fun f => relay.filter (fun e => f.matches (some e))⟩

/-- A value of the examples. -/
def pageKey : Bytes := b! "aaaaaaaaaaaaaaaaaaaa"

/-- Not vacuous: the first page is empty although the relay has two events; with a mark they are found. -/
example : (match pagePart pageKey none 900 5 (pageIn none [] [note 100 pageKey, note 200 pageKey]) with
    | .val p => decide (p.events = []) && decide (p.mark = some 0) | .panic => false) = true ∧
    (match pagePart pageKey none 900 5 (pageIn (some 0) [] [note 100 pageKey, note 200 pageKey]) with
    | .val p => decide (p.events = [note 100 pageKey, note 200 pageKey]) && decide (p.mark = some 100) | .panic => false) = true := by
  decide +kernel

/-- Not vacuous: the store has an event at 500 that the page up to 900 lacks. -/
example : (match pagePart pageKey none 900 5 (pageIn (some 400) [note 500 pageKey] [note 500 pageKey, note 300 pageKey]) with
    | .val p => decide (p.events = [note 300 pageKey]) && decide (p.mark = some 300) | .panic => false) = true := by
  decide +kernel

/-- Not vacuous: two events are enough for a limit of two; the third one, known to the relay only, is not fetched. -/
example : (match pagePart pageKey none 900 2 (pageIn (some 400) [note 500 pageKey, note 600 pageKey] [note 300 pageKey]) with
    | .val p => decide (p.events = [note 500 pageKey, note 600 pageKey]) && decide (p.mark = none) && decide (p.saved = []) | .panic => false) = true := by
  decide +kernel

example (mark : Option Int) (stored relay : List Event) : (pageIn mark stored relay).Faithful :=
  ⟨fun f e h => (C06_matches_iff f e).1 (List.mem_filter.1 h).2, fun f e h => (C06_matches_iff f e).1 (List.mem_filter.1 h).2⟩

end GoNostr.Sdk
