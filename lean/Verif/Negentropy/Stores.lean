import Verif.Negentropy.Limits
import Verif.Negentropy.Sync
import Verif.Filter.Theorems
import Mathlib.Data.List.Nodup
/-!
# What a sync does to the two stores

`NegentropySync` (`nip77/nip77.go`) from one end to the other: the vector each side builds of its events, the negentropy session over
them, the channels its findings go through, the batches they are asked for in, and the events that are then published to the other
side. The negentropy messages are taken to arrive as they were sent (C100 says that their envelopes do). Not modelled: the failure of a
query or of a publication, and events that come or go on either side meanwhile. `RelayStore.QuerySync` and `QueryEvents` are assumed to give the
events of the store the filter matches; the filter has no limit and no search.
-/

set_option autoImplicit false

namespace GoNostr.NegStores

open GoNostr.Neg GoNostr.NegSync

/-- nip77.go:37-47: the vector of the events a store has for the filter: what `QuerySync` gave is inserted, then the vector is sealed.
The relay does the same with its own events. -/
def vectorOf (store : List Event) (filter : Filter) : Out (List Item) := do
  let vec ← (store.filter (fun e => filter.matches (some e))).foldlM (fun vec evt => vecInsert vec evt.createdAt evt.id) []
  return vecSeal vec

/-- nip77.go:43: `negentropy.New(vec, 1024*1024)`. -/
def clientLimit : Int := 1024 * 1024

/-- nip77.go:110-125 `doSync`: for each batch of ids, the events the source gives for `Filter{IDs: ids}` are published to the target.
`asked` are the batches in the order of their transfers. Publishing is assumed to add the event to the target's store. -/
def transferred (source : List Event) (asked : List (List Bytes)) (target : List Event) : List Event :=
  target ++ asked.flatMap (fun ids => source.filter (fun e => Filter.matches { ids := some ids } (some e)))

/-! ### Specification -/

/-- Specification: what a store must be like for negentropy to work on it. No event is there twice; of the events the filter matches, the ids
have 64 characters, the times are between 0 and 2^56 - 2, there are fewer than 2^56, and two of the same time differ within the first
17 bytes of their ids. -/
structure Syncable (store : List Event) (f : Filter) : Prop where
  once : (store.map (·.id)).Nodup
  idLen : ∀ e ∈ store, Spec.Matches f e → e.id.length = 64
  time : ∀ e ∈ store, Spec.Matches f e → 0 ≤ e.createdAt ∧ e.createdAt + 1 < 2 ^ 56
  size : store.length < 2 ^ 56
  apart : ∀ e ∈ store, ∀ e' ∈ store, e.createdAt = e'.createdAt → e.id.take 34 = e'.id.take 34 → e.id = e'.id

/-- Specification: an id stands for one event (it is its hash), whoever has it, except for the signature. -/
def OneEventPerId (E F : List Event) : Prop :=
  ∀ e ∈ E ++ F, ∀ e' ∈ E ++ F, e.id = e'.id → { e with sig := [] } = { e' with sig := [] }

/-- Specification: of what the filter matches in `source` everything is in `after`, and `after` is `target` with only such events added
as it did not have, each once. -/
def Brought (f : Filter) (source target after : List Event) : Prop :=
  (∀ e ∈ source, Spec.Matches f e → ∃ e' ∈ after, e'.id = e.id) ∧
  ∃ new, after = target ++ new ∧ (new.map (·.id)).Nodup ∧
    ∀ e ∈ new, e ∈ source ∧ Spec.Matches f e ∧ ∀ e' ∈ target, e'.id ≠ e.id

/-! ### Proofs -/

/-- Auxiliary function of the proofs; models no code: the item of an event. -/
def itemOf (e : Event) : Item := ⟨e.createdAt, e.id⟩

theorem matches_sig {f : Filter} {e e' : Event} (h : { e with sig := [] } = { e' with sig := [] }) : Spec.Matches f e → Spec.Matches f e' := by
  obtain ⟨a, b, c, d, t, k, s⟩ := e
  obtain ⟨a', b', c', d', t', k', s'⟩ := e'
  simp only [Event.mk.injEq, and_true] at h
  obtain ⟨rfl, rfl, rfl, rfl, rfl, rfl⟩ := h
  exact id

theorem vectorOf_eq (S : List Event) (f : Filter) (h : Syncable S f) :
    ∃ A, vectorOf S f = .val A ∧ VecOK A ∧ ∀ x, x ∈ A ↔ ∃ e ∈ S, Spec.Matches f e ∧ itemOf e = x := by
  have hm : ∀ x, x ∈ (S.filter (fun e => f.matches (some e))).map itemOf ↔ ∃ e ∈ S, Spec.Matches f e ∧ itemOf e = x := by
    intro x
    simp only [List.mem_map, List.mem_filter, C06_matches_iff, and_assoc]
  obtain ⟨items, h1, h2, h3⟩ := (C48_built ((S.filter (fun e => f.matches (some e))).map itemOf)).1 (by
    intro x hx
    obtain ⟨e, he, hme, rfl⟩ := (hm x).1 hx
    exact h.idLen e he hme)
  have hmem : ∀ x, x ∈ vecSeal items ↔ ∃ e ∈ S, Spec.Matches f e ∧ itemOf e = x := fun x => (h2.mem_iff).trans (hm x)
  have hnd : (vecSeal items).Nodup := by
    refine h2.nodup_iff.2 ?_
    have : (((S.filter (fun e => f.matches (some e))).map itemOf).map (·.id)).Nodup := by
      rw [List.map_map]
      exact h.once.sublist (List.filter_sublist.map _)
    exact this.of_map
  refine ⟨vecSeal items, ?_, ⟨?_, ?_, ?_, ?_, ?_⟩, hmem⟩
  · unfold vectorOf
    rw [List.foldlM_map] at h1
    have : (S.filter (fun e => f.matches (some e))).foldlM (fun vec evt => vecInsert vec evt.createdAt evt.id) [] = Out.val items := h1
    rw [this]
    rfl
  · refine (List.Pairwise.and h3 hnd).imp ?_
    rintro a b ⟨hab, hne⟩
    rcases itemCompare_spec a b with ⟨_, h, _⟩ | ⟨_, h⟩ | ⟨_, h, _⟩
    · exact h
    · exact absurd h hne
    · exact absurd h hab
  · intro x hx
    obtain ⟨e, he, hme, rfl⟩ := (hmem x).1 hx
    exact h.idLen e he hme
  · intro x hx
    obtain ⟨e, he, hme, rfl⟩ := (hmem x).1 hx
    exact h.time e he hme
  · rw [h2.length_eq, List.length_map]
    exact Nat.lt_of_le_of_lt (List.length_filter_le _ _) h.size
  · refine hnd.pairwise_of_forall_ne (fun a ha b hb hne => ?_)
    obtain ⟨e, he, hme, rfl⟩ := (hmem a).1 ha
    obtain ⟨e', he', hme', rfl⟩ := (hmem b).1 hb
    by_cases ht : e.createdAt = e'.createdAt
    · refine Or.inr (fun hi => hne ?_)
      have := h.apart e he e' he' ht hi
      simp only [itemOf, ht, this]
    · exact Or.inl ht

theorem mem_new {source : List Event} {asked : List (List Bytes)} {e : Event} :
    e ∈ asked.flatMap (fun ids => source.filter (fun e => Filter.matches { ids := some ids } (some e))) ↔ e ∈ source ∧ e.id ∈ asked.flatten := by
  simp only [List.mem_flatMap, List.mem_filter, C06_matches_iff, List.mem_flatten]
  have key : ∀ ids, Spec.Matches { ids := some ids } e ↔ e.id ∈ ids := by
    intro ids
    constructor
    · intro h
      exact h.1.1 ids rfl
    · intro h
      refine ⟨⟨?_, ?_, ?_, ?_⟩, ?_, ?_⟩
      · rintro _ ⟨⟩; exact h
      all_goals (intro _ h; cases h)
  simp only [key]
  constructor
  · rintro ⟨b, hb, he, hi⟩; exact ⟨he, b, hb, hi⟩
  · rintro ⟨he, b, hb, hi⟩; exact ⟨b, hb, he, hi⟩

theorem new_nodup {source : List Event} (hs : (source.map (·.id)).Nodup) : ∀ {asked : List (List Bytes)}, asked.flatten.Nodup →
    ((asked.flatMap (fun ids => source.filter (fun e => Filter.matches { ids := some ids } (some e)))).map (·.id)).Nodup
  | [], _ => by simp
  | b :: bs, h => by
    rw [List.flatten_cons, List.nodup_append] at h
    rw [List.flatMap_cons, List.map_append, List.nodup_append]
    refine ⟨hs.sublist (List.filter_sublist.map _), new_nodup hs h.2.1, ?_⟩
    intro x hx y hy hxy
    obtain ⟨e, he, rfl⟩ := List.mem_map.1 hx
    obtain ⟨e', he', rfl⟩ := List.mem_map.1 hy
    have h1 : e.id ∈ b := by
      have := (C06_matches_iff _ _).1 (List.mem_filter.1 he).2
      exact this.1.1 b rfl
    exact h.2.2 _ h1 _ (mem_new.1 he').2 hxy

/-- Auxiliary to C182: one direction. `found` are the ids the session reported for it. -/
theorem brought {f : Filter} {source target : List Event} {asked : List (List Bytes)} {A B : List Item}
    (hs : (source.map (·.id)).Nodup) (hone : ∀ e ∈ source, ∀ e' ∈ target, e.id = e'.id → { e with sig := [] } = { e' with sig := [] })
    (hone' : ∀ e ∈ source, ∀ e' ∈ source, e.id = e'.id → { e with sig := [] } = { e' with sig := [] })
    (hA : ∀ x, x ∈ A ↔ ∃ e ∈ source, Spec.Matches f e ∧ itemOf e = x) (hB : ∀ x, x ∈ B ↔ ∃ e ∈ target, Spec.Matches f e ∧ itemOf e = x)
    (hn : asked.flatten.Nodup) (hsound : ∀ i ∈ asked.flatten, ∃ x ∈ A, x ∉ B ∧ x.id = i) (hcomp : ∀ x ∈ A, x ∉ B → x.id ∈ asked.flatten) :
    Brought f source target (transferred source asked target) := by
  refine ⟨fun e he hm => ?_, _, rfl, new_nodup hs hn, fun e he => ?_⟩
  · by_cases hb : itemOf e ∈ B
    · obtain ⟨e', he', _, h⟩ := (hB _).1 hb
      exact ⟨e', List.mem_append_left _ he', congrArg Item.id h⟩
    · exact ⟨e, List.mem_append_right _ (mem_new.2 ⟨he, hcomp (itemOf e) ((hA _).2 ⟨e, he, hm, rfl⟩) hb⟩), rfl⟩
  · obtain ⟨hes, hi⟩ := mem_new.1 he
    obtain ⟨x, hx, hxb, hid⟩ := hsound _ hi
    obtain ⟨e0, he0, hm0, rfl⟩ := (hA x).1 hx
    have heq := hone' e0 he0 e hes hid
    refine ⟨hes, matches_sig heq hm0, fun e' he' hid' => hxb ?_⟩
    have h2 := hone e0 he0 e' he' (hid.trans hid'.symm)
    refine (hB _).2 ⟨e', he', matches_sig h2 hm0, ?_⟩
    have hct : e0.createdAt = e'.createdAt := by
      have := congrArg Event.createdAt h2
      exact this
    simp only [itemOf, hct, Item.mk.injEq, true_and]
    exact hid'.trans hid.symm

/-- **C182 (partial: see below).** Two stores negentropy can work on, a relay without frame size limit and no two ranges of different events with the same fingerprint: the
session of a sync ends without error, and however the goroutines of the sync take turns, once nothing can go on it has returned and, its
batches having been transferred, the directions asked for have brought everything: what the filter matches in our store is then in the relay's
(`up`, `both`), and what it matches in the relay's in ours (`down`, `both`). To each store only events that it lacked were added, all from the other and
matched by the filter, each once. In a direction not asked for nothing is added. Missing, because false: a sync in one direction with more
than 64 ids found in the other never returns (`C106_hangs`); a list given back while another goroutine grabs one loses ids (`C107_lost`); with a
limit on the relay's side as well the session leaves ids out (`C50_both_limits_lose`); ids of the same time that share 17 bytes are not told apart (C46). -/
theorem C182_sync_partial (H : Hash32) (E F : List Event) (f : Filter) (d : Direction) (hE : Syncable E f) (hF : Syncable F f) (hone : OneEventPerId E F)
    (hcf : ∀ A B, vectorOf E f = .val A → vectorOf F f = .val B → CollisionFree H A B) :
    ∃ A B c s, vectorOf E f = .val A ∧ vectorOf F f = .val B ∧
      syncLimited H ((A.length + B.length + 4) * (A.length + B.length + 1)) clientLimit 0 A B = .ok (c, s) ∧
      ∀ found chanRun ch, ours found = c.haves → theirs found = c.haveNots → Fits d found →
        (Chan.start found).run d chanRun = some ch → (∀ l, ch.step d l = none) →
        ch.returned = true ∧
        ∀ syncRun st, Uninterrupted syncRun → Sync.init.run syncRun = some st →
          arrived 0 syncRun = ch.gotHaves → arrived 1 syncRun = ch.gotHaveNots →
          (d.drainsHaves = true → st.finished 0) → (d.drainsHaveNots = true → st.finished 1) →
          (if d.drainsHaves then Brought f E F (transferred E (st.asked 0) F) else transferred E (st.asked 0) F = F) ∧
          (if d.drainsHaveNots then Brought f F E (transferred F (st.asked 1) E) else transferred F (st.asked 1) E = E) := by
  obtain ⟨A, a1, a2, a3⟩ := vectorOf_eq E f hE
  obtain ⟨B, b1, b2, b3⟩ := vectorOf_eq F f hF
  have hid : IdsIdentify A B := by
    have key : ∀ x ∈ A ++ B, ∃ e ∈ E ++ F, itemOf e = x := by
      intro x hx
      rcases List.mem_append.1 hx with h | h
      · obtain ⟨e, he, _, hh⟩ := (a3 x).1 h
        exact ⟨e, List.mem_append_left _ he, hh⟩
      · obtain ⟨e, he, _, hh⟩ := (b3 x).1 h
        exact ⟨e, List.mem_append_right _ he, hh⟩
    intro x hx y hy hxy
    obtain ⟨e, he, rfl⟩ := key x hx
    obtain ⟨e', he', rfl⟩ := key y hy
    have h := congrArg Event.createdAt (hone e he e' he' hxy)
    have hct : e.createdAt = e'.createdAt := h
    have hii : e.id = e'.id := hxy
    simp only [itemOf, hct, hii]
  obtain ⟨c, s, hs, s1, s2, s3⟩ := C50_limits_partial H A B a2 b2 hid clientLimit 0 (Or.inr (by decide)) (Or.inl rfl)
  obtain ⟨s4, s5⟩ := s3 (hcf A B a1 b1) (Or.inr rfl)
  refine ⟨A, B, c, s, a1, b1, hs, ?_⟩
  intro found chanRun ch ho ht hfit hrun hstuck
  obtain ⟨r1, r2, r3⟩ := (C106_ends_partial hfit hrun).2 hstuck
  obtain ⟨inv, -⟩ := chan_run (chan_start d found) hrun
  refine ⟨r1, ?_⟩
  intro syncRun st hu hr e0 e1 f0 f1
  have empty : ∀ (k : Nat) (S T : List Event), arrived k syncRun = [] → transferred S (st.asked k) T = T := by
    intro k S T hk
    unfold transferred
    refine (congrArg (T ++ ·) (List.eq_nil_iff_forall_not_mem.2 ?_)).trans (List.append_nil T)
    intro e he
    have := (C107_no_stranger_partial syncRun st k hu hr).2 _ (mem_new.1 he).2
    rw [hk] at this
    cases this
  constructor
  · split
    · next hd =>
      obtain ⟨t1, t2, -⟩ := C107_all_transferred_partial syncRun st 0 hu hr (f0 hd)
      have hset : ∀ x, x ∈ (st.asked 0).flatten ↔ x ∈ c.haves := fun x => by rw [t2, e0, r2 hd, ho]
      exact brought hE.once (fun e he e' he' => hone e (List.mem_append_left _ he) e' (List.mem_append_right _ he'))
        (fun e he e' he' => hone e (List.mem_append_left _ he) e' (List.mem_append_left _ he')) a3 b3 t1
        (fun i hi => s1 i ((hset i).1 hi)) (fun x hx hxb => (hset _).2 (s4 x hx hxb))
    · next hd => exact empty 0 E F (by rw [e0, inv.n1 (by simpa using hd)])
  · split
    · next hd =>
      obtain ⟨t1, t2, -⟩ := C107_all_transferred_partial syncRun st 1 hu hr (f1 hd)
      have hset : ∀ x, x ∈ (st.asked 1).flatten ↔ x ∈ c.haveNots := fun x => by rw [t2, e1, r3 hd, ht]
      exact brought hF.once (fun e he e' he' => hone e (List.mem_append_right _ he) e' (List.mem_append_left _ he'))
        (fun e he e' he' => hone e (List.mem_append_right _ he) e' (List.mem_append_right _ he')) b3 a3 t1
        (fun i hi => s2 i ((hset i).1 hi)) (fun x hx hxb => (hset _).2 (s5 x hx hxb))
    · next hd => exact empty 1 F E (by rw [e1, inv.n2 (by simpa using hd)])

/-! ### A concrete case -/

/-- An event for the examples. -/
def sampleEvent (ts : Int) (c : UInt8) : Event := ⟨idOf c, List.replicate 64 97, ts, 1, [], [c], []⟩

/-- A store for the examples: its last event is not matched by the filter. -/
def ourStore : List Event := [sampleEvent 2 50, sampleEvent 1 49, sampleEvent 9 51]
/-- The relay's store for the examples. -/
def theirStore : List Event := [sampleEvent 2 50, sampleEvent 3 52]
/-- The filter of the examples. -/
def early : Filter := { «until» := some 5 }

theorem matches_early (e : Event) : Spec.Matches early e ↔ e.createdAt ≤ 5 := by
  constructor
  · intro h; exact h.2.2 5 rfl
  · intro h
    refine ⟨⟨?_, ?_, ?_, ?_⟩, ?_, ?_⟩
    on_goal 6 => rintro _ ⟨⟩; exact h
    all_goals (intro _ h; cases h)

theorem our_vector : vectorOf ourStore early = .val [⟨1, idOf 49⟩, ⟨2, idOf 50⟩] := by decide +kernel
theorem their_vector : vectorOf theirStore early = .val [⟨2, idOf 50⟩, ⟨3, idOf 52⟩] := by decide +kernel

theorem our_syncable : Syncable ourStore early := by
  refine ⟨by decide +kernel, ?_, ?_, by decide +kernel, by decide +kernel⟩
  all_goals
    simp only [matches_early]
    decide +kernel

theorem their_syncable : Syncable theirStore early := by
  refine ⟨by decide +kernel, ?_, ?_, by decide +kernel, by decide +kernel⟩
  all_goals
    simp only [matches_early]
    decide +kernel

theorem sample_one : OneEventPerId ourStore theirStore := by unfold OneEventPerId; decide +kernel

theorem sample_free (A B : List Item) (hA : vectorOf ourStore early = .val A) (hB : vectorOf theirStore early = .val B) : CollisionFree padHash A B := by
  rw [our_vector] at hA
  rw [their_vector] at hB
  cases hA
  cases hB
  have key : ∀ x ∈ ([⟨1, idOf 49⟩, ⟨2, idOf 50⟩] : List Item).tails.flatMap List.inits, ∀ y ∈ ([⟨2, idOf 50⟩, ⟨3, idOf 52⟩] : List Item).tails.flatMap List.inits,
      rangeFp padHash x = rangeFp padHash y → x = y := by decide +kernel
  exact fun x y hx hy => key x (mem_infixes hx) y (mem_infixes hy)

/-- The case meets the hypotheses, the channels and the batches have such runs, and the stores are then the union. -/
example : ∃ chanRun syncRun ch st, (Chan.start [(true, idOf 49), (false, idOf 52)]).run .both chanRun = some ch ∧ (∀ l, ch.step .both l = none) ∧
    Uninterrupted syncRun ∧ Sync.init.run syncRun = some st ∧ arrived 0 syncRun = ch.gotHaves ∧ arrived 1 syncRun = ch.gotHaveNots ∧ st.finished 0 ∧ st.finished 1 ∧
    transferred ourStore (st.asked 0) theirStore = theirStore ++ [sampleEvent 1 49] ∧ transferred theirStore (st.asked 1) ourStore = ourStore ++ [sampleEvent 3 52] := by
  refine ⟨[.push, .takeHave, .push, .close, .takeHaveNot, .ret],
    [.grab 0, .grab 1, .item 0 (idOf 49), .item 1 (idOf 52), .finish 0, .finish 1, .transfer 1, .transfer 0, .give 0, .give 1],
    ⟨[], [], [], true, [idOf 49], [idOf 52], true⟩, _, by decide +kernel, ?_, ?_, rfl, by decide +kernel, by decide +kernel, ?_, ?_, ?_, ?_⟩
  · intro l; cases l <;> rfl
  · intro j; simp
  · exact ⟨rfl, by decide +kernel⟩
  · exact ⟨rfl, by decide +kernel⟩
  · decide +kernel
  · decide +kernel

example := C182_sync_partial padHash ourStore theirStore early .both our_syncable their_syncable sample_one sample_free

end GoNostr.NegStores
