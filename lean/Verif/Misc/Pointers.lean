import Verif.Nip19.Model
import Verif.Helpers.Theorems
import Verif.Filter.Theorems
/-!
# C65: pointers (pointers.go)
-/

set_option autoImplicit false

namespace GoNostr.Ptr

open Nip19 (ProfilePointer EventPointer EntityPointer)

/-- What is not modelled: `schnorr.ParsePubKey` succeeding (keys.go:47) and `url.Parse` giving the scheme `ws` or `wss`
(utils.go:11-20). -/
structure Env where
  parsePub : Bytes → Bool
  validRelay : Bytes → Bool

/-- The optional relay at position 2 (pointers.go:47-51, 86-88, 142-146). -/
def relayAt (env : Env) (tag : Tag) : Option (List Bytes) :=
  match tag[2]? with
  | none => none
  | some r => if env.validRelay r then some [r] else none

/-- `ProfilePointerFromTag` (pointers.go:38-53). -/
def profileFromTag (env : Env) (tag : Tag) : Res Unit ProfilePointer :=
  match goIndex tag 1 with
  | .panic => .panic
  | .val pk => if ¬ isValidPublicKey env.parsePub pk then .err () else .ok { publicKey := pk, relays := relayAt env tag }

/-- The author at position 3, or else 4, if it is a valid key; only looked for if there is a position 2 (pointers.go:89-93). -/
def authorAt (env : Env) (tag : Tag) : Bytes :=
  match tag[3]? with
  | none => []
  | some a => if isValidPublicKey env.parsePub a then a else
    match tag[4]? with
    | none => []
    | some b => if isValidPublicKey env.parsePub b then b else []

/-- `EventPointerFromTag` (pointers.go:76-96). -/
def eventFromTag (env : Env) (tag : Tag) : Res Unit EventPointer :=
  match goIndex tag 1 with
  | .panic => .panic
  | .val id => if ¬ isValid32ByteHex id then .err () else .ok { id := id, relays := relayAt env tag, author := authorAt env tag }

/-- `strings.Cut` at the first colon. -/
def cutColon : Bytes → Option (Bytes × Bytes)
  | [] => none
  | c :: s => if c = 58 then some ([], s) else match cutColon s with
    | none => none
    | some (a, b) => some (c :: a, b)

/-- `strings.SplitN(s, ":", 3)` when it gives three parts. -/
def split3 (s : Bytes) : Option (Bytes × Bytes × Bytes) :=
  match cutColon s with
  | none => none
  | some (a, r) => match cutColon r with
    | none => none
    | some (b, c) => some (a, b, c)

/-- `strconv.Atoi` (same values as `ParseInt(s, 10, 64)`). -/
def atoi (s : Bytes) : Option Int :=
  match parseInt64 s with
  | .ok n => some n
  | _ => none

/-- `EntityPointerFromTag` (pointers.go:123-149). -/
def entityFromTag (env : Env) (tag : Tag) : Res Unit EntityPointer :=
  match goIndex tag 1 with
  | .panic => .panic
  | .val ref => match split3 ref with
    | none => .err ()
    | some (k, pk, d) =>
      if ¬ isValidPublicKey env.parsePub pk then .err ()
      else match atoi k with
        | none => .err ()
        | some kind => if kind > 65536 then .err () else .ok { publicKey := pk, kind := kind, identifier := d, relays := relayAt env tag }

/-- `len(ep.Relays) > 0` and the first relay. -/
def firstRelay (r : Option (List Bytes)) : List Bytes := (r.getD []).take 1

/-- pointers.go:60-65 -/
def profileAsTag (p : ProfilePointer) : Tag := [b! "p", p.publicKey] ++ firstRelay p.relays

/-- pointers.go:103-112 -/
def eventAsTag (p : EventPointer) : Tag :=
  match firstRelay p.relays with
  | r :: _ => if p.author ≠ [] then [b! "e", p.id, r, p.author] else [b! "e", p.id, r]
  | [] => [b! "e", p.id]

/-- pointers.go:158-160 -/
def entityReference (p : EntityPointer) : Bytes := fmtInt p.kind ++ [58] ++ p.publicKey ++ [58] ++ p.identifier

/-- pointers.go:170-175 -/
def entityAsTag (p : EntityPointer) : Tag := [b! "a", entityReference p] ++ firstRelay p.relays

/-- pointers.go:58, 100, 162-168 -/
def profileAsFilter (p : ProfilePointer) : Filter := { authors := some [p.publicKey] }
/-- pointers.go:100 -/
def eventAsFilter (p : EventPointer) : Filter := { ids := some [p.id] }
/-- pointers.go:162-168 -/
def entityAsFilter (p : EntityPointer) : Filter :=
  { kinds := some [p.kind], authors := some [p.publicKey], tags := some [(b! "d", some [p.identifier])] }

/-- pointers.go:56, 98, 152-156 -/
def profileMatches (_ : ProfilePointer) (_ : Event) : Bool := false
/-- pointers.go:98 -/
def eventMatches (p : EventPointer) (e : Event) : Bool := e.id = p.id
/-- pointers.go:152-156 -/
def entityMatches (p : EntityPointer) (e : Event) : Bool := p.publicKey = e.pubkey ∧ p.kind = e.kind ∧ Tags.getD e.tags = p.identifier

/-! ## Round trips through tags -/

/-- Spec: a relay hint taken from a tag is the one at position 2, if that is an acceptable relay url, and else there is none. -/
def HintOf (env : Env) (tag : Tag) (relays : Option (List Bytes)) : Prop :=
  (∃ r, tag[2]? = some r ∧ env.validRelay r = true ∧ relays = some [r]) ∨ ((∀ r, tag[2]? = some r → env.validRelay r = false) ∧ relays = none)

theorem relayAt_hint (env : Env) (tag : Tag) : HintOf env tag (relayAt env tag) := by
  unfold relayAt HintOf
  cases h : tag[2]? with
  | none => simp
  | some r => cases hv : env.validRelay r <;> simp [hv]

/-- **C65** (what parsing a tag yields). For every tag: a pointer made from it has a valid key or id, the one at position 1; its relay hint is the acceptable one at
position 2 or none; an event's author is empty or a valid key found at position 3 or 4; an entity is read from `kind:key:identifier`. -/
theorem C65_from_tag_valid (env : Env) (tag : Tag) :
    (∀ p, profileFromTag env tag = .ok p → tag[1]? = some p.publicKey ∧ isValidPublicKey env.parsePub p.publicKey = true ∧ HintOf env tag p.relays) ∧
    (∀ p, eventFromTag env tag = .ok p → tag[1]? = some p.id ∧ isValid32ByteHex p.id = true ∧ HintOf env tag p.relays ∧
      (p.author = [] ∨ (isValidPublicKey env.parsePub p.author = true ∧ (tag[3]? = some p.author ∨ tag[4]? = some p.author)))) ∧
    (∀ p, entityFromTag env tag = .ok p → isValidPublicKey env.parsePub p.publicKey = true ∧ p.kind ≤ 65536 ∧ HintOf env tag p.relays ∧
      ∃ ref k, tag[1]? = some ref ∧ split3 ref = some (k, p.publicKey, p.identifier) ∧ atoi k = some p.kind) := by
  have idx : ∀ b, goIndex tag 1 = .val b → tag[1]? = some b := by
    intro b h
    unfold goIndex at h
    split at h
    · cases hx : tag[(1 : Int).toNat]? with
      | none => rw [hx] at h; cases h
      | some x => rw [hx] at h; cases h; exact hx
    · cases h
  refine ⟨?_, ?_, ?_⟩
  · intro p h
    unfold profileFromTag at h
    split at h
    · cases h
    · rename_i pk hpk
      split at h
      · cases h
      · rename_i hv
        cases h
        exact ⟨idx _ hpk, by simpa using hv, relayAt_hint env tag⟩
  · intro p h
    unfold eventFromTag at h
    split at h
    · cases h
    · rename_i id hid
      split at h
      · cases h
      · rename_i hv
        cases h
        refine ⟨idx _ hid, by simpa using hv, relayAt_hint env tag, ?_⟩
        simp only [authorAt]
        cases h3 : tag[3]? with
        | none => simp
        | some a =>
          cases hva : isValidPublicKey env.parsePub a with
          | true => simp [hva]
          | false =>
            simp only [hva, Bool.false_eq_true, if_false]
            cases h4 : tag[4]? with
            | none => simp
            | some b => cases hvb : isValidPublicKey env.parsePub b <;> simp [hvb]
  · intro p h
    unfold entityFromTag at h
    split at h
    · cases h
    · rename_i ref href
      split at h
      · cases h
      · rename_i k pk d hsp
        split at h
        · cases h
        · rename_i hv
          split at h
          · cases h
          · rename_i kind hk
            split at h
            · cases h
            · rename_i hle
              cases h
              exact ⟨by simpa using hv, by simp only; omega, relayAt_hint env tag, ref, k, idx _ href, hsp, hk⟩

/-- At most one relay hint, and a valid one: what a tag can carry. -/
def OneRelay (env : Env) (r : Option (List Bytes)) : Prop := r = none ∨ ∃ u, r = some [u] ∧ env.validRelay u = true

theorem goIndex_one (a b : Bytes) (r : List Bytes) : goIndex (a :: b :: r) 1 = .val b := by simp [goIndex]

theorem relayAt_first (env : Env) (a b : Bytes) (r : Option (List Bytes)) (h : OneRelay env r) :
    relayAt env ([a, b] ++ firstRelay r) = r := by
  rcases h with rfl | ⟨u, rfl, hu⟩
  · rfl
  · simp [relayAt, firstRelay, hu]

/-- **C65** (profiles). A profile pointer with a valid key and at most one (valid) relay survives the tag. -/
theorem C65_profile_roundtrip (env : Env) (p : ProfilePointer) (hk : isValidPublicKey env.parsePub p.publicKey = true)
    (hr : OneRelay env p.relays) : profileFromTag env (profileAsTag p) = .ok p := by
  have h := relayAt_first env (b! "p") p.publicKey p.relays hr
  unfold profileFromTag profileAsTag
  rw [h]
  simp only [List.cons_append, List.nil_append, goIndex_one, hk, not_true_eq_false, if_false]

/-- **C65** (events). An event pointer with a valid id, at most one (valid) relay, and an author only if there is a relay, survives the
tag; tags have no place for the kind. Missing: an author without a relay is lost (`C65_author_lost`). -/
theorem C65_event_roundtrip_partial (env : Env) (p : EventPointer) (hk : isValid32ByteHex p.id = true) (hr : OneRelay env p.relays)
    (ha : p.author = [] ∨ (p.relays ≠ none ∧ isValidPublicKey env.parsePub p.author = true)) (hkind : p.kind = 0) :
    eventFromTag env (eventAsTag p) = .ok p := by
  obtain ⟨id, relays, author, kind⟩ := p
  simp only at *
  subst hkind
  rcases hr with rfl | ⟨u, rfl, hu⟩
  · have : author = [] := by rcases ha with h | h; exact h; exact absurd rfl h.1
    subst this
    simp [eventFromTag, eventAsTag, firstRelay, goIndex_one, hk, relayAt, authorAt]
  · rcases ha with rfl | ⟨-, ha⟩
    · simp [eventFromTag, eventAsTag, firstRelay, goIndex_one, hk, relayAt, authorAt, hu]
    · by_cases hn : author = []
      · subst hn
        simp [eventFromTag, eventAsTag, firstRelay, goIndex_one, hk, relayAt, authorAt, hu]
      · simp [eventFromTag, eventAsTag, firstRelay, goIndex_one, hk, relayAt, authorAt, hu, hn, ha]

theorem cutColon_append : ∀ (a b : Bytes), (58 : UInt8) ∉ a → cutColon (a ++ 58 :: b) = some (a, b)
  | [], b, _ => by simp [cutColon]
  | c :: a, b, h => by
    have hc : c ≠ 58 := fun hc => h (by simp [hc])
    have := cutColon_append a b (fun hm => h (List.mem_cons_of_mem _ hm))
    simp [cutColon, hc, this]

theorem lowerHex_no_colon {s : Bytes} (h : isLowerHex s = true) : (58 : UInt8) ∉ s := by
  intro hm
  have := (isLowerHex_iff s).1 h 58 hm
  revert this; decide

theorem validKey_lowerHex {env : Env} {pk : Bytes} (h : isValidPublicKey env.parsePub pk = true) : isLowerHex pk = true := by
  unfold isValidPublicKey at h
  grind

theorem fmtInt_no_colon (i : Int) : (58 : UInt8) ∉ fmtInt i := by
  intro hm
  rcases fmtInt_chars i 58 hm with h | h
  · revert h; decide
  · revert h; decide

/-- **C65** (addressable events). A pointer with a valid key, a kind of at most 65536, any identifier (colons included) and at most one
(valid) relay survives the tag. -/
theorem C65_entity_roundtrip (env : Env) (p : EntityPointer) (hk : isValidPublicKey env.parsePub p.publicKey = true)
    (h1 : -(2 ^ 63) ≤ p.kind) (h2 : p.kind ≤ 65536) (hr : OneRelay env p.relays) : entityFromTag env (entityAsTag p) = .ok p := by
  have h := relayAt_first env (b! "a") (entityReference p) p.relays hr
  have hs : split3 (entityReference p) = some (fmtInt p.kind, p.publicKey, p.identifier) := by
    unfold split3 entityReference
    rw [show fmtInt p.kind ++ [58] ++ p.publicKey ++ [58] ++ p.identifier = fmtInt p.kind ++ 58 :: (p.publicKey ++ 58 :: p.identifier) by simp,
      cutColon_append _ _ (fmtInt_no_colon _)]
    simp only [cutColon_append _ _ (lowerHex_no_colon (validKey_lowerHex hk))]
  have ha : atoi (fmtInt p.kind) = some p.kind := by
    unfold atoi
    rw [parseInt64_fmtInt h1 (by omega)]
  unfold entityFromTag entityAsTag
  rw [h]
  simp only [List.cons_append, List.nil_append, goIndex_one, hs, hk, not_true_eq_false, if_false, ha, if_neg (Int.not_lt.2 h2)]

/-- **C65** (crash). Each of the three functions panics exactly on tags with fewer than two items. -/
theorem C65_fromTag_panics_iff (env : Env) (tag : Tag) :
    (profileFromTag env tag = .panic ↔ tag.length < 2) ∧ (eventFromTag env tag = .panic ↔ tag.length < 2) ∧
    (entityFromTag env tag = .panic ↔ tag.length < 2) := by
  match tag with
  | [] => simp [profileFromTag, eventFromTag, entityFromTag, goIndex]
  | [a] => simp [profileFromTag, eventFromTag, entityFromTag, goIndex]
  | a :: b :: r =>
    simp only [profileFromTag, eventFromTag, entityFromTag, goIndex_one, List.length_cons]
    refine ⟨?_, ?_, ?_⟩
    · split <;> simp
    · split <;> simp
    · repeat' split
      all_goals simp

/-- **C65 refuted (events).** An author without a relay hint does not survive the tag. -/
theorem C65_author_lost (env : Env) (id author : Bytes) (kind : Int) (h : isValid32ByteHex id = true) (ha : author ≠ []) :
    eventFromTag env (eventAsTag { id := id, author := author, kind := kind }) ≠ .ok { id := id, author := author, kind := kind } := by
  simp [eventFromTag, eventAsTag, firstRelay, goIndex_one, h, relayAt, authorAt]
  intro hc
  exact absurd hc ha

/-- **C65 refuted (kinds).** The kind 65537 is written to the tag and not read back. -/
theorem C65_large_kind_rejected (env : Env) (p : EntityPointer) (hk : isValidPublicKey env.parsePub p.publicKey = true)
    (h1 : 65536 < p.kind) (h2 : p.kind < 2 ^ 63) : entityFromTag env (entityAsTag p) = .err () := by
  have hs : split3 (entityReference p) = some (fmtInt p.kind, p.publicKey, p.identifier) := by
    unfold split3 entityReference
    rw [show fmtInt p.kind ++ [58] ++ p.publicKey ++ [58] ++ p.identifier = fmtInt p.kind ++ 58 :: (p.publicKey ++ 58 :: p.identifier) by simp,
      cutColon_append _ _ (fmtInt_no_colon _)]
    simp only [cutColon_append _ _ (lowerHex_no_colon (validKey_lowerHex hk))]
  have ha : atoi (fmtInt p.kind) = some p.kind := by
    unfold atoi
    rw [parseInt64_fmtInt (by omega) h2]
  unfold entityFromTag entityAsTag
  simp only [List.cons_append, List.nil_append, goIndex_one, hs, hk, not_true_eq_false, if_false, ha, if_pos h1]

/-! ## Filters -/

/-- **C65** (filters, events). The filter of an event pointer matches exactly the events the pointer matches. -/
theorem C65_event_filter (p : EventPointer) (e : Event) : (eventAsFilter p).matches (some e) = eventMatches p e := by
  rw [Bool.eq_iff_iff, C06_matches_iff]
  simp [Spec.Matches, Spec.MatchesButTime, Spec.InWindow, eventAsFilter, eventMatches]

/-- `d` tags of an event (with a value). -/
def dTags (e : Event) : List Tag := e.tags.filter (fun t => match t with
  | k :: _ :: _ => k = b! "d"
  | _ => false)

theorem getD_head : ∀ (tags : Tags), Tags.getD tags = ((tags.filter (fun t => match t with
  | k :: _ :: _ => decide (k = b! "d")
  | _ => false)).head?.map Tag.value).getD []
  | [] => rfl
  | [] :: rest => by simpa [Tags.getD] using getD_head rest
  | [a] :: rest => by simpa [Tags.getD] using getD_head rest
  | (k :: v :: r) :: rest => by
    have ih := getD_head rest
    by_cases h : k = b! "d"
    · subst h; simp [Tags.getD, Tag.value]
    · simpa [Tags.getD, h] using ih

theorem entityFilter_iff (p : EntityPointer) (e : Event) : (entityAsFilter p).matches (some e) = true ↔
    e.kind = p.kind ∧ e.pubkey = p.publicKey ∧ ∃ t ∈ dTags e, Tag.value t = p.identifier := by
  rw [C06_matches_iff]
  simp only [Spec.Matches, Spec.MatchesButTime, Spec.InWindow, entityAsFilter, dTags, List.mem_filter]
  constructor
  · rintro ⟨⟨-, h1, h2, h3⟩, -⟩
    refine ⟨by simpa using h1 _ rfl, by simpa using h2 _ rfl, ?_⟩
    obtain ⟨tag, ht, v, rest, rfl, hv⟩ := h3 _ rfl (b! "d") [p.identifier] (by simp)
    exact ⟨_, ⟨ht, by simp⟩, by simpa [Tag.value] using hv⟩
  · rintro ⟨h1, h2, t, ⟨ht, hd⟩, hv⟩
    refine ⟨⟨by simp, by simpa using h1, by simpa using h2, ?_⟩, by simp, by simp⟩
    intro m hm name vals hmem
    simp only [Option.some.injEq] at hm
    subst hm
    simp only [List.mem_singleton, Prod.mk.injEq, Option.some.injEq] at hmem
    obtain ⟨rfl, rfl⟩ := hmem
    match t, hd, hv with
    | k :: v :: rest, hd, hv =>
      simp only [decide_eq_true_eq] at hd
      exact ⟨_, ht, v, rest, by rw [hd], by simpa [Tag.value] using hv⟩

/-- **C65** (filters, addressable events, partial). For events with exactly one `d` tag the filter matches exactly the events the pointer
matches. Missing: other events (`C65_entity_filter_differs`). -/
theorem C65_entity_filter_partial (p : EntityPointer) (e : Event) (h : (dTags e).length = 1) :
    (entityAsFilter p).matches (some e) = entityMatches p e := by
  rw [Bool.eq_iff_iff, entityFilter_iff]
  have hg := getD_head e.tags
  obtain ⟨t, ht⟩ := List.length_eq_one_iff.1 h
  have hg' : Tags.getD e.tags = Tag.value t := by
    rw [hg]
    have : e.tags.filter (fun t => match t with
      | k :: _ :: _ => decide (k = b! "d")
      | _ => false) = [t] := ht
    rw [this]; rfl
  simp only [entityMatches, ht, List.mem_singleton, exists_eq_left, hg', decide_eq_true_eq]
  constructor
  · rintro ⟨h1, h2, h3⟩; exact ⟨h2.symm, h1.symm, h3⟩
  · rintro ⟨h1, h2, h3⟩; exact ⟨h2.symm, h1.symm, h3⟩

/-- **C65** (one direction). An event with at least one `d` tag that the pointer matches is found by the filter. -/
theorem C65_entity_filter_finds (p : EntityPointer) (e : Event) (h : dTags e ≠ []) (hm : entityMatches p e = true) :
    (entityAsFilter p).matches (some e) = true := by
  rw [entityFilter_iff]
  simp only [entityMatches, decide_eq_true_eq] at hm
  refine ⟨hm.2.1.symm, hm.1.symm, ?_⟩
  have hg := getD_head e.tags
  cases hd : dTags e with
  | nil => exact absurd hd h
  | cons t r =>
    refine ⟨t, List.mem_cons_self, ?_⟩
    rw [← hm.2.2, hg]
    have : e.tags.filter (fun t => match t with
      | k :: _ :: _ => decide (k = b! "d")
      | _ => false) = t :: r := hd
    rw [this]; rfl

/-- The hypotheses of the round trips are met, colons in the identifier included. -/
example : let env : Env := ⟨fun b => b.length = 32, fun r => r = b! "wss://r"⟩
    let k := hexEnc (List.replicate 32 171)
    isValidPublicKey env.parsePub k = true ∧ isValid32ByteHex k = true ∧ OneRelay env (some [b! "wss://r"]) ∧
    entityFromTag env (entityAsTag { publicKey := k, kind := 30023, identifier := b! "a:b", relays := some [b! "wss://r"] }) =
      .ok { publicKey := k, kind := 30023, identifier := b! "a:b", relays := some [b! "wss://r"] } := by
  refine ⟨by decide +kernel, by decide +kernel, Or.inr ⟨_, rfl, by decide +kernel⟩, by decide +kernel⟩

/-- A value of the examples. -/
def baseEvent : Event := ⟨b! "i", b! "p", 1, 30023, [[b! "d", b! "x"], [b! "e", b! "q"]], b! "c", b! "s"⟩

example : (dTags baseEvent).length = 1 ∧ entityMatches { publicKey := b! "p", kind := 30023, identifier := b! "x" } baseEvent = true := by
  decide +kernel

/-- **C65 refuted (filters).** An event without a `d` tag and an empty identifier: matched by the pointer, not by its filter; an event with
two `d` tags: matched by the filter of the second, not by the pointer. -/
theorem C65_entity_filter_differs :
    (entityMatches { publicKey := b! "p", kind := 30023 } { baseEvent with tags := [] } = true ∧
      (entityAsFilter { publicKey := b! "p", kind := 30023 }).matches (some { baseEvent with tags := [] }) = false) ∧
    (entityMatches { publicKey := b! "p", kind := 30023, identifier := b! "y" } { baseEvent with tags := [[b! "d", b! "x"], [b! "d", b! "y"]] } = false ∧
      (entityAsFilter { publicKey := b! "p", kind := 30023, identifier := b! "y" }).matches
        (some { baseEvent with tags := [[b! "d", b! "x"], [b! "d", b! "y"]] }) = true) := by
  decide +kernel

/-- **C65 refuted (profiles).** The filter of a profile pointer matches the author's events, which the pointer does not. -/
theorem C65_profile_filter_differs (p : ProfilePointer) (e : Event) (h : e.pubkey = p.publicKey) :
    (profileAsFilter p).matches (some e) = true ∧ profileMatches p e = false := by
  refine ⟨?_, rfl⟩
  rw [C06_matches_iff]
  simp [Spec.Matches, Spec.MatchesButTime, Spec.InWindow, profileAsFilter, h]

end GoNostr.Ptr
