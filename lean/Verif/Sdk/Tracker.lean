import Verif.Sdk.Lists
import Verif.Nips.Blocks
import Verif.Nip19.Theorems
/-!
# sdk/tracker.go: what is learned from events that pass by
-/

set_option autoImplicit false

namespace GoNostr.Sdk

open Nip19 (Value ProfilePointer EventPointer EntityPointer)

/-- What is not modelled: public keys, `url.Parse` (the scheme, if it parses), `NormalizeURL`, the hosts of links
(see `Blocks.parse`), whether the program is a test. -/
structure TrackEnv where
  parsePub : Bytes → Bool
  scheme : Bytes → Option Bytes
  normalize : Bytes → Bytes
  hostDot : Bytes → Bool
  testing : Bool

/-- `IsVirtualRelay` (utils.go:10-29); `&&` binds tighter than `||`. -/
def isVirtualRelay (testing : Bool) (url : Bytes) : Bool :=
  if url.length < 6 then true
  else if (b! "wss://feeds.nostr.band").isPrefixOf url || (b! "wss://filter.nostr.wine").isPrefixOf url || (b! "wss://cache").isPrefixOf url then true
  else (!testing && (b! "ws://localhost").isPrefixOf url) || (b! "ws://127.0.0.1").isPrefixOf url

/-- hints/keys.go:9-14 -/
inductive HintKind
  | lastFetchAttempt
  | mostRecentEventFetched
  | lastInRelayList
  | lastInHint
  deriving DecidableEq

/-- The arguments of a call of `Hints.Save`. -/
structure Saved where
  pubkey : Bytes
  relay : Bytes
  kind : HintKind
  ts : Int
  deriving DecidableEq

/-- tracker.go:80-85, 98-103, 113-118, 123-128, 133-138: is this a relay hint to be recorded? -/
def goodHint (env : TrackEnv) (url : Bytes) : Bool :=
  if isVirtualRelay env.testing url then false
  else match env.scheme url with
    | none => false
    | some s => s == b! "wss" || s == b! "ws"

/-- tracker.go:76-89, 94-107: the hints in tags. -/
def tagHints (env : TrackEnv) (ts : Int) : Tags → List Saved
  | [] => []
  | (k :: pk :: r :: _) :: rest =>
    if goodHint env r && k == b! "p" && isValidPublicKey env.parsePub pk then ⟨pk, env.normalize r, .lastInHint, ts⟩ :: tagHints env ts rest
    else tagHints env ts rest
  | _ :: rest => tagHints env ts rest

/-- tracker.go:112-120, 122-130, 132-140: the relays of a pointer. -/
def ptrHints (env : TrackEnv) (ts : Int) (author : Bytes) (relays : List Bytes) : List Saved :=
  (relays.filter (goodHint env)).map (fun r => ⟨author, env.normalize r, .lastInHint, ts⟩)

/-- tracker.go:110-141, for one block. -/
def blockHints (env : TrackEnv) (ts : Int) (b : Blocks.Block) : List Saved :=
  match b.ptr with
  | some (.nostr (.profile p)) => ptrHints env ts p.publicKey (p.relays.getD [])
  | some (.nostr (.event p)) => ptrHints env ts p.author (p.relays.getD [])
  | some (.nostr (.entity p)) => ptrHints env ts p.publicKey (p.relays.getD [])
  | _ => []

/-- tracker.go:70, from the third element on. -/
def writes : Tag → Bool
  | [] => true
  | m :: _ => m == [] || m == b! "write"

/-- tracker.go:66-73. -/
def relayListHints (env : TrackEnv) (pk : Bytes) (ts : Int) : Tags → List Saved
  | [] => []
  | (k :: u :: more) :: rest =>
    if k == b! "r" && writes more then
      ⟨pk, env.normalize u, .lastInRelayList, ts⟩ :: relayListHints env pk ts rest
    else relayListHints env pk ts rest
  | _ :: rest => relayListHints env pk ts rest

/-- `trackEventHints` (tracker.go:55-144). -/
def trackHints (env : TrackEnv) (relay : Bytes) (e : Event) : Out (List Saved) :=
  if e.kind = 0 then .val []
  else if e.kind = 10002 then
    if e.tags.length > 12 then .val [] else .val (relayListHints env e.pubkey e.createdAt e.tags)
  else if e.kind = 3 then .val (tagHints env e.createdAt e.tags)
  else do
    let blocks ← Blocks.parse env.hostDot e.content
    return ⟨e.pubkey, relay, .mostRecentEventFetched, e.createdAt⟩ :: (tagHints env e.createdAt e.tags ++ (blocks.map (blockHints env e.createdAt)).flatten)

/-- `TrackEventHints` (tracker.go:44-53). -/
def trackEventHints (env : TrackEnv) (relay : Bytes) (e : Event) : Out (List Saved) :=
  if isVirtualRelay env.testing relay then .val []
  else if e.kind < 30000 ∧ e.kind ≥ 20000 then .val []
  else trackHints env relay e

/-- `TrackEventHintsAndRelays` (tracker.go:27-40): also the report for the list of the event's relays (event id, relay, not only if it exists), see C72. -/
def trackBoth (env : TrackEnv) (relay : Bytes) (e : Event) : Option (Bytes × Bytes × Bool) × Out (List Saved) :=
  if isVirtualRelay env.testing relay then (none, .val [])
  else if e.kind < 30000 ∧ e.kind ≥ 20000 then (none, .val [])
  else (if e.kind ≠ 0 ∧ e.kind ≠ 10002 then some (e.id, relay, false) else none, trackHints env relay e)

/-- `TrackQueryAttempts` (tracker.go:11-23). -/
def trackQueryAttempts (env : TrackEnv) (relay author : Bytes) (kind now : Int) : List Saved :=
  if isVirtualRelay env.testing relay then []
  else if kind < 30000 ∧ kind ≥ 20000 then []
  else if kind = 0 ∨ kind = 10002 ∨ kind = 3 then []
  else [⟨author, relay, .lastFetchAttempt, now⟩]

/-! ## C115 -/

/-- Spec: urls that do not stand for a relay of the outbox model: too short for one, known aggregators and caches, this machine. -/
def NoRelay (testing : Bool) (url : Bytes) : Prop :=
  url.length < 6 ∨ b! "wss://feeds.nostr.band" <+: url ∨ b! "wss://filter.nostr.wine" <+: url ∨ b! "wss://cache" <+: url ∨
    b! "ws://127.0.0.1" <+: url ∨ (testing = false ∧ b! "ws://localhost" <+: url)

/-- **C115: relays that do not count.** -/
theorem C115_virtual_iff (testing : Bool) (url : Bytes) : isVirtualRelay testing url = true ↔ NoRelay testing url := by
  unfold isVirtualRelay NoRelay
  by_cases h : url.length < 6
  · simp [h]
  · rw [if_neg h]
    split
    · rename_i h2
      simp only [Bool.or_eq_true, List.isPrefixOf_iff_prefix] at h2
      simp only [true_iff]
      rcases h2 with (h2 | h2) | h2 <;> simp [h2]
    · rename_i h2
      simp only [Bool.or_eq_true, List.isPrefixOf_iff_prefix, not_or] at h2
      simp only [Bool.or_eq_true, Bool.and_eq_true, Bool.not_eq_true', List.isPrefixOf_iff_prefix, h, h2, false_or]
      exact Or.comm

theorem virtual_false_iff (testing : Bool) (url : Bytes) : isVirtualRelay testing url = false ↔ ¬ NoRelay testing url := by
  rw [← C115_virtual_iff]; simp

/-- Spec: a websocket url of a relay that counts. -/
def RealRelay (env : TrackEnv) (url : Bytes) : Prop :=
  ¬ NoRelay env.testing url ∧ (env.scheme url = some (b! "ws") ∨ env.scheme url = some (b! "wss"))

/-- Spec: the user and the relays a pointer names. -/
inductive Names : Value → Bytes → List Bytes → Prop
  | profile (p : ProfilePointer) : Names (.profile p) p.publicKey (p.relays.getD [])
  | event (p : EventPointer) : Names (.event p) p.author (p.relays.getD [])
  | entity (p : EntityPointer) : Names (.entity p) p.publicKey (p.relays.getD [])

/-- Spec: why a hint may be recorded. -/
inductive Reason (env : TrackEnv) (relay : Bytes) (e : Event) (blocks : List Blocks.Block) : Saved → Prop
  /-- an event of this author was found at this relay -/
  | found : e.kind ≠ 3 → e.kind ≠ 10002 → Reason env relay e blocks ⟨e.pubkey, relay, .mostRecentEventFetched, e.createdAt⟩
  /-- a `p` tag names a user and a relay -/
  | tag (pk r : Bytes) (more : Tag) : e.kind ≠ 10002 → (b! "p" :: pk :: r :: more) ∈ e.tags → isValidPublicKey env.parsePub pk = true → RealRelay env r →
      Reason env relay e blocks ⟨pk, env.normalize r, .lastInHint, e.createdAt⟩
  /-- a code in the text names a user and a relay -/
  | code (b : Blocks.Block) (v : Value) (who r : Bytes) (relays : List Bytes) : e.kind ≠ 3 → e.kind ≠ 10002 → b ∈ blocks → b.ptr = some (.nostr v) → Names v who relays →
      r ∈ relays → RealRelay env r → Reason env relay e blocks ⟨who, env.normalize r, .lastInHint, e.createdAt⟩
  /-- the author's relay list has this relay for writing -/
  | list (u : Bytes) (more : Tag) : e.kind = 10002 → e.tags.length ≤ 12 → (b! "r" :: u :: more) ∈ e.tags →
      (more = [] ∨ more.head? = some [] ∨ more.head? = some (b! "write")) → Reason env relay e blocks ⟨e.pubkey, env.normalize u, .lastInRelayList, e.createdAt⟩

theorem goodHint_iff (env : TrackEnv) (u : Bytes) : goodHint env u = true ↔ RealRelay env u := by
  unfold goodHint RealRelay
  rw [← virtual_false_iff]
  cases isVirtualRelay env.testing u with
  | true => simp
  | false =>
    cases env.scheme u with
    | none => simp
    | some s =>
      simp only [Bool.false_eq_true, if_false, Bool.or_eq_true, beq_iff_eq, Option.some.injEq, true_and]
      exact Or.comm

theorem mem_tagHints (env : TrackEnv) (ts : Int) (h : Saved) : ∀ (tags : Tags), h ∈ tagHints env ts tags ↔
    ∃ pk r more, (b! "p" :: pk :: r :: more) ∈ tags ∧ isValidPublicKey env.parsePub pk = true ∧ RealRelay env r ∧ h = ⟨pk, env.normalize r, .lastInHint, ts⟩
  | [] => by simp [tagHints]
  | t :: rest => by
    have ih := mem_tagHints env ts h rest
    match t with
    | [] => simp [tagHints, ih]
    | [_] => simp [tagHints, ih]
    | [_, _] => simp [tagHints, ih]
    | k :: pk :: r :: more =>
      simp only [tagHints]
      by_cases hc : (goodHint env r && k == b! "p" && isValidPublicKey env.parsePub pk) = true
      · rw [if_pos hc, List.mem_cons, ih]
        simp only [Bool.and_eq_true, beq_iff_eq, goodHint_iff] at hc
        obtain ⟨⟨c1, c2⟩, c3⟩ := hc
        constructor
        · rintro (rfl | ⟨a, b, c, h1, h2⟩)
          · exact ⟨pk, r, more, by rw [c2]; simp, c3, c1, rfl⟩
          · exact ⟨a, b, c, List.mem_cons_of_mem _ h1, h2⟩
        · rintro ⟨a, b, c, h1, h2, h3, h4⟩
          rcases List.mem_cons.1 h1 with h1 | h1
          · injection h1 with _ h1
            injection h1 with h1 h5
            injection h5 with h5 _
            left; rw [h4, h1, h5]
          · exact Or.inr ⟨a, b, c, h1, h2, h3, h4⟩
      · rw [if_neg hc, ih]
        simp only [Bool.and_eq_true, beq_iff_eq, goodHint_iff] at hc
        constructor
        · rintro ⟨a, b, c, h1, h2⟩
          exact ⟨a, b, c, List.mem_cons_of_mem _ h1, h2⟩
        · rintro ⟨a, b, c, h1, h2, h3, h4⟩
          rcases List.mem_cons.1 h1 with h1 | h1
          · injection h1 with h0 h1
            injection h1 with h1 h5
            injection h5 with h5 _
            exact absurd ⟨⟨h5 ▸ h3, h0.symm⟩, h1 ▸ h2⟩ hc
          · exact ⟨a, b, c, h1, h2, h3, h4⟩

theorem mem_ptrHints (env : TrackEnv) (ts : Int) (author : Bytes) (relays : List Bytes) (h : Saved) : h ∈ ptrHints env ts author relays ↔
    ∃ r ∈ relays, RealRelay env r ∧ h = ⟨author, env.normalize r, .lastInHint, ts⟩ := by
  simp only [ptrHints, List.mem_map, List.mem_filter, goodHint_iff]
  constructor
  · rintro ⟨r, ⟨h1, h2⟩, rfl⟩; exact ⟨r, h1, h2, rfl⟩
  · rintro ⟨r, h1, h2, rfl⟩; exact ⟨r, ⟨h1, h2⟩, rfl⟩

theorem mem_blockHints (env : TrackEnv) (ts : Int) (b : Blocks.Block) (h : Saved) : h ∈ blockHints env ts b ↔
    ∃ v who relays, b.ptr = some (.nostr v) ∧ Names v who relays ∧ ∃ r ∈ relays, RealRelay env r ∧ h = ⟨who, env.normalize r, .lastInHint, ts⟩ := by
  unfold blockHints
  constructor
  · intro hm
    split at hm
    · rename_i p hp; exact ⟨_, _, _, hp, .profile p, (mem_ptrHints ..).1 hm⟩
    · rename_i p hp; exact ⟨_, _, _, hp, .event p, (mem_ptrHints ..).1 hm⟩
    · rename_i p hp; exact ⟨_, _, _, hp, .entity p, (mem_ptrHints ..).1 hm⟩
    · simp at hm
  · rintro ⟨v, who, relays, hp, hn, hr⟩
    cases hn with
    | profile p => rw [hp]; exact (mem_ptrHints ..).2 hr
    | event p => rw [hp]; exact (mem_ptrHints ..).2 hr
    | entity p => rw [hp]; exact (mem_ptrHints ..).2 hr

theorem mem_relayListHints (env : TrackEnv) (pk : Bytes) (ts : Int) (h : Saved) : ∀ (tags : Tags), h ∈ relayListHints env pk ts tags ↔
    ∃ u more, (b! "r" :: u :: more) ∈ tags ∧ (more = [] ∨ more.head? = some [] ∨ more.head? = some (b! "write")) ∧ h = ⟨pk, env.normalize u, .lastInRelayList, ts⟩
  | [] => by simp [relayListHints]
  | t :: rest => by
    have ih := mem_relayListHints env pk ts h rest
    match t with
    | [] => simp [relayListHints, ih]
    | [_] => simp [relayListHints, ih]
    | k :: u :: more =>
      have hm : writes more = true ↔ (more = [] ∨ more.head? = some [] ∨ more.head? = some (b! "write")) := by
        cases more <;> simp [writes]
      simp only [relayListHints]
      by_cases hc : (k == b! "r" && writes more) = true
      · rw [if_pos hc, List.mem_cons, ih]
        simp only [Bool.and_eq_true, beq_iff_eq] at hc
        constructor
        · rintro (rfl | ⟨a, b, h1, h2⟩)
          · exact ⟨u, more, by rw [hc.1]; simp, hm.1 hc.2, rfl⟩
          · exact ⟨a, b, List.mem_cons_of_mem _ h1, h2⟩
        · rintro ⟨a, b, h1, h2, h3⟩
          rcases List.mem_cons.1 h1 with h1 | h1
          · injection h1 with _ h1
            injection h1 with h1 _
            left; rw [h3, h1]
          · exact Or.inr ⟨a, b, h1, h2, h3⟩
      · rw [if_neg hc, ih]
        simp only [Bool.and_eq_true, beq_iff_eq] at hc
        constructor
        · rintro ⟨a, b, h1, h2⟩
          exact ⟨a, b, List.mem_cons_of_mem _ h1, h2⟩
        · rintro ⟨a, b, h1, h2, h3⟩
          rcases List.mem_cons.1 h1 with h1 | h1
          · injection h1 with h0 h1
            injection h1 with _ h5
            exact absurd ⟨h0.symm, hm.2 (h5 ▸ h2)⟩ hc
          · exact ⟨a, b, h1, h2, h3⟩

/-- Spec: events that are not tracked at all. -/
def Untracked (env : TrackEnv) (relay : Bytes) (e : Event) : Prop :=
  NoRelay env.testing relay ∨ (20000 ≤ e.kind ∧ e.kind < 30000) ∨ e.kind = 0

/-- **C115 (partial).** For every event whose text can be split into blocks, what is recorded is exactly what the event gives reason
for: where it was found, the relays its `p` tags and the codes in its text name, or the author's write relays; nothing for
ephemeral events, profiles and events from relays that do not count. -/
theorem C115_recorded_partial (env : TrackEnv) (relay : Bytes) (e : Event) (blocks : List Blocks.Block) (hb : Blocks.parse env.hostDot e.content = .val blocks) :
    ∃ hs, trackEventHints env relay e = .val hs ∧ ∀ h, h ∈ hs ↔ (¬ Untracked env relay e ∧ Reason env relay e blocks h) := by
  unfold trackEventHints
  by_cases h1 : isVirtualRelay env.testing relay = true
  · rw [if_pos h1]
    exact ⟨[], rfl, fun h => by simp [Untracked, (C115_virtual_iff _ _).1 h1]⟩
  rw [if_neg h1]
  by_cases h2 : e.kind < 30000 ∧ e.kind ≥ 20000
  · rw [if_pos h2]
    exact ⟨[], rfl, fun h => by simp only [List.not_mem_nil, false_iff]; intro hh; exact hh.1 (Or.inr (Or.inl ⟨h2.2, h2.1⟩))⟩
  rw [if_neg h2]
  unfold trackHints
  by_cases h3 : e.kind = 0
  · rw [if_pos h3]
    exact ⟨[], rfl, fun h => by simp only [List.not_mem_nil, false_iff]; intro hh; exact hh.1 (Or.inr (Or.inr h3))⟩
  rw [if_neg h3]
  have hu : ¬ Untracked env relay e := by
    rintro (h | h | h)
    · exact h1 ((C115_virtual_iff _ _).2 h)
    · exact h2 ⟨h.2, h.1⟩
    · exact h3 h
  by_cases h4 : e.kind = 10002
  · rw [if_pos h4]
    by_cases h5 : e.tags.length > 12
    · rw [if_pos h5]
      refine ⟨[], rfl, fun h => ?_⟩
      simp only [List.not_mem_nil, false_iff]
      rintro ⟨_, hr⟩
      cases hr with
      | found _ h => exact h h4
      | tag _ _ _ h => exact h h4
      | code _ _ _ _ _ _ h => exact h h4
      | list _ _ _ h => omega
    · rw [if_neg h5]
      refine ⟨_, rfl, fun h => ?_⟩
      rw [mem_relayListHints]
      constructor
      · rintro ⟨u, more, a, b, rfl⟩
        exact ⟨hu, .list u more h4 (by omega) a b⟩
      · rintro ⟨_, hr⟩
        cases hr with
        | found _ h => exact absurd h4 h
        | tag _ _ _ h => exact absurd h4 h
        | code _ _ _ _ _ _ h => exact absurd h4 h
        | list u more _ _ a b => exact ⟨u, more, a, b, rfl⟩
  rw [if_neg h4]
  by_cases h5 : e.kind = 3
  · rw [if_pos h5]
    refine ⟨_, rfl, fun h => ?_⟩
    rw [mem_tagHints]
    constructor
    · rintro ⟨pk, r, more, a, b, c, rfl⟩
      exact ⟨hu, .tag pk r more h4 a b c⟩
    · rintro ⟨_, hr⟩
      cases hr with
      | found h _ => exact absurd h5 h
      | tag pk r more _ a b c => exact ⟨pk, r, more, a, b, c, rfl⟩
      | code _ _ _ _ _ h _ => exact absurd h5 h
      | list _ _ h _ => exact absurd h h4
  rw [if_neg h5, hb]
  refine ⟨_, rfl, fun h => ?_⟩
  simp only [List.mem_cons, List.mem_append, mem_tagHints, List.mem_flatten, List.mem_map]
  constructor
  · rintro (rfl | ⟨pk, r, more, a, b, c, rfl⟩ | ⟨l, ⟨b, hbm, rfl⟩, hl⟩)
    · exact ⟨hu, .found h5 h4⟩
    · exact ⟨hu, .tag pk r more h4 a b c⟩
    · obtain ⟨v, who, relays, hp, hn, r, hr, hrr, rfl⟩ := (mem_blockHints ..).1 hl
      exact ⟨hu, .code b v who r relays h5 h4 hbm hp hn hr hrr⟩
  · rintro ⟨_, hr⟩
    cases hr with
    | found _ _ => exact Or.inl rfl
    | tag pk r more _ a b c => exact Or.inr (Or.inl ⟨pk, r, more, a, b, c, rfl⟩)
    | code b v who r relays _ _ hbm hp hn hr hrr => exact Or.inr (Or.inr ⟨_, ⟨b, hbm, rfl⟩, (mem_blockHints ..).2 ⟨v, who, relays, hp, hn, r, hr, hrr, rfl⟩⟩)
    | list _ _ h _ => exact absurd h h4

/-- **C115: queries.** A query attempt is recorded, with the time, unless the relay does not count, the kind is ephemeral, or it is one of the kinds that are
looked for everywhere. -/
theorem C115_attempts (env : TrackEnv) (relay author : Bytes) (kind now : Int) :
    (NoRelay env.testing relay ∨ (20000 ≤ kind ∧ kind < 30000) ∨ kind ∈ [0, 3, 10002] → trackQueryAttempts env relay author kind now = []) ∧
    (¬ (NoRelay env.testing relay ∨ (20000 ≤ kind ∧ kind < 30000) ∨ kind ∈ [0, 3, 10002]) →
      trackQueryAttempts env relay author kind now = [⟨author, relay, .lastFetchAttempt, now⟩]) := by
  rw [← C115_virtual_iff]
  unfold trackQueryAttempts
  by_cases h1 : isVirtualRelay env.testing relay = true
  · simp [h1]
  · rw [if_neg h1]
    by_cases h2 : kind < 30000 ∧ kind ≥ 20000
    · rw [if_pos h2]
      exact ⟨fun _ => rfl, fun h => absurd (Or.inr (Or.inl ⟨h2.2, h2.1⟩)) h⟩
    · rw [if_neg h2]
      by_cases h3 : kind = 0 ∨ kind = 10002 ∨ kind = 3
      · rw [if_pos h3]
        exact ⟨fun _ => rfl, fun h => absurd (Or.inr (Or.inr (by rcases h3 with rfl | rfl | rfl <;> simp))) h⟩
      · rw [if_neg h3]
        refine ⟨?_, fun _ => rfl⟩
        rintro (h | h | h)
        · exact absurd h h1
        · exact absurd ⟨h.2, h.1⟩ h2
        · simp only [List.mem_cons, List.not_mem_nil, or_false] at h
          rcases h with h | h | h <;> simp [h] at h3

/-- **C115: event relays.** Hints are the same with and without tracking event relays; the relay of the event is reported for every tracked event that is not a
profile or relay list. -/
theorem C115_both (env : TrackEnv) (relay : Bytes) (e : Event) : (trackBoth env relay e).2 = trackEventHints env relay e ∧
    ((trackBoth env relay e).1 = some (e.id, relay, false) ↔ ¬ Untracked env relay e ∧ e.kind ≠ 10002) ∧
    ((trackBoth env relay e).1 = none ↔ Untracked env relay e ∨ e.kind = 10002) := by
  unfold trackBoth trackEventHints Untracked
  rw [← C115_virtual_iff]
  by_cases h1 : isVirtualRelay env.testing relay = true
  · simp [h1]
  · by_cases h2 : e.kind < 30000 ∧ e.kind ≥ 20000
    · rw [if_neg h1, if_neg h1, if_pos h2, if_pos h2]
      have : 20000 ≤ e.kind ∧ e.kind < 30000 := ⟨h2.2, h2.1⟩
      simp [this]
    · rw [if_neg h1, if_neg h1, if_neg h2, if_neg h2]
      have h2' : ¬ (20000 ≤ e.kind ∧ e.kind < 30000) := fun h => h2 ⟨h.2, h.1⟩
      by_cases h3 : e.kind ≠ 0 ∧ e.kind ≠ 10002
      · rw [if_pos h3]
        have := h3.1; have := h3.2
        simp [*]
      · rw [if_neg h3]
        simp only [ne_eq, true_and]
        have : e.kind = 0 ∨ e.kind = 10002 := by omega
        rcases this with h | h <;> simp [h1, h]

/-- The full C115 is false: the urls of a relay list are not checked, so anything is recorded as the author's relay … -/
theorem C115_relay_list_unchecked (env : TrackEnv) (pk u : Bytes) (ts : Int) (relay : Bytes) (hr' : ¬ NoRelay env.testing relay) :
    trackEventHints env relay ⟨[], pk, ts, 10002, [[b! "r", u]], [], []⟩ = .val [⟨pk, env.normalize u, .lastInRelayList, ts⟩] := by
  have hr := (virtual_false_iff _ _).2 hr'
  simp [trackEventHints, hr, trackHints, relayListHints, writes]

/-- A text with one code, and nothing else that looks like a link. -/
def trackEnvEx : TrackEnv where
  parsePub := fun _ => true
  scheme := fun u => if (b! "wss://").isPrefixOf u then some (b! "wss") else if (b! "WSS://").isPrefixOf u then some (b! "wss") else none
  normalize := fun u => u.map Nip19.lowerByte
  hostDot := fun _ => false
  testing := false

/-- An `nevent` without author, with a relay. -/
def authorless : Bytes := match Nip19.encodeEvent Nip19.sampleHex [b! "wss://relay.example.com"] [] with
  | .ok c => c
  | _ => []

/-- … a code for an event without author records the relay under the empty key … -/
theorem C115_hint_for_nobody : (match trackEventHints trackEnvEx (b! "wss://here.com") ⟨b! "i", b! "author", 7, 1, [], b! "nostr:" ++ authorless, []⟩ with
    | .val hs => decide (hs = [⟨b! "author", b! "wss://here.com", .mostRecentEventFetched, 7⟩, ⟨[], b! "wss://relay.example.com", .lastInHint, 7⟩])
    | .panic => false) = true := by decide +kernel

/-- … relays that do not count are recorded if the hint is spelled in capitals … -/
theorem C115_virtual_recorded : tagHints trackEnvEx 7 [[b! "p", Nip19.sampleHex, b! "WSS://cache2.primal.net"]] =
      [⟨Nip19.sampleHex, b! "wss://cache2.primal.net", .lastInHint, 7⟩] ∧ isVirtualRelay false (b! "wss://cache2.primal.net") = true := by decide +kernel

/-- … and an event whose text cannot be split (see C90) crashes the tracker. -/
theorem C115_panics (env : TrackEnv) (relay : Bytes) (e : Event) (hp : Blocks.parse env.hostDot e.content = .panic) (hu : ¬ Untracked env relay e) (h3 : e.kind ≠ 3)
    (h4 : e.kind ≠ 10002) : trackEventHints env relay e = .panic := by
  unfold trackEventHints trackHints
  have h1 : ¬ isVirtualRelay env.testing relay = true := fun h => hu (Or.inl ((C115_virtual_iff _ _).1 h))
  have h2 : ¬ (e.kind < 30000 ∧ e.kind ≥ 20000) := fun h => hu (Or.inr (Or.inl ⟨h.2, h.1⟩))
  have h0 : ¬ e.kind = 0 := fun h => hu (Or.inr (Or.inr h))
  rw [if_neg h1, if_neg h2, if_neg h0, if_neg h4, if_neg h3, hp]
  rfl

/-- Not vacuous: a note with a tag hint and a code, and its blocks. -/
example : (match trackEventHints trackEnvEx (b! "wss://here.com") ⟨b! "i", b! "author", 7, 1, [[b! "p", Nip19.sampleHex, b! "wss://a.com"], [b! "p", b! "zz", b! "wss://a.com"],
      [b! "p", Nip19.sampleHex, b! "ftp://a.com"], [b! "e", Nip19.sampleHex, b! "wss://a.com"]], b! "nostr:" ++ authorless, []⟩ with
    | .val hs => decide (hs.length = 3) | .panic => false) = true ∧
    (match Blocks.parse trackEnvEx.hostDot (b! "nostr:" ++ authorless) with | .val bs => decide (bs.length = 1) | .panic => false) = true := by decide +kernel

end GoNostr.Sdk
