import Verif.Nip60.Publish
import Verif.Filter.Theorems
import Verif.Tags.Theorems
/-!
# C178: what a wallet asks relays for, and what it makes of the answer

The two subscriptions of `LoadWallet` (nip60/wallet.go:69-109) with the filters of the library (C06), over stores that hold anybody's events; the events the wallet publishes; and the loader of
`Verif.Nip60.Load`. Decrypting and reading the content of a token event is a parameter (C88, C166). Stored events are taken as processed when the end of stored events is (C170 is about the race between
them); that the pool drops events a filter does not match is C22.
-/

set_option autoImplicit false

namespace GoNostr.Nip60

/-! ## Model -/

/-- nip60/wallet.go:82-91: what is asked for of the events. -/
def eventsFilter (pk : Bytes) (withHistory : Bool) : Filter :=
  { kinds := some ([17375, 7375] ++ if withHistory then [7376] else []), authors := some [pk] }

/-- nip60/wallet.go:94-100: what is asked for of the deletions. -/
def deletionsFilter (pk : Bytes) : Filter :=
  { kinds := some [5], tags := some [(b! "k", some [b! "7375"])], authors := some [pk] }

/-- nip60/wallet.go:159-218: what an event of the first subscription does to the tokens; `opens`: the `del` list of the content, if it can be decrypted and read (nip60/token.go:57-78). -/
def onEvent (opens : Event → Option (List Bytes)) (e : Event) : Option LoadOp := if e.kind = 7375 then (opens e).map (LoadOp.token e.id) else none

/-- nip60/wallet.go:143-157: what an event of the second subscription does (`tag[1]` of every `e` tag). -/
def onDeletion (e : Event) : LoadOp := .deletion ((Tags.findAll (b! "e") e.tags).map (fun t => t.getD 1 []))

/-- What `Token.toEvent` has signed (nip60/token.go:29-55). -/
def tokenEvent (t : Int) (content : Bytes) : Event := ⟨[], [], t, 7375, [], content, []⟩

/-- What `HistoryEntry.toEvent` has signed (nip60/history.go:28-78); `redeemed`: the public tags (C91). -/
def historyEvent (t : Int) (redeemed : Tags) (content : Bytes) : Event := ⟨[], [], t, 7376, redeemed, content, []⟩

/-- What `Wallet.toEvent` has signed (nip60/wallet.go:361-395); the tags are those of C84. -/
def settingsEvent (t : Int) (tags : Tags) (content : Bytes) : Event := ⟨[], [], t, 17375, tags, content, []⟩

/-- The deletion of a spent token (nip60/send.go:144-148). -/
def deletionEvent (t : Int) (id : Bytes) : Event := ⟨[], [], t, 5, [[b! "e", id], [b! "k", b! "7375"]], [], []⟩

/-! ## Specification -/

/-- Signing gives an event its author, id and signature, nothing else. -/
def Signed (pk : Bytes) (draft e : Event) : Prop := e.pubkey = pk ∧ e.kind = draft.kind ∧ e.tags = draft.tags ∧ e.content = draft.content ∧ e.createdAt = draft.createdAt

/-- The tokens (by event id) of a wallet loaded with the key `pk` from relays that together hold these events, delivered in some order and perhaps several times. -/
def LoadsFrom (pk : Bytes) (withHistory : Bool) (opens : Event → Option (List Bytes)) (store : List Event) (ids : List Bytes) : Prop :=
  ∃ ops : List LoadOp,
    (∀ op, op ∈ ops ↔ (∃ e ∈ store, (eventsFilter pk withHistory).matches (some e) = true ∧ onEvent opens e = some op) ∨
      (∃ e ∈ store, (deletionsFilter pk).matches (some e) = true ∧ op = onDeletion e)) ∧
    ids = ((ops ++ [LoadOp.eose]).foldl loadStep emptyLoad).tokens

/-- The event is a token of the user that can be read. -/
def IsToken (pk : Bytes) (opens : Event → Option (List Bytes)) (e : Event) (del : List Bytes) : Prop := e.pubkey = pk ∧ e.kind = 7375 ∧ opens e = some del

/-- The event is a deletion by the user, marked as one of tokens, that names this id. -/
def Deletes (pk : Bytes) (e : Event) (id : Bytes) : Prop :=
  e.pubkey = pk ∧ e.kind = 5 ∧ (∃ rest, (b! "k" :: b! "7375" :: rest) ∈ e.tags) ∧ ∃ rest, (b! "e" :: id :: rest) ∈ e.tags

/-- The event published: a signed token event with this id whose content is read as having this `del` list, or the signed deletion of this id. -/
def IsEventOf (pk : Bytes) (opens : Event → Option (List Bytes)) : Pub → Event → Prop
  | .token id _ _ del, e => (∃ t c, Signed pk (tokenEvent t c) e) ∧ e.id = id ∧ opens e = some del
  | .delete id true, e => ∃ t, Signed pk (deletionEvent t id) e
  | .delete _ false, _ => False

/-! ## Which events are asked for -/

theorem matches_events (pk : Bytes) (h : Bool) (e : Event) : (eventsFilter pk h).matches (some e) = true ↔ e.pubkey = pk ∧ (e.kind = 17375 ∨ e.kind = 7375 ∨ (h = true ∧ e.kind = 7376)) := by
  rw [C06_matches_iff]
  unfold Spec.Matches Spec.MatchesButTime Spec.InWindow eventsFilter
  cases h <;> simp <;> tauto

theorem matches_deletions (pk : Bytes) (e : Event) : (deletionsFilter pk).matches (some e) = true ↔ e.pubkey = pk ∧ e.kind = 5 ∧ ∃ rest, (b! "k" :: b! "7375" :: rest) ∈ e.tags := by
  rw [C06_matches_iff]
  unfold Spec.Matches Spec.MatchesButTime Spec.InWindow deletionsFilter
  simp
  constructor
  · rintro ⟨h1, h2, rest, h3⟩
    exact ⟨h2, h1, rest, h3⟩
  · rintro ⟨h2, h1, rest, h3⟩
    exact ⟨h1, h2, rest, h3⟩

/-- **C178: everything the wallet publishes is asked for.** Settings and tokens always, history when it is wanted and only then, deletions by the other subscription; and no event is asked for twice. -/
theorem C178_asked (pk : Bytes) (h : Bool) (t : Int) (tags : Tags) (c id : Bytes) (e : Event) :
    (Signed pk (tokenEvent t c) e → (eventsFilter pk h).matches (some e) = true ∧ (deletionsFilter pk).matches (some e) = false) ∧
    (Signed pk (settingsEvent t tags c) e → (eventsFilter pk h).matches (some e) = true ∧ (deletionsFilter pk).matches (some e) = false) ∧
    (Signed pk (historyEvent t tags c) e → (eventsFilter pk h).matches (some e) = h ∧ (deletionsFilter pk).matches (some e) = false) ∧
    (Signed pk (deletionEvent t id) e → (eventsFilter pk h).matches (some e) = false ∧ (deletionsFilter pk).matches (some e) = true) := by
  refine ⟨?_, ?_, ?_, ?_⟩
  · rintro ⟨h1, h2, -⟩
    rw [Bool.eq_false_iff, Ne, matches_events, matches_deletions]
    simp [h1, h2, tokenEvent]
  · rintro ⟨h1, h2, -⟩
    rw [Bool.eq_false_iff, Ne, matches_events, matches_deletions]
    simp [h1, h2, settingsEvent]
  · rintro ⟨h1, h2, -⟩
    constructor
    · rw [Bool.eq_iff_iff, matches_events]
      simp [h1, h2, historyEvent]
    · rw [Bool.eq_false_iff, Ne, matches_deletions]
      simp [h2, historyEvent]
  · rintro ⟨h1, h2, h3, -⟩
    constructor
    · rw [Bool.eq_false_iff, Ne, matches_events]
      simp [h2, deletionEvent]
    · rw [matches_deletions]
      exact ⟨h1, h2, [], by simp [h3, deletionEvent]⟩

example : Signed (b! "pk") (deletionEvent 5 (b! "tok")) ⟨b! "id", b! "pk", 5, 5, [[b! "e", b! "tok"], [b! "k", b! "7375"]], [], b! "sig"⟩ := ⟨rfl, rfl, rfl, rfl, rfl⟩

/-! ## What is loaded -/

theorem mem_findAll (key v : Bytes) : ∀ tags : Tags, v ∈ (Tags.findAll key tags).map (fun t => t.getD 1 []) ↔ ∃ rest, (key :: v :: rest) ∈ tags
  | [] => by simp [Tags.findAll]
  | [] :: rest => by
    rw [Tags.findAll, mem_findAll key v rest]
    · simp
    · simp
  | [_] :: rest => by
    rw [Tags.findAll, mem_findAll key v rest]
    · simp
    · simp
  | (k :: x :: r) :: rest => by
    have ih := mem_findAll key v rest
    rw [Tags.findAll]
    split
    · rename_i hk
      subst hk
      rw [List.map_cons, List.mem_cons, ih]
      constructor
      · rintro (h | ⟨r', h⟩)
        · exact ⟨r, by simp at h; simp [h]⟩
        · exact ⟨r', List.mem_cons_of_mem _ h⟩
      · rintro ⟨r', h⟩
        rcases List.mem_cons.1 h with h | h
        · simp only [List.cons.injEq] at h
          exact .inl (by simp [h.2.1])
        · exact .inr ⟨r', h⟩
    · rename_i hk
      rw [ih]
      constructor
      · rintro ⟨r', h⟩
        exact ⟨r', List.mem_cons_of_mem _ h⟩
      · rintro ⟨r', h⟩
        rcases List.mem_cons.1 h with h | h
        · simp only [List.cons.injEq] at h
          exact absurd h.1.symm hk
        · exact ⟨r', h⟩

/-- **C178: what is loaded** (partial). Whatever relays hold and whoever's, a token is loaded exactly if it is an event of the user's own key that can be read and no event of the user's own key deletes
it: no marked deletion names it and no other token lists it as replaced. Missing: deletions the user made with another program that does not mark them, see `C178_unmarked`. -/
theorem C178_loaded_partial (pk : Bytes) (h : Bool) (opens : Event → Option (List Bytes)) (store : List Event) (ids : List Bytes) (hl : LoadsFrom pk h opens store ids) (y : Bytes) :
    y ∈ ids ↔ (∃ e ∈ store, e.id = y ∧ ∃ del, IsToken pk opens e del) ∧ (¬ ∃ e ∈ store, Deletes pk e y) ∧ ¬ ∃ e ∈ store, ∃ del, IsToken pk opens e del ∧ y ∈ del := by
  obtain ⟨ops, ho, rfl⟩ := hl
  have hne : LoadOp.eose ∉ ops := by
    intro hm
    rcases (ho _).1 hm with ⟨e, -, -, h2⟩ | ⟨e, -, -, h2⟩
    · unfold onEvent at h2
      split at h2
      · cases ho : opens e <;> simp [ho] at h2
      · cases h2
    · cases h2
  rw [C94_stored_events ops hne]
  have tok : ∀ e id del, onEvent opens e = some (.token id del) ↔ e.kind = 7375 ∧ e.id = id ∧ opens e = some del := by
    intro e id del
    unfold onEvent
    split
    · rename_i hk
      cases ho : opens e <;> simp [hk]
    · rename_i hk
      simp [hk]
  have shape : ∀ e op, onEvent opens e = some op → ∃ id del, op = .token id del := by
    intro e op h
    unfold onEvent at h
    split at h
    · obtain ⟨del, -, rfl⟩ := Option.map_eq_some_iff.1 h
      exact ⟨_, _, rfl⟩
    · cases h
  have r1 : y ∈ ops.flatMap LoadOp.received ↔ ∃ e ∈ store, e.id = y ∧ ∃ del, IsToken pk opens e del := by
    simp only [List.mem_flatMap, ho]
    constructor
    · rintro ⟨op, ⟨e, he, hm, hop⟩ | ⟨e, he, hm, rfl⟩, hy⟩
      · obtain ⟨id, del, rfl⟩ := shape e op hop
        obtain ⟨h1, h2, h3⟩ := (tok e id del).1 hop
        simp only [LoadOp.received, List.mem_singleton] at hy
        exact ⟨e, he, h2.trans hy.symm, del, ((matches_events ..).1 hm).1, h1, h3⟩
      · simp [onDeletion, LoadOp.received] at hy
    · rintro ⟨e, he, rfl, del, h1, h2, h3⟩
      exact ⟨.token e.id del, .inl ⟨e, he, (matches_events ..).2 ⟨h1, .inr (.inl h2)⟩, (tok ..).2 ⟨h2, rfl, h3⟩⟩, by simp [LoadOp.received]⟩
  have r2 : y ∈ ops.flatMap LoadOp.deleted ↔ (∃ e ∈ store, Deletes pk e y) ∨ ∃ e ∈ store, ∃ del, IsToken pk opens e del ∧ y ∈ del := by
    simp only [List.mem_flatMap, ho]
    constructor
    · rintro ⟨op, ⟨e, he, hm, hop⟩ | ⟨e, he, hm, rfl⟩, hy⟩
      · obtain ⟨id, del, rfl⟩ := shape e op hop
        obtain ⟨h1, h2, h3⟩ := (tok e id del).1 hop
        exact .inr ⟨e, he, del, ⟨((matches_events ..).1 hm).1, h1, h3⟩, hy⟩
      · obtain ⟨h1, h2, h3⟩ := (matches_deletions ..).1 hm
        exact .inl ⟨e, he, h1, h2, h3, (mem_findAll ..).1 hy⟩
    · rintro (⟨e, he, h1, h2, h3, h4⟩ | ⟨e, he, del, ⟨h1, h2, h3⟩, hy⟩)
      · exact ⟨onDeletion e, .inr ⟨e, he, (matches_deletions ..).2 ⟨h1, h2, h3⟩, rfl⟩, (mem_findAll ..).2 h4⟩
      · exact ⟨.token e.id del, .inl ⟨e, he, (matches_events ..).2 ⟨h1, .inr (.inl h2)⟩, (tok ..).2 ⟨h2, rfl, h3⟩⟩, hy⟩
  rw [r1, r2, not_or]

/-- **C178: strangers.** Events of others add nothing and take nothing away: two sets of relays that agree on the user's own events load the same wallet, and asking for history makes no difference. -/
theorem C178_strangers (pk : Bytes) (h h' : Bool) (opens : Event → Option (List Bytes)) (store store' : List Event) (ids ids' : List Bytes) (hl : LoadsFrom pk h opens store ids)
    (hl' : LoadsFrom pk h' opens store' ids') (hs : ∀ e : Event, e.pubkey = pk → (e ∈ store ↔ e ∈ store')) (y : Bytes) : y ∈ ids ↔ y ∈ ids' := by
  have k : ∀ P : Event → Prop, (∀ e, P e → e.pubkey = pk) → ((∃ e ∈ store, P e) ↔ ∃ e ∈ store', P e) := by
    intro P hP
    constructor
    · rintro ⟨e, he, hp⟩
      exact ⟨e, (hs e (hP e hp)).1 he, hp⟩
    · rintro ⟨e, he, hp⟩
      exact ⟨e, (hs e (hP e hp)).2 he, hp⟩
  rw [C178_loaded_partial pk h opens store ids hl, C178_loaded_partial pk h' opens store' ids' hl']
  rw [k _ (fun e he => by obtain ⟨-, del, h1, -⟩ := he; exact h1), k _ (fun e he => he.1), k _ (fun e he => by obtain ⟨del, ⟨h1, -⟩, -⟩ := he; exact h1)]

/-- **C178: another device, through relays** (partial). After any history of calls as in C171, on relays that hold every signed deletion published and every token published that was not deleted (they
may have erased the others), and among the user's events no other tokens and marked deletions than those published, a device that loads the wallet holds exactly the tokens of the one that made the
calls. Missing: as in C171. -/
theorem C178_devices_partial (calls : List Call) (hc : Clean true calls) (pk : Bytes) (h : Bool) (opens : Event → Option (List Bytes)) (store : List Event) (ids : List Bytes)
    (hl : LoadsFrom pk h opens store ids)
    (hd : ∀ id, Pub.delete id true ∈ (history true calls).2 → ∃ e ∈ store, IsEventOf pk opens (.delete id true) e)
    (ht : ∀ id m ps del, Pub.token id m ps del ∈ (history true calls).2 → Pub.delete id true ∉ (history true calls).2 → ∃ e ∈ store, IsEventOf pk opens (.token id m ps del) e)
    (honly : ∀ e ∈ store, (e.pubkey = pk ∧ e.kind = 7375) ∨ (∃ y, Deletes pk e y) → ∃ p ∈ (history true calls).2, IsEventOf pk opens p e) (y : Bytes) :
    y ∈ ids ↔ ∃ t ∈ (history true calls).1, t.eventId = some y := by
  have ha := agrees_history calls hc
  rw [C178_loaded_partial pk h opens store ids hl, ha.ids]
  have tokenOnly : ∀ e ∈ store, ∀ del, IsToken pk opens e del → ∃ m ps, Pub.token e.id m ps del ∈ (history true calls).2 := by
    rintro e he del ⟨h1, h2, h3⟩
    obtain ⟨p, hp, hpe⟩ := honly e he (.inl ⟨h1, h2⟩)
    match p, hp, hpe with
    | .token id m ps del', hp, ⟨_, hid, ho⟩ =>
      rw [h3] at ho
      cases ho
      subst hid
      exact ⟨m, ps, hp⟩
    | .delete id true, _, ⟨t, _, hk, _⟩ => simp [h2, deletionEvent] at hk
  have deletesOnly : ∀ e ∈ store, Deletes pk e y → Pub.delete y true ∈ (history true calls).2 := by
    intro e he hdel
    obtain ⟨p, hp, hpe⟩ := honly e he (.inr ⟨y, hdel⟩)
    obtain ⟨-, hk5, -, rest, hmem⟩ := hdel
    match p, hp, hpe with
    | .token id m ps del', hp, ⟨⟨t, c, _, hk, _⟩, _, _⟩ => simp [hk5, tokenEvent] at hk
    | .delete id true, hp, ⟨t, _, _, htags, _⟩ =>
      rw [htags] at hmem
      simp only [deletionEvent, List.mem_cons, List.cons.injEq, List.not_mem_nil, or_false] at hmem
      rcases hmem with ⟨-, rfl, -⟩ | ⟨hx, -⟩
      · exact hp
      · exact absurd hx (by decide)
  constructor
  · rintro ⟨⟨e, he, rfl, del, htok⟩, hnd, -⟩
    obtain ⟨m, ps, hp⟩ := tokenOnly e he del htok
    refine ⟨(mem_created ..).2 ⟨m, ps, del, hp⟩, fun hdel => hnd ?_⟩
    obtain ⟨e', he', t, hs⟩ := hd _ hdel
    exact ⟨e', he', hs.1, hs.2.1, ⟨[], by rw [hs.2.2.1]; simp [deletionEvent]⟩, [], by rw [hs.2.2.1]; simp [deletionEvent]⟩
  · rintro ⟨hcr, hnd⟩
    obtain ⟨m, ps, del, hp⟩ := (mem_created ..).1 hcr
    refine ⟨?_, ?_, ?_⟩
    · obtain ⟨e, he, ⟨t, c, hs⟩, hid, ho⟩ := ht y m ps del hp hnd
      exact ⟨e, he, hid, del, hs.1, hs.2.1, ho⟩
    · rintro ⟨e, he, hdel⟩
      exact hnd (deletesOnly e he hdel)
    · rintro ⟨e, he, del', htok, hy⟩
      obtain ⟨m', ps', hp'⟩ := tokenOnly e he del' htok
      rw [C171_del_empty true calls e.id m' ps' del' hp'] at hy
      cases hy

/-- The history of C171 on a relay that has erased the spent token, next to the events of a stranger: the change is loaded. -/
example : ∃ (store : List Event) (ids : List Bytes) (opens : Event → Option (List Bytes)), LoadsFrom (b! "pk") false opens store ids ∧ ids = [b! "new"] ∧ (history true exCalls).1.map (·.eventId) = [some (b! "new")] ∧
    (history true exCalls).2.map Pub.kept = [some (.token (b! "e") []), some (.deletion [b! "e"]), some (.token (b! "new") [])] ∧
    ∀ e ∈ store, (e.pubkey = b! "pk" ∧ e.kind = 7375) ∨ (∃ y, Deletes (b! "pk") e y) → e.id = b! "new" ∨ e.id = b! "d" := by
  let store : List Event := [⟨b! "new", b! "pk", 7, 7375, [], b! "secret", []⟩, ⟨b! "d", b! "pk", 7, 5, [[b! "e", b! "e"], [b! "k", b! "7375"]], [], []⟩,
    ⟨b! "x", b! "stranger", 7, 7375, [], b! "secret", []⟩, ⟨b! "y", b! "stranger", 7, 5, [[b! "e", b! "new"], [b! "k", b! "7375"]], [], []⟩]
  refine ⟨store, [b! "new"], fun e => if e.content = b! "secret" then some [] else none, ⟨[.deletion [b! "e"], .token (b! "new") []], ?_, by decide +kernel⟩, rfl, by decide +kernel, by decide +kernel, ?_⟩
  · intro op
    constructor
    · intro h
      simp only [List.mem_cons, List.not_mem_nil, or_false] at h
      rcases h with rfl | rfl
      · exact .inr ⟨store[1], by simp [store], by decide +kernel, by decide +kernel⟩
      · exact .inl ⟨store[0], by simp [store], by decide +kernel, by decide +kernel⟩
    · rintro (⟨e, he, hm, hop⟩ | ⟨e, he, hm, rfl⟩)
      · simp only [store, List.mem_cons, List.not_mem_nil, or_false] at he
        rcases he with rfl | rfl | rfl | rfl
        · simp [onEvent] at hop
          simp [← hop]
        · exact absurd hm (by decide +kernel)
        · exact absurd hm (by decide +kernel)
        · exact absurd hm (by decide +kernel)
      · simp only [store, List.mem_cons, List.not_mem_nil, or_false] at he
        rcases he with rfl | rfl | rfl | rfl
        · exact absurd hm (by decide +kernel)
        · decide +kernel
        · exact absurd hm (by decide +kernel)
        · exact absurd hm (by decide +kernel)
  · intro e he
    simp only [store, List.mem_cons, List.not_mem_nil, or_false] at he
    rcases he with rfl | rfl | rfl | rfl
    · intro _; exact .inl rfl
    · intro _; exact .inr rfl
    · rintro (⟨h, -⟩ | ⟨y, h, -⟩)
      · exact absurd h (by decide)
      · exact absurd h (by decide)
    · rintro (⟨h, -⟩ | ⟨y, h, -⟩)
      · exact absurd h (by decide)
      · exact absurd h (by decide)

/-- **C178 is false: deletions of other programs.** NIP-09 does not require the `k` tag: a token the user deleted with a program that leaves it out is loaded all the same, on every relay that still has it. -/
theorem C178_unmarked (pk : Bytes) (h : Bool) (opens : Event → Option (List Bytes)) (tok del : Event) (ids : List Bytes) (ht : IsToken pk opens tok []) (hp : del.pubkey = pk) (hk : del.kind = 5)
    (hn : ∀ t ∈ del.tags, t.head? ≠ some (b! "k")) (he : [b! "e", tok.id] ∈ del.tags) (hl : LoadsFrom pk h opens [tok, del] ids) : tok.id ∈ ids := by
  have _ := hp
  have _ := he
  rw [C178_loaded_partial pk h opens _ ids hl]
  refine ⟨⟨tok, by simp, rfl, [], ht⟩, ?_, ?_⟩
  · rintro ⟨e, hm, h1, h2, ⟨rest, h3⟩, -⟩
    simp only [List.mem_cons, List.not_mem_nil, or_false] at hm
    rcases hm with rfl | rfl
    · rw [ht.2.1] at h2
      cases h2
    · exact hn _ h3 rfl
  · rintro ⟨e, hm, d, ⟨h1, h2, h3⟩, hy⟩
    simp only [List.mem_cons, List.not_mem_nil, or_false] at hm
    rcases hm with rfl | rfl
    · rw [ht.2.2] at h3
      cases h3
      cases hy
    · rw [hk] at h2
      cases h2

end GoNostr.Nip60
