import Verif.Nips.Names
import Verif.Nips.Codecs
import Verif.Filter.Theorems
/-!
# C159, C160: the state and the patches of a repository (nip34/repository.go), subject and alt tags (nip14, nip31), what a connection is opened with (connection_options.go)

The store is a parameter: for a filter, the events it has. That what it gives matches the filter is its promise.
-/

set_option autoImplicit false

namespace GoNostr.Names

/-! ## C159 -/

/-- The filter of `FetchState` (nip34/repository.go:101-107); the repository is the event it was parsed from. -/
def stateFilter (repo : Event) : Filter := { kinds := some [30618], tags := some [(b! "d", some [Tags.getD repo.tags])] }

/-- `FetchState` (nip34/repository.go:101-115): the event of the state and what is read from it. -/
def fetchState (store : Filter → List Event) (repo : Event) : Option (Event × Codec.RepoState) :=
  match store (stateFilter repo) with
  | [] => none
  | e :: _ => some (e, Codec.parseState e.tags)

/-- The `ID` of `ParseRepository` (nip34/repository.go:29-35): the last `d` tag. -/
def repoID (repo : Event) : Bytes := repo.tags.foldl (fun id t => match t with | k :: v :: _ => if k = b! "d" then v else id | _ => id) []

/-- The filter of `GetPatchesSync` (nip34/repository.go:117-123). -/
def patchesFilter (repo : Event) : Filter :=
  { kinds := some [1617], tags := some [(b! "a", some [b! "30617:" ++ repo.pubkey ++ 58 :: repoID repo])] }

/-- `GetPatchesSync` (nip34/repository.go:117-129): each patch with its repository. -/
def getPatches (store : Filter → List Event) (repo : Event) : List (Event × Nip19.EntityPointer) :=
  (store (patchesFilter repo)).map (fun e => (e, patchRepository e.tags))

/-- A store gives what was asked for. -/
def Keeps (store : Filter → List Event) : Prop := ∀ f, ∀ e ∈ store f, f.matches (some e) = true

/-- **C159 (state, partial).** The state found is read from the first event the store gives, a repository state with a tag for the name of the repository; without such an event there is
none. Missing: that it is the state of this repository and no one else's (`C159_any_author`), and its newest (the store decides). -/
theorem C159_state_partial (store : Filter → List Event) (hs : Keeps store) (repo : Event) :
    (∀ e st, fetchState store repo = some (e, st) → e ∈ store (stateFilter repo) ∧ e.kind = 30618 ∧ st = Codec.parseState e.tags ∧
      ∃ t ∈ e.tags, ∃ rest, t = b! "d" :: Tags.getD repo.tags :: rest) ∧
    (fetchState store repo = none ↔ store (stateFilter repo) = []) := by
  unfold fetchState
  cases h : store (stateFilter repo) with
  | nil => simp
  | cons e es =>
    refine ⟨?_, by simp⟩
    rintro e' st ⟨⟩
    have hm := (C06_matches_iff _ _).1 (hs _ e (by rw [h]; exact List.mem_cons_self))
    obtain ⟨⟨-, hk, -, ht⟩, -⟩ := hm
    refine ⟨List.mem_cons_self, by simpa using hk _ rfl, rfl, ?_⟩
    obtain ⟨t, h1, v, rest, h2, h3⟩ := ht _ rfl (b! "d") _ List.mem_cons_self
    simp only [List.mem_singleton] at h3
    subst h3
    exact ⟨t, h1, rest, h2⟩

/-- **C159 is false of the author:** anyone's state for a repository of the same name is taken. For every repository, key and list of branches there is a store in which the state found was
published by that key and has these branches, though the repository's owner published another. -/
theorem C159_any_author (repo own : Event) (pk : Bytes) (branch commit : Bytes) :
    ∃ store, Keeps store ∧ ∃ e st, fetchState store repo = some (e, st) ∧ e.pubkey = pk ∧ st.branches branch = some commit ∧
      ((stateFilter repo).matches (some own) = true → own ∈ store (stateFilter repo)) := by
  let e : Event := { id := [], pubkey := pk, createdAt := 0, kind := 30618, tags := [[b! "d", Tags.getD repo.tags], [b! "refs/heads/" ++ branch, commit]], content := [], sig := [] }
  refine ⟨fun f => [e, own].filter (fun x => f.matches (some x)), ?_, e, Codec.parseState e.tags, ?_, rfl, ?_, ?_⟩
  · intro f x hx
    exact (List.mem_filter.1 hx).2
  · have hm : (stateFilter repo).matches (some e) = true := by
      rw [C06_matches_iff]
      refine ⟨⟨by simp [stateFilter], by simp [stateFilter, e], by simp [stateFilter], ?_⟩, by simp [Spec.InWindow, stateFilter]⟩
      intro m hm name vals hmem
      cases hm
      simp only [List.mem_singleton, Prod.mk.injEq, Option.some.injEq] at hmem
      obtain ⟨rfl, rfl⟩ := hmem
      exact ⟨_, List.mem_cons_self, _, [], rfl, List.mem_singleton.2 rfl⟩
    simp [fetchState, hm]
  · show (Codec.parseState [[b! "d", _], [b! "refs/heads/" ++ branch, commit]]).branches branch = some commit
    unfold Codec.parseState
    rw [List.foldl_cons, List.foldl_cons, List.foldl_nil, Codec.state_branch]
    simp [Codec.mapSet]
  · intro h
    simp [h]

/-- **C159 (patches).** The patches are those the store has with a tag for the repository, all of them in its order; each with its own event. -/
theorem C159_patches (store : Filter → List Event) (hs : Keeps store) (repo : Event) :
    (getPatches store repo).map (·.1) = store (patchesFilter repo) ∧
    ∀ p ∈ getPatches store repo, p.1.kind = 1617 ∧ p.2 = patchRepository p.1.tags ∧ ∃ t ∈ p.1.tags, ∃ rest, t = b! "a" :: (b! "30617:" ++ repo.pubkey ++ 58 :: repoID repo) :: rest := by
  refine ⟨by simp [getPatches, Function.comp_def], ?_⟩
  intro p hp
  simp only [getPatches, List.mem_map] at hp
  obtain ⟨e, he, rfl⟩ := hp
  obtain ⟨⟨-, hk, -, ht⟩, -⟩ := (C06_matches_iff _ _).1 (hs _ e he)
  obtain ⟨t, h1, v, rest, h2, h3⟩ := ht _ rfl (b! "a") _ List.mem_cons_self
  simp only [List.mem_singleton] at h3
  subst h3
  exact ⟨by simpa using hk _ rfl, rfl, t, h1, rest, h2⟩

/-- **C159 (whose patches, partial).** A patch with one `a` tag only is read as one for this repository (whose author is a key and whose name has no colon). Missing: patches that name several
(`C159_other_repository`). -/
theorem C159_repository_partial (store : Filter → List Event) (hs : Keeps store) (repo : Event) (hk : isValid32ByteHex repo.pubkey = true) (hd : (58 : UInt8) ∉ repoID repo)
    (p : Event × Nip19.EntityPointer) (hp : p ∈ getPatches store repo) (h1 : ∀ t ∈ p.1.tags, ∀ t' ∈ p.1.tags, t.head? = some (b! "a") → t'.head? = some (b! "a") → t = t') :
    p.2.publicKey = repo.pubkey ∧ p.2.identifier = repoID repo ∧ p.2.kind = 30617 := by
  obtain ⟨-, h2, t, ht, rest, rfl⟩ := (C159_patches store hs repo).2 p hp
  have hn : NamesRepo (b! "a" :: (b! "30617:" ++ repo.pubkey ++ 58 :: repoID repo) :: rest) repo.pubkey (repoID repo) rest.head? :=
    ⟨⟨b! "30617", rest, by simp, rfl, by decide +kernel⟩, hk, hd⟩
  rw [h2]
  rcases C150_last p.1.tags with ⟨pre, tag, post, pk, d, relay, g1, g2, g3, g4, g5, g6, -⟩ | ⟨g1, -⟩
  · obtain ⟨⟨kind, rest', g7, -, -⟩, -, -⟩ := id g2
    have : tag = b! "a" :: (b! "30617:" ++ repo.pubkey ++ 58 :: repoID repo) :: rest := by
      refine h1 tag (by rw [g1]; simp) _ ht (by rw [g7]; rfl) rfl
    subst this
    have key : ∀ {pk d relay}, NamesRepo (b! "a" :: (b! "30617:" ++ repo.pubkey ++ 58 :: repoID repo) :: rest) pk d relay →
        patchTag { publicKey := [] } (b! "a" :: (b! "30617:" ++ repo.pubkey ++ 58 :: repoID repo) :: rest) = ⟨pk, 30617, d, match relay with | some r => some [r] | none => none⟩ := by
      intro pk d relay hx
      obtain ⟨⟨kind, rest, hx1, rfl, hk⟩, hkey, hd⟩ := hx
      rw [hx1]
      have hs : Nip05.split 58 (kind ++ 58 :: (pk ++ 58 :: d)) = [kind, pk, d] := by
        rw [Nip05.split_append 58 _ _ hk, Nip05.split_append 58 _ _ (key_no_colon hkey), Nip05.split_none 58 hd]
      simp only [patchTag, if_true, hs, hkey, not_true, if_false]
      cases rest <;> rfl
    have e2 := (key hn).symm.trans (key g2)
    simp only [Nip19.EntityPointer.mk.injEq] at e2
    rw [g4, g5, g6]
    exact ⟨e2.1.symm, e2.2.2.1.symm, rfl⟩
  · exact absurd hn (g1 _ ht _ _ _)

/-- A value of the examples. -/
def exRepo : Event := { id := [], pubkey := keyA, createdAt := 0, kind := 30617, tags := [[b! "d", b! "one"]], content := [], sig := [] }

/-- A value of the examples. -/
def exPatch (tags : Tags) : Event := { id := [], pubkey := keyB, createdAt := 0, kind := 1617, tags := tags, content := [], sig := [] }

/-- A store with one patch for the repository: the hypotheses of `C159_repository_partial` are met. -/
example : getPatches (fun f => [exPatch [[b! "a", b! "30617:" ++ keyA ++ b! ":one"]]].filter (fun x => f.matches (some x))) exRepo =
    [(exPatch [[b! "a", b! "30617:" ++ keyA ++ b! ":one"]], ⟨keyA, 30617, b! "one", none⟩)] := by decide +kernel

/-- **C159 is false of patches that name two repositories:** asked for the patches of one, the patch comes with the other as its repository. -/
theorem C159_other_repository :
    getPatches (fun f => [exPatch [[b! "a", b! "30617:" ++ keyA ++ b! ":one"], [b! "a", b! "30617:" ++ keyB ++ b! ":two"]]].filter (fun x => f.matches (some x))) exRepo =
    [(exPatch [[b! "a", b! "30617:" ++ keyA ++ b! ":one"], [b! "a", b! "30617:" ++ keyB ++ b! ":two"]], ⟨keyB, 30617, b! "two", none⟩)] := by decide +kernel

/-! ## C160: small readers and connection options -/

/-- `GetSubject` (nip14/subject.go:5-12) and `GetAlt` (nip31/nip31.go:5-12) are the same loop. -/
def firstValue (name : Bytes) : Tags → Bytes
  | [] => []
  | (k :: v :: _) :: ts => if k = name then v else firstValue name ts
  | _ :: ts => firstValue name ts

/-- nip14/subject.go:5-12 -/
def getSubject (tags : Tags) : Bytes := firstValue (b! "subject") tags
/-- nip31/nip31.go:5-12 -/
def getAlt (tags : Tags) : Bytes := firstValue (b! "alt") tags

/-- Spec: the value of the first tag of this name that has one. -/
def FirstValue (name : Bytes) (tags : Tags) (v : Bytes) : Prop :=
  (∃ pre rest post, tags = pre ++ (name :: v :: rest) :: post ∧ ∀ t ∈ pre, ∀ v' r, t ≠ name :: v' :: r) ∨ ((∀ t ∈ tags, ∀ v' r, t ≠ name :: v' :: r) ∧ v = [])

theorem firstValue_spec (name : Bytes) : ∀ tags, FirstValue name tags (firstValue name tags)
  | [] => .inr ⟨by simp, rfl⟩
  | t :: ts => by
    have ih := firstValue_spec name ts
    by_cases ht : ∃ v r, t = name :: v :: r
    · obtain ⟨v, r, rfl⟩ := ht
      refine .inl ⟨[], r, ts, ?_, by simp⟩
      simp [firstValue]
    · have hne : ∀ v r, t ≠ name :: v :: r := fun v r h => ht ⟨v, r, h⟩
      have he : firstValue name (t :: ts) = firstValue name ts := by
        match t, hne with
        | [], _ => rfl
        | [_], _ => rfl
        | k :: v :: r, hne =>
          have : k ≠ name := fun h => hne v r (by rw [h])
          simp [firstValue, this]
      rw [he]
      rcases ih with ⟨pre, rest, post, h1, h2⟩ | ⟨h1, h2⟩
      · refine .inl ⟨t :: pre, rest, post, by rw [List.cons_append, ← h1], ?_⟩
        intro x hx
        rcases List.mem_cons.1 hx with rfl | hx
        · exact hne
        · exact h2 x hx
      · refine .inr ⟨?_, h2⟩
        intro x hx
        rcases List.mem_cons.1 hx with rfl | hx
        · exact hne
        · exact h1 x hx

/-- **C160.** The subject and the alternative text of an event are the value of its first such tag that has one, and empty without one. -/
theorem C160_tags (tags : Tags) : FirstValue (b! "subject") tags (getSubject tags) ∧ FirstValue (b! "alt") tags (getAlt tags) :=
  ⟨firstValue_spec _ _, firstValue_spec _ _⟩

example : getSubject [[b! "subject"], [b! "e", b! "x"], [b! "subject", b! "hello", b! "y"], [b! "subject", b! "z"]] = b! "hello" := by decide +kernel

/-- What a connection is opened with (`ws.DialOptions`, of which compression and the transport are always the same): headers, `none` for a nil map, and TLS settings. -/
structure DialOptions (T : Type) where
  header : Option (List (Bytes × List Bytes))
  tls : Option T
  deriving DecidableEq

/-- `defaultConnectionOptions` (connection_options.go:13-18). -/
def userAgent : List (Bytes × List Bytes) := [(b! "User-Agent", [b! "github.com/nbd-wtf/go-nostr"])]

/-- `getConnectionOptions` (connection_options.go:20-34). -/
def connectionOptions {T : Type} (header : Option (List (Bytes × List Bytes))) (tls : Option T) : DialOptions T :=
  match header, tls with
  | none, none => ⟨some userAgent, none⟩
  | _, _ => ⟨header, tls⟩

/-- **C160 (connections).** The headers and the TLS settings given are used as they are; without either the library names itself. -/
theorem C160_options {T : Type} (header : Option (List (Bytes × List Bytes))) (tls : Option T) :
    (connectionOptions header tls).tls = tls ∧ (∀ h, header = some h → (connectionOptions header tls).header = some h) ∧
    (header = none → tls = none → (connectionOptions header tls).header = some userAgent) := by
  cases header <;> cases tls <;> simp [connectionOptions]

/-- **C160: but not with TLS settings alone:** then no headers are sent, also not the one that names the library. -/
theorem C160_unnamed {T : Type} (tls : T) : (connectionOptions none (some tls)).header = none := rfl

end GoNostr.Names
