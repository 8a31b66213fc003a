import Verif.Base.Num
import Verif.Helpers.Model
/-!
# C91: event kinds with a structure of their own

Round trips of the tag codecs of nip34 (repository, repository state), nip52 (calendar event), nip94 (file metadata), nip61 (nutzap info) and nip60 (history entry).
For every kind the theorem states exactly what comes back. Times are unix seconds, the zero `time.Time` being second -62135596800; Go's date formatting, URL normalisation and public
key parsing are parameters. nil and empty slices are the same.
-/

set_option autoImplicit false

namespace GoNostr.Codec

/-- `tags = append(tags, Tag{key, v})` if `v` is not empty. -/
def optTag (k v : Bytes) : List (List Bytes) := if v = [] then [] else [[k, v]]

/-- `tags = append(tags, Tag{key, vs...})` if there are any. -/
def optTags (k : Bytes) (vs : List Bytes) : List (List Bytes) := if vs.length > 0 then [k :: vs] else []

/-! ## nip34: repository -/

/-- `Repository` (nip34/repository.go:10-21) without the embedded event. -/
structure Repo where
  id : Bytes
  name : Bytes
  description : Bytes
  web : List Bytes
  clone : List Bytes
  relays : List Bytes
  euc : Bytes
  maintainers : List Bytes
  deriving DecidableEq, Repr

/-- The zero value (nip34/repository.go:10-21). -/
def Repo.empty : Repo := ⟨[], [], [], [], [], [], [], []⟩

/-- The loop body of `ParseRepository` (nip34/repository.go:28-50). -/
def repoStep (r : Repo) : List Bytes → Repo
  | k :: v :: rest =>
    if k = b! "d" then { r with id := v }
    else if k = b! "name" then { r with name := v }
    else if k = b! "description" then { r with description := v }
    else if k = b! "web" then { r with web := r.web ++ v :: rest }
    else if k = b! "clone" then { r with clone := r.clone ++ v :: rest }
    else if k = b! "relays" then { r with relays := r.relays ++ v :: rest }
    else if k = b! "r" then { r with euc := v }
    else if k = b! "maintainers" then { r with maintainers := r.maintainers ++ v :: rest }
    else r
  | _ => r

/-- `ParseRepository` (nip34/repository.go:23-53). -/
def parseRepo (tags : List (List Bytes)) : Repo := tags.foldl repoStep Repo.empty

/-- `Repository.ToEvent` (nip34/repository.go:55-99): the tags. -/
def repoTags (r : Repo) : List (List Bytes) :=
  [[b! "d", r.id]] ++ optTag (b! "name") r.name ++ optTag (b! "description") r.description ++
  (if r.euc = [] then [] else [[b! "r", r.euc, b! "euc"]]) ++
  optTags (b! "maintainers") r.maintainers ++ optTags (b! "web") r.web ++ optTags (b! "clone") r.clone ++ optTags (b! "relays") r.relays

theorem foldl_optTag {α : Type} (f : α → List Bytes → α) (s : α) (k v : Bytes) : (optTag k v).foldl f s = if v = [] then s else f s [k, v] := by
  unfold optTag; split <;> rfl

theorem foldl_optTags {α : Type} (f : α → List Bytes → α) (s : α) (k : Bytes) (vs : List Bytes) :
    (optTags k vs).foldl f s = if vs = [] then s else f s (k :: vs) := by
  unfold optTags
  cases vs <;> simp

/-- **C91 (repository).** A repository announcement reads back as it was written. -/
theorem C91_repository (r : Repo) : parseRepo (repoTags r) = r := by
  obtain ⟨id, name, description, web, clone, relays, euc, maintainers⟩ := r
  unfold parseRepo repoTags
  simp only [List.foldl_append, foldl_optTag, foldl_optTags]
  have e0 : List.foldl repoStep Repo.empty [[b! "d", id]] = ⟨id, [], [], [], [], [], [], []⟩ := rfl
  rw [e0]
  have e1 : (if name = [] then (⟨id, [], [], [], [], [], [], []⟩ : Repo) else repoStep ⟨id, [], [], [], [], [], [], []⟩ [b! "name", name]) = ⟨id, name, [], [], [], [], [], []⟩ := by
    by_cases h : name = []
    · simp [h]
    · rw [if_neg h]; rfl
  rw [e1]
  have e2 : (if description = [] then (⟨id, name, [], [], [], [], [], []⟩ : Repo) else repoStep ⟨id, name, [], [], [], [], [], []⟩ [b! "description", description]) = ⟨id, name, description, [], [], [], [], []⟩ := by
    by_cases h : description = []
    · simp [h]
    · rw [if_neg h]; rfl
  rw [e2]
  have e3 : List.foldl repoStep (⟨id, name, description, [], [], [], [], []⟩ : Repo) (if euc = [] then [] else [[b! "r", euc, b! "euc"]]) = ⟨id, name, description, [], [], [], euc, []⟩ := by
    by_cases h : euc = []
    · simp [h]
    · rw [if_neg h]; rfl
  rw [e3]
  have e4 : (if maintainers = [] then (⟨id, name, description, [], [], [], euc, []⟩ : Repo) else repoStep ⟨id, name, description, [], [], [], euc, []⟩ (b! "maintainers" :: maintainers)) = ⟨id, name, description, [], [], [], euc, maintainers⟩ := by
    cases maintainers
    · rfl
    · rfl
  rw [e4]
  have e5 : (if web = [] then (⟨id, name, description, [], [], [], euc, maintainers⟩ : Repo) else repoStep ⟨id, name, description, [], [], [], euc, maintainers⟩ (b! "web" :: web)) = ⟨id, name, description, web, [], [], euc, maintainers⟩ := by
    cases web
    · rfl
    · rfl
  rw [e5]
  have e6 : (if clone = [] then (⟨id, name, description, web, [], [], euc, maintainers⟩ : Repo) else repoStep ⟨id, name, description, web, [], [], euc, maintainers⟩ (b! "clone" :: clone)) = ⟨id, name, description, web, clone, [], euc, maintainers⟩ := by
    cases clone
    · rfl
    · rfl
  rw [e6]
  cases relays
  · rfl
  · rfl

example : parseRepo (repoTags ⟨b! "id", b! "n", [], [b! "w1", b! "w2"], [], [b! "r"], b! "c", []⟩) = ⟨b! "id", b! "n", [], [b! "w1", b! "w2"], [], [b! "r"], b! "c", []⟩ := by decide +kernel

/-! ## nip34: repository state -/

/-- `RepositoryState` (nip34/state.go:9-16); maps are functions. -/
structure RepoState where
  id : Bytes
  head : Bytes
  tags : Bytes → Option Bytes
  branches : Bytes → Option Bytes

/-- The zero value with its two empty maps (nip34/state.go:9-16, 19-23). -/
def RepoState.empty : RepoState := ⟨[], [], fun _ => none, fun _ => none⟩

/-- Assignment to a Go map (nip34/state.go:37-40). -/
def mapSet (m : Bytes → Option Bytes) (k v : Bytes) : Bytes → Option Bytes := fun x => if x = k then some v else m x

/-- The loop body of `ParseRepositoryState` (nip34/state.go:25-43). -/
def stateStep (s : RepoState) : List Bytes → RepoState
  | k :: v :: _ =>
    if k = b! "d" then { s with id := v }
    else if k = b! "HEAD" then (if (b! "ref: refs/heads/").isPrefixOf v then { s with head := v.drop 16 } else s)
    else if (b! "refs/heads/").isPrefixOf k then { s with branches := mapSet s.branches (k.drop 11) v }
    else if (b! "refs/tags/").isPrefixOf k then { s with tags := mapSet s.tags (k.drop 10) v }
    else s
  | _ => s

/-- `ParseRepositoryState` (nip34/state.go:18-46). -/
def parseState (tags : List (List Bytes)) : RepoState := tags.foldl stateStep RepoState.empty

/-- `RepositoryState.ToEvent` (nip34/state.go:48-67): the tags, for one order in which Go may iterate over the two maps. -/
def stateTags (id head : Bytes) (branches tags : List (Bytes × Bytes)) : List (List Bytes) :=
  [[b! "d", id]] ++ branches.map (fun x => [b! "refs/heads/" ++ x.1, x.2]) ++ tags.map (fun x => [b! "refs/tags/" ++ x.1, x.2]) ++
  (if head = [] then [] else [[b! "HEAD", b! "ref: refs/heads/" ++ head]])

/-- The list enumerates the map: every entry once. -/
def Enumerates (l : List (Bytes × Bytes)) (m : Bytes → Option Bytes) : Prop := (l.map (·.1)).Nodup ∧ ∀ k v, m k = some v ↔ (k, v) ∈ l

theorem state_branch (s : RepoState) (k v : Bytes) : stateStep s [b! "refs/heads/" ++ k, v] = { s with branches := mapSet s.branches k v } := rfl
theorem state_tag (s : RepoState) (k v : Bytes) : stateStep s [b! "refs/tags/" ++ k, v] = { s with tags := mapSet s.tags k v } := rfl

/-- Specification: the assignments one after the other. -/
def setAll (m : Bytes → Option Bytes) (l : List (Bytes × Bytes)) : Bytes → Option Bytes := l.foldl (fun m x => mapSet m x.1 x.2) m

theorem foldl_branches : ∀ (l : List (Bytes × Bytes)) (s : RepoState),
    (l.map (fun x => [b! "refs/heads/" ++ x.1, x.2])).foldl stateStep s = { s with branches := setAll s.branches l }
  | [], s => rfl
  | (k, v) :: l, s => by
    rw [List.map_cons, List.foldl_cons]
    simp only
    rw [state_branch, foldl_branches l]
    rfl

theorem foldl_stateTags : ∀ (l : List (Bytes × Bytes)) (s : RepoState),
    (l.map (fun x => [b! "refs/tags/" ++ x.1, x.2])).foldl stateStep s = { s with tags := setAll s.tags l }
  | [], s => rfl
  | (k, v) :: l, s => by
    rw [List.map_cons, List.foldl_cons]
    simp only
    rw [state_tag, foldl_stateTags l]
    rfl

theorem setAll_other : ∀ (l : List (Bytes × Bytes)) (m : Bytes → Option Bytes) (k : Bytes), k ∉ l.map (·.1) → setAll m l k = m k
  | [], _, _, _ => rfl
  | (a, b) :: l, m, k, h => by
    have h1 : k ≠ a := fun hh => h (by simp [hh])
    have := setAll_other l (mapSet m a b) k (fun hh => h (by simp only [List.map_cons, List.mem_cons]; exact .inr hh))
    rw [show setAll m ((a, b) :: l) k = setAll (mapSet m a b) l k from rfl, this]
    simp [mapSet, h1]

theorem setAll_mem : ∀ (l : List (Bytes × Bytes)) (m : Bytes → Option Bytes) (k v : Bytes), (l.map (·.1)).Nodup → (k, v) ∈ l → setAll m l k = some v
  | (a, b) :: l, m, k, v, hn, h => by
    rw [List.map_cons, List.nodup_cons] at hn
    rw [show setAll m ((a, b) :: l) k = setAll (mapSet m a b) l k from rfl]
    rcases List.mem_cons.1 h with h | h
    · injection h with h1 h2
      subst h1 h2
      rw [setAll_other _ _ _ hn.1]
      simp [mapSet]
    · exact setAll_mem l _ k v hn.2 h

theorem setAll_enumerates {l : List (Bytes × Bytes)} {m : Bytes → Option Bytes} (h : Enumerates l m) : setAll (fun _ => none) l = m := by
  funext k
  cases hm : m k with
  | some v => exact setAll_mem l _ k v h.1 ((h.2 k v).1 hm)
  | none =>
    refine setAll_other l _ k ?_
    intro hk
    obtain ⟨⟨a, b⟩, hx, rfl⟩ := List.mem_map.1 hk
    rw [(h.2 a b).2 hx] at hm
    cases hm

/-- **C91 (repository state).** A repository state reads back as it was written, for every order in which the maps are iterated over. -/
theorem C91_repository_state (s : RepoState) (branches tags : List (Bytes × Bytes)) (hb : Enumerates branches s.branches) (ht : Enumerates tags s.tags) :
    parseState (stateTags s.id s.head branches tags) = s := by
  obtain ⟨id, head, tg, br⟩ := s
  unfold parseState stateTags
  simp only [List.foldl_append]
  rw [show List.foldl stateStep RepoState.empty [[b! "d", id]] = ⟨id, [], fun _ => none, fun _ => none⟩ from rfl, foldl_branches, foldl_stateTags]
  simp only
  rw [setAll_enumerates hb, setAll_enumerates ht]
  by_cases h : head = []
  · rw [if_pos h, h]; rfl
  · rw [if_neg h]; rfl

example : Enumerates [(b! "main", b! "c1"), (b! "dev", b! "c2")] (mapSet (mapSet (fun _ => none) (b! "dev") (b! "c2")) (b! "main") (b! "c1")) := by
  refine ⟨by decide +kernel, ?_⟩
  intro k v
  simp only [mapSet, List.mem_cons, List.mem_nil_iff, or_false, Prod.mk.injEq]
  by_cases h1 : k = b! "main"
  · have h2 : ¬ k = b! "dev" := by rw [h1]; decide +kernel
    simp only [h1, if_true, true_and, Option.some.injEq]
    refine ⟨fun h => .inl h.symm, fun h => ?_⟩
    rcases h with h | h
    · exact h.symm
    · exact absurd h.1 (by decide +kernel)
  · simp only [h1, if_false, false_and, false_or]
    by_cases h2 : k = b! "dev"
    · simp only [h2, if_true, Option.some.injEq, true_and]
      exact eq_comm
    · simp [h2]

/-! ## nip52: calendar event -/

/-- nip52/calendar_event.go:32-36 -/
structure Participant where
  pubkey : Bytes
  relay : Bytes
  role : Bytes
  deriving DecidableEq, Repr

/-- `CalendarEvent` (nip52/calendar_event.go:17-30). -/
structure Cal where
  kind : Int
  id : Bytes
  title : Bytes
  image : Bytes
  start : Int
  fin : Int
  locations : List Bytes
  geohashes : List Bytes
  participants : List Participant
  references : List Bytes
  hashtags : List Bytes
  startTz : Bytes
  endTz : Bytes
  deriving DecidableEq, Repr

/-- `time.Time{}` in unix seconds. -/
def zeroTime : Int := -62135596800

/-- The zero value (nip52/calendar_event.go:17-30). -/
def Cal.empty (kind : Int) : Cal := ⟨kind, [], [], [], zeroTime, zeroTime, [], [], [], [], [], [], []⟩

/-- `time.Time.Format` and `time.Parse` with "2006-01-02". -/
structure Dates where
  fmt : Int → Bytes
  parse : Bytes → Option Int

/-- Reading a time (nip52/calendar_event.go:54-68): `none` is `continue`. -/
def calTime (d : Dates) (kind : Int) (v : Bytes) : Option Int :=
  if kind = 31923 then (match parseInt64 v with
    | .ok i => some i
    | _ => none)
  else if kind = 31922 then d.parse v
  else some zeroTime

/-- Reading a participant: a missing element is the empty string. -/
def partOf : List Bytes → Participant
  | _ :: pk :: relay :: role :: _ => ⟨pk, relay, role⟩
  | _ :: pk :: relay :: _ => ⟨pk, relay, []⟩
  | _ :: pk :: _ => ⟨pk, [], []⟩
  | _ => ⟨[], [], []⟩

/-- The loop body of `ParseCalendarEvent` (nip52/calendar_event.go:42-101). -/
def calStep (d : Dates) (c : Cal) : List Bytes → Cal
  | k :: v :: rest =>
    if k = b! "d" then { c with id := v }
    else if k = b! "title" then { c with title := v }
    else if k = b! "image" then { c with image := v }
    else if k = b! "start" then (match calTime d c.kind v with
      | none => c
      | some t => { c with start := t })
    else if k = b! "end" then (match calTime d c.kind v with
      | none => c
      | some t => { c with fin := t })
    else if k = b! "location" then { c with locations := c.locations ++ [v] }
    else if k = b! "g" then { c with geohashes := c.geohashes ++ [v] }
    else if k = b! "p" then (if isValid32ByteHex v then { c with participants := c.participants ++ [partOf (k :: v :: rest)] } else c)
    else if k = b! "r" then { c with references := c.references ++ [v] }
    else if k = b! "t" then { c with hashtags := c.hashtags ++ [v] }
    else if k = b! "start_tzid" then { c with startTz := v }
    else if k = b! "end_tzid" then { c with endTz := v }
    else c
  | _ => c

/-- `ParseCalendarEvent` (nip52/calendar_event.go:38-103). -/
def parseCal (d : Dates) (kind : Int) (tags : List (List Bytes)) : Cal := tags.foldl (calStep d) (Cal.empty kind)

/-- How a time is written (nip52/calendar_event.go:113-123). -/
def timeStr (d : Dates) (kind : Int) (t : Int) : Bytes := if kind = 31923 then fmtInt t else d.fmt t

/-- `ToHashtags` (nip52/calendar_event.go:105-142). -/
def calTags (d : Dates) (c : Cal) : List (List Bytes) :=
  [[b! "d", c.id]] ++ [[b! "title", c.title]] ++ (if c.image = [] then [] else [[b! "image", c.title]]) ++
  (if c.kind = 31923 ∨ c.kind = 31922 then
    [[b! "start", timeStr d c.kind c.start]] ++ (if c.fin = zeroTime then [] else [[b! "end", timeStr d c.kind c.fin]])
   else []) ++
  c.locations.map (fun x => [b! "location", x]) ++ c.geohashes.map (fun x => [b! "g", x]) ++
  c.participants.map (fun p => [b! "p", p.pubkey, p.relay, p.role]) ++
  c.references.map (fun x => [b! "r", x]) ++ c.hashtags.map (fun x => [b! "t", x])

theorem foldl_locations (d : Dates) : ∀ (l : List Bytes) (c : Cal), (l.map (fun x => [b! "location", x])).foldl (calStep d) c = { c with locations := c.locations ++ l }
  | [], c => by simp
  | a :: l, c => by
    rw [List.map_cons, List.foldl_cons, show calStep d c [b! "location", a] = { c with locations := c.locations ++ [a] } from rfl, foldl_locations d l]
    simp

theorem foldl_geohashes (d : Dates) : ∀ (l : List Bytes) (c : Cal), (l.map (fun x => [b! "g", x])).foldl (calStep d) c = { c with geohashes := c.geohashes ++ l }
  | [], c => by simp
  | a :: l, c => by
    rw [List.map_cons, List.foldl_cons, show calStep d c [b! "g", a] = { c with geohashes := c.geohashes ++ [a] } from rfl, foldl_geohashes d l]
    simp

theorem foldl_references (d : Dates) : ∀ (l : List Bytes) (c : Cal), (l.map (fun x => [b! "r", x])).foldl (calStep d) c = { c with references := c.references ++ l }
  | [], c => by simp
  | a :: l, c => by
    rw [List.map_cons, List.foldl_cons, show calStep d c [b! "r", a] = { c with references := c.references ++ [a] } from rfl, foldl_references d l]
    simp

theorem foldl_hashtags (d : Dates) : ∀ (l : List Bytes) (c : Cal), (l.map (fun x => [b! "t", x])).foldl (calStep d) c = { c with hashtags := c.hashtags ++ l }
  | [], c => by simp
  | a :: l, c => by
    rw [List.map_cons, List.foldl_cons, show calStep d c [b! "t", a] = { c with hashtags := c.hashtags ++ [a] } from rfl, foldl_hashtags d l]
    simp

theorem foldl_participants (d : Dates) : ∀ (l : List Participant) (c : Cal),
    (l.map (fun p => [b! "p", p.pubkey, p.relay, p.role])).foldl (calStep d) c = { c with participants := c.participants ++ l.filter (fun p => isValid32ByteHex p.pubkey) }
  | [], c => by simp
  | a :: l, c => by
    rw [List.map_cons, List.foldl_cons,
      show calStep d c [b! "p", a.pubkey, a.relay, a.role] = (if isValid32ByteHex a.pubkey then { c with participants := c.participants ++ [a] } else c) from rfl]
    by_cases h : isValid32ByteHex a.pubkey = true
    · rw [if_pos h, foldl_participants d l]
      simp [h]
    · rw [if_neg h, foldl_participants d l]
      simp [h]

theorem calTime_str (d : Dates) (kind t : Int) (hk : kind = 31923 ∨ kind = 31922) (ht : kind = 31923 → -(2 ^ 63) ≤ t ∧ t < 2 ^ 63) (hd : kind = 31922 → d.parse (d.fmt t) = some t) :
    calTime d kind (timeStr d kind t) = some t := by
  rcases hk with h | h
  · subst h
    simp only [calTime, timeStr, if_true]
    rw [parseInt64_fmtInt (ht rfl).1 (ht rfl).2]
  · subst h
    simp only [calTime, timeStr, show ¬ (31922 : Int) = 31923 by decide, if_false, if_true]
    exact hd rfl

/-- **C91 (calendar event).** What a calendar event reads back as: everything but the image, which becomes the title, the two time zones, which are dropped, and participants whose key is
not valid. The times must be representable (seconds in an int64; for dates, days that format and parse back). -/
theorem C91_calendar_partial (d : Dates) (c : Cal) (hk : c.kind = 31923 ∨ c.kind = 31922)
    (ht : c.kind = 31923 → (-(2 ^ 63) ≤ c.start ∧ c.start < 2 ^ 63) ∧ (-(2 ^ 63) ≤ c.fin ∧ c.fin < 2 ^ 63))
    (hd : c.kind = 31922 → d.parse (d.fmt c.start) = some c.start ∧ d.parse (d.fmt c.fin) = some c.fin) :
    parseCal d c.kind (calTags d c) = { c with
      image := if c.image = [] then [] else c.title
      participants := c.participants.filter (fun p => isValid32ByteHex p.pubkey)
      startTz := []
      endTz := [] } := by
  have h1 := calTime_str d c.kind c.start hk (fun h => (ht h).1) (fun h => (hd h).1)
  have h2 := calTime_str d c.kind c.fin hk (fun h => (ht h).2) (fun h => (hd h).2)
  obtain ⟨kind, id, title, image, start, fin, locations, geohashes, participants, references, hashtags, startTz, endTz⟩ := c
  simp only at h1 h2 hk ⊢
  unfold parseCal calTags
  simp only [if_pos hk, List.foldl_append]
  rw [show List.foldl (calStep d) (Cal.empty kind) [[b! "d", id]] = ⟨kind, id, [], [], zeroTime, zeroTime, [], [], [], [], [], [], []⟩ from rfl,
    show List.foldl (calStep d) (⟨kind, id, [], [], zeroTime, zeroTime, [], [], [], [], [], [], []⟩ : Cal) [[b! "title", title]] =
      ⟨kind, id, title, [], zeroTime, zeroTime, [], [], [], [], [], [], []⟩ from rfl]
  have e1 : List.foldl (calStep d) (⟨kind, id, title, [], zeroTime, zeroTime, [], [], [], [], [], [], []⟩ : Cal) (if image = [] then [] else [[b! "image", title]]) =
      ⟨kind, id, title, if image = [] then [] else title, zeroTime, zeroTime, [], [], [], [], [], [], []⟩ := by
    by_cases h : image = []
    · simp [h]
    · rw [if_neg h, if_neg h]; rfl
  rw [e1]
  have e2 : ∀ im, List.foldl (calStep d) (⟨kind, id, title, im, zeroTime, zeroTime, [], [], [], [], [], [], []⟩ : Cal) [[b! "start", timeStr d kind start]] =
      ⟨kind, id, title, im, start, zeroTime, [], [], [], [], [], [], []⟩ := by
    intro im
    have : calStep d (⟨kind, id, title, im, zeroTime, zeroTime, [], [], [], [], [], [], []⟩ : Cal) [b! "start", timeStr d kind start] =
      (match calTime d kind (timeStr d kind start) with
      | none => ⟨kind, id, title, im, zeroTime, zeroTime, [], [], [], [], [], [], []⟩
      | some t => ⟨kind, id, title, im, t, zeroTime, [], [], [], [], [], [], []⟩) := rfl
    rw [List.foldl_cons, List.foldl_nil, this, h1]
  rw [e2]
  have e3 : ∀ im, List.foldl (calStep d) (⟨kind, id, title, im, start, zeroTime, [], [], [], [], [], [], []⟩ : Cal) (if fin = zeroTime then [] else [[b! "end", timeStr d kind fin]]) =
      ⟨kind, id, title, im, start, fin, [], [], [], [], [], [], []⟩ := by
    intro im
    by_cases h : fin = zeroTime
    · rw [if_pos h, h]; rfl
    · rw [if_neg h]
      have : calStep d (⟨kind, id, title, im, start, zeroTime, [], [], [], [], [], [], []⟩ : Cal) [b! "end", timeStr d kind fin] =
        (match calTime d kind (timeStr d kind fin) with
        | none => ⟨kind, id, title, im, start, zeroTime, [], [], [], [], [], [], []⟩
        | some t => ⟨kind, id, title, im, start, t, [], [], [], [], [], [], []⟩) := rfl
      rw [List.foldl_cons, List.foldl_nil, this, h2]
  rw [e3]
  simp only [foldl_locations, foldl_geohashes, foldl_participants, foldl_references, foldl_hashtags, List.nil_append]

/-- A calendar event with an image does not come back. -/
theorem C91_calendar_image_lost :
    let c : Cal := ⟨31923, b! "id", b! "title", b! "https://img", 5, zeroTime, [], [], [], [], [], [], []⟩
    (parseCal ⟨fun _ => [], fun _ => none⟩ 31923 (calTags ⟨fun _ => [], fun _ => none⟩ c)).image = b! "title" := by decide +kernel

/-! ## nip94: file metadata -/

/-- `FileMetadata` (nip94/nip94.go:41-55). -/
structure FileMeta where
  magnet : Bytes
  dim : Bytes
  size : Bytes
  summary : Bytes
  image : Bytes
  url : Bytes
  m : Bytes
  x : Bytes
  ox : Bytes
  infohash : Bytes
  blurhash : Bytes
  thumb : Bytes
  content : Bytes
  deriving DecidableEq, Repr

/-- The zero value (nip94/nip94.go:41-55). -/
def FileMeta.empty : FileMeta := ⟨[], [], [], [], [], [], [], [], [], [], [], [], []⟩

/-- The loop body of `ParseFileMetadata` (nip94/nip94.go:11-37). -/
def fileStep (f : FileMeta) : List Bytes → FileMeta
  | k :: v :: _ =>
    if k = b! "url" then { f with url := v }
    else if k = b! "x" then { f with x := v }
    else if k = b! "ox" then { f with ox := v }
    else if k = b! "size" then { f with size := v }
    else if k = b! "dim" then { f with dim := v }
    else if k = b! "magnet" then { f with magnet := v }
    else if k = b! "i" then { f with infohash := v }
    else if k = b! "blurhash" then { f with blurhash := v }
    else if k = b! "thumb" then { f with image := v }
    else if k = b! "summary" then { f with summary := v }
    else f
  | _ => f

/-- `ParseFileMetadata` (nip94/nip94.go:9-39). -/
def parseFile (tags : List (List Bytes)) : FileMeta := tags.foldl fileStep FileMeta.empty

/-- `strings.Split(s, "/")[0]`. -/
def firstPart (s : Bytes) : Bytes := s.takeWhile (· != 47)

/-- `FileMetadata.DisplayImage` with `IsImage` (nip94/nip94.go:58-67). -/
def displayImage (f : FileMeta) : Bytes :=
  if f.image ≠ [] then f.image else if firstPart f.m = b! "image" then f.url else []

theorem parse_keeps_type (tags : List (List Bytes)) (f : FileMeta) : (tags.foldl fileStep f).m = f.m := by
  induction tags generalizing f with
  | nil => rfl
  | cons t tags ih =>
    rw [List.foldl_cons, ih]
    unfold fileStep
    (repeat' split) <;> rfl

/-- **C91: the image of a file is not shown.** Parsing never reads the type of the file, so an event about an image without a
thumbnail has no image to display, whatever its tags. -/
theorem C91_image_not_shown (tags : List (List Bytes)) (h : ∀ t ∈ tags, t.head? ≠ some (b! "thumb")) : displayImage (parseFile tags) = [] := by
  have hi : ∀ (tags : List (List Bytes)) (f : FileMeta), (∀ t ∈ tags, t.head? ≠ some (b! "thumb")) → (tags.foldl fileStep f).image = f.image := by
    intro tags
    induction tags with
    | nil => intros; rfl
    | cons t tags ih =>
      intro f h
      rw [List.foldl_cons, ih _ (fun t ht => h t (List.mem_cons_of_mem _ ht))]
      have ht := h t List.mem_cons_self
      unfold fileStep
      split
      · rename_i k v rest
        simp only [List.head?_cons, ne_eq, Option.some.injEq] at ht
        repeat' split
        all_goals first | rfl | exact absurd ‹_› ht
      · rfl
  have h1 : (parseFile tags).image = [] := hi tags _ h
  have h2 : (parseFile tags).m = [] := parse_keeps_type tags _
  simp [displayImage, h1, h2, firstPart]

/-- An image file: the tags say so, and its url is not displayed. -/
example : ∀ t ∈ [[b! "url", b! "https://x/y.png"], [b! "m", b! "image/png"]], t.head? ≠ some (b! "thumb") := by decide +kernel

/-- `FileMetadata.ToTags` (nip94/nip94.go:69-108). -/
def fileTags (f : FileMeta) : List (List Bytes) :=
  optTag (b! "url") f.url ++ optTag (b! "m") f.m ++ optTag (b! "x") f.x ++ optTag (b! "ox") f.ox ++ optTag (b! "size") f.size ++ optTag (b! "dim") f.dim ++
  optTag (b! "magnet") f.magnet ++ optTag (b! "i") f.infohash ++ optTag (b! "blurhash") f.blurhash ++ optTag (b! "thumb") f.thumb ++ optTag (b! "image") f.image ++
  optTag (b! "summary") f.summary

theorem if_nil (v : Bytes) : (if v = [] then [] else v) = v := by
  by_cases h : v = [] <;> simp [h]

theorem file_url (f : FileMeta) (v : Bytes) : (if v = [] then f else fileStep f [b! "url", v]) = { f with url := if v = [] then f.url else v } := by
  by_cases h : v = [] <;> simp only [h, if_true, if_false] <;> rfl

theorem file_x (f : FileMeta) (v : Bytes) : (if v = [] then f else fileStep f [b! "x", v]) = { f with x := if v = [] then f.x else v } := by
  by_cases h : v = [] <;> simp only [h, if_true, if_false] <;> rfl

theorem file_ox (f : FileMeta) (v : Bytes) : (if v = [] then f else fileStep f [b! "ox", v]) = { f with ox := if v = [] then f.ox else v } := by
  by_cases h : v = [] <;> simp only [h, if_true, if_false] <;> rfl

theorem file_size (f : FileMeta) (v : Bytes) : (if v = [] then f else fileStep f [b! "size", v]) = { f with size := if v = [] then f.size else v } := by
  by_cases h : v = [] <;> simp only [h, if_true, if_false] <;> rfl

theorem file_dim (f : FileMeta) (v : Bytes) : (if v = [] then f else fileStep f [b! "dim", v]) = { f with dim := if v = [] then f.dim else v } := by
  by_cases h : v = [] <;> simp only [h, if_true, if_false] <;> rfl

theorem file_magnet (f : FileMeta) (v : Bytes) : (if v = [] then f else fileStep f [b! "magnet", v]) = { f with magnet := if v = [] then f.magnet else v } := by
  by_cases h : v = [] <;> simp only [h, if_true, if_false] <;> rfl

theorem file_i (f : FileMeta) (v : Bytes) : (if v = [] then f else fileStep f [b! "i", v]) = { f with infohash := if v = [] then f.infohash else v } := by
  by_cases h : v = [] <;> simp only [h, if_true, if_false] <;> rfl

theorem file_blurhash (f : FileMeta) (v : Bytes) : (if v = [] then f else fileStep f [b! "blurhash", v]) = { f with blurhash := if v = [] then f.blurhash else v } := by
  by_cases h : v = [] <;> simp only [h, if_true, if_false] <;> rfl

theorem file_thumb (f : FileMeta) (v : Bytes) : (if v = [] then f else fileStep f [b! "thumb", v]) = { f with image := if v = [] then f.image else v } := by
  by_cases h : v = [] <;> simp only [h, if_true, if_false] <;> rfl

theorem file_summary (f : FileMeta) (v : Bytes) : (if v = [] then f else fileStep f [b! "summary", v]) = { f with summary := if v = [] then f.summary else v } := by
  by_cases h : v = [] <;> simp only [h, if_true, if_false] <;> rfl

theorem file_m (f : FileMeta) (v : Bytes) : (if v = [] then f else fileStep f [b! "m", v]) = f := by
  by_cases h : v = [] <;> simp only [h, if_true, if_false] <;> rfl

theorem file_image (f : FileMeta) (v : Bytes) : (if v = [] then f else fileStep f [b! "image", v]) = f := by
  by_cases h : v = [] <;> simp only [h, if_true, if_false] <;> rfl

/-- **C91 (file metadata).** What file metadata reads back as: the mime type is lost, the thumbnail becomes the image and the image is lost. -/
theorem C91_file_metadata_partial (f : FileMeta) :
    parseFile (fileTags f) = { f with m := [], image := f.thumb, thumb := [], content := [] } := by
  obtain ⟨magnet, dim, size, summary, image, url, m, x, ox, infohash, blurhash, thumb, content⟩ := f
  unfold parseFile fileTags
  simp only [List.foldl_append, foldl_optTag]
  simp only [file_url, file_m, file_x, file_ox, file_size, file_dim, file_magnet, file_i, file_blurhash, file_thumb, file_image, file_summary, FileMeta.empty, if_nil]

/-- A picture's metadata read from its event never counts as a picture (`IsImage` looks at the mime type). -/
theorem C91_file_mime_lost : ∃ f : FileMeta, f.m = b! "image/png" ∧ (parseFile (fileTags f)).m = [] :=
  ⟨{ FileMeta.empty with m := b! "image/png" }, rfl, by decide +kernel⟩

/-! ## nip61: nutzap info -/

/-- `Info` (nip61/info.go:11-15). -/
structure Info where
  pubkey : Bytes
  mints : List Bytes
  relays : List Bytes
  deriving DecidableEq, Repr

/-- `nostr.NormalizeHTTPURL` (with "" on errors) and `schnorr.ParsePubKey`. -/
structure InfoEnv where
  norm : Bytes → Bytes
  parsePub : Bytes → Bool

/-- The loop body of `ParseEvent` (nip61/info.go:41-59). -/
def infoStep (env : InfoEnv) (i : Info) : List Bytes → Info
  | k :: v :: rest =>
    if k = b! "mint" then (if rest = [] ∨ rest.contains (b! "sat") then { i with mints := i.mints ++ [env.norm v] } else i)
    else if k = b! "relay" then { i with relays := i.relays ++ [v] }
    else if k = b! "pubkey" then (if isValidPublicKey env.parsePub v then { i with pubkey := v } else i)
    else i
  | _ => i

/-- `ParseEvent` (nip61/info.go:39-62): only the mints are cleared first. -/
def parseInfo (env : InfoEnv) (i : Info) (tags : List (List Bytes)) : Info := tags.foldl (infoStep env) { i with mints := [] }

/-- `ToEvent` (nip61/info.go:17-37): the tags. -/
def infoTags (i : Info) : List (List Bytes) :=
  i.mints.map (fun x => [b! "mint", x]) ++ i.relays.map (fun x => [b! "relay", x]) ++ optTag (b! "pubkey") i.pubkey

theorem foldl_mints (env : InfoEnv) : ∀ (l : List Bytes) (i : Info), (l.map (fun x => [b! "mint", x])).foldl (infoStep env) i = { i with mints := i.mints ++ l.map env.norm }
  | [], i => by simp
  | a :: l, i => by
    rw [List.map_cons, List.foldl_cons, show infoStep env i [b! "mint", a] = { i with mints := i.mints ++ [env.norm a] } from rfl, foldl_mints env l]
    simp

theorem foldl_relays (env : InfoEnv) : ∀ (l : List Bytes) (i : Info), (l.map (fun x => [b! "relay", x])).foldl (infoStep env) i = { i with relays := i.relays ++ l }
  | [], i => by simp
  | a :: l, i => by
    rw [List.map_cons, List.foldl_cons, show infoStep env i [b! "relay", a] = { i with relays := i.relays ++ [a] } from rfl, foldl_relays env l]
    simp

/-- **C91 (nutzap info).** Nutzap info with normal mint URLs and a valid (or no) key reads back as it was written, into an empty `Info`. -/
theorem C91_nutzap_info (env : InfoEnv) (i : Info) (hm : ∀ m ∈ i.mints, env.norm m = m) (hk : i.pubkey = [] ∨ isValidPublicKey env.parsePub i.pubkey = true) :
    parseInfo env ⟨[], [], []⟩ (infoTags i) = i := by
  obtain ⟨pubkey, mints, relays⟩ := i
  simp only at hm hk
  unfold parseInfo infoTags
  simp only [List.foldl_append, foldl_optTag, foldl_mints, foldl_relays]
  have : mints.map env.norm = mints := by
    conv => rhs; rw [← List.map_id mints]
    exact List.map_congr_left hm
  rw [this]
  by_cases h : pubkey = []
  · rw [if_pos h, h]; rfl
  · rw [if_neg h]
    have hv := hk.resolve_left h
    have e : infoStep env (⟨[], mints, relays⟩ : Info) [b! "pubkey", pubkey] = (if isValidPublicKey env.parsePub pubkey then ⟨pubkey, mints, relays⟩ else ⟨[], mints, relays⟩) := rfl
    simpa [hv] using e

example : parseInfo ⟨id, fun b => b.length == 32⟩ ⟨[], [], []⟩ (infoTags ⟨hexEnc (List.replicate 32 7), [b! "https://m"], [b! "wss://r"]⟩) =
    ⟨hexEnc (List.replicate 32 7), [b! "https://m"], [b! "wss://r"]⟩ := by decide +kernel

/-- Relays and key are not cleared: parsing a second event into the same `Info` adds its relays to the first one's, and keeps the first one's key if the second has none. -/
theorem C91_nutzap_info_reuse (env : InfoEnv) (i j : Info) (hk : j.pubkey = []) :
    parseInfo env i (infoTags j) = ⟨i.pubkey, j.mints.map env.norm, i.relays ++ j.relays⟩ := by
  unfold parseInfo infoTags
  simp only [List.foldl_append, foldl_optTag, foldl_mints, foldl_relays]
  rw [if_pos hk]
  rfl

/-- Whatever the event says, the key in a freshly parsed `Info` is empty or a valid public key. -/
theorem infoKey_valid (env : InfoEnv) : ∀ (tags : List (List Bytes)) (i : Info), (i.pubkey = [] ∨ isValidPublicKey env.parsePub i.pubkey = true) →
    (tags.foldl (infoStep env) i).pubkey = [] ∨ isValidPublicKey env.parsePub (tags.foldl (infoStep env) i).pubkey = true
  | [], i, h => h
  | t :: tags, i, h => by
    rw [List.foldl_cons]
    refine infoKey_valid env tags _ ?_
    unfold infoStep
    split
    · split
      · split
        · exact h
        · exact h
      · split
        · exact h
        · split
          · split
            · next hv => exact .inr hv
            · exact h
          · exact h
    · exact h

/-! ## nip60: history entry -/

/-- `TokenRef` (nip60/history.go:22-26). -/
structure TokenRef where
  eventId : Bytes
  created : Bool
  nutzap : Bool
  deriving DecidableEq, Repr

/-- `HistoryEntry` (nip60/history.go:12-20). -/
structure History where
  dirIn : Bool
  amount : Nat
  refs : List TokenRef
  deriving DecidableEq, Repr

/-- The encrypted and the public tags of `toEvent` (nip60/history.go:34-60). -/
def historyTags (h : History) : List (List Bytes) × List (List Bytes) :=
  ([[b! "direction", if h.dirIn then b! "in" else b! "out"], [b! "amount", fmtNat h.amount]] ++
    (h.refs.filter (fun r => !r.nutzap)).map (fun r => [b! "e", r.eventId, [], if r.created then b! "created" else b! "destroyed"]),
   (h.refs.filter (fun r => r.nutzap)).map (fun r => [b! "e", r.eventId, [], b! "redeemed"]))

/-- The state of the loop in `parse` (nip60/history.go:104-150): the entry and `missingDirection`. -/
structure HistState where
  entry : History
  missing : Bool
  deriving DecidableEq, Repr

/-- The loop body of `parse` (nip60/history.go:105-150); `none` is an error. -/
def histStep (s : HistState) : List Bytes → Option HistState
  | k :: v :: rest =>
    if k = b! "direction" then
      if v = b! "in" then some { entry := { s.entry with dirIn := true }, missing := false }
      else if v = b! "out" then some { entry := { s.entry with dirIn := false }, missing := false }
      else none
    else if k = b! "amount" then (match parseUint64 v with
      | .ok n => some { s with entry := { s.entry with amount := n.toNat } }
      | _ => none)
    else if k = b! "e" then (match rest with
      | _ :: mark :: _ =>
        if ¬ isValid32ByteHex v then none
        else if mark = b! "created" then some { s with entry := { s.entry with refs := s.entry.refs ++ [⟨v, true, false⟩] } }
        else if mark = b! "destroyed" then some { s with entry := { s.entry with refs := s.entry.refs ++ [⟨v, false, false⟩] } }
        else if mark = b! "redeemed" then some { s with entry := { s.entry with refs := s.entry.refs ++ [⟨v, true, true⟩] } }
        else none
      | _ => none)
    else some s
  | _ => some s

/-- The loop over the tags (nip60/history.go:105-150). -/
def histLoop : HistState → List (List Bytes) → Option HistState
  | s, [] => some s
  | s, t :: ts => (histStep s t).bind (fun s' => histLoop s' ts)

/-- `HistoryEntry.parse` (nip60/history.go:80-161) into an empty entry; the tags are the decrypted ones followed by the public ones. -/
def parseHistory (tags : List (List Bytes)) : Option History :=
  match histLoop ⟨⟨false, 0, []⟩, true⟩ tags with
  | none => none
  | some s => if s.entry.amount = 0 then none else if s.missing then none else some s.entry

theorem histLoop_append : ∀ (a b : List (List Bytes)) (s : HistState), histLoop s (a ++ b) = (histLoop s a).bind (fun s' => histLoop s' b)
  | [], _, _ => rfl
  | t :: a, b, s => by
    rw [List.cons_append, histLoop, histLoop]
    cases histStep s t with
    | none => rfl
    | some s' => exact histLoop_append a b s'

theorem histLoop_refs (mk : TokenRef → List Bytes) (out : TokenRef → TokenRef)
    (hmk : ∀ (s : HistState) (r : TokenRef), isValid32ByteHex r.eventId = true → histStep s (mk r) = some { s with entry := { s.entry with refs := s.entry.refs ++ [out r] } }) :
    ∀ (l : List TokenRef) (s : HistState), (∀ r ∈ l, isValid32ByteHex r.eventId = true) →
      histLoop s (l.map mk) = some { s with entry := { s.entry with refs := s.entry.refs ++ l.map out } }
  | [], s, _ => by simp [histLoop]
  | r :: l, s, h => by
    rw [List.map_cons, histLoop, hmk s r (h r (by simp)), Option.bind_some, histLoop_refs mk out hmk l _ (fun x hx => h x (List.mem_cons_of_mem _ hx))]
    simp

/-- **C91 (history entry).** What a history entry with valid event ids and a non-zero amount reads back as: direction and amount unchanged, references to tokens first, references to nutzaps
last (each in order), and every nutzap reference marked as created. -/
theorem C91_history_partial (h : History) (ha : 0 < h.amount) (hb : h.amount < 2 ^ 64) (hv : ∀ r ∈ h.refs, isValid32ByteHex r.eventId = true) :
    parseHistory ((historyTags h).1 ++ (historyTags h).2) = some ⟨h.dirIn, h.amount,
      h.refs.filter (fun r => !r.nutzap) ++ (h.refs.filter (fun r => r.nutzap)).map (fun r => { r with created := true })⟩ := by
  have f1 : ∀ (s : HistState) (r : TokenRef), isValid32ByteHex r.eventId = true →
      histStep s [b! "e", r.eventId, [], if r.created then b! "created" else b! "destroyed"] = some { s with entry := { s.entry with refs := s.entry.refs ++ [⟨r.eventId, r.created, false⟩] } } := by
    rintro s ⟨id, c, n⟩ hv
    simp only at hv ⊢
    cases c
    · have : histStep s [b! "e", id, [], b! "destroyed"] = if ¬ isValid32ByteHex id then none else some { s with entry := { s.entry with refs := s.entry.refs ++ [⟨id, false, false⟩] } } := rfl
      simpa [hv] using this
    · have : histStep s [b! "e", id, [], b! "created"] = if ¬ isValid32ByteHex id then none else some { s with entry := { s.entry with refs := s.entry.refs ++ [⟨id, true, false⟩] } } := rfl
      simpa [hv] using this
  have f2 : ∀ (s : HistState) (r : TokenRef), isValid32ByteHex r.eventId = true →
      histStep s [b! "e", r.eventId, [], b! "redeemed"] = some { s with entry := { s.entry with refs := s.entry.refs ++ [⟨r.eventId, true, true⟩] } } := by
    rintro s ⟨id, c, n⟩ hv
    simp only at hv ⊢
    have : histStep s [b! "e", id, [], b! "redeemed"] = if ¬ isValid32ByteHex id then none else some { s with entry := { s.entry with refs := s.entry.refs ++ [⟨id, true, true⟩] } } := rfl
    simpa [hv] using this
  unfold parseHistory historyTags
  simp only
  rw [histLoop_append, histLoop_append]
  have e0 : histLoop ⟨⟨false, 0, []⟩, true⟩ [[b! "direction", if h.dirIn then b! "in" else b! "out"], [b! "amount", fmtNat h.amount]] = some ⟨⟨h.dirIn, h.amount, []⟩, false⟩ := by
    have d : histStep ⟨⟨false, 0, []⟩, true⟩ [b! "direction", if h.dirIn then b! "in" else b! "out"] = some ⟨⟨h.dirIn, 0, []⟩, false⟩ := by
      cases h.dirIn <;> rfl
    have a : histStep ⟨⟨h.dirIn, 0, []⟩, false⟩ [b! "amount", fmtNat h.amount] = (match parseUint64 (fmtNat h.amount) with
      | .ok n => some ⟨⟨h.dirIn, n.toNat, []⟩, false⟩
      | _ => none) := rfl
    rw [histLoop, d, Option.bind_some, histLoop, a, parseUint64_fmtNat hb]
    rfl
  rw [e0, Option.bind_some, histLoop_refs _ _ f1 _ _ (fun r hr => hv r (List.mem_filter.1 hr).1), Option.bind_some,
    histLoop_refs _ _ f2 _ _ (fun r hr => hv r (List.mem_filter.1 hr).1)]
  simp only [List.nil_append]
  rw [if_neg (by omega)]
  simp only [Bool.false_eq_true, if_false, Option.some.injEq, History.mk.injEq, true_and]
  congr 1
  · conv => rhs; rw [← List.map_id (h.refs.filter (fun r => !r.nutzap))]
    apply List.map_congr_left
    rintro ⟨id, c, n⟩ hr
    have := (List.mem_filter.1 hr).2
    cases n
    · rfl
    · simp at this
  · apply List.map_congr_left
    rintro ⟨id, c, n⟩ hr
    have := (List.mem_filter.1 hr).2
    cases n
    · simp at this
    · rfl

/-- An entry with amount 0 cannot be read back. -/
theorem C91_history_zero_lost (d : Bool) : parseHistory ((historyTags ⟨d, 0, []⟩).1 ++ (historyTags ⟨d, 0, []⟩).2) = none := by
  cases d <;> decide +kernel

example : ∀ r ∈ [(⟨hexEnc (List.replicate 32 7), true, true⟩ : TokenRef), ⟨hexEnc (List.replicate 32 8), false, false⟩], isValid32ByteHex r.eventId = true := by decide +kernel

end GoNostr.Codec
