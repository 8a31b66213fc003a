import Verif.Nips.Codecs
import Mathlib.Data.List.Induction
import Mathlib.Data.List.Forall2
/-!
# C132: live activities (nip53) and inline media metadata (nip92)

`ParseLiveEvent`, `ToHashtags`, `GetHost`, `ParseTags` and `Get`. Times are unix seconds, the zero `time.Time` being second -62135596800 as in `Codecs`. nil and empty
slices are the same, except that `ParseTags` returning nil because of a bad tag is kept apart as `none` in `imetaLoop`. `int` has 64 bits.
-/

set_option autoImplicit false

namespace GoNostr.Live

open GoNostr.Codec

/-! ## nip53 -/

/-- `LiveEvent` (nip53/nip53.go:10-24). -/
structure LiveEvent where
  id : Bytes
  title : Bytes
  summary : Bytes
  image : Bytes
  status : Bytes
  current : Int
  total : Int
  streaming : List Bytes
  recording : List Bytes
  starts : Int
  ends : Int
  participants : List Participant
  hashtags : List Bytes
  relays : List Bytes
  deriving DecidableEq, Repr

/-- `LiveEvent{}`. -/
def LiveEvent.empty : LiveEvent := ⟨[], [], [], [], [], 0, 0, [], [], zeroTime, zeroTime, [], [], []⟩

/-- `i, _ = strconv.Atoi(s)`: 0 for a syntax error, the nearest value for a number out of range. -/
def atoi (s : Bytes) : Int := (parseInt64 s).value

/-- The case "starts", "ends" (nip53/nip53.go:49-61): the inner switch compares `tag[0]` with "start" and "end". -/
def timesCase (l : LiveEvent) (k v : Bytes) : LiveEvent :=
  match parseInt64 v with
  | .ok i => if k = b! "start" then { l with starts := i } else if k = b! "end" then { l with ends := i } else l
  | _ => l

/-- The loop body of `ParseLiveEvent` (nip53/nip53.go:34-88). -/
def liveStep (l : LiveEvent) : List Bytes → LiveEvent
  | k :: v :: rest =>
    if k = b! "d" then { l with id := v }
    else if k = b! "title" then { l with title := v }
    else if k = b! "summary" then { l with summary := v }
    else if k = b! "image" then { l with image := v }
    else if k = b! "status" then { l with status := v }
    else if k = b! "starts" ∨ k = b! "ends" then timesCase l k v
    else if k = b! "streaming" then { l with streaming := l.streaming ++ [v] }
    else if k = b! "recording" then { l with recording := l.recording ++ [v] }
    else if k = b! "p" then (if isValid32ByteHex v then { l with participants := l.participants ++ [partOf (k :: v :: rest)] } else l)
    else if k = b! "relays" then { l with relays := l.relays ++ [v] }
    else if k = b! "t" then { l with hashtags := l.hashtags ++ [v] }
    else if k = b! "current_participants" then { l with current := atoi v }
    else if k = b! "total_participants" then { l with total := atoi v }
    else l
  | _ => l

/-- `ParseLiveEvent` (nip53/nip53.go:32-90). -/
def parseLive (tags : List (List Bytes)) : LiveEvent := tags.foldl liveStep LiveEvent.empty

/-- `GetHost` (nip53/nip53.go:92-99). -/
def getHost (l : LiveEvent) : Option Participant := l.participants.find? (fun p => p.role = b! "host")

/-- `ToHashtags` (nip53/nip53.go:101-137). -/
def liveTags (l : LiveEvent) : List (List Bytes) :=
  [[b! "d", l.id]] ++ [[b! "title", l.title]] ++ (if l.image = [] then [] else [[b! "image", l.title]]) ++
  [[b! "start", fmtInt l.starts]] ++ (if l.ends = zeroTime then [] else [[b! "end", fmtInt l.ends]]) ++
  l.streaming.map (fun x => [b! "streaming", x]) ++ l.recording.map (fun x => [b! "recording", x]) ++
  l.participants.map (fun p => [b! "p", p.pubkey, p.relay, p.role]) ++ l.hashtags.map (fun x => [b! "t", x]) ++
  (if l.current = 0 then [] else [[b! "current_participants", fmtInt l.current]]) ++
  (if l.total = 0 then [] else [[b! "total_participants", fmtInt l.total]]) ++
  l.relays.map (fun x => [b! "relay", x])

/-! ### Specification: what the tags say, field by field -/

/-- The values of the tags with a name, in order. -/
def valuesOf (k : Bytes) : List (List Bytes) → List Bytes
  | (k' :: v :: _) :: rest => if k' = k then v :: valuesOf k rest else valuesOf k rest
  | _ :: rest => valuesOf k rest
  | [] => []

/-- The last value, or empty. -/
def lastValue (k : Bytes) (tags : List (List Bytes)) : Bytes := (valuesOf k tags).getLastD []

/-- The participants: tags "p" with a valid key. -/
def peopleOf : List (List Bytes) → List Participant
  | (k :: pk :: rest) :: tags =>
    if k = b! "p" ∧ isValid32ByteHex pk = true then ⟨pk, rest.getD 0 [], rest.getD 1 []⟩ :: peopleOf tags else peopleOf tags
  | _ :: tags => peopleOf tags
  | [] => []

/-- The number in the last such tag; 0 without one. -/
def lastNumber (k : Bytes) (tags : List (List Bytes)) : Int := ((valuesOf k tags).getLast?.map atoi).getD 0

theorem valuesOf_append (k : Bytes) : ∀ a b, valuesOf k (a ++ b) = valuesOf k a ++ valuesOf k b
  | [], b => by simp [valuesOf]
  | (k' :: v :: _) :: a, b => by
    simp only [List.cons_append, valuesOf]
    split <;> simp [valuesOf_append k a b]
  | [_] :: a, b => by simp [valuesOf, valuesOf_append k a b]
  | [] :: a, b => by simp [valuesOf, valuesOf_append k a b]

theorem peopleOf_append : ∀ a b, peopleOf (a ++ b) = peopleOf a ++ peopleOf b
  | [], b => by simp [peopleOf]
  | (k' :: v :: _) :: a, b => by
    simp only [List.cons_append, peopleOf]
    split <;> simp [peopleOf_append a b]
  | [_] :: a, b => by simp [peopleOf, peopleOf_append a b]
  | [] :: a, b => by simp [peopleOf, peopleOf_append a b]

theorem partOf_eq (k v : Bytes) (rest : List Bytes) : partOf (k :: v :: rest) = ⟨v, rest.getD 0 [], rest.getD 1 []⟩ := by
  match rest with
  | [] => rfl
  | [a] => rfl
  | a :: b :: t => rfl

/-- **C132 (live activity).** What `ParseLiveEvent` makes of any tags: every text field is the value of the last tag with its name, every list the values of all of them
in order, the participants are the "p" tags with a valid key, and the numbers are those of the last tag, with 0 for what is no number. The times are never set. -/
theorem C132_live_read (tags : List (List Bytes)) : parseLive tags =
    { id := lastValue (b! "d") tags
      title := lastValue (b! "title") tags
      summary := lastValue (b! "summary") tags
      image := lastValue (b! "image") tags
      status := lastValue (b! "status") tags
      current := lastNumber (b! "current_participants") tags
      total := lastNumber (b! "total_participants") tags
      streaming := valuesOf (b! "streaming") tags
      recording := valuesOf (b! "recording") tags
      starts := zeroTime
      ends := zeroTime
      participants := peopleOf tags
      hashtags := valuesOf (b! "t") tags
      relays := valuesOf (b! "relays") tags } := by
  induction tags using List.reverseRecOn with
  | nil => rfl
  | append_singleton tags tag ih =>
    have e : parseLive (tags ++ [tag]) = liveStep (parseLive tags) tag := by simp [parseLive]
    rw [e, ih]
    simp only [lastValue, lastNumber, valuesOf_append, peopleOf_append]
    match tag with
    | [] => simp [liveStep, valuesOf, peopleOf]
    | [a] => simp [liveStep, valuesOf, peopleOf]
    | k :: v :: rest =>
      simp only [liveStep, valuesOf, peopleOf, partOf_eq, timesCase]
      by_cases h1 : k = b! "d"
      · subst h1; simp
      by_cases h2 : k = b! "title"
      · subst h2; simp
      by_cases h3 : k = b! "summary"
      · subst h3; simp
      by_cases h4 : k = b! "image"
      · subst h4; simp
      by_cases h5 : k = b! "status"
      · subst h5; simp
      by_cases h6 : k = b! "starts"
      · subst h6; simp; split <;> rfl
      by_cases h7 : k = b! "ends"
      · subst h7; simp; split <;> rfl
      by_cases h8 : k = b! "streaming"
      · subst h8; simp
      by_cases h9 : k = b! "recording"
      · subst h9; simp
      by_cases h10 : k = b! "p"
      · subst h10
        by_cases hv : isValid32ByteHex v = true <;> simp [hv]
      by_cases h11 : k = b! "relays"
      · subst h11; simp
      by_cases h12 : k = b! "t"
      · subst h12; simp
      by_cases h13 : k = b! "current_participants"
      · subst h13; simp
      by_cases h14 : k = b! "total_participants"
      · subst h14; simp
      simp [h1, h2, h3, h4, h5, h6, h7, h8, h9, h10, h11, h12, h13, h14]

/-- **C132 (the host).** The host is the first participant with a valid key and the role "host". -/
theorem C132_host (tags : List (List Bytes)) (p : Participant) : getHost (parseLive tags) = some p ↔
    ∃ before after, peopleOf tags = before ++ p :: after ∧ p.role = b! "host" ∧ ∀ q ∈ before, q.role ≠ b! "host" := by
  rw [C132_live_read, getHost, List.find?_eq_some_iff_append]
  constructor
  · rintro ⟨h, a, b, e, h2⟩
    exact ⟨a, b, e, by simpa using h, fun q hq => by simpa using h2 q hq⟩
  · rintro ⟨a, b, e, h, h2⟩
    exact ⟨by simpa using h, a, b, e, fun q hq => by simpa using h2 q hq⟩

theorem C132_no_host (tags : List (List Bytes)) : getHost (parseLive tags) = none ↔ ∀ p ∈ peopleOf tags, p.role ≠ b! "host" := by
  rw [C132_live_read, getHost]
  simp

theorem valuesOf_map_same (k : Bytes) (l : List Bytes) : valuesOf k (l.map (fun x => [k, x])) = l := by
  induction l with
  | nil => rfl
  | cons a l ih => simp [valuesOf, ih]

theorem valuesOf_map_other (k k' : Bytes) (h : k' ≠ k) (l : List Bytes) : valuesOf k (l.map (fun x => [k', x])) = [] := by
  induction l with
  | nil => rfl
  | cons a l ih => simp [valuesOf, ih, h]

theorem valuesOf_people (k : Bytes) (h : b! "p" ≠ k) (l : List Participant) : valuesOf k (l.map (fun p => [b! "p", p.pubkey, p.relay, p.role])) = [] := by
  induction l with
  | nil => rfl
  | cons a l ih => simp only [List.map_cons, valuesOf, if_neg h, ih]

theorem peopleOf_people (l : List Participant) :
    peopleOf (l.map (fun p => [b! "p", p.pubkey, p.relay, p.role])) = l.filter (fun p => isValid32ByteHex p.pubkey) := by
  induction l with
  | nil => rfl
  | cons a l ih =>
    by_cases h : isValid32ByteHex a.pubkey = true <;> simp [peopleOf, h, ih]

theorem peopleOf_other (k' : Bytes) (h : k' ≠ b! "p") (l : List Bytes) : peopleOf (l.map (fun x => [k', x])) = [] := by
  induction l with
  | nil => rfl
  | cons a l ih => simp [peopleOf, ih, h]

theorem atoi_fmtInt (i : Int) (h : -(2 ^ 63) ≤ i ∧ i < 2 ^ 63) : atoi (fmtInt i) = i := by
  rw [atoi, parseInt64_fmtInt h.1 h.2]; rfl

/-- **C132 (round trip), what survives.** Writing a live activity as tags and reading them back keeps the identifier, the title, the streaming and recording addresses, the
hashtags, the two numbers and the participants with a valid key. The summary, the status, the times and the relays are lost, and the image becomes the title. -/
theorem C132_live_round_trip_partial (l : LiveEvent) (hc : -(2 ^ 63) ≤ l.current ∧ l.current < 2 ^ 63) (ht : -(2 ^ 63) ≤ l.total ∧ l.total < 2 ^ 63) :
    parseLive (liveTags l) = { l with
      summary := []
      status := []
      image := if l.image = [] then [] else l.title
      starts := zeroTime
      ends := zeroTime
      relays := []
      participants := l.participants.filter (fun p => isValid32ByteHex p.pubkey) } := by
  rw [C132_live_read]
  have v1 : ∀ (c : Prop) [Decidable c] (k k' v : Bytes), valuesOf k (if c then [] else [[k', v]]) = if ¬ c ∧ k' = k then [v] else [] := by
    intro c _ k k' v
    by_cases h : c <;> by_cases h' : k' = k <;> simp [h, h', valuesOf]
  have v2 : ∀ (c : Prop) [Decidable c] (k' v : Bytes), k' ≠ b! "p" → peopleOf (if c then [] else [[k', v]]) = [] := by
    intro c _ k' v h'
    by_cases h : c <;> simp [h, h', peopleOf]
  have v3 : ∀ (k' v : Bytes), k' ≠ b! "p" → peopleOf [[k', v]] = [] := by
    intro k' v h; simp [peopleOf, h]
  have w : ∀ k, valuesOf k (liveTags l) =
      (if b! "d" = k then [l.id] else []) ++ (if b! "title" = k then [l.title] else []) ++ (if ¬ l.image = [] ∧ b! "image" = k then [l.title] else []) ++
      (if b! "start" = k then [fmtInt l.starts] else []) ++ (if ¬ l.ends = zeroTime ∧ b! "end" = k then [fmtInt l.ends] else []) ++
      valuesOf k (l.streaming.map (fun x => [b! "streaming", x])) ++ valuesOf k (l.recording.map (fun x => [b! "recording", x])) ++
      valuesOf k (l.participants.map (fun p => [b! "p", p.pubkey, p.relay, p.role])) ++ valuesOf k (l.hashtags.map (fun x => [b! "t", x])) ++
      (if ¬ l.current = 0 ∧ b! "current_participants" = k then [fmtInt l.current] else []) ++
      (if ¬ l.total = 0 ∧ b! "total_participants" = k then [fmtInt l.total] else []) ++
      valuesOf k (l.relays.map (fun x => [b! "relay", x])) := by
    intro k
    simp only [liveTags, valuesOf_append, v1]
    simp only [valuesOf]
  have wp : peopleOf (liveTags l) = l.participants.filter (fun p => isValid32ByteHex p.pubkey) := by
    simp only [liveTags, peopleOf_append]
    rw [v3 _ _ (by decide), v3 _ _ (by decide), v3 _ _ (by decide), v2 _ _ _ (by decide), v2 _ _ _ (by decide), v2 _ _ _ (by decide), v2 _ _ _ (by decide),
      peopleOf_other _ (by decide), peopleOf_other _ (by decide), peopleOf_other _ (by decide), peopleOf_other _ (by decide), peopleOf_people]
    simp
  have hstr : valuesOf (b! "streaming") (liveTags l) = l.streaming := by
    rw [w, valuesOf_map_same, valuesOf_map_other _ _ (by decide), valuesOf_people _ (by decide), valuesOf_map_other _ _ (by decide), valuesOf_map_other _ _ (by decide)]
    simp
  have hrec : valuesOf (b! "recording") (liveTags l) = l.recording := by
    rw [w, valuesOf_map_same, valuesOf_map_other _ _ (by decide), valuesOf_people _ (by decide), valuesOf_map_other _ _ (by decide), valuesOf_map_other _ _ (by decide)]
    simp
  have hhash : valuesOf (b! "t") (liveTags l) = l.hashtags := by
    rw [w, valuesOf_map_same, valuesOf_map_other _ _ (by decide), valuesOf_people _ (by decide), valuesOf_map_other _ _ (by decide), valuesOf_map_other _ _ (by decide)]
    simp
  have gen : ∀ k, b! "streaming" ≠ k → b! "recording" ≠ k → b! "p" ≠ k → b! "t" ≠ k → b! "relay" ≠ k → valuesOf k (liveTags l) =
      (if b! "d" = k then [l.id] else []) ++ (if b! "title" = k then [l.title] else []) ++ (if ¬ l.image = [] ∧ b! "image" = k then [l.title] else []) ++
      (if b! "start" = k then [fmtInt l.starts] else []) ++ (if ¬ l.ends = zeroTime ∧ b! "end" = k then [fmtInt l.ends] else []) ++
      (if ¬ l.current = 0 ∧ b! "current_participants" = k then [fmtInt l.current] else []) ++
      (if ¬ l.total = 0 ∧ b! "total_participants" = k then [fmtInt l.total] else []) := by
    intro k a1 a2 a3 a4 a5
    rw [w, valuesOf_map_other _ _ a1, valuesOf_map_other _ _ a2, valuesOf_people _ a3, valuesOf_map_other _ _ a4, valuesOf_map_other _ _ a5]
    simp
  rw [hstr, hrec, hhash, wp]
  simp only [lastValue, lastNumber]
  rw [gen (b! "d") (by decide) (by decide) (by decide) (by decide) (by decide), gen (b! "title") (by decide) (by decide) (by decide) (by decide) (by decide),
    gen (b! "summary") (by decide) (by decide) (by decide) (by decide) (by decide), gen (b! "image") (by decide) (by decide) (by decide) (by decide) (by decide),
    gen (b! "status") (by decide) (by decide) (by decide) (by decide) (by decide), gen (b! "relays") (by decide) (by decide) (by decide) (by decide) (by decide),
    gen (b! "current_participants") (by decide) (by decide) (by decide) (by decide) (by decide),
    gen (b! "total_participants") (by decide) (by decide) (by decide) (by decide) (by decide)]
  congr 1
  all_goals first
    | (by_cases h : l.image = [] <;> simp [h]; done)
    | (by_cases h : l.current = 0 <;> simp [h, atoi_fmtInt _ hc]; done)
    | (by_cases h : l.total = 0 <;> simp [h, atoi_fmtInt _ ht]; done)

example : (-(2 ^ 63) : Int) ≤ 5 ∧ (5 : Int) < 2 ^ 63 := by decide

/-- **C132 refuted (times).** Whatever the tags say, a live activity has no start and no end. -/
theorem C132_times_never_read (tags : List (List Bytes)) : (parseLive tags).starts = zeroTime ∧ (parseLive tags).ends = zeroTime := by
  rw [C132_live_read]; exact ⟨rfl, rfl⟩

/-- **C132 refuted (round trip).** A live activity with a summary, a status, an image, times and a relay loses all of them. -/
theorem C132_live_lost :
    let l : LiveEvent := ⟨b! "id", b! "title", b! "sum", b! "https://img", b! "live", 3, 7, [b! "https://s"], [], 5, 6, [], [], [b! "wss://r"]⟩
    parseLive (liveTags l) = ⟨b! "id", b! "title", [], b! "title", [], 3, 7, [b! "https://s"], [], zeroTime, zeroTime, [], [], []⟩ ∧
    (parseLive [[b! "starts", b! "1700000000"], [b! "ends", b! "1700000001"]]).starts = zeroTime := by decide +kernel

/-! ## nip92 -/

/-- `IMetaEntry` (nip92/imeta.go:21-27). -/
structure Entry where
  url : Bytes
  blurhash : Bytes
  width : Int
  height : Int
  alt : Bytes
  deriving DecidableEq, Repr

/-- The zero value. -/
def Entry.empty : Entry := ⟨[], [], 0, 0, []⟩

/-- `strings.Index(s, c)` and the two parts around it. -/
def cut (c : UInt8) : Bytes → Option (Bytes × Bytes)
  | [] => none
  | x :: xs => if x = c then some ([], xs) else (cut c xs).map (fun r => (x :: r.1, r.2))

/-- `strconv.Atoi`, `none` for an error. -/
def atoi? (s : Bytes) : Option Int := match parseInt64 s with
  | .ok i => some i
  | _ => none

/-- The loop over the items of a tag (nip92/imeta.go:34-66); `none` is `return nil`. -/
def itemsLoop : List Bytes → Entry → Option Entry
  | [], e => some e
  | item :: rest, e =>
    match cut 32 item with
    | none => itemsLoop rest e
    | some (k, v) =>
      if k = b! "url" then itemsLoop rest { e with url := v }
      else if k = b! "alt" then itemsLoop rest { e with alt := v }
      else if k = b! "blurhash" then itemsLoop rest { e with blurhash := v }
      else if k = b! "dim" then
        match cut 120 v with
        | none => none
        | some (xs, ys) =>
          match atoi? xs with
          | none => none
          | some x =>
            match atoi? ys with
            | none => none
            | some y => itemsLoop rest { e with width := x, height := y }
      else itemsLoop rest e

/-- The loop over the tags (nip92/imeta.go:31-75). -/
def imetaLoop : List (List Bytes) → List Entry → Option (List Entry)
  | [], acc => some acc
  | tag :: rest, acc =>
    match tag with
    | k :: items =>
      if (k :: items).length > 2 ∧ k = b! "imeta" then
        match itemsLoop items Entry.empty with
        | none => none
        | some e => imetaLoop rest (acc ++ [e])
      else imetaLoop rest acc
    | [] => imetaLoop rest acc

/-- `ParseTags` (nip92/imeta.go:29-77). -/
def parseTags (tags : List (List Bytes)) : List Entry := (imetaLoop tags []).getD []

/-- `Get` (nip92/imeta.go:12-19). -/
def get (l : List Entry) (url : Bytes) : Option Entry := l.find? (fun e => e.url = url)

/-! ### Specification -/

/-- The item is `k`, a space and `v`; neither the key has a space in it. -/
def IsItem (item k v : Bytes) : Prop := item = k ++ 32 :: v ∧ (32 : UInt8) ∉ k

/-- `v` are dimensions: two numbers around the first `x`. -/
def IsDim (v : Bytes) (w h : Int) : Prop := ∃ a b, v = a ++ 120 :: b ∧ (120 : UInt8) ∉ a ∧ parseInt64 a = .ok w ∧ parseInt64 b = .ok h

/-- The dimensions in an item can be read, if it is one about dimensions. -/
def ItemOk (item : Bytes) : Prop := ∀ v, IsItem item (b! "dim") v → ∃ w h, IsDim v w h

/-- A tag that counts. -/
def IsMeta (tag : List Bytes) : Prop := tag.length > 2 ∧ tag.head? = some (b! "imeta")

instance (tag : List Bytes) : Decidable (IsMeta tag) := inferInstanceAs (Decidable (_ ∧ _))

/-- Text `v` is what the items say under the name `k`: that of the last item with that name, or empty. -/
def TextOf (items : List Bytes) (k v : Bytes) : Prop :=
  (∃ a i b, items = a ++ i :: b ∧ IsItem i k v ∧ ∀ j ∈ b, ∀ v', ¬ IsItem j k v') ∨ (v = [] ∧ ∀ j ∈ items, ∀ v', ¬ IsItem j k v')

/-- and for the dimensions. -/
def DimOf (items : List Bytes) (w h : Int) : Prop :=
  (∃ a i b v, items = a ++ i :: b ∧ IsItem i (b! "dim") v ∧ IsDim v w h ∧ ∀ j ∈ b, ∀ v', ¬ IsItem j (b! "dim") v') ∨
    (w = 0 ∧ h = 0 ∧ ∀ j ∈ items, ∀ v', ¬ IsItem j (b! "dim") v')

/-- An entry says what the items of its tag say. -/
def Says (items : List Bytes) (e : Entry) : Prop :=
  TextOf items (b! "url") e.url ∧ TextOf items (b! "alt") e.alt ∧ TextOf items (b! "blurhash") e.blurhash ∧ DimOf items e.width e.height

theorem cut_some {c : UInt8} {s a b : Bytes} : cut c s = some (a, b) ↔ s = a ++ c :: b ∧ c ∉ a := by
  induction s generalizing a b with
  | nil => simp [cut]
  | cons x xs ih =>
    unfold cut
    by_cases h : x = c
    · rw [if_pos h]
      constructor
      · intro he
        injection he with he; injection he with h1 h2
        subst h1; subst h2; simp [h]
      · rintro ⟨h1, h2⟩
        cases a with
        | nil => simp at h1; simp [h1.2]
        | cons y ys =>
          simp only [List.cons_append, List.cons.injEq] at h1
          exact absurd (by rw [← h1.1, h]; simp) h2
    · rw [if_neg h]
      constructor
      · intro he
        cases hc : cut c xs with
        | none => simp [hc] at he
        | some r =>
          obtain ⟨r1, r2⟩ := r
          rw [hc] at he
          simp only [Option.map_some, Option.some.injEq, Prod.mk.injEq] at he
          obtain ⟨h1, h2⟩ := ih.1 hc
          rw [← he.1, ← he.2, h1]
          exact ⟨rfl, by simp [h2]; exact fun e => h e.symm⟩
      · rintro ⟨h1, h2⟩
        cases a with
        | nil => simp at h1; exact absurd h1.1 h
        | cons y ys =>
          simp only [List.cons_append, List.cons.injEq] at h1
          have : cut c xs = some (ys, b) := ih.2 ⟨h1.2, fun hm => h2 (List.mem_cons_of_mem _ hm)⟩
          rw [this, h1.1]; rfl

theorem cut_none {c : UInt8} {s : Bytes} : cut c s = none ↔ c ∉ s := by
  induction s with
  | nil => simp [cut]
  | cons x xs ih =>
    unfold cut
    by_cases h : x = c
    · simp [h]
    · rw [if_neg h]
      simp [ih, show ¬ c = x from fun e => h e.symm]

theorem isItem_iff {item k v : Bytes} : IsItem item k v ↔ cut 32 item = some (k, v) := by rw [cut_some]; rfl

theorem isDim_iff {v : Bytes} {w h : Int} : IsDim v w h ↔ ∃ a b, cut 120 v = some (a, b) ∧ atoi? a = some w ∧ atoi? b = some h := by
  have key : ∀ s (i : Int), atoi? s = some i ↔ parseInt64 s = .ok i := by
    intro s i
    unfold atoi?
    cases parseInt64 s <;> simp
  simp only [IsDim, cut_some, key, and_assoc]

theorem textOf_nil (k : Bytes) : TextOf [] k [] := Or.inr ⟨rfl, by simp⟩

theorem textOf_snoc_hit {items : List Bytes} {i k v : Bytes} (h : IsItem i k v) : TextOf (items ++ [i]) k v := Or.inl ⟨items, i, [], rfl, h, by simp⟩

theorem textOf_snoc_miss {items : List Bytes} {i k v : Bytes} (h : ∀ v', ¬ IsItem i k v') (ht : TextOf items k v) : TextOf (items ++ [i]) k v := by
  rcases ht with ⟨a, j, b, e, hj, hb⟩ | ⟨e, hj⟩
  · refine Or.inl ⟨a, j, b ++ [i], by simp [e], hj, ?_⟩
    intro x hx; rw [List.mem_append, List.mem_singleton] at hx
    rcases hx with hx | rfl
    · exact hb x hx
    · exact h
  · refine Or.inr ⟨e, ?_⟩
    intro x hx; rw [List.mem_append, List.mem_singleton] at hx
    rcases hx with hx | rfl
    · exact hj x hx
    · exact h

theorem dimOf_snoc_miss {items : List Bytes} {i : Bytes} {w h : Int} (hi : ∀ v', ¬ IsItem i (b! "dim") v') (ht : DimOf items w h) : DimOf (items ++ [i]) w h := by
  rcases ht with ⟨a, j, b, v, e, hj, hd, hb⟩ | ⟨e1, e2, hj⟩
  · refine Or.inl ⟨a, j, b ++ [i], v, by simp [e], hj, hd, ?_⟩
    intro x hx; rw [List.mem_append, List.mem_singleton] at hx
    rcases hx with hx | rfl
    · exact hb x hx
    · exact hi
  · refine Or.inr ⟨e1, e2, ?_⟩
    intro x hx; rw [List.mem_append, List.mem_singleton] at hx
    rcases hx with hx | rfl
    · exact hj x hx
    · exact hi

/-- The loop over items keeps to what the items read so far say. -/
theorem itemsLoop_spec : ∀ (rest seen : List Bytes) (e : Entry), Says seen e →
    (∀ i ∈ rest, ItemOk i) → ∃ e', itemsLoop rest e = some e' ∧ Says (seen ++ rest) e'
  | [], seen, e, hs, _ => ⟨e, rfl, by simpa using hs⟩
  | item :: rest, seen, e, hs, hok => by
    have next : ∀ e2, Says (seen ++ [item]) e2 → ∃ e', itemsLoop rest e2 = some e' ∧ Says (seen ++ item :: rest) e' := by
      intro e2 h2
      obtain ⟨e', h3, h4⟩ := itemsLoop_spec rest (seen ++ [item]) e2 h2 (fun i hi => hok i (List.mem_cons_of_mem _ hi))
      exact ⟨e', h3, by simpa using h4⟩
    obtain ⟨s1, s2, s3, s4⟩ := hs
    unfold itemsLoop
    cases hc : cut 32 item with
    | none =>
      have miss : ∀ k v', ¬ IsItem item k v' := fun k v' h => by rw [isItem_iff, hc] at h; cases h
      exact next e ⟨textOf_snoc_miss (miss _) s1, textOf_snoc_miss (miss _) s2, textOf_snoc_miss (miss _) s3, dimOf_snoc_miss (miss _) s4⟩
    | some kv =>
      obtain ⟨k, v⟩ := kv
      have hit : IsItem item k v := isItem_iff.2 hc
      have miss : ∀ k', k' ≠ k → ∀ v', ¬ IsItem item k' v' := fun k' hk v' h => by
        rw [isItem_iff, hc] at h; injection h with h; injection h with h; exact hk h.symm
      simp only
      by_cases h1 : k = b! "url"
      · rw [if_pos h1]; subst h1
        exact next _ ⟨textOf_snoc_hit hit, textOf_snoc_miss (miss _ (by decide)) s2, textOf_snoc_miss (miss _ (by decide)) s3, dimOf_snoc_miss (miss _ (by decide)) s4⟩
      rw [if_neg h1]
      by_cases h2 : k = b! "alt"
      · rw [if_pos h2]; subst h2
        exact next _ ⟨textOf_snoc_miss (miss _ (by decide)) s1, textOf_snoc_hit hit, textOf_snoc_miss (miss _ (by decide)) s3, dimOf_snoc_miss (miss _ (by decide)) s4⟩
      rw [if_neg h2]
      by_cases h3 : k = b! "blurhash"
      · rw [if_pos h3]; subst h3
        exact next _ ⟨textOf_snoc_miss (miss _ (by decide)) s1, textOf_snoc_miss (miss _ (by decide)) s2, textOf_snoc_hit hit, dimOf_snoc_miss (miss _ (by decide)) s4⟩
      rw [if_neg h3]
      by_cases h4 : k = b! "dim"
      · rw [if_pos h4]; subst h4
        obtain ⟨w, h, hd⟩ := hok item (by simp) v hit
        obtain ⟨a, b, c1, c2, c3⟩ := isDim_iff.1 hd
        rw [c1]; simp only [c2, c3]
        exact next _ ⟨textOf_snoc_miss (miss _ (by decide)) s1, textOf_snoc_miss (miss _ (by decide)) s2, textOf_snoc_miss (miss _ (by decide)) s3,
          Or.inl ⟨seen, item, [], v, rfl, hit, hd, by simp⟩⟩
      rw [if_neg h4]
      exact next e ⟨textOf_snoc_miss (miss _ (Ne.symm h1)) s1, textOf_snoc_miss (miss _ (Ne.symm h2)) s2, textOf_snoc_miss (miss _ (Ne.symm h3)) s3,
        dimOf_snoc_miss (miss _ (Ne.symm h4)) s4⟩

theorem itemsLoop_ok : ∀ (items : List Bytes) (e e' : Entry), itemsLoop items e = some e' → ∀ i ∈ items, ItemOk i
  | [], _, _, _, i, hi => by cases hi
  | item :: rest, e, e', h, i, hi => by
    have next : ∀ e2, itemsLoop rest e2 = some e' → ItemOk item → ItemOk i := by
      intro e2 h2 h3
      rcases List.mem_cons.1 hi with rfl | hi
      · exact h3
      · exact itemsLoop_ok rest e2 e' h2 i hi
    unfold itemsLoop at h
    cases hc : cut 32 item with
    | none =>
      rw [hc] at h
      exact next _ h (fun v hv => by rw [isItem_iff, hc] at hv; cases hv)
    | some kv =>
      obtain ⟨k, v⟩ := kv
      rw [hc] at h
      simp only at h
      have triv : k ≠ b! "dim" → ItemOk item := fun hk v' hv => by
        rw [isItem_iff, hc] at hv; injection hv with hv; injection hv with hv; exact absurd hv hk
      by_cases h1 : k = b! "url"
      · rw [if_pos h1] at h; exact next _ h (triv (by rw [h1]; decide))
      rw [if_neg h1] at h
      by_cases h2 : k = b! "alt"
      · rw [if_pos h2] at h; exact next _ h (triv (by rw [h2]; decide))
      rw [if_neg h2] at h
      by_cases h3 : k = b! "blurhash"
      · rw [if_pos h3] at h; exact next _ h (triv (by rw [h3]; decide))
      rw [if_neg h3] at h
      by_cases h4 : k = b! "dim"
      · rw [if_pos h4] at h
        cases c1 : cut 120 v with
        | none => rw [c1] at h; cases h
        | some ab =>
          obtain ⟨a, b⟩ := ab
          rw [c1] at h; simp only at h
          cases c2 : atoi? a with
          | none => rw [c2] at h; cases h
          | some x =>
            cases c3 : atoi? b with
            | none => rw [c2, c3] at h; cases h
            | some y =>
              rw [c2, c3] at h
              refine next _ h (fun v' hv => ?_)
              rw [isItem_iff, hc] at hv; injection hv with hv; injection hv with hv1 hv2
              subst hv2
              exact ⟨x, y, isDim_iff.2 ⟨a, b, c1, c2, c3⟩⟩
      rw [if_neg h4] at h
      exact next _ h (triv h4)

/-- The items of a tag say exactly one thing. -/
theorem textOf_unique {items : List Bytes} {k v v' : Bytes} (h : TextOf items k v) (h' : TextOf items k v') : v = v' := by
  induction items using List.reverseRecOn generalizing v v' with
  | nil =>
    rcases h with ⟨a, i, b, e, _⟩ | ⟨e, _⟩
    · simp at e
    rcases h' with ⟨a, i, b, e', _⟩ | ⟨e', _⟩
    · simp at e'
    rw [e, e']
  | append_singleton items x ih =>
    have step : ∀ u, TextOf (items ++ [x]) k u → IsItem x k u ∨ (∀ u', ¬ IsItem x k u') ∧ TextOf items k u := by
      rintro u (⟨a, i, b, e, hi, hb⟩ | ⟨e, hj⟩)
      · rcases List.eq_nil_or_concat b with rfl | ⟨b', y, rfl⟩
        · have := List.append_inj' e rfl
          simp at this; left; rw [this.2]; exact hi
        · have e2 : items ++ [x] = (a ++ i :: b') ++ [y] := by simpa using e
          obtain ⟨e3, e4⟩ := List.append_inj' e2 rfl
          simp at e4; subst e4
          exact Or.inr ⟨hb x (by simp), Or.inl ⟨a, i, b', e3, hi, fun j hj => hb j (by simp [hj])⟩⟩
      · exact Or.inr ⟨hj x (by simp), Or.inr ⟨e, fun j hj' => hj j (by simp [hj'])⟩⟩
    rcases step v h with a | ⟨a1, a2⟩ <;> rcases step v' h' with b | ⟨b1, b2⟩
    · rw [isItem_iff] at a b; rw [a] at b; injection b with b; injection b
    · exact absurd a (b1 v)
    · exact absurd b (a1 v')
    · exact ih a2 b2

theorem dimOf_unique {items : List Bytes} {w h w' h' : Int} (hd : DimOf items w h) (hd' : DimOf items w' h') : w = w' ∧ h = h' := by
  have dimInj : ∀ {v w h w' h'}, IsDim v w h → IsDim v w' h' → w = w' ∧ h = h' := by
    intro v w h w' h' a b
    obtain ⟨a1, a2, a3, a4, a5⟩ := isDim_iff.1 a
    obtain ⟨b1, b2, b3, b4, b5⟩ := isDim_iff.1 b
    rw [a3] at b3; injection b3 with b3; injection b3 with b31 b32
    subst b31; subst b32
    rw [a4] at b4; rw [a5] at b5
    exact ⟨by injection b4, by injection b5⟩
  have key : ∀ {w h}, DimOf items w h → (∃ v, TextOf items (b! "dim") v ∧ IsDim v w h) ∨ (w = 0 ∧ h = 0 ∧ ∀ j ∈ items, ∀ v', ¬ IsItem j (b! "dim") v') := by
    rintro w h (⟨a, i, b, v, e, hi, hd, hb⟩ | h)
    · exact Or.inl ⟨v, Or.inl ⟨a, i, b, e, hi, hb⟩, hd⟩
    · exact Or.inr h
  have dimEmpty : ∀ {w h}, ¬ IsDim [] w h := by
    rintro w h ⟨a, b, e, _⟩; simp at e
  rcases key hd with ⟨v, t, d⟩ | ⟨e1, e2, n⟩ <;> rcases key hd' with ⟨v', t', d'⟩ | ⟨e1', e2', n'⟩
  · rw [textOf_unique t t'] at d; exact dimInj d d'
  · rcases t with ⟨a, i, b, e, hi, _⟩ | ⟨e, _⟩
    · exact absurd hi (n' i (by simp [e]) v)
    · subst e; exact absurd d dimEmpty
  · rcases t' with ⟨a, i, b, e, hi, _⟩ | ⟨e, _⟩
    · exact absurd hi (n i (by simp [e]) v')
    · subst e; exact absurd d' dimEmpty
  · exact ⟨e1.trans e1'.symm, e2.trans e2'.symm⟩

theorem says_unique {items : List Bytes} {e e' : Entry} (h : Says items e) (h' : Says items e') : e = e' := by
  obtain ⟨a1, a2, a3, a4⟩ := h
  obtain ⟨b1, b2, b3, b4⟩ := h'
  obtain ⟨u, bl, w, ht, al⟩ := e
  obtain ⟨u', bl', w', ht', al'⟩ := e'
  simp only at a1 a2 a3 a4 b1 b2 b3 b4
  obtain ⟨c1, c2⟩ := dimOf_unique a4 b4
  rw [textOf_unique a1 b1, textOf_unique a2 b2, textOf_unique a3 b3, c1, c2]

/-- The tags that count are all readable. -/
def AllOk (tags : List (List Bytes)) : Prop := ∀ tag ∈ tags, IsMeta tag → ∀ i ∈ tag.tail, ItemOk i

theorem says_nil : Says [] Entry.empty := ⟨textOf_nil _, textOf_nil _, textOf_nil _, Or.inr ⟨rfl, rfl, by simp⟩⟩

theorem imetaLoop_spec : ∀ (tags : List (List Bytes)) (acc : List Entry), AllOk tags →
    ∃ es, imetaLoop tags acc = some (acc ++ es) ∧ List.Forall₂ (fun tag e => Says tag.tail e) (tags.filter (fun t => IsMeta t)) es
  | [], acc, _ => ⟨[], by simp [imetaLoop], by simp⟩
  | tag :: rest, acc, h => by
    have hr : AllOk rest := fun t ht => h t (List.mem_cons_of_mem _ ht)
    match tag with
    | [] =>
      obtain ⟨es, h1, h2⟩ := imetaLoop_spec rest acc hr
      exact ⟨es, h1, by simpa [IsMeta] using h2⟩
    | k :: items =>
      unfold imetaLoop
      simp only
      by_cases hc : (k :: items).length > 2 ∧ k = b! "imeta"
      · have hm : IsMeta (k :: items) := ⟨hc.1, by simp [hc.2]⟩
        rw [if_pos hc]
        obtain ⟨e, h1, h2⟩ := itemsLoop_spec items [] Entry.empty says_nil (h (k :: items) (by simp) hm)
        rw [h1]
        obtain ⟨es, h3, h4⟩ := imetaLoop_spec rest (acc ++ [e]) hr
        refine ⟨e :: es, by simp [h3], ?_⟩
        rw [List.filter_cons_of_pos (by simpa using hm)]
        exact List.Forall₂.cons (by simpa using h2) h4
      · rw [if_neg hc]
        obtain ⟨es, h3, h4⟩ := imetaLoop_spec rest acc hr
        refine ⟨es, h3, ?_⟩
        rw [List.filter_cons_of_neg]
        · exact h4
        · intro hm
          have hm : IsMeta (k :: items) := by simpa using hm
          exact hc ⟨hm.1, by simpa using hm.2⟩

theorem imetaLoop_ok : ∀ (tags : List (List Bytes)) (acc r : List Entry), imetaLoop tags acc = some r → AllOk tags
  | [], _, _, _ => by intro t ht; cases ht
  | tag :: rest, acc, r, h => by
    intro t ht hm
    match tag, h, ht with
    | [], h, ht =>
      rcases List.mem_cons.1 ht with rfl | ht
      · simp [IsMeta] at hm
      · exact imetaLoop_ok rest acc r h t ht hm
    | k :: items, h, ht =>
      unfold imetaLoop at h
      simp only at h
      by_cases hc : (k :: items).length > 2 ∧ k = b! "imeta"
      · rw [if_pos hc] at h
        cases hi : itemsLoop items Entry.empty with
        | none => rw [hi] at h; cases h
        | some e =>
          rw [hi] at h
          rcases List.mem_cons.1 ht with rfl | ht
          · exact itemsLoop_ok items _ _ hi
          · exact imetaLoop_ok rest _ r h t ht hm
      · rw [if_neg hc] at h
        rcases List.mem_cons.1 ht with rfl | ht
        · exact absurd ⟨hm.1, by simpa using hm.2⟩ hc
        · exact imetaLoop_ok rest _ r h t ht hm

theorem forall₂_unique : ∀ {l : List (List Bytes)} {es es' : List Entry}, List.Forall₂ (fun tag e => Says tag.tail e) l es →
    List.Forall₂ (fun tag e => Says tag.tail e) l es' → es = es'
  | [], [], [], _, _ => rfl
  | _ :: _, _ :: _, _ :: _, .cons a b, .cons c d => by rw [says_unique a c, forall₂_unique b d]

/-- **C132 (inline metadata).** If all dimensions in "imeta" tags of more than one item can be read, the result has one entry for each such tag, in their order, and each entry
says what the items of its tag say: the last text given under each name, and the last dimensions. This determines the result. -/
theorem C132_imeta_read (tags : List (List Bytes)) (h : AllOk tags) (es : List Entry) :
    parseTags tags = es ↔ List.Forall₂ (fun tag e => Says tag.tail e) (tags.filter (fun t => IsMeta t)) es := by
  obtain ⟨es', h1, h2⟩ := imetaLoop_spec tags [] h
  have h3 : parseTags tags = es' := by simp [parseTags, h1]
  rw [h3]
  constructor
  · rintro rfl; exact h2
  · intro h4
    exact forall₂_unique h2 h4

/-- **C132 (all or nothing).** If the dimensions in one item of one "imeta" tag cannot be read, there is no metadata at all. -/
theorem C132_imeta_distrust (tags : List (List Bytes)) (tag : List Bytes) (hm : tag ∈ tags) (ht : IsMeta tag) (item v : Bytes) (hi : item ∈ tag.tail)
    (hd : IsItem item (b! "dim") v) (hbad : ∀ w h, ¬ IsDim v w h) : parseTags tags = [] := by
  cases hl : imetaLoop tags [] with
  | none => simp [parseTags, hl]
  | some r =>
    obtain ⟨w, h, hwh⟩ := imetaLoop_ok tags [] r hl tag hm ht item hi v hd
    exact absurd hwh (hbad w h)

/-- **C132 (writing metadata).** A tag written as the document of the format asks reads back as the entry it was written from, whatever the texts are. -/
theorem C132_imeta_round_trip (es : List Entry) (hw : ∀ e ∈ es, (-(2 ^ 63) ≤ e.width ∧ e.width < 2 ^ 63) ∧ (-(2 ^ 63) ≤ e.height ∧ e.height < 2 ^ 63)) :
    parseTags (es.map (fun e => [b! "imeta", b! "url " ++ e.url, b! "blurhash " ++ e.blurhash, b! "dim " ++ (fmtInt e.width ++ 120 :: fmtInt e.height), b! "alt " ++ e.alt])) = es := by
  have key : ∀ (es acc : List Entry), (∀ e ∈ es, (-(2 ^ 63) ≤ e.width ∧ e.width < 2 ^ 63) ∧ (-(2 ^ 63) ≤ e.height ∧ e.height < 2 ^ 63)) →
      imetaLoop (es.map (fun e => [b! "imeta", b! "url " ++ e.url, b! "blurhash " ++ e.blurhash, b! "dim " ++ (fmtInt e.width ++ 120 :: fmtInt e.height), b! "alt " ++ e.alt])) acc =
        some (acc ++ es) := by
    intro es
    induction es with
    | nil => intro acc _; simp [imetaLoop]
    | cons e es ih =>
      intro acc hw
      have hx : (120 : UInt8) ∉ fmtInt e.width := by
        intro hm
        rcases fmtInt_chars _ _ hm with h | h
        · exact absurd h (by decide)
        · exact absurd h (by unfold IsDigitByte; decide)
      have c1 : cut 32 (b! "url " ++ e.url) = some (b! "url", e.url) := cut_some.2 ⟨rfl, by decide⟩
      have c2 : cut 32 (b! "blurhash " ++ e.blurhash) = some (b! "blurhash", e.blurhash) := cut_some.2 ⟨rfl, by decide⟩
      have c3 : cut 32 (b! "dim " ++ (fmtInt e.width ++ 120 :: fmtInt e.height)) = some (b! "dim", fmtInt e.width ++ 120 :: fmtInt e.height) := cut_some.2 ⟨rfl, by decide⟩
      have c4 : cut 32 (b! "alt " ++ e.alt) = some (b! "alt", e.alt) := cut_some.2 ⟨rfl, by decide⟩
      have c5 : cut 120 (fmtInt e.width ++ 120 :: fmtInt e.height) = some (fmtInt e.width, fmtInt e.height) := cut_some.2 ⟨rfl, hx⟩
      obtain ⟨⟨w1, w2⟩, w3, w4⟩ := hw e (by simp)
      have a1 : atoi? (fmtInt e.width) = some e.width := by rw [atoi?, parseInt64_fmtInt w1 w2]
      have a2 : atoi? (fmtInt e.height) = some e.height := by rw [atoi?, parseInt64_fmtInt w3 w4]
      have hi : itemsLoop [b! "url " ++ e.url, b! "blurhash " ++ e.blurhash, b! "dim " ++ (fmtInt e.width ++ 120 :: fmtInt e.height), b! "alt " ++ e.alt] Entry.empty = some e := by
        simp only [itemsLoop, c1, c2, c3, c4, c5, a1, a2]
        rfl
      rw [List.map_cons, imetaLoop]
      simp only
      rw [if_pos ⟨by simp, trivial⟩, hi]
      simp only
      rw [ih _ (fun e he => hw e (List.mem_cons_of_mem _ he))]
      simp
  rw [parseTags, key es [] hw]; simp

/-- **C132 (looking up).** `Get` finds the first entry with that address, if there is one. -/
theorem C132_imeta_get (l : List Entry) (url : Bytes) (e : Entry) :
    (get l url = some e ↔ ∃ a b, l = a ++ e :: b ∧ e.url = url ∧ ∀ x ∈ a, x.url ≠ url) ∧ (get l url = none ↔ ∀ x ∈ l, x.url ≠ url) := by
  constructor
  · rw [get, List.find?_eq_some_iff_append]
    constructor
    · rintro ⟨h, a, b, e, h2⟩
      exact ⟨a, b, e, by simpa using h, fun q hq => by simpa using h2 q hq⟩
    · rintro ⟨a, b, e, h, h2⟩
      exact ⟨by simpa using h, a, b, e, fun q hq => by simpa using h2 q hq⟩
  · simp [get]

/-- **C132 refuted (single items, signs).** A tag with only an address is ignored, and sizes may be negative. -/
theorem C132_imeta_odd :
    parseTags [[b! "imeta", b! "url https://a"]] = [] ∧
    parseTags [[b! "imeta", b! "url https://a", b! "dim -3x+4"]] = [⟨b! "https://a", [], -3, 4, []⟩] ∧
    parseTags [[b! "imeta", b! "url https://a", b! "alt a b"], [b! "imeta", b! "url https://b", b! "dim 3"]] = [] := by decide +kernel

example : parseTags [[b! "t", b! "x"], [b! "imeta", b! "url https://a", b! "dim 30x40", b! "alt two words", b! "m image/png", b! "x"]] =
    [⟨b! "https://a", [], 30, 40, b! "two words"⟩] := by decide +kernel

end GoNostr.Live
