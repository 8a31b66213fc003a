import Verif.Helpers.Url
import Verif.Helpers.Theorems
import Verif.Nips.Nip05
import Verif.Nip19.Model
/-!
# C147–C150: relay information (nip11/fetch.go, nip11/types.go), group addresses and kinds (nip29/group.go, nip29/nip29.go), wiki names (nip54/nip54.go), the repository of a patch (nip34/patch.go)
-/

set_option autoImplicit false

namespace GoNostr.Names

/-! ## C147: relay information -/

/-- An entry of `SupportedNIPs []any`: an `int` put there by the program, or what the JSON decoder puts there, numbers as `float64` (here by their value) and texts. -/
inductive Entry where
  | int (n : Int)
  | float (n : Int)
  | text (s : Bytes)
deriving DecidableEq

/-- `AddSupportedNIP` (nip11/types.go:30-37): `n == number` holds for an `int` of that value only. -/
def addNip (l : List Entry) (n : Int) : List Entry := if l.any (fun e => decide (e = .int n)) then l else l ++ [.int n]

/-- `AddSupportedNIPs` (nip11/types.go:39-43). -/
def addNips (l : List Entry) (ns : List Int) : List Entry := ns.foldl addNip l

/-- What `Fetch` works with: `NormalizeURL`, whether `http.NewRequestWithContext` accepts a url, the body the web server sends for it (`none`: no answer), and the JSON decoder. `D` is the
document without its `URL`, which has the tag `json:"-"` and is not touched by the decoder; the decoder gives what it has read up to an error. -/
structure FetchEnv (D : Type) where
  url : Url.Env
  reqOk : Bytes → Bool
  net : Bytes → Option Bytes
  empty : D
  decode : Bytes → D × Bool

/-- `Fetch` (nip11/fetch.go:18-55): the url in the document, the rest of it, and whether the error is nil. The error of `NewRequestWithContext` is ignored, and its nil request used. -/
def fetch {D : Type} (env : FetchEnv D) (u : Bytes) : Out (Bytes × D × Bool) :=
  let n := Url.normalizeURL env.url u
  if n.length < 8 then .val ([], env.empty, false)
  else if ¬ env.reqOk (b! "http" ++ n.drop 2) then .panic
  else match env.net (b! "http" ++ n.drop 2) with
    | none => .val (n, env.empty, false)
    | some body => .val (n, (env.decode body).1, (env.decode body).2)

theorem addNip_mem (l : List Entry) (n : Int) (e : Entry) : e ∈ addNip l n ↔ e ∈ l ∨ e = .int n := by
  unfold addNip
  by_cases h : (l.any (fun e => decide (e = .int n))) = true
  · rw [if_pos h]
    simp only [List.any_eq_true, decide_eq_true_eq] at h
    obtain ⟨x, hx, rfl⟩ := h
    constructor
    · exact .inl
    · rintro (h | rfl) <;> assumption
  · rw [if_neg h]; simp

theorem addNip_prefix (l : List Entry) (n : Int) : l <+: addNip l n := by
  unfold addNip
  split
  · exact List.prefix_rfl
  · exact List.prefix_append _ _

theorem addNip_nodup {l : List Entry} (h : l.Nodup) (n : Int) : (addNip l n).Nodup := by
  unfold addNip
  split
  · exact h
  · next h' =>
    rw [List.nodup_append]
    refine ⟨h, by simp, ?_⟩
    intro a ha b hb hab
    simp only [List.mem_singleton] at hb
    subst hab hb
    exact h' (by simpa using ha)

/-- **C147 (supported NIPs).** Adding numbers keeps what was there, in order, and adds exactly those numbers that were not yet added, none twice. -/
theorem C147_added (l : List Entry) (ns : List Int) : l <+: addNips l ns ∧ (∀ e, e ∈ addNips l ns ↔ e ∈ l ∨ ∃ n ∈ ns, e = .int n) ∧ (l.Nodup → (addNips l ns).Nodup) := by
  induction ns generalizing l with
  | nil => exact ⟨List.prefix_rfl, by simp [addNips], id⟩
  | cons n ns ih =>
    obtain ⟨h1, h2, h3⟩ := ih (addNip l n)
    refine ⟨(addNip_prefix l n).trans h1, ?_, fun h => h3 (addNip_nodup h n)⟩
    intro e
    show e ∈ addNips (addNip l n) ns ↔ _
    rw [h2, addNip_mem]
    simp [or_assoc]

example : addNips [] [1, 11, 1, 42, 11] = [.int 1, .int 11, .int 42] := by decide

/-- **C147 (false: none twice).** Numbers in a document that was fetched are not recognised: adding one that is there adds it again. -/
theorem C147_twice (n : Int) : addNips [.float n] [n] = [.float n, .int n] := by simp [addNips, addNip]

/-- **C147 (fetching).** If the address is long enough and acceptable as a web address, the document always comes with the normalized address of the relay, whatever the server answers, even
along with an error; it has what the server sent, and there is no error exactly if that could be read. -/
theorem C147_fetch {D : Type} (env : FetchEnv D) (u : Bytes) (h8 : 8 ≤ (Url.normalizeURL env.url u).length) (hr : env.reqOk (b! "http" ++ (Url.normalizeURL env.url u).drop 2) = true) :
    ∃ d ok, fetch env u = .val (Url.normalizeURL env.url u, d, ok) ∧ (ok = true ↔ ∃ body, env.net (b! "http" ++ (Url.normalizeURL env.url u).drop 2) = some body ∧ env.decode body = (d, true)) := by
  unfold fetch
  simp only
  rw [if_neg (by omega), if_neg (by simp only [hr]; decide)]
  cases hn : env.net (b! "http" ++ (Url.normalizeURL env.url u).drop 2) with
  | none => exact ⟨_, _, rfl, by simp⟩
  | some body =>
    refine ⟨_, _, rfl, ?_⟩
    constructor
    · intro h; exact ⟨body, rfl, by rw [← h]⟩
    · rintro ⟨b, hb, hd⟩; cases hb; rw [hd]

/-- **C147 (where it asks).** For a relay at a ws or wss address it asks the http or https server at the same place. -/
theorem C147_where (env : Url.Env) (u rest : Bytes) :
    (Url.normalizeURL env u = b! "ws://" ++ rest → b! "http" ++ (Url.normalizeURL env u).drop 2 = b! "http://" ++ rest) ∧
    (Url.normalizeURL env u = b! "wss://" ++ rest → b! "http" ++ (Url.normalizeURL env u).drop 2 = b! "https://" ++ rest) := by
  constructor <;> intro h <;> rw [h] <;> rfl

/-- **C147 (false: always an address).** An address that is too short gives a document without it. -/
theorem C147_short {D : Type} (env : FetchEnv D) (u : Bytes) (h : (Url.normalizeURL env.url u).length < 8) : fetch env u = .val ([], env.empty, false) := by
  unfold fetch
  simp [h]

/-- **C147 (false: errors are reported).** It crashes exactly for addresses that are long enough and not acceptable as a web address. -/
theorem C147_crash_iff {D : Type} (env : FetchEnv D) (u : Bytes) : fetch env u = .panic ↔ 8 ≤ (Url.normalizeURL env.url u).length ∧ env.reqOk (b! "http" ++ (Url.normalizeURL env.url u).drop 2) = false := by
  unfold fetch
  simp only
  by_cases h : (Url.normalizeURL env.url u).length < 8
  · rw [if_pos h]; simp; omega
  · rw [if_neg h]
    by_cases hr : env.reqOk (b! "http" ++ (Url.normalizeURL env.url u).drop 2) = true
    · rw [if_neg (by simp only [hr]; decide)]
      rw [hr]
      cases env.net (b! "http" ++ (Url.normalizeURL env.url u).drop 2) <;> simp
    · rw [if_pos hr]
      exact ⟨fun _ => ⟨by omega, by simpa using hr⟩, fun _ => rfl⟩

/-- An address parser that reads everything as a host, and web addresses that may not have spaces. -/
def toyFetch : FetchEnv Bytes where
  url := ⟨fun s => some ⟨b! "wss", s, [], [], []⟩, id, id⟩
  reqOk := fun s => decide ((32 : UInt8) ∉ s)
  net := fun s => if s = b! "https://relay.example" then some (b! "{}") else none
  empty := []
  decode := fun b => (b, true)

example : fetch toyFetch (b! "relay.example") = .val (b! "wss://relay.example", b! "{}", true) := by decide +kernel
example : fetch toyFetch (b! "other.example") = .val (b! "wss://other.example", [], false) := by decide +kernel
example : fetch toyFetch (b! "a") = .val ([], [], false) := by decide +kernel
example : fetch toyFetch (b! "bad relay") = .panic := by decide +kernel

/-- **C147 (false: the relay's own server).** An address with another scheme than ws or wss keeps it when normalized, and then loses its first two letters: another place is asked. -/
theorem C147_odd_scheme : ∃ env : Url.Env, ∃ u, Url.normalizeURL env u = b! "ftp://relay.example" ∧ b! "http" ++ (Url.normalizeURL env u).drop 2 = b! "httpp://relay.example" :=
  ⟨⟨fun s => some ⟨b! "ftp", s, [], [], []⟩, id, id⟩, b! "relay.example", by decide +kernel, by decide +kernel⟩

/-! ## C148: groups: addresses and kinds -/

/-- `GroupAddress` (nip29/group.go:12-15). -/
structure Address where
  relay : Bytes
  id : Bytes
deriving DecidableEq

/-- `ParseGroupAddress` (nip29/group.go:30-36). -/
def parseAddress (env : Url.Env) (raw : Bytes) : Option Address :=
  match Nip05.split 39 raw with
  | [a, b] => some ⟨Url.normalizeURL env a, b⟩
  | _ => none

/-- `GroupAddress.String` (nip29/group.go:17-20); `host`: the `Host` of `url.Parse`, `none` if it fails, when the nil url is used. -/
def addressString (host : Bytes → Option Bytes) (a : Address) : Out Bytes :=
  match host a.relay with
  | none => .panic
  | some h => .val (h ++ 39 :: a.id)

/-- `IsValid` (nip29/group.go:22-24). -/
def addressValid (a : Address) : Bool := decide (a.relay ≠ []) && decide (a.id ≠ [])

/-- The loop of *library* `slices.BinarySearch`; the first argument bounds the steps. -/
def searchLoop (x : List Int) (target : Int) : Nat → Nat → Nat → Nat
  | 0, i, _ => i
  | f + 1, i, j =>
    if i < j then
      let h := (i + j) / 2
      if x.getD h 0 < target then searchLoop x target f (h + 1) j else searchLoop x target f i h
    else i

/-- `KindRange.Includes` (nip29/nip29.go:33-36). -/
def includes (x : List Int) (kind : Int) : Bool :=
  let i := searchLoop x kind x.length 0 x.length
  decide (i < x.length) && decide (x.getD i 0 = kind)

/-- `ModerationEventKinds` (nip29/nip29.go:16-24). -/
def moderationKinds : List Int := [9000, 9001, 9002, 9005, 9007, 9008, 9009]

/-- `MetadataEventKinds` (nip29/nip29.go:26-31). -/
def metadataKinds : List Int := [39000, 39001, 39002, 39003]

theorem searchLoop_spec {x : List Int} {target : Int} (hs : x.Pairwise (· ≤ ·)) : ∀ (f i j : Nat), i ≤ j → j ≤ x.length → j - i ≤ f → (∀ k, k < i → x.getD k 0 < target) →
    (∀ k, j ≤ k → k < x.length → target ≤ x.getD k 0) →
    (∀ k, k < searchLoop x target f i j → x.getD k 0 < target) ∧ (∀ k, searchLoop x target f i j ≤ k → k < x.length → target ≤ x.getD k 0) ∧ searchLoop x target f i j ≤ x.length := by
  have hmono : ∀ a b, a ≤ b → b < x.length → x.getD a 0 ≤ x.getD b 0 := by
    intro a b hab hb
    rcases Nat.lt_or_eq_of_le hab with h | h
    · rw [List.pairwise_iff_getElem] at hs
      have := hs a b (by omega) hb h
      simpa [List.getD, hb, show a < x.length by omega] using this
    · subst h; exact Int.le_refl _
  intro f
  induction f with
  | zero =>
    intro i j h1 h2 h3 h4 h5
    have : i = j := by omega
    subst this
    exact ⟨h4, h5, h2⟩
  | succ f ih =>
    intro i j h1 h2 h3 h4 h5
    unfold searchLoop
    by_cases hij : i < j
    · rw [if_pos hij]
      simp only
      by_cases hx : x.getD ((i + j) / 2) 0 < target
      · rw [if_pos hx]
        refine ih _ _ (by omega) h2 (by omega) ?_ h5
        intro k hk
        exact Int.lt_of_le_of_lt (hmono k ((i + j) / 2) (by omega) (by omega)) hx
      · rw [if_neg hx]
        refine ih _ _ (by omega) (by omega) (by omega) h4 ?_
        intro k hk hk'
        exact Int.le_trans (Int.not_lt.1 hx) (hmono ((i + j) / 2) k hk hk')
    · rw [if_neg hij]
      have : i = j := by omega
      subst this
      exact ⟨h4, h5, h2⟩

/-- **C148 (kinds).** For a list of kinds in order, of any length, `Includes` says exactly whether a kind is in it. -/
theorem C148_includes {x : List Int} (hs : x.Pairwise (· ≤ ·)) (kind : Int) : includes x kind = true ↔ kind ∈ x := by
  obtain ⟨h1, h2, h3⟩ := searchLoop_spec (target := kind) hs x.length 0 x.length (by omega) (Nat.le_refl _) (by omega) (by omega) (by omega)
  unfold includes
  simp only [Bool.and_eq_true, decide_eq_true_eq]
  constructor
  · rintro ⟨h, he⟩
    rw [← he]
    simp only [List.getD, List.getElem?_eq_getElem h, Option.getD_some]
    exact List.getElem_mem h
  · intro hm
    obtain ⟨k, hk, he⟩ := List.getElem_of_mem hm
    have hg : x.getD k 0 = kind := by simp [List.getD, hk, he]
    generalize hi : searchLoop x kind x.length 0 x.length = i at h1 h2 h3 ⊢
    have hik : i ≤ k := by
      by_contra hlt
      have := h1 k (by omega)
      omega
    refine ⟨by omega, ?_⟩
    have hge := h2 i (Nat.le_refl _) (by omega)
    have hle : x.getD i 0 ≤ x.getD k 0 := by
      rcases Nat.lt_or_eq_of_le hik with h | h
      · rw [List.pairwise_iff_getElem] at hs
        have := hs i k (by omega) hk h
        simpa [List.getD, hk, show i < x.length by omega] using this
      · rw [h]; exact Int.le_refl _
    omega

/-- **C148 (moderation and metadata).** The two lists of the package are in order, so membership in them is decided rightly for every kind. -/
theorem C148_kinds (kind : Int) : (includes moderationKinds kind = true ↔ kind ∈ [9000, 9001, 9002, 9005, 9007, 9008, 9009]) ∧
    (includes metadataKinds kind = true ↔ 39000 ≤ kind ∧ kind ≤ 39003) := by
  refine ⟨C148_includes (x := moderationKinds) (by decide) kind, ?_⟩
  rw [C148_includes (x := metadataKinds) (by decide) kind]
  simp [metadataKinds]
  omega

example : includes moderationKinds 9005 = true ∧ includes moderationKinds 9003 = false := by decide

/-- **C148 (false: any list).** A list that is not in order may be denied what it has. -/
theorem C148_unordered : ∃ x : List Int, ∃ k ∈ x, includes x k = false := ⟨[9009, 9000], 9009, by decide, by decide⟩

/-- **C148 (addresses).** A text is a group address exactly if it has one quote; the relay is what stands before it, normalized, the id what stands after it. -/
theorem C148_parse (env : Url.Env) (raw : Bytes) (a : Address) :
    parseAddress env raw = some a ↔ ∃ r, raw = r ++ 39 :: a.id ∧ (39 : UInt8) ∉ r ∧ (39 : UInt8) ∉ a.id ∧ a.relay = Url.normalizeURL env r := by
  obtain ⟨l, ls, h1, h2, h3⟩ := Nip05.split_join 39 raw
  unfold parseAddress
  rw [h1]
  constructor
  · intro h
    split at h
    · next x y hxy =>
      simp only [List.cons.injEq] at hxy
      obtain ⟨rfl, rfl⟩ := hxy
      simp only [Option.some.injEq] at h
      subst h
      exact ⟨l, by simpa using h2, h3 l (by simp), h3 y (by simp), rfl⟩
    · cases h
  · rintro ⟨r, hr, hn1, hn2, hrel⟩
    have hsp := Nip05.split_append 39 r a.id hn1
    rw [← hr, h1, Nip05.split_none 39 hn2] at hsp
    simp only [hsp, ← hrel]

/-- **C148 (round trip, partial).** An address whose relay is what `NormalizeURL` makes of its host, and whose id has no quote, is read back from its text. Missing because false: C148_lost. -/
theorem C148_round_trip_partial {env : Url.Env} {host : Bytes → Option Bytes} {a : Address} {h : Bytes} (hh : host a.relay = some h) (hn : Url.normalizeURL env h = a.relay)
    (hq : (39 : UInt8) ∉ h) (hi : (39 : UInt8) ∉ a.id) : ∃ s, addressString host a = .val s ∧ parseAddress env s = some a := by
  refine ⟨h ++ 39 :: a.id, by simp [addressString, hh], ?_⟩
  rw [C148_parse]
  exact ⟨h, rfl, hq, hi, hn.symm⟩

/-- Addresses as in real life: everything after `ws://` or `wss://` up to a slash is the host; without a scheme it is a wss address. -/
def toyHost (s : Bytes) : Option Bytes :=
  let r := if (b! "wss://").isPrefixOf s then s.drop 6 else if (b! "ws://").isPrefixOf s then s.drop 5 else s
  if (32 : UInt8) ∈ r then none else some (r.takeWhile (· ≠ 47))

/-- A value of the examples. -/
def toyUrl : Url.Env := ⟨fun s => if (b! "ws://").isPrefixOf s then some ⟨b! "ws", s.drop 5, [], [], []⟩ else if (b! "wss://").isPrefixOf s then some ⟨b! "wss", s.drop 6, [], [], []⟩ else some ⟨[], s, [], [], []⟩, id, id⟩

example : parseAddress toyUrl (b! "groups.example'abc") = some ⟨b! "wss://groups.example", b! "abc"⟩ := by decide +kernel
example : toyHost (b! "wss://groups.example") = some (b! "groups.example") ∧ Url.normalizeURL toyUrl (b! "groups.example") = b! "wss://groups.example" := by decide +kernel

/-- **C148: valid addresses.** A text is the address of a group with a relay and an id exactly if there is one quote in it, with a relay before and an id after it. -/
theorem C148_valid (env : Url.Env) (raw : Bytes) :
    (∃ a, parseAddress env raw = some a ∧ addressValid a = true) ↔ ∃ r id, raw = r ++ 39 :: id ∧ (39 : UInt8) ∉ r ∧ (39 : UInt8) ∉ id ∧ Url.normalizeURL env r ≠ [] ∧ id ≠ [] := by
  constructor
  · rintro ⟨a, h, hv⟩
    obtain ⟨r, h1, h2, h3, h4⟩ := (C148_parse env raw a).1 h
    simp only [addressValid, Bool.and_eq_true, decide_eq_true_eq] at hv
    exact ⟨r, a.id, h1, h2, h3, h4 ▸ hv.1, hv.2⟩
  · rintro ⟨r, id, h1, h2, h3, h4, h5⟩
    refine ⟨⟨Url.normalizeURL env r, id⟩, (C148_parse env raw _).2 ⟨r, h1, h2, h3, rfl⟩, ?_⟩
    simp [addressValid, h4, h5]

/-- **C148 (false: every address is read back).** The text has only the host: the scheme and the path of the relay are lost; an id with a quote cannot be read back; a relay that is no url
crashes; and the text of a quote alone is an address without relay and id. -/
theorem C148_lost : (∃ s, addressString toyHost ⟨b! "ws://groups.example", b! "a"⟩ = .val s ∧ parseAddress toyUrl s = some ⟨b! "wss://groups.example", b! "a"⟩) ∧
    (∃ s, addressString toyHost ⟨b! "wss://groups.example/x", b! "a"⟩ = .val s ∧ parseAddress toyUrl s = some ⟨b! "wss://groups.example", b! "a"⟩) ∧
    (∃ s, addressString toyHost ⟨b! "wss://groups.example", b! "a'b"⟩ = .val s ∧ parseAddress toyUrl s = none) ∧
    addressString toyHost ⟨b! "wss://bad relay", b! "a"⟩ = .panic ∧
    ∃ a, parseAddress toyUrl (b! "'") = some a ∧ addressValid a = false :=
  ⟨⟨b! "groups.example'a", by decide +kernel, by decide +kernel⟩, ⟨b! "groups.example'a", by decide +kernel, by decide +kernel⟩, ⟨b! "groups.example'a'b", by decide +kernel, by decide +kernel⟩,
    by decide +kernel, ⟨[], []⟩, by decide +kernel, by decide⟩

/-! ## C149: names of wiki articles -/

/-- Unicode as the Go packages `unicode` and `norm` know it, on code points. -/
structure Tables where
  /-- `unicode.ToLower`, which `strings.ToLower` applies to each code point -/
  lower : Nat → Nat
  /-- `unicode.IsSpace` -/
  space : Nat → Bool
  /-- `norm.NFKC` -/
  nfkc : List Nat → List Nat
  /-- `unicode.IsLetter`, `unicode.IsNumber` -/
  letter : Nat → Bool
  number : Nat → Bool

/-- `strings.TrimSpace`. -/
def trimSpace (T : Tables) (s : List Nat) : List Nat := (((s.dropWhile T.space).reverse).dropWhile T.space).reverse

/-- `NormalizeIdentifier` (nip54/nip54.go:11-26), on texts that are valid UTF-8. -/
def normalizeName (T : Tables) (name : List Nat) : List Nat :=
  (T.nfkc (trimSpace T (name.map T.lower))).map (fun c => if T.letter c || T.number c then c else 45)

/-- What is asked of the tables for ASCII texts. -/
structure AsciiOk (T : Tables) : Prop where
  lower : ∀ c, c < 128 → T.lower c = if 65 ≤ c ∧ c ≤ 90 then c + 32 else c
  space : ∀ c, c < 128 → (T.space c = true ↔ c = 32 ∨ 9 ≤ c ∧ c ≤ 13)
  nfkc : ∀ s, (∀ c ∈ s, c < 128) → T.nfkc s = s
  letter : ∀ c, c < 128 → (T.letter c = true ↔ 65 ≤ c ∧ c ≤ 90 ∨ 97 ≤ c ∧ c ≤ 122)
  number : ∀ c, c < 128 → (T.number c = true ↔ 48 ≤ c ∧ c ≤ 57)

/-- The characters of a normalized ASCII name: small letters, digits and the hyphen. -/
def NameChar (c : Nat) : Prop := 97 ≤ c ∧ c ≤ 122 ∨ 48 ≤ c ∧ c ≤ 57 ∨ c = 45

/-- **C149 (characters).** For every text and whatever Unicode says: a normalized name has only letters, numbers and hyphens, one for each character of the compatibility form of the trimmed
text in small letters. -/
theorem C149_characters (T : Tables) (s : List Nat) : (∀ c ∈ normalizeName T s, T.letter c = true ∨ T.number c = true ∨ c = 45) ∧
    (normalizeName T s).length = (T.nfkc (trimSpace T (s.map T.lower))).length := by
  constructor
  · intro c hc
    unfold normalizeName at hc
    rw [List.mem_map] at hc
    obtain ⟨x, -, rfl⟩ := hc
    by_cases h : (T.letter x || T.number x) = true
    · rw [if_pos h]
      rw [Bool.or_eq_true] at h
      rcases h with h | h
      · exact .inl h
      · exact .inr (.inl h)
    · rw [if_neg h]; exact .inr (.inr rfl)
  · simp [normalizeName]

theorem mem_trimSpace {T : Tables} {s : List Nat} {c : Nat} (h : c ∈ trimSpace T s) : c ∈ s := by
  unfold trimSpace at h
  rw [List.mem_reverse] at h
  have h := (List.dropWhile_sublist _).subset h
  rw [List.mem_reverse] at h
  exact (List.dropWhile_sublist _).subset h

theorem trimSpace_id {T : Tables} {s : List Nat} (h : ∀ c ∈ s, T.space c = false) : trimSpace T s = s := by
  have hd : ∀ l : List Nat, (∀ c ∈ l, T.space c = false) → l.dropWhile T.space = l := by
    intro l hl
    cases l with
    | nil => rfl
    | cons c l => simp [List.dropWhile, hl c (by simp)]
  unfold trimSpace
  rw [hd s h, hd s.reverse (by simpa using h), List.reverse_reverse]

/-- Spec: the normalized form of an ASCII character. -/
def asciiForm (c : Nat) : Nat := if 65 ≤ c ∧ c ≤ 90 then c + 32 else if 97 ≤ c ∧ c ≤ 122 ∨ 48 ≤ c ∧ c ≤ 57 then c else 45

theorem ascii_map {T : Tables} (h : AsciiOk T) {c : Nat} (hc : c < 128) : (if T.letter (T.lower c) || T.number (T.lower c) then T.lower c else 45) = asciiForm c := by
  have hl := h.lower c hc
  have hl128 : T.lower c < 128 := by rw [hl]; split <;> omega
  have h1 := h.letter _ hl128
  have h2 := h.number _ hl128
  unfold asciiForm
  by_cases hx : (T.letter (T.lower c) || T.number (T.lower c)) = true
  · rw [if_pos hx]
    rw [Bool.or_eq_true, h1, h2] at hx
    rw [hl] at hx ⊢
    repeat' split
    all_goals first | rfl | (split at hx <;> omega)
  · rw [if_neg hx]
    rw [Bool.or_eq_true, h1, h2] at hx
    rw [hl] at hx
    repeat' split
    all_goals first | rfl | (split at hx <;> omega)

/-- **C149 (ASCII names).** In an ASCII text spaces around it are dropped, letters become small, digits stay, and every other character becomes a hyphen. -/
theorem C149_ascii {T : Tables} (h : AsciiOk T) {s : List Nat} (hs : ∀ c ∈ s, c < 128) :
    normalizeName T s = ((((s.dropWhile (fun c => c = 32 ∨ 9 ≤ c ∧ c ≤ 13)).reverse).dropWhile (fun c => c = 32 ∨ 9 ≤ c ∧ c ≤ 13)).reverse).map asciiForm := by
  have hsp : ∀ c, c < 128 → T.space (T.lower c) = decide (c = 32 ∨ 9 ≤ c ∧ c ≤ 13) := by
    intro c hc
    have hl := h.lower c hc
    have hl128 : T.lower c < 128 := by rw [hl]; split <;> omega
    rw [Bool.eq_iff_iff, h.space _ hl128, decide_eq_true_eq, hl]
    split <;> omega
  have hdw : ∀ l : List Nat, (∀ c ∈ l, c < 128) → (l.map T.lower).dropWhile T.space = (l.dropWhile (fun c => decide (c = 32 ∨ 9 ≤ c ∧ c ≤ 13))).map T.lower := by
    intro l
    induction l with
    | nil => intro _; rfl
    | cons c l ih =>
      intro hl
      rw [List.map_cons, List.dropWhile_cons, List.dropWhile_cons, hsp c (hl c (by simp))]
      split
      · exact ih (fun x hx => hl x (List.mem_cons_of_mem _ hx))
      · rfl
  have hsub1 : ∀ c ∈ s.dropWhile (fun c => decide (c = 32 ∨ 9 ≤ c ∧ c ≤ 13)), c < 128 := fun c hc => hs c ((List.dropWhile_sublist _).subset hc)
  have hsub2 : ∀ c ∈ ((s.dropWhile (fun c => decide (c = 32 ∨ 9 ≤ c ∧ c ≤ 13))).reverse).dropWhile (fun c => decide (c = 32 ∨ 9 ≤ c ∧ c ≤ 13)), c < 128 := by
    intro c hc
    have := (List.dropWhile_sublist _).subset hc
    rw [List.mem_reverse] at this
    exact hsub1 c this
  have ht : trimSpace T (s.map T.lower) = ((((s.dropWhile (fun c => decide (c = 32 ∨ 9 ≤ c ∧ c ≤ 13))).reverse).dropWhile (fun c => decide (c = 32 ∨ 9 ≤ c ∧ c ≤ 13))).reverse).map T.lower := by
    unfold trimSpace
    rw [hdw s hs, ← List.map_reverse, hdw _ (by intro c hc; rw [List.mem_reverse] at hc; exact hsub1 c hc), ← List.map_reverse]
  unfold normalizeName
  rw [ht]
  rw [h.nfkc]
  · rw [List.map_map]
    apply List.map_congr_left
    intro c hc
    rw [List.mem_reverse] at hc
    exact ascii_map h (hsub2 c hc)
  · intro c hc
    rw [List.mem_map] at hc
    obtain ⟨x, hx, rfl⟩ := hc
    rw [List.mem_reverse] at hx
    have := hsub2 x hx
    rw [h.lower x this]
    split <;> omega

/-- **C149 (twice is once, partial).** For ASCII texts normalizing again changes nothing. Missing because false: C149_not_idempotent. -/
theorem C149_idempotent_partial {T : Tables} (h : AsciiOk T) {s : List Nat} (hs : ∀ c ∈ s, c < 128) : normalizeName T (normalizeName T s) = normalizeName T s ∧ ∀ c ∈ normalizeName T s, NameChar c := by
  have hch : ∀ c ∈ normalizeName T s, NameChar c := by
    rw [C149_ascii h hs]
    intro c hc
    rw [List.mem_map] at hc
    obtain ⟨x, -, rfl⟩ := hc
    unfold asciiForm NameChar
    repeat' split
    all_goals omega
  refine ⟨?_, hch⟩
  generalize hn : normalizeName T s = n at hch ⊢
  have h128 : ∀ c ∈ n, c < 128 := by
    intro c hc
    have := hch c hc
    unfold NameChar at this
    omega
  have hdw : ∀ l : List Nat, (∀ c ∈ l, NameChar c) → l.dropWhile (fun c => decide (c = 32 ∨ 9 ≤ c ∧ c ≤ 13)) = l := by
    intro l hl
    cases l with
    | nil => rfl
    | cons c l =>
      have := hl c (by simp)
      unfold NameChar at this
      rw [List.dropWhile_cons, if_neg]
      simp only [decide_eq_true_eq]
      omega
  rw [C149_ascii h h128, hdw n hch, hdw n.reverse (by intro c hc; exact hch c (List.mem_reverse.1 hc)), List.reverse_reverse]
  conv => rhs; rw [← List.map_id n]
  apply List.map_congr_left
  intro c hc
  have := hch c hc
  unfold NameChar at this
  unfold asciiForm
  simp only [id]
  repeat' split
  all_goals omega

/-- Tables for ASCII and one more letter, U+2102 (ℂ), which Unicode says is a letter without a small form, with the compatibility form C. -/
def toyTables : Tables where
  lower := fun c => if 65 ≤ c ∧ c ≤ 90 then c + 32 else c
  space := fun c => decide (c = 32 ∨ 9 ≤ c ∧ c ≤ 13)
  nfkc := fun s => s.map (fun c => if c = 0x2102 then 67 else c)
  letter := fun c => decide (65 ≤ c ∧ c ≤ 90 ∨ 97 ≤ c ∧ c ≤ 122 ∨ c = 0x2102)
  number := fun c => decide (48 ≤ c ∧ c ≤ 57)

theorem toyTables_ok : AsciiOk toyTables where
  lower := fun c _ => rfl
  space := fun c _ => by simp [toyTables]
  nfkc := by
    intro s hs
    simp only [toyTables]
    conv => rhs; rw [← List.map_id s]
    apply List.map_congr_left
    intro c hc
    have := hs c hc
    rw [if_neg (by omega)]
    rfl
  letter := fun c hc => by simp [toyTables]; omega
  number := fun c _ => by simp [toyTables]

/-- `" Wiki Article!"` -/
example : normalizeName toyTables [32, 87, 105, 107, 105, 32, 65, 33] = [119, 105, 107, 105, 45, 97, 45] := by decide

/-- **C149 (false: twice is once).** The small letters are taken before the compatibility form, so ℂ becomes C, and C becomes c: two spellings of a name that differ by one more
normalization. The facts about ℂ and C are those of Unicode. -/
theorem C149_not_idempotent {T : Tables} (h : AsciiOk T) (h1 : T.lower 0x2102 = 0x2102) (h2 : T.space 0x2102 = false) (h3 : T.nfkc [0x2102] = [67]) :
    normalizeName T [0x2102] = [67] ∧ normalizeName T (normalizeName T [0x2102]) = [99] := by
  have e1 : normalizeName T [0x2102] = [67] := by
    have hl : T.letter 67 = true := (h.letter 67 (by omega)).2 (by omega)
    have ht : trimSpace T [0x2102] = [0x2102] := trimSpace_id (by simp [h2])
    simp only [normalizeName, List.map_cons, List.map_nil, h1, ht, h3, hl, Bool.true_or, if_true]
  refine ⟨e1, ?_⟩
  rw [e1, C149_ascii h (by simp)]
  decide

example : toyTables.lower 0x2102 = 0x2102 ∧ toyTables.space 0x2102 = false ∧ toyTables.nfkc [0x2102] = [67] := by decide

/-! ## C150: the repository of a patch -/

/-- The body of the loop of `ParsePatch` (nip34/patch.go:24-43). -/
def patchTag (p : Nip19.EntityPointer) (tag : Tag) : Nip19.EntityPointer :=
  match tag with
  | k :: v :: rest =>
    if k = b! "a" then
      match Nip05.split 58 v with
      | [_, pk, d] =>
        if ¬ isValid32ByteHex pk then p
        else { p with kind := 30617, publicKey := pk, identifier := d, relays := match rest with | r :: _ => some [r] | [] => p.relays }
      | _ => p
    else p
  | _ => p

/-- `ParsePatch` (nip34/patch.go:19-59): the repository. -/
def patchRepository (tags : Tags) : Nip19.EntityPointer := tags.foldl patchTag { publicKey := [] }

/-- Spec: a tag that names a repository: `["a", "<kind>:<key>:<name>", …]`. -/
structure NamesRepo (tag : Tag) (pk d : Bytes) (relay : Option Bytes) : Prop where
  shape : ∃ kind rest, tag = b! "a" :: (kind ++ 58 :: (pk ++ 58 :: d)) :: rest ∧ relay = rest.head? ∧ (58 : UInt8) ∉ kind
  key : isValid32ByteHex pk = true
  name : (58 : UInt8) ∉ d

theorem key_no_colon {pk : Bytes} (h : isValid32ByteHex pk = true) : (58 : UInt8) ∉ pk := by
  intro hm
  rcases ((C19_isValid32ByteHex_iff pk).1 h).2 58 hm with h | h
  · exact absurd h (by decide)
  · exact absurd h (by decide)

/-- A tag either names a repository, which then is the one so far with the relay of the tag if it has one, or changes nothing. -/
theorem patchTag_spec (p : Nip19.EntityPointer) (tag : Tag) :
    (∃ pk d relay, NamesRepo tag pk d relay ∧ patchTag p tag = ⟨pk, 30617, d, match relay with | some r => some [r] | none => p.relays⟩) ∨
    ((∀ pk d relay, ¬ NamesRepo tag pk d relay) ∧ patchTag p tag = p) := by
  by_cases hex : ∃ pk d relay, NamesRepo tag pk d relay
  · obtain ⟨pk, d, relay, hn⟩ := hex
    refine .inl ⟨pk, d, relay, hn, ?_⟩
    obtain ⟨⟨kind, rest, rfl, rfl, hk⟩, hkey, hd⟩ := hn
    have hs : Nip05.split 58 (kind ++ 58 :: (pk ++ 58 :: d)) = [kind, pk, d] := by
      rw [Nip05.split_append 58 _ _ hk, Nip05.split_append 58 _ _ (key_no_colon hkey), Nip05.split_none 58 hd]
    simp only [patchTag, if_true, hs, hkey, not_true, if_false]
    cases rest <;> rfl
  · refine .inr ⟨fun pk d relay h => hex ⟨pk, d, relay, h⟩, ?_⟩
    unfold patchTag
    split
    · next k v rest =>
      by_cases hk : k = b! "a"
      · rw [if_pos hk]
        split
        · next kind pk d hs =>
          by_cases hv : isValid32ByteHex pk = true
          · exfalso
            apply hex
            obtain ⟨l, ls, h1, h2, h3⟩ := Nip05.split_join 58 v
            rw [hs] at h1
            simp only [List.cons.injEq] at h1
            obtain ⟨rfl, rfl⟩ := h1
            exact ⟨pk, d, rest.head?, ⟨⟨kind, rest, by rw [hk, h2]; simp, rfl, h3 kind (by simp)⟩, hv, h3 d (by simp)⟩⟩
          · rw [if_pos hv]
        · rfl
      · rw [if_neg hk]
    · rfl

/-- **C150 (which repository).** A patch belongs to the repository named by the last tag that names one, if there is any; otherwise to none. -/
theorem C150_last (tags : Tags) : (∃ pre tag post pk d relay, tags = pre ++ tag :: post ∧ NamesRepo tag pk d relay ∧ (∀ t ∈ post, ∀ pk d relay, ¬ NamesRepo t pk d relay) ∧
      (patchRepository tags).publicKey = pk ∧ (patchRepository tags).identifier = d ∧ (patchRepository tags).kind = 30617 ∧ (∀ r, relay = some r → (patchRepository tags).relays = some [r])) ∨
    ((∀ t ∈ tags, ∀ pk d relay, ¬ NamesRepo t pk d relay) ∧ patchRepository tags = { publicKey := [] }) := by
  unfold patchRepository
  rw [← List.reverse_reverse tags]
  generalize tags.reverse = l
  induction l with
  | nil => exact .inr ⟨by simp, rfl⟩
  | cons t l ih =>
    rw [List.reverse_cons, List.foldl_append, List.foldl_cons, List.foldl_nil]
    rcases patchTag_spec (l.reverse.foldl patchTag { publicKey := [] }) t with ⟨pk, d, relay, hn, he⟩ | ⟨hn, he⟩
    · refine .inl ⟨l.reverse, t, [], pk, d, relay, rfl, hn, by simp, ?_⟩
      rw [he]
      exact ⟨rfl, rfl, rfl, by rintro r rfl; rfl⟩
    · rw [he]
      rcases ih with ⟨pre, tag, post, pk, d, relay, h1, h2, h3, h4⟩ | ⟨h1, h2⟩
      · refine .inl ⟨pre, tag, post ++ [t], pk, d, relay, by rw [h1]; simp, h2, ?_, h4⟩
        intro x hx
        rw [List.mem_append, List.mem_singleton] at hx
        rcases hx with hx | rfl
        · exact h3 x hx
        · exact hn
      · refine .inr ⟨?_, h2⟩
        intro x hx
        rw [List.mem_append, List.mem_singleton] at hx
        rcases hx with hx | rfl
        · exact h1 x hx
        · exact hn

/-- A value of the examples. -/
def keyA : Bytes := List.replicate 64 97
/-- A value of the examples. -/
def keyB : Bytes := List.replicate 64 98

example : patchRepository [[b! "a", b! "30617:" ++ keyA ++ b! ":repo", b! "wss://r"]] = ⟨keyA, 30617, b! "repo", some [b! "wss://r"]⟩ := by decide +kernel

/-- **C150 (false: the relay and the kind are the tag's).** If the last tag has no relay, the one of an earlier tag stays, though it is another repository's; and a tag that points to
something that is no repository counts as naming one. -/
theorem C150_mixed : patchRepository [[b! "a", b! "30617:" ++ keyA ++ b! ":one", b! "wss://a"], [b! "a", b! "30617:" ++ keyB ++ b! ":two"]] = ⟨keyB, 30617, b! "two", some [b! "wss://a"]⟩ ∧
    patchRepository [[b! "a", b! "30023:" ++ keyA ++ b! ":article"]] = ⟨keyA, 30617, b! "article", none⟩ := by decide +kernel

end GoNostr.Names
