import Verif.Base.Base64
import Verif.Event.Theorems
import Verif.Helpers.Theorems
import Verif.Json.Event
/-!
# C144, C145: sending files to media servers and getting them back (nipb0/blossom/*.go, nip96/nip96.go, nip96/types.go)

The server is an arbitrary function from requests to answers. The time (`nostr.Now`), the hash, the signature scheme, the JSON parser of answers and the file system are parameters.
An event in a header is written by `json.Marshal` or json-iterator, which call the `MarshalJSON` that easyjson generated for events: `Json.encodeEvent` (the compaction `json.Marshal` does on it
changes nothing, since that writer leaves no white space and escapes `<`, `>` and `&` itself).
-/

set_option autoImplicit false

namespace GoNostr.Media
open GoNostr.Json

/-! ## Requests and answers -/

/-- A request as given to the http library: `auth` are the values of the header `Authorization`, `body` the bytes read from the stream. -/
structure Req where
  method : Bytes
  url : Bytes
  contentType : Bytes
  auth : List Bytes
  body : Option Bytes
deriving DecidableEq

/-- What came back: the status, the part of the body that was received and whether that is all of it. -/
structure Answer where
  status : Nat
  body : Bytes
  complete : Bool
deriving DecidableEq

/-- The outcome of a call: the requests made, and the result (`none` is an error). -/
structure Done (α : Type) where
  sent : List Req
  res : Option α

/-! ## The Blossom client -/

/-- A client (client.go:12-16) with what it talks to. `D` is the type of blob descriptors. -/
structure Client (D : Type) where
  /-- `mediaserver` -/
  server : Bytes
  /-- `signer.SignEvent`: the event afterwards, `none` an error -/
  sign : Event → Option Event
  /-- `signer.GetPublicKey`: the key, and whether there was an error -/
  pub : Bytes × Bool
  /-- `schnorr.ParsePubKey` succeeds -/
  parsePub : Bytes → Bool
  /-- the two readings of the clock (http.go:71, 75) -/
  now : Int
  later : Int
  /-- `http.NewRequestWithContext` accepts the url -/
  urlOk : Bytes → Bool
  /-- the server; `none` if there is no answer -/
  net : Req → Option Answer
  /-- `json.Unmarshal` into a descriptor, and into a list of them -/
  parse : Bytes → Option D
  parseList : Bytes → Option (List D)

variable {D : Type}

/-- `NewClient` (client.go:19-29): the url of the server. -/
def newServer (s : Bytes) : Bytes :=
  let s := if (b! "http").isPrefixOf s then s else b! "https://" ++ s
  (if s.getLast? = some 47 then s.dropLast else s) ++ [47]

/-- http.go:70-81: the event to sign; `tags` is what `modify` appends. -/
def draft (c : Client D) (tags : Tags) : Event :=
  ⟨[], [], c.now, 24242, [b! "expiration", fmtInt (c.later + 60)] :: tags, b! "blossom stuff", []⟩

/-- `authorizationHeader` (http.go:66-89). -/
def authHeader (c : Client D) (tags : Tags) : Bytes :=
  match c.sign (draft c tags) with
  | none => []
  | some e => b! "Nostr " ++ b64Enc (encodeEvent e)

/-- `httpCall` (http.go:16-63) without the parsing of the result. `auth` are the tags of the token, `none` for no token; `body` is the stream and the size announced. `fasthttp` fails
if the stream has another size. -/
def httpCall (c : Client D) (method path contentType : Bytes) (auth : Option Tags) (body : Option (Bytes × Nat)) : Req × Option Answer :=
  let h := match auth with
    | none => []
    | some tags => authHeader c tags
  let r : Req := ⟨method, c.server ++ path, contentType, if h = [] then [] else [h], body.map (·.1)⟩
  let a := if body.any (fun x => x.1.length != x.2) then none else c.net r
  (r, match a with
    | none => none
    | some a => if a.status ≥ 300 then none else some a)

/-- `Check` (check.go:11-22). -/
def check (c : Client D) (hash : Bytes) : Done Unit :=
  if ¬ isValid32ByteHex hash then ⟨[], none⟩
  else
    let (r, a) := httpCall c (b! "HEAD") hash [] none none
    ⟨[r], a.map (fun _ => ())⟩

/-- `Delete` (delete.go:11-23). -/
def delete (c : Client D) (hash : Bytes) : Done Unit :=
  let (r, a) := httpCall c (b! "DELETE") hash [] (some [[b! "t", b! "delete"], [b! "x", hash]]) none
  ⟨[r], a.map (fun _ => ())⟩

/-- `List` (list.go:11-28). -/
def list (c : Client D) : Done (List D) :=
  if ¬ isValidPublicKey c.parsePub c.pub.1 then ⟨[], none⟩
  else
    let (r, a) := httpCall c (b! "GET") (b! "list/" ++ c.pub.1) [] (some [[b! "t", b! "list"]]) none
    ⟨[r], a.bind (fun a => c.parseList a.body)⟩

/-- The request of `Download` and `DownloadToFile` (download.go:15-28, 45-58), made with `net/http`. -/
def getRequest (c : Client D) (hash : Bytes) : Req :=
  ⟨b! "GET", c.server ++ b! "/" ++ hash, [], [authHeader c [[b! "t", b! "get"], [b! "x", hash]]], none⟩

/-- download.go:15-38, 45-68: everything before the body is read. -/
def fetch (c : Client D) (hash : Bytes) : List Req × Option Answer :=
  if ¬ isValid32ByteHex hash then ([], none)
  else if ¬ c.urlOk (c.server ++ b! "/" ++ hash) then ([], none)
  else ([getRequest c hash], match c.net (getRequest c hash) with
    | none => none
    | some a => if a.status ≥ 300 then none else some a)

/-- `Download` (download.go:14-41): the requests, the bytes returned and whether the error is nil. -/
def download (c : Client D) (hash : Bytes) : List Req × Bytes × Bool :=
  let (rs, a) := fetch c hash
  (rs, match a with
    | none => ([], false)
    | some a => (a.body, a.complete))

/-- `DownloadToFile` (download.go:44-82) to a path that held `old` (`none`: there was no file); `canOpen`: `os.OpenFile` succeeds; `room`: how many bytes the disk takes. The requests, the
file afterwards and whether the error is nil. -/
def downloadToFile (c : Client D) (canOpen : Bool) (room : Nat) (old : Option Bytes) (hash : Bytes) : List Req × Option Bytes × Bool :=
  let (rs, a) := fetch c hash
  (rs, match a with
    | none => (old, false)
    | some a => if ¬ canOpen then (old, false) else (some (a.body.take room), decide (a.body.length ≤ room) && a.complete))

/-- `UploadFile` (upload.go:17-50). The file is read twice: to hash it (`first`, `none` if opening or reading fails), and to send it (`second`). `mime`: `mime.TypeByExtension` of the
name. -/
def uploadFile (c : Client D) (H : Hash32) (mime : Bytes) (first : Option Bytes) (second : Bytes) : Done D :=
  match first with
  | none => ⟨[], none⟩
  | some b =>
    let (r, a) := httpCall c (b! "PUT") (b! "upload") mime (some [[b! "t", b! "upload"], [b! "x", hexEnc (H b).val]]) (some (second, b.length))
    ⟨[r], a.bind (fun a => c.parse a.body)⟩

/-! ## What a server sees in a header -/

/-- The event in a header, as a server reads it. -/
def carried (header : Bytes) : Option Event :=
  if (b! "Nostr ").isPrefixOf header then (b64Dec (header.drop 6)).bind decodeEvent else none

/-- The values of the tags `[key, value]`. -/
def values (key : Bytes) (e : Event) : List Bytes := e.tags.filterMap (fun t => match t with
  | [k, v] => if k = key then some v else none
  | _ => none)

/-- A properly signed event of that key. -/
def Signed (H : Hash32) (S : Schnorr) (pub : Bytes) (e : Event) : Prop := e.pubkey = pub ∧ checkID H e = .val true ∧ checkSignature H S e = some true

/-- What a server checks at the time `at_` (BUD-01): the header carries a properly signed event of kind 24242 of that key, created in the past and not expired, for that action (`verb`) and
these blobs. -/
def Grants (H : Hash32) (S : Schnorr) (header pub verb : Bytes) (blobs : List Bytes) (at_ : Int) : Prop :=
  ∃ e, carried header = some e ∧ Signed H S pub e ∧ e.kind = 24242 ∧ e.createdAt ≤ at_ ∧
    (∃ x n, values (b! "expiration") e = [x] ∧ parseInt64 x = .ok n ∧ at_ < n) ∧
    values (b! "t") e = [verb] ∧ values (b! "x") e = blobs

/-- The signer holds the key `sk` of `pub` and signs what it is given. -/
structure HasKey (H : Hash32) (S : Schnorr) (c : Client D) (sk pub : Bytes) : Prop where
  sign : ∀ e, c.sign e = if (signEvent H S e sk).2 then some (signEvent H S e sk).1 else none
  key : getPublicKey S sk = some pub
  able : ∀ k h, hexDec sk = some k → h.length = 32 → (S.sign k h).isSome
  pub : c.pub = (pub, true)
  clock : 0 ≤ c.now ∧ c.now ≤ c.later ∧ c.later < 2 ^ 62

/-! ## Proofs -/

theorem hexEnc_utf8 (b : Bytes) : Utf8 (hexEnc b) := Utf8.ascii (fun c hc => by
  have := hexEnc_lower b c hc
  unfold IsLowerHexByte at this
  rcases this with h | h <;> exact UInt8.lt_of_le_of_lt h.2 (by decide))

theorem fmtInt_utf8 (i : Int) : Utf8 (fmtInt i) := Utf8.ascii (fun c hc => by
  rcases fmtInt_chars i c hc with h | h
  · subst h; decide
  · unfold IsDigitByte at h
    exact UInt8.lt_of_le_of_lt h.2 (by decide))

theorem carried_enc {e : Event} (hk : InInt64 e.kind) (hc : InInt64 e.createdAt) (hu : EventUtf8 e) : carried (b! "Nostr " ++ b64Enc (encodeEvent e)) = some e := by
  unfold carried
  have h1 : (b! "Nostr ").isPrefixOf (b! "Nostr " ++ b64Enc (encodeEvent e)) = true := by
    rw [List.isPrefixOf_iff_prefix]
    exact ⟨_, rfl⟩
  have h2 : (b! "Nostr " ++ b64Enc (encodeEvent e)).drop 6 = b64Enc (encodeEvent e) := rfl
  rw [if_pos h1, h2, b64Dec_enc, Option.bind_some, C21_round_trip hk hc hu]

/-- A signed event: everything as before, and its own texts are hexadecimal. -/
theorem sign_ok {H : Hash32} {S : Schnorr} (hS : S.Correct) {sk pub : Bytes} (hkey : getPublicKey S sk = some pub) (able : ∀ k h, hexDec sk = some k → h.length = 32 → (S.sign k h).isSome) (e : Event) :
    (signEvent H S e sk).2 = true ∧ ∃ e', (signEvent H S e sk).1 = e' ∧ Signed H S pub e' ∧ e'.createdAt = e.createdAt ∧ e'.kind = e.kind ∧ e'.tags = e.tags ∧ e'.content = e.content ∧
      Utf8 e'.id ∧ Utf8 e'.pubkey ∧ Utf8 e'.sig := by
  have h2 : (signEvent H S e sk).2 = true := by
    unfold getPublicKey at hkey
    cases hd : hexDec sk with
    | none => rw [hd] at hkey; simp at hkey
    | some k =>
      unfold signEvent
      simp only [hd]
      have := able k (H (serialize { e with pubkey := hexEnc (S.pubOf k) })).val hd (H _).2
      cases hs : S.sign k (H (serialize { e with pubkey := hexEnc (S.pubOf k) })).val with
      | none => rw [hs] at this; simp at this
      | some sg => rfl
  refine ⟨h2, _, rfl, ?_⟩
  have h3 : signEvent H S e sk = ((signEvent H S e sk).1, true) := by rw [← h2]
  obtain ⟨k1, k2, k3, k4, k5, k6, k7⟩ := C04_sign_verifies H S hS e sk _ h3
  refine ⟨⟨by rw [hkey] at k1; exact (Option.some.inj k1).symm, k2, k3⟩, k4, k5, k6, k7, ?_⟩
  unfold signEvent at h2 ⊢
  split at h2
  · simp at h2
  · next k hk =>
    simp only at h2 ⊢
    split at h2
    · simp at h2
    · next sg hsg => exact ⟨hexEnc_utf8 _, hexEnc_utf8 _, hexEnc_utf8 _⟩

theorem header_grants {H : Hash32} {S : Schnorr} (hS : S.Correct) {c : Client D} {sk pub : Bytes} (hk : HasKey H S c sk pub) {verb : Bytes} {more : Tags} {blobs : List Bytes}
    (hu : ∀ t ∈ [b! "t", verb] :: more, ∀ s ∈ t, Utf8 s) (hm : more = blobs.map (fun x => [b! "x", x])) :
    authHeader c ([b! "t", verb] :: more) ≠ [] ∧ ∀ at_, c.now ≤ at_ → at_ < c.later + 60 → Grants H S (authHeader c ([b! "t", verb] :: more)) pub verb blobs at_ := by
  obtain ⟨h1, e, h2, hs, h3, h4, h5, h6, h7, h8, h9⟩ := sign_ok (H := H) hS hk.key hk.able (draft c ([b! "t", verb] :: more))
  have hh : authHeader c ([b! "t", verb] :: more) = b! "Nostr " ++ b64Enc (encodeEvent e) := by
    unfold authHeader
    rw [hk.sign, h1, if_pos rfl, h2]
  rw [hh]
  refine ⟨by simp, ?_⟩
  intro at_ ha hb
  have hclock := hk.clock
  refine ⟨e, carried_enc ?_ ?_ ?_, hs, h4, by rw [h3]; exact ha, ⟨fmtInt (c.later + 60), c.later + 60, ?_, ?_, hb⟩, ?_, ?_⟩
  · rw [h4]; unfold InInt64 draft; simp
  · rw [h3]; unfold InInt64 draft; simp only; omega
  · refine ⟨h7, h8, ?_, h9, ?_⟩
    · rw [h6]
      exact Utf8.ascii (show ∀ x ∈ b! "blossom stuff", x < 0x80 by decide +kernel)
    · rw [h5]
      intro t ht s hs'
      unfold draft at ht
      simp only at ht
      rcases List.mem_cons.1 ht with h | h
      · subst h
        rcases List.mem_cons.1 hs' with h' | h'
        · subst h'; exact Utf8.ascii (by decide +kernel)
        · rw [List.mem_singleton] at h'
          subst h'; exact fmtInt_utf8 _
      · exact hu t h s hs'
  · unfold values
    rw [h5, hm]
    unfold draft
    rw [List.filterMap_cons_some (b := fmtInt (c.later + 60)) (by simp)]
    rw [List.filterMap_cons_none (by simp)]
    rw [List.filterMap_map, List.filterMap_eq_nil_iff.2]
    intro x _
    simp
  · exact parseInt64_fmtInt (by omega) (by omega)
  · unfold values
    rw [h5, hm]
    unfold draft
    rw [List.filterMap_cons_none (by simp)]
    rw [List.filterMap_cons_some (b := verb) (by simp)]
    rw [List.filterMap_map, List.filterMap_eq_nil_iff.2]
    intro x _
    simp
  · unfold values
    rw [h5, hm]
    unfold draft
    rw [List.filterMap_cons_none (by simp)]
    rw [List.filterMap_cons_none (by simp)]
    rw [List.filterMap_map]
    have : ((fun t : Tag => match t with
      | [k, v] => if k = b! "x" then some v else none
      | _ => none) ∘ fun x => [b! "x", x]) = some := by
      funext x
      simp
    rw [this, List.filterMap_some]

/-! ## C144 -/

/-- The server's answer counts: it came, and its status is below 300. -/
def Accepted (net : Req → Option Answer) (r : Req) (a : Answer) : Prop := net r = some a ∧ a.status < 300

theorem res_iff {net : Req → Option Answer} {r : Req} {a : Answer} :
    (match net r with
      | none => none
      | some a => if a.status ≥ 300 then none else some a) = some a ↔ Accepted net r a := by
  unfold Accepted
  cases net r with
  | none => simp
  | some b =>
    simp only [Option.some.injEq]
    by_cases h : b.status ≥ 300
    · rw [if_pos h]
      constructor
      · intro h'; cases h'
      · rintro ⟨rfl, h'⟩; omega
    · rw [if_neg h]
      constructor
      · intro h'; cases h'; exact ⟨rfl, by omega⟩
      · rintro ⟨rfl, h'⟩; rfl

theorem valid_utf8 {hash : Bytes} (h : isValid32ByteHex hash = true) : Utf8 hash := by
  obtain ⟨b, -, rfl⟩ := (C19_accepts_encodings hash).1 h
  exact hexEnc_utf8 b

/-- **C144 (asking).** `Check` refuses anything but a hash without asking the server; a hash it asks for with one request, without a token, and it succeeds exactly if the server accepts. -/
theorem C144_check (c : Client D) (hash : Bytes) :
    (isValid32ByteHex hash = false → (check c hash).sent = [] ∧ (check c hash).res = none) ∧
    (isValid32ByteHex hash = true → ∃ r : Req, r = ⟨b! "HEAD", c.server ++ hash, [], [], none⟩ ∧ (check c hash).sent = [r] ∧ ((check c hash).res = some () ↔ ∃ a, Accepted c.net r a)) := by
  refine ⟨fun h => by simp [check, h], fun h => ⟨_, rfl, by simp [check, h, httpCall], ?_⟩⟩
  unfold check
  rw [if_neg (by simp [h])]
  simp only [httpCall, Option.any_none, Bool.false_eq_true, if_false, if_true, Option.map_eq_some_iff, and_true, Option.map_none]
  exact exists_congr (fun a => res_iff)

/-- **C144 (removing).** `Delete` makes one request, with a token by which the server may remove that blob and nothing else, good for a minute; it succeeds exactly if the server accepts. -/
theorem C144_delete {H : Hash32} {S : Schnorr} (hS : S.Correct) {c : Client D} {sk pub : Bytes} (hk : HasKey H S c sk pub) {hash : Bytes} (hu : Utf8 hash) :
    ∃ hdr r, r = (⟨b! "DELETE", c.server ++ hash, [], [hdr], none⟩ : Req) ∧ (delete c hash).sent = [r] ∧
      (∀ at_, c.now ≤ at_ → at_ < c.later + 60 → Grants H S hdr pub (b! "delete") [hash] at_) ∧ ((delete c hash).res = some () ↔ ∃ a, Accepted c.net r a) := by
  obtain ⟨hne, hg⟩ := header_grants hS hk (verb := b! "delete") (more := [[b! "x", hash]]) (blobs := [hash]) (by
    intro t ht s hs
    simp only [List.mem_cons, List.not_mem_nil, or_false] at ht
    rcases ht with rfl | rfl <;> simp only [List.mem_cons, List.not_mem_nil, or_false] at hs <;> rcases hs with rfl | rfl <;>
      first | exact hu | exact Utf8.ascii (by decide +kernel)) rfl
  refine ⟨_, _, rfl, ?_, hg, ?_⟩
  · simp only [delete, httpCall, if_neg hne, Option.map_none]
  · simp only [delete, httpCall, if_neg hne, Option.any_none, Bool.false_eq_true, if_false, Option.map_eq_some_iff, and_true, Option.map_none]
    exact exists_congr (fun a => res_iff)

/-- **C144 (listing).** With a key that is valid `List` makes one request, with a token for listing, and gives what the server answered; otherwise it makes none. -/
theorem C144_list {H : Hash32} {S : Schnorr} (hS : S.Correct) {c : Client D} {sk pub : Bytes} (hk : HasKey H S c sk pub) :
    (isValidPublicKey c.parsePub pub = false → (list c).sent = [] ∧ (list c).res = none) ∧
    (isValidPublicKey c.parsePub pub = true → ∃ hdr r, r = (⟨b! "GET", c.server ++ (b! "list/" ++ pub), [], [hdr], none⟩ : Req) ∧ (list c).sent = [r] ∧
      (∀ at_, c.now ≤ at_ → at_ < c.later + 60 → Grants H S hdr pub (b! "list") [] at_) ∧
      ∀ l, (list c).res = some l ↔ ∃ a, Accepted c.net r a ∧ c.parseList a.body = some l) := by
  obtain ⟨hne, hg⟩ := header_grants hS hk (verb := b! "list") (more := []) (blobs := []) (by
    intro t ht s hs
    simp only [List.mem_cons, List.not_mem_nil, or_false] at ht
    subst ht
    simp only [List.mem_cons, List.not_mem_nil, or_false] at hs
    rcases hs with rfl | rfl <;> exact Utf8.ascii (by decide +kernel)) rfl
  refine ⟨fun h => by simp [list, hk.pub, h], fun h => ⟨_, _, rfl, ?_, hg, ?_⟩⟩
  · unfold list
    rw [hk.pub, if_neg (by simp [h])]
    simp only [httpCall, if_neg hne, Option.map_none]
  · intro l
    unfold list
    rw [hk.pub, if_neg (by simp [h])]
    simp only [httpCall, if_neg hne, Option.any_none, Bool.false_eq_true, if_false, Option.bind_eq_some_iff, Option.map_none]
    exact exists_congr (fun a => and_congr res_iff Iff.rfl)

theorem fetch_ok {c : Client D} {hash : Bytes} (hv : isValid32ByteHex hash = true) (hu : c.urlOk (c.server ++ b! "/" ++ hash) = true) :
    (fetch c hash).1 = [getRequest c hash] ∧ ∀ a, (fetch c hash).2 = some a ↔ Accepted c.net (getRequest c hash) a := by
  unfold fetch
  rw [if_neg (by simp [hv]), if_neg (by simp only [hu]; decide)]
  exact ⟨rfl, fun a => res_iff⟩

/-- **C144 (getting).** `Download` refuses anything but a hash without asking; a hash it asks for with one request (with two slashes in its url) and a token for getting that blob. It
succeeds exactly if the server accepts and its whole answer arrives, and gives the bytes of the answer. -/
theorem C144_download {H : Hash32} {S : Schnorr} (hS : S.Correct) {c : Client D} {sk pub : Bytes} (hk : HasKey H S c sk pub) (hash : Bytes) :
    (isValid32ByteHex hash = false → download c hash = ([], [], false)) ∧
    (isValid32ByteHex hash = true → c.urlOk (c.server ++ b! "/" ++ hash) = true →
      ∃ hdr r, r = (⟨b! "GET", c.server ++ b! "/" ++ hash, [], [hdr], none⟩ : Req) ∧ (download c hash).1 = [r] ∧
        (∀ at_, c.now ≤ at_ → at_ < c.later + 60 → Grants H S hdr pub (b! "get") [hash] at_) ∧
        ∀ data, (download c hash).2 = (data, true) ↔ ∃ a, Accepted c.net r a ∧ a.complete = true ∧ a.body = data) := by
  refine ⟨fun h => by simp [download, fetch, h], fun hv hu => ?_⟩
  obtain ⟨hne, hg⟩ := header_grants hS hk (verb := b! "get") (more := [[b! "x", hash]]) (blobs := [hash]) (by
    intro t ht s hs
    simp only [List.mem_cons, List.not_mem_nil, or_false] at ht
    rcases ht with rfl | rfl <;> simp only [List.mem_cons, List.not_mem_nil, or_false] at hs <;> rcases hs with rfl | rfl <;>
      first | exact valid_utf8 hv | exact Utf8.ascii (by decide +kernel)) rfl
  obtain ⟨h1, h2⟩ := fetch_ok hv hu
  refine ⟨_, _, rfl, h1, hg, ?_⟩
  intro data
  have h2' : ∀ a, (fetch c hash).2 = some a ↔ Accepted c.net (getRequest c hash) a := h2
  unfold getRequest at h2'
  simp only [← h2']
  unfold download
  simp only
  cases hf : (fetch c hash).2 with
  | none => simp
  | some a =>
    simp only [Prod.mk.injEq, Option.some.injEq, exists_eq_left']
    exact and_comm

/-- **C144 (to a file).** `DownloadToFile` makes the same requests as `Download`. The file is touched only if the server accepts and it can be opened; then it holds what arrived, and the
call succeeds exactly if that is everything the server sent. -/
theorem C144_file (c : Client D) (canOpen : Bool) (room : Nat) (old : Option Bytes) (hash : Bytes) :
    (downloadToFile c canOpen room old hash).1 = (download c hash).1 ∧
    (((∃ r a, r ∈ (download c hash).1 ∧ Accepted c.net r a ∧ canOpen = true ∧ (downloadToFile c canOpen room old hash).2.1 = some (a.body.take room) ∧
        ((downloadToFile c canOpen room old hash).2.2 = true ↔ (download c hash).2 = (a.body, true) ∧ a.body.length ≤ room))) ∨
      ((downloadToFile c canOpen room old hash).2 = (old, false) ∧ (canOpen = false ∨ ∀ r ∈ (download c hash).1, ∀ a, ¬ Accepted c.net r a))) := by
  refine ⟨rfl, ?_⟩
  cases hf : (fetch c hash).2 with
  | none =>
    refine .inr ⟨by simp [downloadToFile, hf], .inr ?_⟩
    intro r hr a ha
    have hr' : r ∈ (fetch c hash).1 := hr
    by_cases hv : isValid32ByteHex hash = true
    · by_cases hu : c.urlOk (c.server ++ b! "/" ++ hash) = true
      · obtain ⟨h1, h2⟩ := fetch_ok hv hu
        rw [h1, List.mem_singleton] at hr'
        subst hr'
        rw [(h2 a).2 ha] at hf
        cases hf
      · unfold fetch at hr'
        rw [if_neg (by simp [hv]), if_pos hu] at hr'
        cases hr'
    · unfold fetch at hr'
      rw [if_pos hv] at hr'
      cases hr'
  | some a =>
    by_cases ho : canOpen = true
    · refine .inl ⟨getRequest c hash, a, ?_⟩
      have hv : isValid32ByteHex hash = true := by
        by_contra hv
        unfold fetch at hf
        rw [if_pos hv] at hf
        cases hf
      have hu : c.urlOk (c.server ++ b! "/" ++ hash) = true := by
        by_contra hu
        unfold fetch at hf
        rw [if_neg (by simp [hv]), if_pos hu] at hf
        cases hf
      obtain ⟨h1, h2⟩ := fetch_ok hv hu
      refine ⟨?_, (h2 a).1 hf, ho, ?_, ?_⟩
      · show _ ∈ (fetch c hash).1
        rw [h1]; simp
      · simp [downloadToFile, hf, ho]
      · simp [downloadToFile, download, hf, ho, and_comm]
    · refine .inr ⟨?_, .inl (by simpa using ho)⟩
      simp [downloadToFile, hf, ho]

/-- **C144 (sending).** If the file does not change while it is read, `UploadFile` makes one request with its content and a token for uploading what has that hash; it gives what the server
answered. A file that cannot be read is not sent. -/
theorem C144_upload {H : Hash32} {S : Schnorr} (hS : S.Correct) {c : Client D} {sk pub : Bytes} (hk : HasKey H S c sk pub) (mime content : Bytes) :
    (∀ second, (uploadFile c H mime none second).sent = [] ∧ (uploadFile c H mime none second).res = none) ∧
    ∃ hdr r, r = (⟨b! "PUT", c.server ++ b! "upload", mime, [hdr], some content⟩ : Req) ∧ (uploadFile c H mime (some content) content).sent = [r] ∧
      (∀ at_, c.now ≤ at_ → at_ < c.later + 60 → Grants H S hdr pub (b! "upload") [hexEnc (H content).val] at_) ∧
      ∀ d, (uploadFile c H mime (some content) content).res = some d ↔ ∃ a, Accepted c.net r a ∧ c.parse a.body = some d := by
  obtain ⟨hne, hg⟩ := header_grants hS hk (verb := b! "upload") (more := [[b! "x", hexEnc (H content).val]]) (blobs := [hexEnc (H content).val]) (by
    intro t ht s hs
    simp only [List.mem_cons, List.not_mem_nil, or_false] at ht
    rcases ht with rfl | rfl <;> simp only [List.mem_cons, List.not_mem_nil, or_false] at hs <;> rcases hs with rfl | rfl <;>
      first | exact hexEnc_utf8 _ | exact Utf8.ascii (by decide +kernel)) rfl
  refine ⟨fun _ => ⟨rfl, rfl⟩, _, _, rfl, ?_, hg, ?_⟩
  · simp only [uploadFile, httpCall, if_neg hne, Option.map_some]
  · intro d
    simp only [uploadFile, httpCall, if_neg hne, Option.any_some, bne_self_eq_false, Bool.false_eq_true, if_false, Option.bind_eq_some_iff, Option.map_some]
    exact exists_congr (fun a => and_congr res_iff Iff.rfl)

/-- **C144 (one token, one thing).** A token cannot be used for another action, another blob or by another user. -/
theorem C144_one_thing {H : Hash32} {S : Schnorr} {hdr pub pub' verb verb' : Bytes} {bs bs' : List Bytes} {t t' : Int}
    (h : Grants H S hdr pub verb bs t) (h' : Grants H S hdr pub' verb' bs' t') : pub = pub' ∧ verb = verb' ∧ bs = bs' := by
  obtain ⟨e, h1, h2, -, -, -, h3, h4⟩ := h
  obtain ⟨e', k1, k2, -, -, -, k3, k4⟩ := h'
  rw [h1] at k1
  cases k1
  rw [h3] at k3
  rw [h4] at k4
  cases k3
  exact ⟨h2.1.symm.trans k2.1, rfl, k4⟩

/-- **C144 (false: a refusing signer stops a request).** If the signer refuses, every request is made all the same, only without a token (with an empty one when getting a blob). -/
theorem C144_refused {c : Client D} (hr : ∀ e, c.sign e = none) (hash : Bytes) (H : Hash32) (mime content : Bytes) :
    (delete c hash).sent = [⟨b! "DELETE", c.server ++ hash, [], [], none⟩] ∧
    (uploadFile c H mime (some content) content).sent = [⟨b! "PUT", c.server ++ b! "upload", mime, [], some content⟩] ∧
    (isValidPublicKey c.parsePub c.pub.1 = true → (list c).sent = [⟨b! "GET", c.server ++ (b! "list/" ++ c.pub.1), [], [], none⟩]) ∧
    (isValid32ByteHex hash = true → c.urlOk (c.server ++ b! "/" ++ hash) = true → (download c hash).1 = [⟨b! "GET", c.server ++ b! "/" ++ hash, [], [[]], none⟩]) := by
  have hh : ∀ tags, authHeader c tags = [] := by intro tags; unfold authHeader; rw [hr]
  refine ⟨by simp [delete, httpCall, hh], by simp [uploadFile, httpCall, hh], fun h => by simp [list, httpCall, hh, h], fun hv hu => ?_⟩
  show (fetch c hash).1 = _
  rw [(fetch_ok hv hu).1]
  unfold getRequest
  rw [hh]

/-- What `NewClient` works on (client.go:20-22). -/
def base (s : Bytes) : Bytes := if (b! "http").isPrefixOf s then s else b! "https://" ++ s

theorem base_http (s : Bytes) : ∃ r, base s = b! "http" ++ r := by
  unfold base
  by_cases h : (b! "http").isPrefixOf s = true
  · rw [if_pos h]
    rw [List.isPrefixOf_iff_prefix] at h
    obtain ⟨r, hr⟩ := h
    exact ⟨r, hr.symm⟩
  · rw [if_neg h]
    exact ⟨b! "s://" ++ s, rfl⟩

theorem newServer_eq (s : Bytes) : newServer s = (if (base s).getLast? = some 47 then (base s).dropLast else base s) ++ [47] := rfl

theorem newServer_http (s : Bytes) : ∃ r, newServer s = b! "http" ++ (r ++ [47]) := by
  obtain ⟨r, hr⟩ := base_http s
  rw [newServer_eq, hr]
  by_cases h : (b! "http" ++ r).getLast? = some 47
  · rw [if_pos h]
    cases r with
    | nil => exact absurd h (by decide)
    | cons x r =>
      rw [List.dropLast_append_of_ne_nil (by simp)]
      exact ⟨_, List.append_assoc _ _ _⟩
  · rw [if_neg h]
    exact ⟨_, List.append_assoc _ _ _⟩

/-- **C144 (the server's address).** It always begins with `http` and ends in a slash; taking it over for another client changes nothing; and it does not matter whether the address was
given with a slash at the end. -/
theorem C144_server (s : Bytes) : (∃ r, newServer s = b! "http" ++ r ++ [47]) ∧ newServer (newServer s) = newServer s ∧
    (s ≠ [] → s.getLast? ≠ some 47 → newServer (s ++ [47]) = newServer s) := by
  obtain ⟨r, hr⟩ := newServer_http s
  refine ⟨⟨r, by rw [hr, List.append_assoc]⟩, ?_, ?_⟩
  · rw [hr]
    have hb : base (b! "http" ++ (r ++ [47])) = b! "http" ++ (r ++ [47]) := by
      unfold base
      rw [if_pos (by rw [List.isPrefixOf_iff_prefix]; exact ⟨_, rfl⟩)]
    rw [newServer_eq, hb, ← List.append_assoc, if_pos (List.getLast?_concat ..), List.dropLast_concat]
  · intro hne hl
    have hp : base (s ++ [47]) = base s ++ [47] := by
      unfold base
      by_cases h : (b! "http").isPrefixOf s = true
      · rw [if_pos h, if_pos]
        rw [List.isPrefixOf_iff_prefix] at h ⊢
        exact h.trans (List.prefix_append _ _)
      · rw [if_neg h, if_neg]
        · rw [List.append_assoc]
        · intro h'
          apply h
          rw [List.isPrefixOf_iff_prefix] at h' ⊢
          rcases List.prefix_concat_iff.1 h' with h'' | h''
          · have := congrArg List.getLast? h''
            rw [List.getLast?_concat] at this
            exact absurd this (by decide)
          · exact h''
    have hbl : (base s).getLast? ≠ some 47 := by
      unfold base
      by_cases h : (b! "http").isPrefixOf s = true
      · rw [if_pos h]; exact hl
      · rw [if_neg h, List.getLast?_append]
        cases hs : s.getLast? with
        | none => rw [List.getLast?_eq_none_iff] at hs; exact absurd hs hne
        | some x => rw [hs] at hl; simpa using hl
    rw [newServer_eq, newServer_eq, hp, if_pos (by simp), if_neg hbl, List.dropLast_concat]

/-! ### Examples -/

/-- A hash that depends on the length. -/
def lenHash : Hash32 := fun b => ⟨List.replicate 31 0 ++ [UInt8.ofNat b.length + b.headD 0], by simp⟩

/-- A value of the examples. -/
def toySk : Bytes := hexEnc (List.replicate 32 7)

/-- A server that answers everything with the same text, without looking. -/
def toyClient (body : Bytes) (complete : Bool) : Client Bytes where
  server := newServer (b! "media.example")
  sign := fun e => if (signEvent lenHash toySchnorr e toySk).2 then some (signEvent lenHash toySchnorr e toySk).1 else none
  pub := (toySk, true)
  parsePub := fun b => b.length = 32
  now := 1000
  later := 1001
  urlOk := fun _ => true
  net := fun _ => some ⟨200, body, complete⟩
  parse := some
  parseList := fun b => some [b]

theorem toy_hasKey (body : Bytes) (complete : Bool) : HasKey lenHash toySchnorr (toyClient body complete) toySk toySk where
  sign := fun _ => rfl
  key := by decide +kernel
  able := by
    intro k h hk hl
    have : hexDec toySk = some (List.replicate 32 7) := by decide +kernel
    rw [this] at hk
    cases hk
    simp [toySchnorr, hl]
  pub := rfl
  clock := by simp [toyClient]

/-- The hash of the text `abc`. -/
def abcHash : Bytes := hexEnc (lenHash (b! "abc")).val

example : isValid32ByteHex abcHash = true := by decide +kernel
example : (toyClient [] true).server = b! "https://media.example/" := by decide +kernel
example : newServer (b! "http://media.example/x") = b! "http://media.example/x/" := by decide +kernel
example : newServer (b! "httpbin.org") = b! "httpbin.org/" := by decide +kernel
example : (check (toyClient [] true) abcHash).res = some () ∧ (check (toyClient [] true) (b! "abc")).res = none := by decide +kernel
example : (download (toyClient (b! "abc") true) abcHash).2 = (b! "abc", true) := by decide +kernel
example : isValidPublicKey (toyClient [] true).parsePub toySk = true := by decide +kernel
example : (list (toyClient [] true)).res = some [[]] := by decide +kernel
example : Grants lenHash toySchnorr (authHeader (toyClient [] true) [[b! "t", b! "get"], [b! "x", abcHash]]) toySk (b! "get") [abcHash] 1030 := by
  refine (header_grants toySchnorr_correct (toy_hasKey [] true) (verb := b! "get") (more := [[b! "x", abcHash]]) (blobs := [abcHash]) ?_ rfl).2 1030 (by decide) (by decide)
  intro t ht s hs
  simp only [List.mem_cons, List.not_mem_nil, or_false] at ht
  rcases ht with rfl | rfl <;> simp only [List.mem_cons, List.not_mem_nil, or_false] at hs <;> rcases hs with rfl | rfl <;>
    first | exact hexEnc_utf8 _ | exact Utf8.ascii (by decide +kernel)
/-- A client whose signer refuses. -/
example : ∃ c : Client Bytes, (∀ e, c.sign e = none) ∧ isValidPublicKey c.parsePub c.pub.1 = true ∧ c.urlOk (c.server ++ b! "/" ++ abcHash) = true :=
  ⟨{ toyClient [] true with sign := fun _ => none }, fun _ => rfl, by decide +kernel, rfl⟩

/-- **C144 (false: what is got has the hash).** A server can answer with other bytes, and `Download` and `DownloadToFile` give them as the blob; `UploadFile` takes over a descriptor of
something else. -/
theorem C144_not_checked : ∃ (c : Client Bytes) (sk pub hash data : Bytes), HasKey lenHash toySchnorr c sk pub ∧ isValid32ByteHex hash = true ∧
    (download c hash).2 = (data, true) ∧ (∀ old, (downloadToFile c true 100 old hash).2 = (some data, true)) ∧ hexEnc (lenHash data).val ≠ hash ∧
    (uploadFile c lenHash [] (some (b! "abc")) (b! "abc")).res = some data :=
  ⟨toyClient (b! "other") true, toySk, toySk, abcHash, b! "other", toy_hasKey _ _, by decide +kernel, by decide +kernel, fun old => by
    have hf : (fetch (toyClient (b! "other") true) abcHash).2 = some ⟨200, b! "other", true⟩ := by decide +kernel
    simp [downloadToFile, hf], by decide +kernel, by decide +kernel⟩

/-- **C144 (false: what is sent has the hash in the token).** The file is hashed and then read again to be sent; if it is written to in between, without changing its size, the token names
another blob than the one sent. -/
theorem C144_changed : ∃ (c : Client Bytes) (first second hdr : Bytes) (r : Req), (uploadFile c lenHash [] (some first) second).sent = [r] ∧ (uploadFile c lenHash [] (some first) second).res.isSome ∧
    r.auth = [hdr] ∧ r.body = some second ∧ Grants lenHash toySchnorr hdr toySk (b! "upload") [hexEnc (lenHash first).val] 1030 ∧ hexEnc (lenHash first).val ≠ hexEnc (lenHash second).val := by
  refine ⟨toyClient (b! "done") true, b! "abc", b! "xbc", authHeader (toyClient (b! "done") true) [[b! "t", b! "upload"], [b! "x", abcHash]], _, rfl, by decide +kernel, by decide +kernel, rfl, ?_,
    by decide +kernel⟩
  refine (header_grants toySchnorr_correct (toy_hasKey (b! "done") true) (verb := b! "upload") (more := [[b! "x", abcHash]]) (blobs := [abcHash]) ?_ rfl).2 1030 (by decide) (by decide)
  intro t ht s hs
  simp only [List.mem_cons, List.not_mem_nil, or_false] at ht
  rcases ht with rfl | rfl <;> simp only [List.mem_cons, List.not_mem_nil, or_false] at hs <;> rcases hs with rfl | rfl <;>
    first | exact hexEnc_utf8 _ | exact Utf8.ascii (by decide +kernel)

/-- **C144 (false: a failed download leaves the file alone).** The file is emptied before the bytes arrive: if the connection breaks, what was there is gone, and a part of the new content
stays; `Download` too gives the part along with its error. -/
theorem C144_file_lost : ∃ (c : Client Bytes) (old part : Bytes), downloadToFile c true 100 (some old) abcHash = ((download c abcHash).1, some part, false) ∧ part ≠ old ∧ part ≠ b! "abc" ∧
    part <+: b! "abc" ∧ (download c abcHash).2 = (part, false) :=
  ⟨toyClient (b! "ab") false, b! "precious", b! "ab", by decide +kernel, by decide, by decide, by decide, by decide +kernel⟩

/-- **C144 (false: only blobs can be removed).** `Delete` does not look at the hash: for every text it sends a request to remove what is at that path, with the empty text the server's root. -/
theorem C144_delete_any (c : Client D) (text : Bytes) : ∃ r, (delete c text).sent = [r] ∧ r.method = b! "DELETE" ∧ r.url = c.server ++ text := ⟨_, rfl, rfl, rfl⟩

/-! ## NIP-96 -/

/-- `UploadRequest` (nip96/types.go:12-54); `file`: what the reader gives, and whether it ends without an error. -/
structure Upload where
  host : Bytes
  sk : Bytes
  signPayload : Bool
  file : Bytes × Bool
  filename : Bytes
  caption : Bytes
  alt : Bytes
  mediaType : Bytes
  contentType : Bytes
  noTransform : Bool
  expiration : Int

/-- A part of a form: its name, its file name if it has one, its content. -/
structure Part where
  name : Bytes
  filename : Option Bytes
  content : Bytes
deriving DecidableEq

/-- The request made: the url, the parts of the form in its body (`mime/multipart`), and the header `Authorization` if there is one. The method is POST. -/
structure Post where
  url : Bytes
  form : List Part
  auth : Option Bytes
deriving DecidableEq

/-- The form (nip96.go:33-59). -/
def form (u : Upload) : List Part :=
  [⟨b! "file", some u.filename, u.file.1⟩, ⟨b! "caption", none, u.caption⟩, ⟨b! "alt", none, u.alt⟩, ⟨b! "media_type", none, u.mediaType⟩, ⟨b! "content_type", none, u.contentType⟩,
    ⟨b! "no_transform", none, if u.noTransform then b! "true" else b! "false"⟩, ⟨b! "expiration", none, if u.expiration = 0 then [] else fmtInt u.expiration⟩]

/-- `generateAuthHeader` (nip96.go:109-137); `payload`: the hash, unless `fileHash` is nil. The error of `Sign` is ignored. -/
def postHeader (H : Hash32) (S : Schnorr) (now : Int) (sk host : Bytes) (payload : Option Bytes) : Option Bytes :=
  match getPublicKey S sk with
  | none => none
  | some pk =>
    let e : Event := ⟨[], pk, now, 27235, [[b! "u", host], [b! "method", b! "POST"]] ++ (match payload with | some h => [[b! "payload", hexEnc h]] | none => []), [], []⟩
    some (b! "Nostr " ++ b64Enc (encodeEvent (signEvent H S e sk).1))

/-- The answer to a post: the status and what the JSON decoder made of the body. -/
abbrev PostAnswer (R : Type) := Option (Nat × Option R)

/-- nip96.go:78-106: the answer (none: `client.Do` failed). -/
def answer {R : Type} : PostAnswer R → Option R
  | none => none
  | some (status, r) =>
    if status = 413 then none
    else if status = 400 then none
    else if status = 403 then none
    else if status = 402 then none
    else if status = 200 ∨ status = 201 ∨ status = 202 then r
    else none

/-- `Upload` (nip96.go:21-107): the requests and the response, `none` an error. `urlOk`: `http.NewRequest` accepts the url. -/
def upload {R : Type} (H : Hash32) (S : Schnorr) (now : Int) (urlOk : Bytes → Bool) (net : Post → PostAnswer R) (u : Upload) : List Post × Option R :=
  if u.host = [] then ([], none)
  else if ¬ u.file.2 then ([], none)
  else if ¬ urlOk u.host then ([], none)
  else if u.sk = [] then ([⟨u.host, form u, none⟩], answer (net ⟨u.host, form u, none⟩))
  else match postHeader H S now u.sk u.host (if u.signPayload then some (H u.file.1).val else none) with
    | none => ([], none)
    | some h => ([⟨u.host, form u, some h⟩], answer (net ⟨u.host, form u, some h⟩))

/-- What a server checks (NIP-98): a properly signed event of kind 27235 of that key and time, for posting to that url, with this payload or without one. -/
def GrantsPost (H : Hash32) (S : Schnorr) (header pub url : Bytes) (payload : List Bytes) (at_ : Int) : Prop :=
  ∃ e, carried header = some e ∧ Signed H S pub e ∧ e.kind = 27235 ∧ e.createdAt = at_ ∧ values (b! "u") e = [url] ∧ values (b! "method") e = [b! "POST"] ∧ values (b! "payload") e = payload

/-- **C145 (the form).** At most one request is made. It goes to the host and carries the file as it was read, its name, and the fields as given, the expiration only if it is set. The call
succeeds exactly if one of the three success codes comes back with a readable answer. -/
theorem C145_request {R : Type} (H : Hash32) (S : Schnorr) (now : Int) (urlOk : Bytes → Bool) (net : Post → PostAnswer R) (u : Upload) :
    (upload H S now urlOk net u = ([], none) ∧ (u.host = [] ∨ u.file.2 = false ∨ urlOk u.host = false ∨ u.sk ≠ [] ∧ getPublicKey S u.sk = none)) ∨
    ∃ r, (upload H S now urlOk net u).1 = [r] ∧ r.url = u.host ∧ u.file.2 = true ∧ r.form.head? = some ⟨b! "file", some u.filename, u.file.1⟩ ∧
      (∀ name value, (⟨name, none, value⟩ : Part) ∈ r.form ↔ (name, value) ∈ [(b! "caption", u.caption), (b! "alt", u.alt), (b! "media_type", u.mediaType), (b! "content_type", u.contentType),
        (b! "no_transform", if u.noTransform then b! "true" else b! "false"), (b! "expiration", if u.expiration = 0 then [] else fmtInt u.expiration)]) ∧
      (r.auth = none ↔ u.sk = []) ∧
      ∀ x, (upload H S now urlOk net u).2 = some x ↔ ∃ status, status ∈ [200, 201, 202] ∧ net r = some (status, some x) := by
  have hans : ∀ (a : PostAnswer R) (x : R), answer a = some x ↔ ∃ status, status ∈ [200, 201, 202] ∧ a = some (status, some x) := by
    intro a x
    cases a with
    | none => simp [answer]
    | some a =>
      obtain ⟨st, r⟩ := a
      simp only [answer]
      constructor
      · intro h
        repeat' split at h
        all_goals first | cases h; done | skip
        next h' => subst h; exact ⟨st, by simpa using h', rfl⟩
      · rintro ⟨st', hm, he⟩
        cases he
        simp only [List.mem_cons, List.not_mem_nil, or_false] at hm
        rcases hm with rfl | rfl | rfl <;> rfl
  have hform : ∀ name value, (⟨name, none, value⟩ : Part) ∈ form u ↔ (name, value) ∈ [(b! "caption", u.caption), (b! "alt", u.alt), (b! "media_type", u.mediaType), (b! "content_type", u.contentType),
        (b! "no_transform", if u.noTransform then b! "true" else b! "false"), (b! "expiration", if u.expiration = 0 then [] else fmtInt u.expiration)] := by
    intro name value
    simp [form]
  unfold upload
  by_cases h1 : u.host = []
  · rw [if_pos h1]; exact .inl ⟨rfl, .inl h1⟩
  rw [if_neg h1]
  by_cases h2 : u.file.2 = true
  swap
  · rw [if_pos h2]; exact .inl ⟨rfl, .inr (.inl (by simpa using h2))⟩
  rw [if_neg (by simp [h2])]
  by_cases h3 : urlOk u.host = true
  swap
  · rw [if_pos h3]; exact .inl ⟨rfl, .inr (.inr (.inl (by simpa using h3)))⟩
  rw [if_neg (by simp [h3])]
  by_cases h4 : u.sk = []
  · rw [if_pos h4]
    exact .inr ⟨_, rfl, rfl, h2, rfl, hform, by simp [h4], hans _⟩
  rw [if_neg h4]
  cases hp : postHeader H S now u.sk u.host (if u.signPayload then some (H u.file.1).val else none) with
  | none =>
    refine .inl ⟨rfl, .inr (.inr (.inr ⟨h4, ?_⟩))⟩
    unfold postHeader at hp
    split at hp
    · assumption
    · cases hp
  | some h => exact .inr ⟨_, rfl, rfl, h2, rfl, hform, by simp [h4], hans _⟩

/-- **C145 (the token).** With a key, the request carries a token of that key for posting to that host at that time; if the payload is to be signed it names the hash of exactly the bytes in
the form, otherwise no hash. -/
theorem C145_token {R : Type} {H : Hash32} {S : Schnorr} (hS : S.Correct) {now : Int} {urlOk : Bytes → Bool} {net : Post → PostAnswer R} {u : Upload} {pub : Bytes} {r : Post}
    (hr : (upload H S now urlOk net u).1 = [r]) (hk : u.sk ≠ []) (hpub : getPublicKey S u.sk = some pub) (able : ∀ k h, hexDec u.sk = some k → h.length = 32 → (S.sign k h).isSome)
    (hu : Utf8 u.host) (hn : InInt64 now) :
    ∃ hdr content, r.auth = some hdr ∧ (⟨b! "file", some u.filename, content⟩ : Part) ∈ r.form ∧
      GrantsPost H S hdr pub r.url (if u.signPayload then [hexEnc (H content).val] else []) now := by
  unfold upload at hr
  split at hr
  · cases hr
  split at hr
  · cases hr
  split at hr
  · cases hr
  unfold postHeader at hr
  simp only [hpub] at hr
  obtain ⟨-, e, h2, hs, h3, h4, h5, h6, h7, h8, h9⟩ := sign_ok (H := H) hS hpub able (⟨[], pub, now, 27235, [[b! "u", u.host], [b! "method", b! "POST"]] ++
    (match (if u.signPayload then some (H u.file.1).val else none) with | some h => [[b! "payload", hexEnc h]] | none => []), [], []⟩ : Event)
  rw [h2] at hr
  simp only [List.cons.injEq, and_true] at hr
  subst hr
  refine ⟨_, u.file.1, rfl, by simp [form], e, carried_enc ?_ ?_ ?_, hs, h4, h3, ?_, ?_, ?_⟩
  · rw [h4]; unfold InInt64; simp
  · rw [h3]; exact hn
  · refine ⟨h7, h8, by rw [h6]; exact Utf8.nil, h9, ?_⟩
    rw [h5]
    intro t ht s hs'
    cases hsp : u.signPayload <;> rw [hsp] at ht <;> simp at ht
    · rcases ht with rfl | rfl <;> simp at hs' <;> rcases hs' with rfl | rfl <;> first | exact hu | exact Utf8.ascii (by decide +kernel)
    · rcases ht with rfl | rfl | rfl <;> simp at hs' <;> rcases hs' with rfl | rfl <;> first | exact hu | exact hexEnc_utf8 _ | exact Utf8.ascii (by decide +kernel)
  · unfold values
    rw [h5]
    cases u.signPayload <;> simp
  · unfold values
    rw [h5]
    cases u.signPayload <;> simp
  · unfold values
    rw [h5]
    cases u.signPayload <;> simp

/-- An upload, by a host that takes everything. -/
def toyUpload (sk : Bytes) : Upload := ⟨b! "https://media.example/upload", sk, true, (b! "abc", true), b! "a.txt", b! "cap", [], [], b! "text/plain", false, 0⟩

example : (upload lenHash toySchnorr 1000 (fun _ => true) (fun _ => some (201, some ())) (toyUpload toySk)).2 = some () := by decide +kernel
example : ∃ r, (upload lenHash toySchnorr 1000 (fun _ => true) (fun _ => some (201, some ())) (toyUpload toySk)).1 = [r] := ⟨_, rfl⟩
example : toySk ≠ [] ∧ getPublicKey toySchnorr toySk = some toySk := by decide +kernel

/-- **C145 (false: a bad key is an error).** The error of signing is ignored: with a key that cannot sign (such as zero) the file is sent with a token that has no signature. -/
theorem C145_unsigned : ∃ (S : Schnorr) (u : Upload) (r : Post) (hdr : Bytes) (e : Event), (upload lenHash S 1000 (fun _ => true) (fun _ => some (200, some ())) u) = ([r], some ()) ∧
    r.auth = some hdr ∧ carried hdr = some e ∧ e.sig = [] ∧ e.id = [] :=
  ⟨{ toySchnorr with sign := fun _ _ => none }, toyUpload (hexEnc (List.replicate 32 0)), _, _, ⟨[], hexEnc (List.replicate 32 0), 1000, 27235, [[b! "u", b! "https://media.example/upload"],
    [b! "method", b! "POST"], [b! "payload", abcHash]], [], []⟩, rfl, rfl, by decide +kernel, rfl, rfl⟩

end GoNostr.Media
