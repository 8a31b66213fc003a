import Verif.Json.Gjson
/-!
# Envelopes

The messages between clients and relays (envelopes.go, envelopes_default.go).
-/

set_option autoImplicit false

namespace GoNostr.Json

/-- envelopes.go: the envelope types. A nil `*string`, `*int64` or `[]byte` is `none`. -/
inductive Env where
  | event (sub : Option Bytes) (e : Event)
  | req (sub : Bytes) (filters : List Filter)
  | count (sub : Bytes) (filter : Filter) (count : Option Int) (hll : Option Bytes)
  | notice (text : Bytes)
  | eose (sub : Bytes)
  | close (sub : Bytes)
  | closed (sub reason : Bytes)
  | ok (id : Bytes) (ok : Bool) (reason : Bytes)
  | auth (challenge : Option Bytes) (e : Event)
  deriving DecidableEq

/-- `w.RawString` of a string between quotes: nothing is escaped. -/
def rawQuoted (s : Bytes) : Bytes := [34] ++ s ++ [34]

/-- envelopes.go:225-227: `hex.Encode` into a buffer of 512 bytes, which panics if it is too short. -/
def hllHex (h : Bytes) : Out Bytes := if 256 < h.length then .panic else .val (hexEnc h ++ List.replicate (512 - 2 * h.length) 0)

/-- The MarshalJSON methods: EVENT envelopes.go:111-122, REQ 151-162, COUNT 215-236, NOTICE 257-263, EOSE 284-290, CLOSE 313-319, CLOSED 348-356, OK 384-398, AUTH 427-437. -/
def marshal : Env → Out Bytes
  | .event sub e => .val (b! "[\"EVENT\"," ++ (match sub with | some s => rawQuoted s ++ [44] | none => []) ++ encodeEvent e ++ [93])
  | .req sub fs => .val (b! "[\"REQ\"," ++ rawQuoted sub ++ fs.flatMap (fun f => 44 :: encodeFilter f) ++ [93])
  | .count sub f n hll => do
    let body ← match n with
      | some n => do
        let h ← match hll with
          | some h => (hllHex h).bind (fun x => .val (b! ",\"hll\":" ++ rawQuoted x))
          | none => .val []
        .val (b! "{\"count\":" ++ fmtInt n ++ h ++ [125])
      | none => .val (encodeFilter f)
    .val (b! "[\"COUNT\"," ++ rawQuoted sub ++ [44] ++ body ++ [93])
  | .notice t => .val (b! "[\"NOTICE\"," ++ jString t ++ [93])
  | .eose s => .val (b! "[\"EOSE\"," ++ jString s ++ [93])
  | .close s => .val (b! "[\"CLOSE\"," ++ jString s ++ [93])
  | .closed s r => .val (b! "[\"CLOSED\"," ++ jString s ++ [44] ++ jString r ++ [93])
  | .ok i ok r => .val (b! "[\"OK\"," ++ rawQuoted i ++ [44] ++ (if ok then b! "true" else b! "false") ++ [44] ++ jString r ++ [93])
  | .auth c e => .val (b! "[\"AUTH\"," ++ (match c with | some c => jString c | none => encodeEvent e) ++ [93])

/-- What ParseMessage answers: an envelope, `UnknownLabel`, or another error. -/
inductive Parsed where
  | env (v : Env)
  | unknown
  | bad
  deriving DecidableEq

/-- A parser that returned an envelope or an error. -/
def Parsed.of : Option Env → Parsed
  | some v => .env v
  | none => .bad

section
/- *library* `valid` is `json.Valid`; `readCount` is json-iterator's decoding of an object with a `count` and an `hll` member. -/
variable (valid : Bytes → Bool) (readCount : Bytes → Option (Option Int × Bytes))

/-- The loop over filters of COUNT, envelopes.go:201-210: all are decoded into the same filter. -/
def countFilters (f : Filter) (l : List GVal) : Option Filter := l.foldlM (fun f v => decodeFilterInto valid f v.raw) f

/-- envelopes.go:178-213. -/
def countFromJSON (arr : List GVal) : Option Env := match arr with
  | _ :: s :: x :: rest =>
    let filters := (countFilters valid {} (x :: rest)).map (fun f => Env.count s.str f none none)
    match readCount x.raw with
    | some (some n, h) => if h.length = 512 then (hexDec h).map (fun b => .count s.str {} (some n) (some b)) else some (.count s.str {} (some n) none)
    | _ => filters
  | _ => none

/-- The FromJSON methods on the elements of the array: EVENT envelopes.go:96-109, REQ 132-149, COUNT 178-213, NOTICE 247-255, EOSE 274-282, CLOSE 301-311, CLOSED 333-346, OK 371-382, AUTH 412-425. -/
def fromArray (label : Bytes) (arr : List GVal) : Parsed :=
  if label = b! "EVENT" then
    match arr with
    | [_, x] => .of ((decodeEvent x.raw).map (.event none))
    | [_, s, x] => .of ((decodeEvent x.raw).map (.event (some s.str)))
    | _ => .bad
  else if label = b! "REQ" then
    match arr with
    | _ :: s :: x :: rest => .of (((x :: rest).mapM (fun v => decodeFilter valid v.raw)).map (.req s.str))
    | _ => .bad
  else if label = b! "COUNT" then .of (countFromJSON valid readCount arr)
  else if label = b! "NOTICE" then
    match arr with
    | _ :: s :: _ => .env (.notice s.str)
    | _ => .bad
  else if label = b! "EOSE" then
    match arr with
    | _ :: s :: _ => .env (.eose s.str)
    | _ => .bad
  else if label = b! "OK" then
    match arr with
    | _ :: i :: o :: r :: _ => .env (.ok i.str (o.raw == b! "true") r.str)
    | _ => .bad
  else if label = b! "AUTH" then
    match arr with
    | _ :: x :: _ => if x.isObject then .of ((decodeEvent x.raw).map (.auth none)) else .env (.auth (some x.str) zeroEvent)
    | _ => .bad
  else if label = b! "CLOSED" then
    match arr with
    | [_, s, r] => .env (.closed s.str r.str)
    | _ => .bad
  else if label = b! "CLOSE" then
    match arr with
    | [_, s] => .env (.close s.str)
    | _ => .bad
  else .unknown

/-- envelopes_default.go:17-25 (and envelopes.go:25-33): the text between the first two quotes. -/
def labelOf (msg : Bytes) : Option Bytes := match msg.dropWhile (· ≠ 34) with
  | [] => none
  | _ :: s => if 34 ∈ s then some (s.takeWhile (· ≠ 34)) else none

/-- envelopes_default.go:16-56 (envelopes.go:24-67 is the same without the reason of the failure). -/
def parseMessage (msg : Bytes) : Parsed := match labelOf msg with
  | none => .bad
  | some label => fromArray valid readCount label (gArray msg)

/-! ## Messages in any layout -/

/-- A message with the label and the elements that follow it: white space anywhere between them, strings with any escapes, and anything behind the closing bracket. -/
def IsMessage (msg label : Bytes) (l : List GVal) : Prop :=
  ∃ w w' t, Ws w ∧ Ws w' ∧ GItems 44 t l ∧ msg = w ++ 91 :: (w' ++ (34 :: (label ++ [34]) ++ t))

/-- A label: nothing in it needs escaping. -/
def PlainText (s : Bytes) : Prop := ∀ c ∈ s, 32 ≤ c ∧ c ≠ 34 ∧ c ≠ 92

theorem PlainText.esc {s : Bytes} (h : PlainText s) : Esc s s := Esc.plain h

instance (s : Bytes) : Decidable (PlainText s) := inferInstanceAs (Decidable (∀ c ∈ s, _))

theorem takeWhile_append_stop {p : UInt8 → Bool} {s t : Bytes} {c : UInt8} (hs : ∀ x ∈ s, p x = true) (hc : p c = false) : (s ++ c :: t).takeWhile p = s := by
  induction s with
  | nil => simp [hc]
  | cons x s ih => simp [hs x (by simp), ih (fun y hy => hs y (List.mem_cons_of_mem _ hy))]

theorem dropWhile_append_stop {p : UInt8 → Bool} {s t : Bytes} {c : UInt8} (hs : ∀ x ∈ s, p x = true) (hc : p c = false) : (s ++ c :: t).dropWhile p = c :: t := by
  induction s with
  | nil => simp [hc]
  | cons x s ih => simp [hs x (by simp), ih (fun y hy => hs y (List.mem_cons_of_mem _ hy))]

theorem Ws.no_quote {w : Bytes} (h : Ws w) : ∀ c ∈ w, decide (c ≠ 34) = true := fun c hc => by rcases h c hc with rfl | rfl | rfl | rfl <;> decide

theorem IsMessage.label {msg label : Bytes} {l : List GVal} (h : IsMessage msg label l) (hp : PlainText label) : labelOf msg = some label := by
  obtain ⟨w, w', t, hw, hw', _, rfl⟩ := h
  unfold labelOf
  have : w ++ 91 :: (w' ++ (34 :: (label ++ [34]) ++ t)) = (w ++ 91 :: w') ++ 34 :: (label ++ 34 :: t) := by simp
  rw [this, dropWhile_append_stop (fun x hx => ?_) (by decide)]
  · simp only [List.mem_append, List.mem_cons, true_or, or_true, if_true]
    rw [takeWhile_append_stop (fun x hx => by simpa using (hp x hx).2.1) (by decide)]
  · rcases List.mem_append.1 hx with hx | hx
    · exact hw.no_quote x hx
    · rcases List.mem_cons.1 hx with rfl | hx
      · decide
      · exact hw'.no_quote x hx

theorem IsMessage.array {msg label : Bytes} {l : List GVal} (h : IsMessage msg label l) (hp : PlainText label) : gArray msg = ⟨34 :: (label ++ [34]), label, false⟩ :: l := by
  obtain ⟨w, w', t, hw, hw', ht, rfl⟩ := h
  exact gArray_items hw (.item (.inl ⟨hw', rfl⟩) (.str hp.esc) ht)

theorem IsMessage.parse {msg label : Bytes} {l : List GVal} (h : IsMessage msg label l) (hp : PlainText label) :
    parseMessage valid readCount msg = fromArray valid readCount label (⟨34 :: (label ++ [34]), label, false⟩ :: l) := by
  unfold parseMessage
  rw [h.label hp, h.array hp]

/-- A string element saying `s`. -/
def Says (v : GVal) (s : Bytes) : Prop := v.str = s ∧ v.isObject = false

/-- An element that is an object read as the event. -/
def SaysEvent (v : GVal) (e : Event) : Prop := v.isObject = true ∧ ∃ l, IsObject v.raw l ∧ l.foldlM member zeroEvent = some e

/-- An element that is an object read as the filter. -/
def SaysFilter (v : GVal) (f : Filter) : Prop := v.isObject = true ∧ ∃ l, IsFilterObject v.raw l ∧ l.foldlM fmember { tags := some [] } = some f

/-- The label of a message and what follows it, for every kind of message except the answer to a COUNT. -/
inductive Carries : Env → Bytes → List GVal → Prop
  | event {x : GVal} {e : Event} (h : SaysEvent x e) : Carries (.event none e) (b! "EVENT") [x]
  | eventSub {v x : GVal} {s : Bytes} {e : Event} (hs : Says v s) (h : SaysEvent x e) : Carries (.event (some s) e) (b! "EVENT") [v, x]
  | req {v : GVal} {s : Bytes} {l : List GVal} {fs : List Filter} (hs : Says v s) (hne : fs ≠ []) (h : List.Forall₂ SaysFilter l fs) : Carries (.req s fs) (b! "REQ") (v :: l)
  | count {v x : GVal} {s : Bytes} {f : Filter} (hs : Says v s) (h : SaysFilter x f) (hn : ∀ n r, readCount x.raw ≠ some (some n, r)) : Carries (.count s f none none) (b! "COUNT") [v, x]
  | notice {v : GVal} {s : Bytes} (hs : Says v s) : Carries (.notice s) (b! "NOTICE") [v]
  | eose {v : GVal} {s : Bytes} (hs : Says v s) : Carries (.eose s) (b! "EOSE") [v]
  | close {v : GVal} {s : Bytes} (hs : Says v s) : Carries (.close s) (b! "CLOSE") [v]
  | closed {v x : GVal} {s r : Bytes} (hs : Says v s) (hr : Says x r) : Carries (.closed s r) (b! "CLOSED") [v, x]
  | ok {v o x : GVal} {i r : Bytes} {b : Bool} (hi : Says v i) (ho : o.raw = if b then b! "true" else b! "false") (hr : Says x r) : Carries (.ok i b r) (b! "OK") [v, o, x]
  | challenge {v : GVal} {s : Bytes} (hs : Says v s) : Carries (.auth (some s) zeroEvent) (b! "AUTH") [v]
  | auth {x : GVal} {e : Event} (h : SaysEvent x e) : Carries (.auth none e) (b! "AUTH") [x]

theorem mapM_filters {l : List GVal} {fs : List Filter} (h : List.Forall₂ SaysFilter l fs) : l.mapM (fun v => decodeFilter valid v.raw) = some fs := by
  induction h with
  | nil => rfl
  | cons hx _ ih =>
    obtain ⟨_, m, h1, h2⟩ := hx
    rw [List.mapM_cons, C22_any_layout valid h1 h2, ih]
    rfl

theorem SaysEvent.decode {v : GVal} {e : Event} (h : SaysEvent v e) : decodeEvent v.raw = some e := by
  obtain ⟨_, l, h1, h2⟩ := h
  exact C21_any_layout h1 h2

/-- C23: a message of any kind is read as what it says, in whatever layout it was written. -/
theorem C23_any_layout {env : Env} {msg label : Bytes} {l : List GVal} (hm : IsMessage msg label l) (hc : Carries readCount env label l) : parseMessage valid readCount msg = .env env := by
  have hp : PlainText label := by cases hc <;> decide +kernel
  rw [hm.parse valid readCount hp]
  cases hc with
  | event h => simp [fromArray, h.decode, Parsed.of]
  | eventSub hs h => simp [fromArray, h.decode, Parsed.of, hs.1]
  | @req v s l fs hs hne h =>
    cases h with
    | nil => exact absurd rfl hne
    | @cons x f l fs hx hl =>
      have := mapM_filters valid (List.Forall₂.cons hx hl)
      have e1 : (b! "REQ" : Bytes) ≠ b! "EVENT" := by decide +kernel
      simp only [fromArray, if_neg e1, if_true, this, Option.map_some, Parsed.of, hs.1]
  | @count v x s f hs h hn =>
    obtain ⟨_, m, h1, h2⟩ := h
    have hd : decodeFilterInto valid {} x.raw = some f := C22_any_layout valid h1 h2
    have e1 : (b! "COUNT" : Bytes) ≠ b! "EVENT" := by decide +kernel
    have e2 : (b! "COUNT" : Bytes) ≠ b! "REQ" := by decide +kernel
    have hf : countFilters valid {} [x] = some f := by simp [countFilters, hd]
    simp only [fromArray, if_neg e1, if_neg e2, if_true, countFromJSON, hf, hs.1]
    cases hr : readCount x.raw with
    | none => rfl
    | some p =>
      obtain ⟨n, r⟩ := p
      cases n with
      | none => rfl
      | some n => exact absurd hr (hn n r)
  | notice hs => simp [fromArray, hs.1]
  | eose hs => simp [fromArray, hs.1]
  | close hs => simp [fromArray, hs.1]
  | closed hs hr => simp [fromArray, hs.1, hr.1]
  | @ok v o x i r b hi ho hr => cases b <;> simp [fromArray, hi.1, hr.1, ho]
  | challenge hs => simp [fromArray, hs.1, hs.2]
  | auth h => simp [fromArray, h.decode, Parsed.of, h.1]


/-! ## What the encoder writes -/

/-- *library* What is asked of json-iterator: it reads the two texts a COUNT answer is written as, and finds no count in a filter. -/
structure ReadsCount : Prop where
  plain : ∀ n : Int, InInt64 n → readCount (b! "{\"count\":" ++ fmtInt n ++ [125]) = some (some n, [])
  hll : ∀ (n : Int) (h : Bytes), InInt64 n → PlainText h → readCount (b! "{\"count\":" ++ fmtInt n ++ (b! ",\"hll\":" ++ rawQuoted h) ++ [125]) = some (some n, h)
  filter : ∀ f : Filter, Writable f → ∀ n r, readCount (encodeFilter f) ≠ some (some n, r)

/-- What can be sent: identifiers that are written without escaping contain nothing to escape, integers are 64 bits, a REQ has filters, and of two alternatives only one is present. -/
def Sendable : Env → Prop
  | .event sub e => (∀ s, sub = some s → PlainText s) ∧ InInt64 e.kind ∧ InInt64 e.createdAt
  | .req sub fs => PlainText sub ∧ fs ≠ [] ∧ ∀ f ∈ fs, Writable f
  | .count sub f none hll => PlainText sub ∧ Writable f ∧ hll = none
  | .count sub f (some n) hll => PlainText sub ∧ f = {} ∧ InInt64 n ∧ ∀ h, hll = some h → h.length = 256
  | .ok id _ _ => PlainText id
  | .auth c e => (c ≠ none → e = zeroEvent) ∧ InInt64 e.kind ∧ InInt64 e.createdAt
  | _ => True

/-- What arrives: the events and filters as `C21_any_strings` and `C22_what_arrives` say, the rest as it is. -/
def arrives : Env → Env
  | .event sub e => .event sub (cleanEvent e)
  | .req sub fs => .req sub (fs.map onWire)
  | .count sub f none hll => .count sub (onWire f) none hll
  | .auth none e => .auth none (cleanEvent e)
  | env => env

theorem gtext_event {e : Event} (hk : InInt64 e.kind) (hc : InInt64 e.createdAt) : GText (encodeEvent e) ⟨encodeEvent e, [], true⟩ ∧ SaysEvent ⟨encodeEvent e, [], true⟩ (cleanEvent e) := by
  refine ⟨?_, rfl, _, encode_isObject e hk hc, written_says e⟩
  obtain ⟨body, h, he⟩ := encode_members e hk hc
  rw [he]
  exact .obj h.squash

theorem gtext_filter {f : Filter} (h : Writable f) : GText (encodeFilter f) ⟨encodeFilter f, [], true⟩ ∧ SaysFilter ⟨encodeFilter f, [], true⟩ (onWire f) := by
  refine ⟨?_, rfl, _, encodeFilter_isObject h, filterMembers_says h⟩
  obtain ⟨body, h, he⟩ := encodeFilter_members h
  rw [he]
  exact .obj h.squash

theorem gtext_raw {s : Bytes} (h : PlainText s) : GText (rawQuoted s) ⟨rawQuoted s, s, false⟩ := .str h.esc

theorem gtext_j (s : Bytes) : GText (jString s) ⟨jString s, s, false⟩ := .str (jBody_esc s)

theorem GItems.next {t u : Bytes} {v : GVal} {l : List GVal} (ht : GText t v) (h : GItems 44 u l) : GItems 44 (44 :: (t ++ u)) (v :: l) := .item sep_comma ht h

theorem GItems.done : GItems 44 [93] [] := .close (w := []) (rest := []) .nil

theorem isMessage_of {label t : Bytes} {l : List GVal} (h : GItems 44 t l) : IsMessage (91 :: (34 :: (label ++ [34]) ++ t)) label l := ⟨[], [], t, .nil, .nil, h, rfl⟩

theorem filters_items {fs : List Filter} (h : ∀ f ∈ fs, Writable f) :
    ∃ l, GItems 44 (fs.flatMap (fun f => 44 :: encodeFilter f) ++ [93]) l ∧ List.Forall₂ SaysFilter l (fs.map onWire) := by
  induction fs with
  | nil => exact ⟨[], .done, .nil⟩
  | cons f fs ih =>
    obtain ⟨l, h1, h2⟩ := ih (fun g hg => h g (List.mem_cons_of_mem _ hg))
    obtain ⟨g1, g2⟩ := gtext_filter (h f (by simp))
    exact ⟨_, by simpa using GItems.next g1 h1, .cons g2 h2⟩

theorem hexEnc_plainText (b : Bytes) : PlainText (hexEnc b) := by
  intro c hc
  have key : ∀ c : UInt8, IsLowerHexByte c → 32 ≤ c ∧ c ≠ 34 ∧ c ≠ 92 := by unfold IsLowerHexByte; decide +kernel
  exact key c (hexEnc_lower b c hc)

theorem countText {n : Int} {h : Bytes} (hh : h = [] ∨ ∃ x, PlainText x ∧ h = b! ",\"hll\":" ++ rawQuoted x) (rest : Bytes) :
    Json.squash 1 false false ((b! "\"count\":" ++ fmtInt n ++ h ++ [125]) ++ rest) = b! "\"count\":" ++ fmtInt n ++ h ++ [125] := by
  have k1 : Skips (b! "\"count\":") 1 1 := by
    have := (Skips.str (plainKey (k := b! "count") (by decide +kernel)) 1).append (sep_colon.skips 1)
    exact this
  have k2 : Skips h 1 1 := by
    rcases hh with rfl | ⟨x, hx, rfl⟩
    · exact Skips.plain (by simp) 1
    · have := (Skips.plain (t := [44]) (by decide +kernel) 1).append ((Skips.str (plainKey (k := b! "hll") (by decide +kernel)) 1).append ((sep_colon.skips 1).append (Skips.str hx.esc 1)))
      exact this
  have := ((k1.append (Skips.plain (fmtInt_noBracket n) 1)).append k2) (125 :: rest)
  have e : (b! "\"count\":" ++ fmtInt n ++ h ++ [125]) ++ rest = b! "\"count\":" ++ fmtInt n ++ h ++ 125 :: rest := by simp only [List.append_assoc, List.cons_append, List.nil_append]
  rw [e, this]
  rfl

/-- C23: what arrives when an envelope is written and parsed, for every envelope that can be sent. -/
theorem C23_what_arrives (hj : ReadsCount readCount) {env : Env} (h : Sendable env) : ∃ msg, marshal env = .val msg ∧ parseMessage valid readCount msg = .env (arrives env) := by
  cases env with
  | event sub e =>
    obtain ⟨hs, hk, hc⟩ := h
    obtain ⟨g1, g2⟩ := gtext_event hk hc
    refine ⟨_, rfl, ?_⟩
    cases sub with
    | none => exact C23_any_layout valid readCount (isMessage_of (label := b! "EVENT") (.next g1 .done)) (.event g2)
    | some s => 
      have := isMessage_of (label := b! "EVENT") (.next (gtext_raw (hs s rfl)) (.next g1 .done))
      refine C23_any_layout valid readCount ?_ (.eventSub (v := ⟨rawQuoted s, s, false⟩) ⟨rfl, rfl⟩ g2)
      simpa using this
  | req sub fs =>
    obtain ⟨hs, hne, hf⟩ := h
    obtain ⟨l, h1, h2⟩ := filters_items hf
    refine ⟨_, rfl, ?_⟩
    refine C23_any_layout valid readCount (l := ⟨rawQuoted sub, sub, false⟩ :: l) ?_ (.req ⟨rfl, rfl⟩ (by simpa using hne) h2)
    simpa using isMessage_of (label := b! "REQ") (.next (gtext_raw hs) h1)
  | count sub f n hll =>
    cases n with
    | none =>
      obtain ⟨hs, hf, rfl⟩ := h
      obtain ⟨g1, g2⟩ := gtext_filter hf
      refine ⟨_, rfl, C23_any_layout valid readCount ?_ (.count (v := ⟨rawQuoted sub, sub, false⟩) ⟨rfl, rfl⟩ g2 (hj.filter f hf))⟩
      simpa using isMessage_of (label := b! "COUNT") (.next (gtext_raw hs) (.next g1 .done))
    | some n =>
      obtain ⟨hs, rfl, hn, hh⟩ := h
      cases hll with
      | none =>
        refine ⟨_, rfl, ?_⟩
        have ht : GText (b! "{\"count\":" ++ fmtInt n ++ [] ++ [125]) ⟨b! "{\"count\":" ++ fmtInt n ++ [] ++ [125], [], true⟩ := GText.obj (countText (.inl rfl))
        have hm := isMessage_of (label := b! "COUNT") (.next (gtext_raw hs) (.next ht .done))
        have hr := hj.plain n hn
        have hp := hm.parse valid readCount (by decide +kernel)
        simp only [List.append_nil] at hp
        simp only [fromArray, countFromJSON, hr] at hp
        simpa [Parsed.of, arrives] using hp
      | some h =>
        have hl := hh h rfl
        have hx : hllHex h = .val (hexEnc h) := by simp [hllHex, hl]
        have hpl := hexEnc_plainText h
        refine ⟨b! "[\"COUNT\"," ++ rawQuoted sub ++ [44] ++ (b! "{\"count\":" ++ fmtInt n ++ (b! ",\"hll\":" ++ rawQuoted (hexEnc h)) ++ [125]) ++ [93], ?_, ?_⟩
        · simp only [marshal, hx]; rfl
        have ht : GText (b! "{\"count\":" ++ fmtInt n ++ (b! ",\"hll\":" ++ rawQuoted (hexEnc h)) ++ [125]) ⟨b! "{\"count\":" ++ fmtInt n ++ (b! ",\"hll\":" ++ rawQuoted (hexEnc h)) ++ [125], [], true⟩ :=
          GText.obj (countText (.inr ⟨_, hpl, rfl⟩))
        have hm := isMessage_of (label := b! "COUNT") (.next (gtext_raw hs) (.next ht .done))
        have hr := hj.hll n _ hn hpl
        have hp := hm.parse valid readCount (by decide +kernel)
        have h512 : (hexEnc h).length = 512 := by simp [hl]
        simp only [fromArray, countFromJSON, hr, h512, hexDec_hexEnc] at hp
        simpa [Parsed.of, arrives] using hp
  | notice t => exact ⟨_, rfl, C23_any_layout valid readCount (isMessage_of (label := b! "NOTICE") (.next (gtext_j t) .done)) (.notice ⟨rfl, rfl⟩)⟩
  | eose s => exact ⟨_, rfl, C23_any_layout valid readCount (isMessage_of (label := b! "EOSE") (.next (gtext_j s) .done)) (.eose ⟨rfl, rfl⟩)⟩
  | close s => exact ⟨_, rfl, C23_any_layout valid readCount (isMessage_of (label := b! "CLOSE") (.next (gtext_j s) .done)) (.close ⟨rfl, rfl⟩)⟩
  | closed s r =>
    refine ⟨_, rfl, C23_any_layout valid readCount ?_ (.closed (v := ⟨jString s, s, false⟩) (x := ⟨jString r, r, false⟩) ⟨rfl, rfl⟩ ⟨rfl, rfl⟩)⟩
    simpa using isMessage_of (label := b! "CLOSED") (.next (gtext_j s) (.next (gtext_j r) .done))
  | ok i b r =>
    refine ⟨_, rfl, C23_any_layout valid readCount ?_ (.ok (v := ⟨rawQuoted i, i, false⟩) (o := ⟨if b then b! "true" else b! "false", [], false⟩) (x := ⟨jString r, r, false⟩) ⟨rfl, rfl⟩ rfl ⟨rfl, rfl⟩)⟩
    simpa using isMessage_of (label := b! "OK") (.next (gtext_raw h) (.next (.bool b) (.next (gtext_j r) .done)))
  | auth c e =>
    obtain ⟨h1, hk, hc⟩ := h
    cases c with
    | none =>
      obtain ⟨g1, g2⟩ := gtext_event hk hc
      exact ⟨_, rfl, C23_any_layout valid readCount (isMessage_of (label := b! "AUTH") (.next g1 .done)) (.auth g2)⟩
    | some c =>
      rw [h1 (by simp)]
      exact ⟨_, rfl, C23_any_layout valid readCount (isMessage_of (label := b! "AUTH") (.next (gtext_j c) .done)) (.challenge ⟨rfl, rfl⟩)⟩

/-- The strings are UTF-8 and the filters plain (lists absent or not empty). -/
def Clean : Env → Prop
  | .event _ e => EventUtf8 e
  | .req _ fs => ∀ f ∈ fs, Plain f
  | .count _ f none _ => Plain f
  | .auth _ e => EventUtf8 e
  | _ => True

/-- The same envelope with the tag conditions of its filters not nil. -/
def withTags (f : Filter) : Filter := { f with tags := some (tagEntries f.tags) }

/-- Specification: what of an envelope is written. -/
def norm : Env → Env
  | .req sub fs => .req sub (fs.map withTags)
  | .count sub f none hll => .count sub (withTags f) none hll
  | env => env

/-- C23: an envelope that was written is parsed as the same kind of envelope with the same contents (a nil map of tag conditions comes back as an empty one). Missing for the full property: what
`Sendable` and `Clean` exclude, for which it is false (below). -/
theorem C23_round_trip_partial (hj : ReadsCount readCount) {env : Env} (h : Sendable env) (hc : Clean env) : ∃ msg, marshal env = .val msg ∧ parseMessage valid readCount msg = .env (norm env) := by
  have : arrives env = norm env := by
    cases env with
    | event sub e => simp [arrives, norm, cleanEvent_utf8 hc]
    | req sub fs =>
      simp only [arrives, norm]
      rw [List.map_congr_left (fun f hf => onWire_plain (hc f hf))]
      rfl
    | count sub f n hll =>
      cases n with
      | none => simp only [arrives, norm, onWire_plain hc]; rfl
      | some n => rfl
    | auth c e =>
      cases c with
      | none => simp [arrives, norm, cleanEvent_utf8 hc]
      | some c => rfl
    | _ => rfl
  rw [← this]
  exact C23_what_arrives valid readCount hj h

/-- The label of an envelope: the Label methods, envelopes.go:94, 130, 172, 241, 268, 295, 327, 365, 406. -/
def Env.label : Env → Bytes
  | .event .. => b! "EVENT"
  | .req .. => b! "REQ"
  | .count .. => b! "COUNT"
  | .notice .. => b! "NOTICE"
  | .eose .. => b! "EOSE"
  | .close .. => b! "CLOSE"
  | .closed .. => b! "CLOSED"
  | .ok .. => b! "OK"
  | .auth .. => b! "AUTH"

theorem Parsed.of_eq {o : Option Env} {v : Env} (h : Parsed.of o = .env v) : o = some v := by
  cases o with
  | none => cases h
  | some x => injection h with h; rw [h]

theorem Parsed.of_ne_unknown (o : Option Env) : Parsed.of o ≠ .unknown := by cases o <;> simp [Parsed.of]

theorem Parsed.of_map {α : Type} {o : Option α} {f : α → Env} {v : Env} (h : Parsed.of (o.map f) = .env v) : ∃ a, v = f a := by
  cases o with
  | none => cases h
  | some a => exact ⟨a, by injection h with h; exact h.symm⟩

theorem countFromJSON_label {arr : List GVal} {v : Env} (h : countFromJSON valid readCount arr = some v) : v.label = b! "COUNT" := by
  have hf : ∀ (s : GVal) (l : List GVal), (countFilters valid {} l).map (fun f => Env.count s.str f none none) = some v → v.label = b! "COUNT" := by
    intro s l h
    obtain ⟨f, _, rfl⟩ := Option.map_eq_some_iff.1 h
    rfl
  unfold countFromJSON at h
  split at h
  · simp only at h
    split at h
    · split at h
      · obtain ⟨b, _, rfl⟩ := Option.map_eq_some_iff.1 h
        rfl
      · injection h with h; rw [← h]; rfl
    · exact hf _ _ h
  · cases h

/-- C23: an acceptance is read as one only from the literal `true`: nothing else in its place, like `1` or `"true"`, makes an OK an acceptance. -/
theorem C23_ok_only_true {msg : Bytes} {l i o r : GVal} {rest : List GVal} (hl : labelOf msg = some (b! "OK")) (ha : gArray msg = l :: i :: o :: r :: rest) :
    ∃ b, parseMessage valid readCount msg = .env (.ok i.str b r.str) ∧ (b = true ↔ o.raw = b! "true") := by
  refine ⟨o.raw == b! "true", ?_, by simp⟩
  simp only [parseMessage, hl, ha]
  rfl

example : parseMessage (fun _ => true) (fun _ => none) (b! "[\"OK\",\"x\",1,\"\"]") = .env (.ok (b! "x") false []) ∧
    parseMessage (fun _ => true) (fun _ => none) (b! "[\"OK\",\"x\",\"true\",\"\"]") = .env (.ok (b! "x") false []) ∧
    parseMessage (fun _ => true) (fun _ => none) (b! "[\"OK\",\"x\",true,\"\"]") = .env (.ok (b! "x") true []) := by decide +kernel

/-- C23: whatever the message, the envelope it is parsed as is of the kind its label names. -/
theorem C23_kind_is_label {msg : Bytes} {v : Env} (h : parseMessage valid readCount msg = .env v) : labelOf msg = some v.label := by
  unfold parseMessage at h
  cases hl : labelOf msg with
  | none => simp [hl] at h
  | some label =>
    simp only [hl] at h
    congr 1
    unfold fromArray at h
    split at h
    · next e =>
      rw [e]
      (repeat' split at h) <;> first | (obtain ⟨a, rfl⟩ := Parsed.of_map h; rfl) | cases h
    split at h
    · next e =>
      rw [e]
      (repeat' split at h) <;> first | (obtain ⟨a, rfl⟩ := Parsed.of_map h; rfl) | cases h
    split at h
    · next e => rw [e, countFromJSON_label valid readCount (Parsed.of_eq h)]
    all_goals
      (repeat' split at h) <;> first | (cases h <;> assumption) | (obtain ⟨a, rfl⟩ := Parsed.of_map h; assumption)

/-- C23: a message is passed to the handler for unknown labels exactly when it has a label and that is none of the nine. -/
theorem C23_unknown_label {msg : Bytes} : parseMessage valid readCount msg = .unknown ↔
    ∃ label, labelOf msg = some label ∧ label ∉ [b! "EVENT", b! "REQ", b! "COUNT", b! "NOTICE", b! "EOSE", b! "OK", b! "AUTH", b! "CLOSED", b! "CLOSE"] := by
  unfold parseMessage
  cases hl : labelOf msg with
  | none => simp
  | some label =>
    simp only [Option.some.injEq, exists_eq_left']
    constructor
    · intro h
      unfold fromArray at h
      (repeat' split at h) <;> first | (exact absurd h (Parsed.of_ne_unknown _)) | cases h
      simp only [List.mem_cons, List.not_mem_nil, or_false, not_or]
      exact ⟨by assumption, by assumption, by assumption, by assumption, by assumption, by assumption, by assumption, by assumption, by assumption⟩
    · intro h
      simp only [List.mem_cons, List.not_mem_nil, or_false, not_or] at h
      obtain ⟨h1, h2, h3, h4, h5, h6, h7, h8, h9⟩ := h
      unfold fromArray
      rw [if_neg h1, if_neg h2, if_neg h3, if_neg h4, if_neg h5, if_neg h6, if_neg h7, if_neg h8, if_neg h9]

/-- C23 is false for identifiers with a quote in them, which are written without escaping: a rejection is read as an acceptance, a subscription cannot be read. -/
theorem C23_quote_in_id : (∃ msg, marshal (.ok (b! "x\",true,\"") false (b! "no")) = .val msg ∧ parseMessage valid readCount msg = .env (.ok (b! "x") true [])) ∧
    (∃ msg, marshal (.req (b! "a\",\"b") [{}]) = .val msg ∧ parseMessage valid readCount msg = .bad) :=
  ⟨⟨_, rfl, rfl⟩, ⟨_, rfl, rfl⟩⟩

/-- C23 is false for a REQ without filters. -/
theorem C23_req_without_filters : ∃ msg, marshal (.req (b! "1:x") []) = .val msg ∧ parseMessage valid readCount msg = .bad := ⟨_, rfl, rfl⟩

/-- C23 is false for a COUNT answer with a HyperLogLog of more than 256 bytes: writing it panics. -/
theorem C23_long_hll {sub h : Bytes} {f : Filter} {n : Int} (hl : 256 < h.length) : marshal (.count sub f (some n) (some h)) = .panic := by
  simp [marshal, hllHex, hl, Bind.bind, Out.bind]

/-- C23 is false for an AUTH envelope with both a challenge and an event: the event is not written. -/
theorem C23_auth_both (c : Bytes) (e : Event) : marshal (.auth (some c) e) = marshal (.auth (some c) zeroEvent) := rfl

end

/-- A decoder of COUNT answers, to see that `ReadsCount` can be met. -/
def readCountText (s : Bytes) : Option (Option Int × Bytes) :=
  if (b! "{\"count\":").isPrefixOf s then
    let t := s.drop 9
    let num := t.takeWhile (fun c => c != 44 && c != 125)
    match parseInt64 num with
    | .ok n => some (some n, ((t.drop num.length).drop 8).dropLast.dropLast)
    | _ => none
  else none

theorem readCountText_reads : ReadsCount readCountText := by
  have num : ∀ (n : Int) (c : UInt8) (r : Bytes), (c != 44 && c != 125) = false → (fmtInt n ++ c :: r).takeWhile (fun c => c != 44 && c != 125) = fmtInt n := by
    intro n c r hc
    refine takeWhile_append_stop (fun x hx => ?_) hc
    obtain ⟨a, s, h, ha, hs⟩ := fmtInt_shape n
    have key : ∀ c : UInt8, (48 ≤ c ∧ c ≤ 57) ∨ c = 45 → (c != 44 && c != 125) = true := by decide +kernel
    rw [h] at hx
    rcases List.mem_cons.1 hx with rfl | hx
    · exact key _ ha
    · exact key _ (.inl (hs x hx))
  refine ⟨fun n hn => ?_, fun n h hn hp => ?_, fun f hf n r => ?_⟩
  · have e : b! "{\"count\":" ++ fmtInt n ++ [125] = b! "{\"count\":" ++ (fmtInt n ++ 125 :: []) := by simp
    rw [e]
    unfold readCountText
    rw [if_pos (by simp)]
    have d : (b! "{\"count\":" ++ (fmtInt n ++ 125 :: [])).drop 9 = fmtInt n ++ 125 :: [] := rfl
    simp only [d, num n 125 [] (by decide), parseInt64_fmtInt hn.1 hn.2]
    simp
  · have e : b! "{\"count\":" ++ fmtInt n ++ (b! ",\"hll\":" ++ rawQuoted h) ++ [125] = b! "{\"count\":" ++ (fmtInt n ++ 44 :: (b! "\"hll\":\"" ++ h ++ [34] ++ [125])) := by simp [rawQuoted]
    rw [e]
    unfold readCountText
    rw [if_pos (by simp)]
    have d : (b! "{\"count\":" ++ (fmtInt n ++ 44 :: (b! "\"hll\":\"" ++ h ++ [34] ++ [125]))).drop 9 = fmtInt n ++ 44 :: (b! "\"hll\":\"" ++ h ++ [34] ++ [125]) := rfl
    simp only [d, num n 44 _ (by decide), parseInt64_fmtInt hn.1 hn.2]
    have d2 : ((fmtInt n ++ 44 :: (b! "\"hll\":\"" ++ h ++ [34] ++ [125])).drop (fmtInt n).length).drop 8 = h ++ [34] ++ [125] := by
      rw [List.drop_left]
      rfl
    rw [d2, List.dropLast_concat, List.dropLast_concat]
  · have keys : ∀ p ∈ filterParts f, ∃ c t, p.1 = c :: t ∧ c ≠ 99 := by
      intro p hp
      unfold filterParts at hp
      simp only [List.mem_append] at hp
      rcases hp with ((((((hp | hp) | hp) | hp) | hp) | hp) | hp) | hp
      all_goals first
        | (split at hp <;> first | (simp at hp; done) | (simp only [List.mem_singleton] at hp; subst hp; exact ⟨_, _, rfl, by decide⟩))
        | (obtain ⟨e, _, rfl⟩ := List.mem_map.1 hp; exact ⟨35, e.1, rfl, by decide⟩)
    have : (b! "{\"count\":").isPrefixOf (encodeFilter f) = false := by
      unfold encodeFilter
      cases hp : filterParts f with
      | nil => rfl
      | cons p l =>
        obtain ⟨c, t, h1, h2⟩ := keys p (by simp [hp])
        simp only [List.map_cons, commas, wPart, h1]
        simp [List.isPrefixOf, Ne.symm h2]
    simp [readCountText, this]

example : Sendable (.event (some (b! "1:sub")) sampleEvent) ∧ Sendable (.req (b! "1:sub") [{}, {}]) ∧ Sendable (.count (b! "c") {} (some 7) (some (List.replicate 256 3))) := by
  have hw : Writable {} := ⟨by simp [elems], by simp, by simp, by decide, by simp [tagEntries], by simp [tagEntries]⟩
  refine ⟨⟨?_, by decide +kernel, by decide⟩, ⟨by decide +kernel, by simp, by simp [hw]⟩, ⟨by decide +kernel, rfl, by decide +kernel, ?_⟩⟩
  · intro s h; injection h with h; rw [← h]; decide +kernel
  · intro h e; injection e with e; rw [← e]; exact List.length_replicate

/-- A message with white space, an escape and something after it, as `C23_any_layout` admits. -/
example : parseMessage (fun _ => true) readCountText (b! " [ \"OK\" , \"abc\",false, \"a\\\"b\" ] trailing") = .env (.ok (b! "abc") false (b! "a\"b")) := by decide +kernel

end GoNostr.Json
