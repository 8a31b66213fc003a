import Verif.Json.Lexer
import Verif.Event.Model
/-!
# The JSON of events

Model of event_easyjson.go. A nil tag or tag list and an empty one are the same value here (`Tags` is a list).
-/

set_option autoImplicit false

namespace GoNostr.Json

/-! ## Writing -/

/-- event_easyjson.go:128-140, filter_easyjson.go:176-183 and the like: the loops write a comma before each element but the first. -/
def commas : List Bytes → Bytes
  | [] => []
  | x :: xs => x ++ xs.flatMap (fun y => 44 :: y)

/-- filter_easyjson.go:176-183 (`[`, the strings, `]`). -/
def wStrings (l : List Bytes) : Bytes := [91] ++ commas (l.map wString) ++ [93]

/-- event_easyjson.go:127-141. -/
def wTags (t : Tags) : Bytes := [91] ++ commas (t.map wStrings) ++ [93]

/-- event_easyjson.go:105-118, 148-154: `,"key":"value"`, left out when the value is empty. -/
def wOpt (key s : Bytes) : Bytes := if s = [] then [] else [44, 34] ++ key ++ [34, 58] ++ wString s

/-- event_easyjson.go:96-156 (and MarshalJSON, MarshalEasyJSON, 158-169). -/
def encodeEvent (e : Event) : Bytes :=
  [123] ++ b! "\"kind\":" ++ fmtInt e.kind ++ wOpt (b! "id") e.id ++ wOpt (b! "pubkey") e.pubkey ++ b! ",\"created_at\":" ++ fmtInt e.createdAt
    ++ b! ",\"tags\":" ++ wTags e.tags ++ b! ",\"content\":" ++ wString e.content ++ wOpt (b! "sig") e.sig ++ [125]

/-! ## Reading -/

/-- event_easyjson.go:70-76 (`for !in.IsDelim(']') { … in.String() … in.WantComma() }; in.Delim(']')`). Every turn consumes a token, so the fuel given below, one more than the bytes left, does not run out. -/
def strLoop : Nat → Lex → Option (List Bytes × Lex)
  | 0, _ => none
  | n + 1, r => do
    let (close, r) ← r.isDelim 93
    if close then (r.delim 93).map (fun r => ([], r))
    else
      let (s, r) ← r.string
      let (l, r) ← strLoop n r.wantComma
      some (s :: l, r)

/-- event_easyjson.go:64-76: `[`, the strings, `]`. -/
def readStrings (r : Lex) : Option (List Bytes × Lex) := (r.delim 91).bind (fun r => strLoop (r.data.length + 1) r)

/-- event_easyjson.go:58-81: the loop over the tags. -/
def tagLoop : Nat → Lex → Option (Tags × Lex)
  | 0, _ => none
  | n + 1, r => do
    let (close, r) ← r.isDelim 93
    if close then (r.delim 93).map (fun r => ([], r))
    else
      let (z, r) ← r.isNull
      let (t, r) ← if z then some ([], r.consume) else readStrings r
      let (l, r) ← tagLoop n r.wantComma
      some (t :: l, r)

/-- event_easyjson.go:48-81. -/
def readTags (r : Lex) : Option (Tags × Lex) := (r.delim 91).bind (fun r => tagLoop (r.data.length + 1) r)

/-- event_easyjson.go:34-87: the switch on the key. There is no default case: after an unknown key the value stays the current token. -/
def setField (key : Bytes) (r : Lex) (out : Event) : Option (Event × Lex) :=
  if key = b! "id" then r.string.map (fun p => ({ out with id := p.1 }, p.2))
  else if key = b! "pubkey" then r.string.map (fun p => ({ out with pubkey := p.1 }, p.2))
  else if key = b! "created_at" then r.int.map (fun p => ({ out with createdAt := p.1 }, p.2))
  else if key = b! "kind" then r.int.map (fun p => ({ out with kind := p.1 }, p.2))
  else if key = b! "tags" then (readTags r).map (fun p => ({ out with tags := p.1 }, p.2))
  else if key = b! "content" then r.string.map (fun p => ({ out with content := p.1 }, p.2))
  else if key = b! "sig" then r.string.map (fun p => ({ out with sig := p.1 }, p.2))
  else some (out, r)

/-- event_easyjson.go:26-90: the loop over the fields and the closing brace. -/
def fields : Nat → Lex → Event → Option (Event × Lex)
  | 0, _, _ => none
  | n + 1, r, out => do
    let (close, r) ← r.isDelim 125
    if close then (r.delim 125).map (fun r => (out, r))
    else
      let (key, r) ← r.fieldName true
      let (z, r) ← r.wantColon.isNull
      if z then fields n r.consume.wantComma out
      else
        let (out, r) ← setField key r out
        fields n r.wantComma out

/-- Go's zero value of `Event` (event.go:14-22). -/
def zeroEvent : Event := ⟨[], [], 0, 0, [], [], []⟩

/-- event_easyjson.go:16-94 (and UnmarshalJSON, UnmarshalEasyJSON, 171-181), into the event `out`: the event, or `none` for an error. -/
def decodeEventInto (out : Event) (data : Bytes) : Option Event := do
  let (z, r) ← (Lex.start data).isNull
  if z then r.consumed.map (fun _ => out)
  else
    let r ← r.delim 123
    let (out, r) ← fields (data.length + 1) r out
    r.consumed.map (fun _ => out)

/-- event_easyjson.go:16-94, into a zero event. -/
def decodeEvent (data : Bytes) : Option Event := decodeEventInto zeroEvent data

/-! ## The specification: every way to write an event

White space anywhere between tokens, members in any order, any escapes in the strings. -/

/-- The range of Go's `int` and `int64`. -/
def InInt64 (i : Int) : Prop := -(2 ^ 63) ≤ i ∧ i < 2 ^ 63

instance (i : Int) : Decidable (InInt64 i) := inferInstanceAs (Decidable (_ ∧ _))

/-- The rest of an array of strings, after its opening bracket (`sep` = 0) or after an element (`sep` = 44), up to and with the closing bracket. -/
inductive StrItems : UInt8 → Bytes → List Bytes → Prop
  | close {sep : UInt8} {w : Bytes} (hw : Ws w) : StrItems sep (w ++ [93]) []
  | item {sep : UInt8} {pre b v t : Bytes} {l : List Bytes} (hs : Sep pre sep) (he : Esc b v) (h : StrItems 44 t l) : StrItems sep (pre ++ 34 :: (b ++ 34 :: t)) (v :: l)

/-- The rest of an array of arrays of strings. -/
inductive TagItems : UInt8 → Bytes → Tags → Prop
  | close {sep : UInt8} {w : Bytes} (hw : Ws w) : TagItems sep (w ++ [93]) []
  | item {sep : UInt8} {pre u t : Bytes} {tag : Tag} {l : Tags} (hs : Sep pre sep) (hu : StrItems 0 u tag) (h : TagItems 44 t l) : TagItems sep (pre ++ 91 :: (u ++ t)) (tag :: l)

/-- The values a member of an event can have. -/
inductive FieldVal where
  | str (s : Bytes)
  | int (i : Int)
  | tags (t : Tags)
  | null

/-- Specification: the texts of a value of a member. -/
inductive ValText : Bytes → FieldVal → Prop
  | str {b v : Bytes} (h : Esc b v) : ValText (34 :: (b ++ [34])) (.str v)
  | int {i : Int} (h : InInt64 i) : ValText (fmtInt i) (.int i)
  | tags {u : Bytes} {t : Tags} (h : TagItems 0 u t) : ValText (91 :: u) (.tags t)
  | null : ValText (b! "null") .null

/-- The rest of an object, up to and with the closing brace. Keys are written without escapes. -/
inductive Members : UInt8 → Bytes → List (Bytes × FieldVal) → Prop
  | close {sep : UInt8} {w : Bytes} (hw : Ws w) : Members sep (w ++ [125]) []
  | member {sep : UInt8} {pre key col val t : Bytes} {v : FieldVal} {l : List (Bytes × FieldVal)} (hs : Sep pre sep) (hk : Esc key key) (hc : Sep col 58) (hv : ValText val v)
      (h : Members 44 t l) : Members sep (pre ++ 34 :: (key ++ 34 :: (col ++ (val ++ t)))) ((key, v) :: l)

/-- What a member says about the event; `none` for a member an event does not have. A null member says nothing. -/
def member (out : Event) : Bytes × FieldVal → Option Event
  | (_, .null) => some out
  | (key, .str s) =>
    if key = b! "id" then some { out with id := s }
    else if key = b! "pubkey" then some { out with pubkey := s }
    else if key = b! "content" then some { out with content := s }
    else if key = b! "sig" then some { out with sig := s }
    else none
  | (key, .int i) =>
    if key = b! "created_at" then some { out with createdAt := i }
    else if key = b! "kind" then some { out with kind := i }
    else none
  | (key, .tags t) => if key = b! "tags" then some { out with tags := t } else none

/-- `text` is a JSON object with members `l`. -/
def IsObject (text : Bytes) (l : List (Bytes × FieldVal)) : Prop := ∃ w1 body w2, Ws w1 ∧ Ws w2 ∧ Members 0 body l ∧ text = w1 ++ 123 :: (body ++ w2)

/-- The seven members of an event. -/
def members (e : Event) : List (Bytes × FieldVal) :=
  [(b! "id", .str e.id), (b! "pubkey", .str e.pubkey), (b! "created_at", .int e.createdAt), (b! "kind", .int e.kind), (b! "tags", .tags e.tags), (b! "content", .str e.content), (b! "sig", .str e.sig)]

/-! ## C21 -/

theorem Lex.fetch_of {r : Lex} (h : r.tok ≠ .undef) : r.fetch = some r := by
  unfold Lex.fetch
  split
  · contradiction
  · rfl

theorem string_of {data b v : Bytes} {sep : UInt8} {first : Bool} (h : Esc b v) : (⟨data, .str b, sep, first⟩ : Lex).string = some (v, ⟨data, .undef, sep, first⟩) := by
  unfold Lex.string
  rw [Lex.fetch_of (by simp)]
  simp [unescape_esc h _ (Nat.le_refl _), Lex.consume]

theorem int_of {data : Bytes} {i : Int} {sep : UInt8} {first : Bool} (h : InInt64 i) :
    (⟨data, .num (fmtInt i), sep, first⟩ : Lex).int = some (i, ⟨data, .undef, sep, first⟩) := by
  unfold Lex.int
  rw [Lex.fetch_of (by simp)]
  simp [parseInt64_fmtInt h.1 h.2, Lex.consume]

theorem delim_of {data : Bytes} {c sep : UInt8} {first : Bool} : (⟨data, .delim c, sep, first⟩ : Lex).delim c = some ⟨data, .undef, sep, first⟩ := by
  unfold Lex.delim
  rw [Lex.fetch_of (by simp)]
  simp [Lex.consume]

/-- A token that is not the delimiter looked for. -/
theorem isDelim_other {r r' : Lex} {c : UInt8} (h : r.fetch = some r') (hc : r'.tok ≠ .delim c) : r.isDelim c = some (false, r') := by
  unfold Lex.isDelim
  rw [h, Option.map_some, beq_eq_false_iff_ne.2 hc]

theorem isDelim_this {r r' : Lex} {c : UInt8} (h : r.fetch = some r') (hc : r'.tok = .delim c) : r.isDelim c = some (true, r') := by
  unfold Lex.isDelim
  rw [h, Option.map_some, beq_iff_eq.2 hc]

theorem isNull_other {r r' : Lex} (h : r.fetch = some r') (hc : r'.tok ≠ .null) : r.isNull = some (false, r') := by
  unfold Lex.isNull
  rw [h, Option.map_some, beq_eq_false_iff_ne.2 hc]

theorem isNull_this {r r' : Lex} (h : r.fetch = some r') (hc : r'.tok = .null) : r.isNull = some (true, r') := by
  unfold Lex.isNull
  rw [h, Option.map_some, beq_iff_eq.2 hc]

theorem strLoop_end {w : Bytes} (hw : Ws w) {sep : UInt8} {first : Bool} (h : first = true ∨ sep = 44) (rest : Bytes) (n : Nat) :
    strLoop (n + 1) ⟨w ++ 93 :: rest, .undef, sep, first⟩ = some ([], ⟨rest, .undef, 0, first⟩) := by
  have hd := isDelim_this (c := 93) (fetch_close hw h (.inr rfl) rest) rfl
  rw [strLoop]
  simp [hd, delim_of]

theorem strLoop_items {sep : UInt8} {t : Bytes} {l : List Bytes} (h : StrItems sep t l) (rest : Bytes) : ∀ n first, l.length < n → first = true ∨ sep = 44 →
    ∃ f, strLoop n ⟨t ++ rest, .undef, sep, first⟩ = some (l, ⟨rest, .undef, 0, f⟩) := by
  induction h with
  | @close sep w hw =>
    intro n first hn hf
    match n, hn with
    | n + 1, _ => exact ⟨first, by simpa using strLoop_end hw hf rest n⟩
  | @item sep pre b v t l hs he _ ih =>
    intro n first hn _
    match n, hn with
    | n + 1, hn =>
      obtain ⟨f, hf⟩ := ih n false (by simpa using hn) (.inr rfl)
      have hd := isDelim_other (c := 93) (fetch_str (first := first) hs he (t ++ rest)) (by simp)
      refine ⟨f, ?_⟩
      rw [strLoop]
      simp only [List.append_assoc, List.cons_append, hd, Option.bind_eq_bind, Option.bind_some]
      simp [string_of he, Lex.wantComma, hf]

theorem StrItems.length {sep : UInt8} {t : Bytes} {l : List Bytes} (h : StrItems sep t l) : l.length < t.length := by
  induction h with
  | close => simp
  | item _ _ _ ih => simp only [List.length_append, List.length_cons]; omega

theorem TagItems.length {sep : UInt8} {t : Bytes} {l : Tags} (h : TagItems sep t l) : l.length < t.length := by
  induction h with
  | close => simp
  | item _ _ _ ih => simp only [List.length_append, List.length_cons]; omega

theorem readStrings_items {t : Bytes} {l : List Bytes} (h : StrItems 0 t l) (rest : Bytes) : ∃ f, readStrings ⟨t ++ rest, .delim 91, 0, true⟩ = some (l, ⟨rest, .undef, 0, f⟩) := by
  unfold readStrings
  rw [delim_of, Option.bind_some]
  have := h.length
  exact strLoop_items h rest _ true (by simp only [List.length_append]; omega) (.inl rfl)

theorem tagLoop_items {sep : UInt8} {t : Bytes} {l : Tags} (h : TagItems sep t l) (rest : Bytes) : ∀ n first, l.length < n → first = true ∨ sep = 44 →
    ∃ f, tagLoop n ⟨t ++ rest, .undef, sep, first⟩ = some (l, ⟨rest, .undef, 0, f⟩) := by
  induction h with
  | @close sep w hw =>
    intro n first hn hf
    match n, hn with
    | n + 1, _ =>
      have hd := isDelim_this (c := 93) (fetch_close hw hf (.inr rfl) rest) rfl
      refine ⟨first, ?_⟩
      rw [tagLoop]
      simp [hd, delim_of]
  | @item sep pre u t tag l hs hu _ ih =>
    intro n first hn _
    match n, hn with
    | n + 1, hn =>
      obtain ⟨f, hf⟩ := ih n false (by simpa using hn) (.inr rfl)
      obtain ⟨g, hg⟩ := readStrings_items hu (t ++ rest)
      have hd := isDelim_other (c := 93) (fetch_open (first := first) hs (.inr rfl) (u ++ (t ++ rest))) (by simp)
      have hz := isNull_other (Lex.fetch_of (r := ⟨u ++ (t ++ rest), .delim 91, 0, true⟩) (by simp)) (by simp)
      refine ⟨f, ?_⟩
      rw [tagLoop]
      simp only [List.append_assoc, List.cons_append, hd, hz, hg, Option.bind_eq_bind, Option.bind_some]
      simp [Lex.wantComma, hf]

theorem readTags_items {t : Bytes} {l : Tags} (h : TagItems 0 t l) (rest : Bytes) : ∃ f, readTags ⟨t ++ rest, .delim 91, 0, true⟩ = some (l, ⟨rest, .undef, 0, f⟩) := by
  unfold readTags
  rw [delim_of, Option.bind_some]
  have := h.length
  exact tagLoop_items h rest _ true (by simp only [List.length_append]; omega) (.inl rfl)

theorem ws_ends {w : Bytes} (h : Ws w) {c : UInt8} (hc : isTokenEnd c = true) (s : Bytes) : Ends (w ++ c :: s) := by
  cases w with
  | nil => exact ⟨c, s, rfl, hc⟩
  | cons x w => exact ⟨x, _, rfl, by rcases h x (by simp) with rfl | rfl | rfl | rfl <;> decide⟩

theorem Members.ends {sep : UInt8} {t : Bytes} {l : List (Bytes × FieldVal)} (h : Members sep t l) (hsep : sep = 44) (rest : Bytes) : Ends (t ++ rest) := by
  cases h with
  | close hw => rw [List.append_assoc]; exact ws_ends hw (by decide) rest
  | member hs =>
    rcases hs with ⟨_, h0⟩ | ⟨u, v, hu, _, rfl, _⟩
    · rw [h0] at hsep; cases hsep
    · rw [List.append_assoc, List.append_assoc, List.cons_append, hsep]
      exact ws_ends hu (by decide) _

theorem Members.length {sep : UInt8} {t : Bytes} {l : List (Bytes × FieldVal)} (h : Members sep t l) : l.length < t.length := by
  induction h with
  | close => simp
  | member _ _ _ _ _ ih => simp only [List.length_append, List.length_cons]; omega

/-- The value of a member is fetched, and the switch does what the member says. -/
theorem value_read {col val rest : Bytes} {v : FieldVal} (hc : Sep col 58) (hv : ValText val v) (hr : Ends rest) {key : Bytes} {out out' : Event} (hm : member out (key, v) = some out') :
    ∃ r', (⟨col ++ (val ++ rest), .undef, 58, false⟩ : Lex).fetch = some r' ∧
      ((r'.tok = .null ∧ out' = out ∧ r'.consume.wantComma = ⟨rest, .undef, 44, false⟩) ∨
       (r'.tok ≠ .null ∧ ∃ r'', setField key r' out = some (out', r'') ∧ r''.wantComma = ⟨rest, .undef, 44, false⟩)) := by
  cases hv with
  | @str b s he =>
    refine ⟨⟨rest, .str b, 0, false⟩, by simpa using fetch_str (first := false) hc he rest, .inr ⟨by simp, ⟨rest, .undef, 0, false⟩, ?_, rfl⟩⟩
    have hs := string_of (data := rest) (sep := 0) (first := false) he
    simp only [member] at hm
    (repeat' split at hm) <;> cases hm <;> (next h => subst h; simp only [setField, hs]; rfl)
  | @int i hi =>
    refine ⟨⟨rest, .num (fmtInt i), 0, false⟩, fetch_num (first := false) hc i hr, .inr ⟨by simp, ⟨rest, .undef, 0, false⟩, ?_, rfl⟩⟩
    have hs := int_of (data := rest) (sep := 0) (first := false) hi
    simp only [member] at hm
    (repeat' split at hm) <;> cases hm <;> (next h => subst h; simp only [setField, hs]; rfl)
  | @tags u t ht =>
    obtain ⟨f, hf⟩ := readTags_items ht rest
    refine ⟨⟨u ++ rest, .delim 91, 0, true⟩, by simpa using fetch_open (first := false) hc (.inr rfl) (u ++ rest), .inr ⟨by simp, ⟨rest, .undef, 0, f⟩, ?_, rfl⟩⟩
    simp only [member] at hm
    (repeat' split at hm) <;> cases hm <;> (next h => subst h; simp only [setField, hf]; rfl)
  | null =>
    simp only [member, Option.some.injEq] at hm
    exact ⟨⟨rest, .null, 0, false⟩, fetch_null hc hr, .inl ⟨rfl, hm.symm, rfl⟩⟩

/-- Where a colon is due, a comma or the end of the object is an error. -/
theorem Members.no_colon {t : Bytes} {l : List (Bytes × FieldVal)} (h : Members 44 t l) (rest : Bytes) : (⟨t ++ rest, .undef, 58, false⟩ : Lex).fetch = none := by
  unfold Lex.fetch
  cases h with
  | close hw => simp only [List.append_assoc, fetchToken_ws hw]; rw [List.singleton_append, fetchToken]; simp [isSpace]
  | member hs =>
    rcases hs with ⟨_, h0⟩ | ⟨u, v, hu, _, rfl, _⟩
    · cases h0
    · simp only [List.append_assoc, fetchToken_ws hu]; rw [List.cons_append, fetchToken]; simp

/-- A member the event does not have, or of the wrong type, is an error: there the switch fails, or leaves the value behind, and that is then taken for the next key. -/
theorem value_stuck {col val t rest : Bytes} {v : FieldVal} {l : List (Bytes × FieldVal)} (hc : Sep col 58) (hv : ValText val v) (ht : Members 44 t l) {key : Bytes} {out : Event}
    (hm : member out (key, v) = none) : ∃ r', (⟨col ++ (val ++ (t ++ rest)), .undef, 58, false⟩ : Lex).fetch = some r' ∧ r'.tok ≠ .null ∧
      (setField key r' out = none ∨ (setField key r' out = some (out, r') ∧ ∀ n, fields n r'.wantComma out = none)) := by
  cases hv with
  | @str b s he =>
    refine ⟨⟨t ++ rest, .str b, 0, false⟩, by simpa using fetch_str (first := false) hc he (t ++ rest), by simp, ?_⟩
    have hstuck : ∀ n, fields n (Lex.wantComma ⟨t ++ rest, .str b, 0, false⟩) out = none := by
      intro n
      cases n with
      | zero => rfl
      | succ n =>
        rw [fields]
        have hd := isDelim_other (c := 125) (Lex.fetch_of (r := ⟨t ++ rest, .str b, 44, false⟩) (by simp)) (by simp)
        have hfn : (⟨t ++ rest, .str b, 44, false⟩ : Lex).fieldName true = some (b, ⟨t ++ rest, .undef, 44, false⟩) := by
          unfold Lex.fieldName
          rw [Lex.fetch_of (by simp)]
          simp [Lex.consume]
        have hn : (⟨t ++ rest, .undef, 58, false⟩ : Lex).isNull = none := by
          unfold Lex.isNull
          rw [ht.no_colon rest]
          rfl
        simp [Lex.wantComma, hd, hfn, Lex.wantColon, hn]
    have hi : (⟨t ++ rest, .str b, 0, false⟩ : Lex).int = none := by simp [Lex.int, Lex.fetch]
    have ht : readTags ⟨t ++ rest, .str b, 0, false⟩ = none := by simp [readTags, Lex.delim, Lex.fetch]
    simp only [member] at hm
    unfold setField
    (repeat' split at hm) <;> first | cases hm | skip
    rename_i h1 h2 h3 h4
    simp only [if_neg h1, if_neg h2, if_neg h3, if_neg h4, hi, ht]
    (repeat' split) <;> simp [hstuck]
  | @int i hi =>
    refine ⟨⟨t ++ rest, .num (fmtInt i), 0, false⟩, fetch_num (first := false) hc i (ht.ends rfl rest), by simp, ?_⟩
    have hstuck : ∀ n, fields n (Lex.wantComma ⟨t ++ rest, .num (fmtInt i), 0, false⟩) out = none := by
      intro n
      cases n with
      | zero => rfl
      | succ n => rw [fields]; simp [Lex.wantComma, Lex.isDelim, Lex.fetch, Lex.fieldName]
    have hi : (⟨t ++ rest, .num (fmtInt i), 0, false⟩ : Lex).string = none := by simp [Lex.string, Lex.fetch]
    have ht : readTags ⟨t ++ rest, .num (fmtInt i), 0, false⟩ = none := by simp [readTags, Lex.delim, Lex.fetch]
    simp only [member] at hm
    unfold setField
    (repeat' split at hm) <;> first | cases hm | skip
    rename_i h1 h2
    simp only [if_neg h1, if_neg h2, hi, ht]
    (repeat' split) <;> simp [hstuck]
  | @tags u tg htg =>
    refine ⟨⟨u ++ (t ++ rest), .delim 91, 0, true⟩, by simpa using fetch_open (first := false) hc (.inr rfl) (u ++ (t ++ rest)), by simp, ?_⟩
    have hstuck : ∀ n, fields n (Lex.wantComma ⟨u ++ (t ++ rest), .delim 91, 0, true⟩) out = none := by
      intro n
      cases n with
      | zero => rfl
      | succ n => rw [fields]; simp [Lex.wantComma, Lex.isDelim, Lex.fetch, Lex.fieldName]
    have hi : (⟨u ++ (t ++ rest), .delim 91, 0, true⟩ : Lex).string = none := by simp [Lex.string, Lex.fetch]
    have ht : (⟨u ++ (t ++ rest), .delim 91, 0, true⟩ : Lex).int = none := by simp [Lex.int, Lex.fetch]
    simp only [member] at hm
    unfold setField
    split at hm
    · cases hm
    rename_i h1
    simp only [if_neg h1, hi, ht]
    (repeat' split) <;> simp [hstuck]
  | null => simp [member] at hm

theorem fields_members {sep : UInt8} {t : Bytes} {l : List (Bytes × FieldVal)} (h : Members sep t l) (rest : Bytes) : ∀ n first (out : Event), l.length < n → first = true ∨ sep = 44 →
    ∃ f, fields n ⟨t ++ rest, .undef, sep, first⟩ out = (l.foldlM member out).map (fun res => (res, ⟨rest, .undef, 0, f⟩)) := by
  induction h with
  | @close sep w hw =>
    intro n first out hn hf
    match n, hn with
    | n + 1, _ =>
      have hd := isDelim_this (c := 125) (fetch_close hw hf (.inl rfl) rest) rfl
      refine ⟨first, ?_⟩
      rw [fields]
      simp [hd, delim_of]
  | @member sep pre key col val t v l hs hk hc hv ht ih =>
    intro n first out hn _
    match n, hn with
    | n + 1, hn =>
      have hd := isDelim_other (c := 125) (fetch_str (first := first) hs hk (col ++ (val ++ (t ++ rest)))) (by simp)
      have hfn : (⟨col ++ (val ++ (t ++ rest)), .str key, 0, first⟩ : Lex).fieldName true = some (key, ⟨col ++ (val ++ (t ++ rest)), .undef, 0, first⟩) := by
        unfold Lex.fieldName
        rw [Lex.fetch_of (by simp)]
        simp [Lex.consume]
      rw [List.foldlM_cons]
      cases hm : Json.member out (key, v) with
      | none =>
        obtain ⟨r', hr', hnn, hcase⟩ := value_stuck (rest := rest) hc hv ht hm
        refine ⟨false, ?_⟩
        rw [fields]
        simp only [List.append_assoc, List.cons_append, hd, hfn, Option.bind_eq_bind, Option.bind_some, Lex.wantColon]
        rcases hcase with hset | ⟨hset, hst⟩
        · simp [isNull_other hr' hnn, hset]
        · simp [isNull_other hr' hnn, hset, hst]
      | some out' =>
        obtain ⟨f, hf⟩ := ih n false out' (by simpa using hn) (.inr rfl)
        obtain ⟨r', hr', hcase⟩ := value_read hc hv (ht.ends rfl rest) hm
        refine ⟨f, ?_⟩
        rw [fields]
        simp only [List.append_assoc, List.cons_append, hd, hfn, Option.bind_eq_bind, Option.bind_some, Lex.wantColon]
        rcases hcase with ⟨hnull, ho, hnext⟩ | ⟨hnn, r'', hset, hnext⟩
        · subst ho
          simp [isNull_this hr' hnull, hnext, hf]
        · simp [isNull_other hr' hnn, hset, hnext, hf]

/-- What reading an object whose members are strings, integers, arrays of tags and nulls gives, however it is written: each known member sets its field, the last one of a name wins, null members
are ignored, and any other member makes the whole event an error. -/
theorem decode_object_into {text : Bytes} {l : List (Bytes × FieldVal)} (h : IsObject text l) (out : Event) : decodeEventInto out text = l.foldlM member out := by
  obtain ⟨w1, body, w2, hw1, hw2, hb, rfl⟩ := h
  have hf : (Lex.start (w1 ++ 123 :: (body ++ w2))).isNull = some (false, ⟨body ++ w2, .delim 123, 0, true⟩) :=
    isNull_other (fetch_open (first := false) (.inl ⟨hw1, rfl⟩) (.inl rfl) (body ++ w2)) (by simp)
  have hlen := hb.length
  obtain ⟨f, hr⟩ := fields_members hb w2 ((w1 ++ 123 :: (body ++ w2)).length + 1) true out (by simp only [List.length_append, List.length_cons]; omega) (.inl rfl)
  unfold decodeEventInto
  simp only [hf, Option.bind_eq_bind, Option.bind_some, delim_of, hr]
  have : ∀ c ∈ w2, isSpace c = true := fun c hc => isSpace_iff.2 (hw2 c hc)
  cases List.foldlM member out l with
  | none => rfl
  | some e => simpa [Lex.consumed] using this

theorem decode_object {text : Bytes} {l : List (Bytes × FieldVal)} (h : IsObject text l) : decodeEvent text = l.foldlM member zeroEvent := decode_object_into h zeroEvent

/-- C21: nothing may follow the object but white space. -/
theorem C21_trailing_rejected {text junk : Bytes} {l : List (Bytes × FieldVal)} (h : IsObject text l) (hj : ¬ Ws junk) : decodeEvent (text ++ junk) = none := by
  obtain ⟨w1, body, w2, hw1, hw2, hb, rfl⟩ := h
  have hf : (Lex.start (w1 ++ 123 :: (body ++ (w2 ++ junk)))).isNull = some (false, ⟨body ++ (w2 ++ junk), .delim 123, 0, true⟩) :=
    isNull_other (fetch_open (first := false) (.inl ⟨hw1, rfl⟩) (.inl rfl) (body ++ (w2 ++ junk))) (by simp)
  have hlen := hb.length
  obtain ⟨f, hr⟩ := fields_members hb (w2 ++ junk) ((w1 ++ 123 :: (body ++ (w2 ++ junk))).length + 1) true zeroEvent (by simp only [List.length_append, List.length_cons]; omega) (.inl rfl)
  have hns : ¬ ((w2 ++ junk).all isSpace = true) := by
    intro hall
    exact hj (fun c hc => isSpace_iff.1 (List.all_eq_true.1 hall c (by simp [hc])))
  unfold decodeEvent decodeEventInto
  simp only [List.append_assoc, List.cons_append, hf, Option.bind_eq_bind, Option.bind_some, delim_of, hr]
  cases List.foldlM member zeroEvent l with
  | none => rfl
  | some e => simp only [Option.map_some, Option.bind_some, Lex.consumed, if_neg hns]; rfl

/-- C21: an event is read from any JSON object, whatever the order of the members, the white space and the escapes. -/
theorem C21_any_layout {text : Bytes} {l : List (Bytes × FieldVal)} {e : Event} (h : IsObject text l) (he : l.foldlM member zeroEvent = some e) : decodeEvent text = some e :=
  (decode_object h).trans he

/-- The names of the members of an event. -/
def eventKeys : List Bytes := [b! "id", b! "pubkey", b! "created_at", b! "kind", b! "tags", b! "content", b! "sig"]

/-- C99 is false: an object with one more member than an event has, of whatever name and value other than null, is not read at all. -/
theorem C99_extra_member_rejected {text : Bytes} {l : List (Bytes × FieldVal)} (h : IsObject text l) {key : Bytes} {v : FieldVal} (hmem : (key, v) ∈ l) (hkey : key ∉ eventKeys) (hv : v ≠ .null) :
    decodeEvent text = none := by
  rw [decode_object h]
  have hnone : ∀ e, member e (key, v) = none := by
    intro e
    simp only [eventKeys, List.mem_cons, List.not_mem_nil, or_false, not_or] at hkey
    obtain ⟨h1, h2, h3, h4, h5, h6, h7⟩ := hkey
    cases v with
    | null => exact absurd rfl hv
    | str => simp only [member, if_neg h1, if_neg h2, if_neg h6, if_neg h7]
    | int => simp only [member, if_neg h3, if_neg h4]
    | tags => simp only [member, if_neg h5]
  clear h
  generalize zeroEvent = e
  induction l generalizing e with
  | nil => cases hmem
  | cons x l ih =>
    rw [List.foldlM_cons]
    rcases List.mem_cons.1 hmem with rfl | hmem
    · rw [hnone]; rfl
    · cases member e x with
      | none => rfl
      | some e' => exact ih hmem e'

theorem foldlM_eq_foldl (l : List (Bytes × FieldVal)) (e : Event) : l.foldlM member e = l.foldl (fun o x => o.bind (fun e => member e x)) (some e) := by
  induction l generalizing e with
  | nil => rfl
  | cons x l ih =>
    rw [List.foldlM_cons, List.foldl_cons, Option.bind_some]
    cases h : member e x with
    | some e' => exact ih e'
    | none =>
      clear ih
      show none = _
      induction l with
      | nil => rfl
      | cons y l ih => exact ih

theorem members_comm (e : Event) : ∀ x ∈ members e, ∀ y ∈ members e, ∀ z : Option Event,
    ((z.bind (fun e => member e x)).bind (fun e => member e y)) = ((z.bind (fun e => member e y)).bind (fun e => member e x)) := by
  intro x hx y hy z
  cases z with
  | none => rfl
  | some z =>
    simp only [members, List.mem_cons, List.not_mem_nil, or_false] at hx hy
    rcases hx with rfl | rfl | rfl | rfl | rfl | rfl | rfl <;> rcases hy with rfl | rfl | rfl | rfl | rfl | rfl | rfl <;> rfl

/-- C21: the seven members of an event in any order, with any white space and escapes, are read as that event. -/
theorem C21_any_order {text : Bytes} {l : List (Bytes × FieldVal)} {e : Event} (h : IsObject text l) (hl : l.Perm (members e)) : decodeEvent text = some e := by
  refine C21_any_layout h ?_
  rw [foldlM_eq_foldl, List.Perm.foldl_eq' hl (fun x hx y hy z => members_comm e x (hl.mem_iff.1 hx) y (hl.mem_iff.1 hy) z)]
  rfl

/-! ### What the encoder writes -/

/-- A string with every byte that does not belong to a valid UTF-8 encoding replaced by U+FFFD. -/
def clean (s : Bytes) : Bytes := sanitize s.length s

/-- An event with every string cleaned. -/
def cleanEvent (e : Event) : Event := ⟨clean e.id, clean e.pubkey, e.createdAt, e.kind, e.tags.map (·.map clean), clean e.content, clean e.sig⟩

theorem clean_utf8 {s : Bytes} (h : Utf8 s) : clean s = s := sanitize_utf8 h _ (Nat.le_refl _)

theorem wString_esc (s : Bytes) : Esc (wBody s.length s) (clean s) := wBody_esc s.length s (Nat.le_refl _)

theorem strItems_more (l : List Bytes) : StrItems 44 ((l.map wString).flatMap (fun y => 44 :: y) ++ [93]) (l.map clean) := by
  induction l with
  | nil => exact .close (w := []) .nil
  | cons s l ih =>
    have := StrItems.item sep_comma (wString_esc s) ih
    simpa [wString] using this

theorem strItems_commas (l : List Bytes) : StrItems 0 (commas (l.map wString) ++ [93]) (l.map clean) := by
  cases l with
  | nil => exact .close (w := []) .nil
  | cons s l =>
    have := StrItems.item sep_none (wString_esc s) (strItems_more l)
    simpa [commas, wString] using this

theorem tagItems_more (l : Tags) : TagItems 44 ((l.map wStrings).flatMap (fun y => 44 :: y) ++ [93]) (l.map (·.map clean)) := by
  induction l with
  | nil => exact .close (w := []) .nil
  | cons s l ih =>
    have := TagItems.item sep_comma (strItems_commas s) ih
    simpa [wStrings] using this

theorem tagItems_commas (l : Tags) : TagItems 0 (commas (l.map wStrings) ++ [93]) (l.map (·.map clean)) := by
  cases l with
  | nil => exact .close (w := []) .nil
  | cons s l =>
    have := TagItems.item sep_none (strItems_commas s) (tagItems_more l)
    simpa [commas, wStrings] using this

theorem valText_tags (t : Tags) : ValText (wTags t) (.tags (t.map (·.map clean))) := by
  have := ValText.tags (tagItems_commas t)
  simpa [wTags] using this

theorem valText_str (s : Bytes) : ValText (wString s) (.str (clean s)) := by
  have := ValText.str (wString_esc s)
  simpa [wString] using this

theorem plainKey {k : Bytes} (h : (k.all (fun c => 32 ≤ c && c != 34 && c != 92)) = true) : Esc k k :=
  Esc.plain (by simpa [and_assoc] using h)

/-- The member of an optional string. -/
def optMember (key s : Bytes) : List (Bytes × FieldVal) := if s = [] then [] else [(key, .str (clean s))]

theorem members_opt {key : Bytes} (hk : Esc key key) (s : Bytes) {t : Bytes} {l : List (Bytes × FieldVal)} (h : Members 44 t l) : Members 44 (wOpt key s ++ t) (optMember key s ++ l) := by
  unfold wOpt optMember
  split
  · exact h
  · have := Members.member sep_comma hk sep_colon (valText_str s) h
    simpa using this

/-- The members the encoder writes. -/
def written (e : Event) : List (Bytes × FieldVal) :=
  (b! "kind", .int e.kind) :: (optMember (b! "id") e.id ++ (optMember (b! "pubkey") e.pubkey ++ (b! "created_at", .int e.createdAt) :: (b! "tags", .tags (e.tags.map (·.map clean))) ::
    (b! "content", .str (clean e.content)) :: (optMember (b! "sig") e.sig ++ [])))

/-- The encoder writes a JSON object with those members. -/
theorem encode_members (e : Event) (hk : InInt64 e.kind) (hc : InInt64 e.createdAt) : ∃ body, Members 0 body (written e) ∧ encodeEvent e = 123 :: body := by
  have k0 : Esc (b! "kind") (b! "kind") := plainKey (by decide +kernel)
  have k1 : Esc (b! "id") (b! "id") := plainKey (by decide +kernel)
  have k2 : Esc (b! "pubkey") (b! "pubkey") := plainKey (by decide +kernel)
  have k3 : Esc (b! "created_at") (b! "created_at") := plainKey (by decide +kernel)
  have k4 : Esc (b! "tags") (b! "tags") := plainKey (by decide +kernel)
  have k5 : Esc (b! "content") (b! "content") := plainKey (by decide +kernel)
  have k6 : Esc (b! "sig") (b! "sig") := plainKey (by decide +kernel)
  have h7 := members_opt k6 e.sig (Members.close (sep := 44) (w := []) .nil)
  have h5 := Members.member sep_comma k5 sep_colon (valText_str e.content) h7
  have h4 := Members.member sep_comma k4 sep_colon (valText_tags e.tags) h5
  have h3 := Members.member sep_comma k3 sep_colon (ValText.int hc) h4
  have h1 := members_opt k1 e.id (members_opt k2 e.pubkey h3)
  have h0 := Members.member sep_none k0 sep_colon (ValText.int hk) h1
  refine ⟨_, h0, ?_⟩
  simp only [encodeEvent, List.append_assoc, List.nil_append]
  rfl

theorem encode_isObject (e : Event) (hk : InInt64 e.kind) (hc : InInt64 e.createdAt) : IsObject (encodeEvent e) (written e) := by
  obtain ⟨body, h, he⟩ := encode_members e hk hc
  exact ⟨[], body, [], .nil, .nil, h, by simp [he]⟩

theorem written_says (e : Event) : (written e).foldlM member zeroEvent = some (cleanEvent e) := by
  have h0 : clean [] = [] := rfl
  unfold written optMember
  by_cases h1 : e.id = [] <;> by_cases h2 : e.pubkey = [] <;> by_cases h3 : e.sig = [] <;>
    (simp only [if_pos, if_neg, h1, h2, h3, not_false_eq_true, cleanEvent, h0]; rfl)

/-- C21: parsing the JSON written for an event gives back the event, with every byte that is not UTF-8 replaced by U+FFFD. -/
theorem C21_any_strings {e : Event} (hk : InInt64 e.kind) (hc : InInt64 e.createdAt) : decodeEvent (encodeEvent e) = some (cleanEvent e) :=
  C21_any_layout (encode_isObject e hk hc) (written_says e)

/-- C21: into an event that is already filled, the members that are not written (an empty id, public key or signature) keep what was there. -/
theorem C21_into_used (out : Event) {e : Event} (hk : InInt64 e.kind) (hc : InInt64 e.createdAt) :
    decodeEventInto out (encodeEvent e) = some { cleanEvent e with
      id := if e.id = [] then out.id else clean e.id, pubkey := if e.pubkey = [] then out.pubkey else clean e.pubkey, sig := if e.sig = [] then out.sig else clean e.sig } := by
  rw [decode_object_into (encode_isObject e hk hc)]
  unfold written optMember
  by_cases h1 : e.id = [] <;> by_cases h2 : e.pubkey = [] <;> by_cases h3 : e.sig = [] <;>
    (simp only [if_pos, if_neg, h1, h2, h3, not_false_eq_true, cleanEvent]; rfl)

/-- Every string of the event is valid UTF-8. -/
def EventUtf8 (e : Event) : Prop := Utf8 e.id ∧ Utf8 e.pubkey ∧ Utf8 e.content ∧ Utf8 e.sig ∧ ∀ t ∈ e.tags, ∀ s ∈ t, Utf8 s

theorem cleanEvent_utf8 {e : Event} (h : EventUtf8 e) : cleanEvent e = e := by
  obtain ⟨h1, h2, h3, h4, h5⟩ := h
  unfold cleanEvent
  rw [clean_utf8 h1, clean_utf8 h2, clean_utf8 h3, clean_utf8 h4]
  have : e.tags.map (·.map clean) = e.tags := by
    conv => rhs; rw [← List.map_id e.tags]
    refine List.map_congr_left (fun t ht => ?_)
    conv => rhs; rw [id, ← List.map_id t]
    exact List.map_congr_left (fun s hs => clean_utf8 (h5 t ht s hs))
  rw [this]

/-- C21: parsing the JSON written for an event gives back the same ID, PubKey, CreatedAt, Kind, Tags, Content and Sig. -/
theorem C21_round_trip {e : Event} (hk : InInt64 e.kind) (hc : InInt64 e.createdAt) (hu : EventUtf8 e) : decodeEvent (encodeEvent e) = some e := by
  rw [C21_any_strings hk hc, cleanEvent_utf8 hu]

/-- The hypothesis on the strings is needed: a lone 0xFF in the content comes back as U+FFFD. -/
theorem C21_not_utf8_changes : ∃ e : Event, InInt64 e.kind ∧ InInt64 e.createdAt ∧ ∃ e', decodeEvent (encodeEvent e) = some e' ∧ e'.content ≠ e.content :=
  ⟨⟨[], [], 0, 1, [], [0xFF], []⟩, by decide, by decide, _, C21_any_strings (by decide) (by decide), by decide +kernel⟩

example : ∃ e : Event, InInt64 e.kind ∧ InInt64 e.createdAt ∧ EventUtf8 e ∧ e.tags = [[b! "t", b! "a\"b"]] ∧ e.content = [10, 0xE2, 0x80, 0xA8, 127] := by
  refine ⟨⟨b! "aa", b! "bb", 1700000000, 1, [[b! "t", b! "a\"b"]], [10, 0xE2, 0x80, 0xA8, 127], b! "cc"⟩, by decide, by decide,
    ⟨.ascii (by decide +kernel), .ascii (by decide +kernel), ?_, .ascii (by decide +kernel), ?_⟩, rfl, rfl⟩
  · exact .char (p := [10]) rfl (.char (p := [0xE2, 0x80, 0xA8]) rfl (.char (p := [127]) rfl .nil))
  · intro t ht s hs
    simp only [List.mem_cons, List.not_mem_nil, or_false] at ht
    subst ht
    simp only [List.mem_cons, List.not_mem_nil, or_false] at hs
    rcases hs with rfl | rfl <;> exact .ascii (by decide +kernel)

example : decodeEvent (b! " { \"content\" : \"\\u00e9\" ,\n\"kind\":7,\"tags\":[ [\"e\", \"x\"],[ ] ], \"sig\": null }") = some ⟨[], [], 0, 7, [[b! "e", b! "x"], []], [0xC3, 0xA9], []⟩ := by
  decide +kernel

/-- The extra member of `C99_extra_member_rejected` is all that is wrong with the text: without it the same text is the event. -/
theorem C99_witness : decodeEvent (b! "{\"kind\":1,\"created_at\":5,\"tags\":[],\"content\":\"hi\",\"seen_on\":\"x\"}") = none ∧
    decodeEvent (b! "{\"kind\":1,\"created_at\":5,\"tags\":[],\"content\":\"hi\"}") = some ⟨[], [], 5, 1, [], b! "hi", []⟩ := by decide +kernel

/-- Specification: the value `null`. -/
def FieldVal.isNull : FieldVal → Bool
  | .null => true
  | _ => false

/-- C99: what holds is that members with the value null are ignored, whatever their names. -/
theorem C99_null_ignored_partial {text text' : Bytes} {l : List (Bytes × FieldVal)} (h : IsObject text l) (h' : IsObject text' (l.filter (fun x => !x.2.isNull))) :
    decodeEvent text = decodeEvent text' := by
  rw [decode_object h, decode_object h']
  clear h h'
  generalize zeroEvent = e
  induction l generalizing e with
  | nil => rfl
  | cons x l ih =>
    rw [List.foldlM_cons, List.filter_cons]
    obtain ⟨key, v⟩ := x
    cases v with
    | null => exact ih e
    | str | int | tags =>
      simp only [FieldVal.isNull, Bool.not_false, if_true]
      rw [List.foldlM_cons]
      congr 1
      funext e'
      exact ih e'

end GoNostr.Json
