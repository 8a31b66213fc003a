import Verif.Json.Event
import Verif.Filter.Theorems
/-!
# C22: the JSON of filters

Model of filter_easyjson.go. The map of tag conditions is a list of entries in iteration order; the decoder's assignments to it append or replace.
-/

set_option autoImplicit false

namespace GoNostr.Json

/-! ## Writing -/

/-- filter_easyjson.go:194-203: the list of numbers. -/
def wInts (l : List Int) : Bytes := [91] ++ commas (l.map fmtInt) ++ [93]

/-- One member written by the encoder: its key and the text of its value. -/
abbrev Part := Bytes × Bytes

/-- filter_easyjson.go:169-282: the members written, in order. `len(in.IDs) != 0` and so on: nil and empty lists are left out; the tag conditions are all written. -/
def filterParts (f : Filter) : List Part :=
  (if elems f.ids = [] then [] else [(b! "ids", wStrings (elems f.ids))]) ++
  (if elems f.kinds = [] then [] else [(b! "kinds", wInts (elems f.kinds))]) ++
  (if elems f.authors = [] then [] else [(b! "authors", wStrings (elems f.authors))]) ++
  (match f.since with | some t => [(b! "since", fmtInt t)] | none => []) ++
  (match f.until with | some t => [(b! "until", fmtInt t)] | none => []) ++
  (if f.limit ≠ 0 ∨ f.limitZero = true then [(b! "limit", fmtInt f.limit)] else []) ++
  (if f.search = [] then [] else [(b! "search", wString f.search)]) ++
  (tagEntries f.tags).map (fun e => (35 :: e.1, wStrings (elems e.2)))

/-- The key is written as it is, the colon and the value follow. -/
def wPart (p : Part) : Bytes := [34] ++ p.1 ++ [34, 58] ++ p.2

/-- filter_easyjson.go:167-284 (and MarshalJSON, MarshalEasyJSON, 286-297). The variable `first` decides about the comma before each member. -/
def encodeFilter (f : Filter) : Bytes := [123] ++ commas ((filterParts f).map wPart) ++ [125]

/-! ## Reading -/

/-- filter_easyjson.go:74-80: the loop over a list of numbers. -/
def intLoop : Nat → Lex → Option (List Int × Lex)
  | 0, _ => none
  | n + 1, r => do
    let (close, r) ← r.isDelim 93
    if close then (r.delim 93).map (fun r => ([], r))
    else
      let (i, r) ← r.int
      let (l, r) ← intLoop n r.wantComma
      some (i :: l, r)

/-- filter_easyjson.go:64-80. -/
def readInts (r : Lex) : Option (List Int × Lex) := (r.delim 91).bind (fun r => intLoop (r.data.length + 1) r)

/-- A Go map assignment. -/
def tagSet (m : TagMap) (k : Bytes) (v : List Bytes) : TagMap :=
  if m.any (fun e => e.1 = k) then m.map (fun e => if e.1 = k then (k, some v) else e) else m ++ [(k, some v)]

/-- *library* The scan of `SkipRecursive` over an object or array: the text up to the closing character and the rest. `op`, `cl` are the brackets, `level` their depth. -/
def skipScan (op cl : UInt8) : Nat → Bool → Bool → Bytes → Option (Bytes × Bytes)
  | _, _, _, [] => none
  | level, inQ, esc, c :: s =>
    let go := fun level inQ esc => (skipScan op cl level inQ esc s).map (fun r => (c :: r.1, r.2))
    if c = op ∧ inQ = false then go (level + 1) inQ false
    else if c = cl ∧ inQ = false then (if level = 1 then some ([c], s) else go (level - 1) inQ false)
    else if c = 92 ∧ inQ = true then go level inQ (!esc)
    else if c = 34 ∧ inQ = true then go level esc false
    else if c = 34 then go level true false
    else go level inQ false

/-- *library* `SkipRecursive`; `valid` is `json.Valid`. -/
def Lex.skipRec (valid : Bytes → Bool) (r : Lex) : Option Lex := r.fetch.bind (fun r => match r.tok with
  | .delim c =>
    if c = 123 ∨ c = 91 then
      (skipScan c (if c = 123 then 125 else 93) 1 false false r.data).bind (fun p => if valid (c :: p.1) then some { r with data := p.2, tok := .undef } else none)
    else some r.consume
  | _ => some r.consume)

/-- filter_easyjson.go:35-158: the switch on the key. -/
def setFilter (valid : Bytes → Bool) (key : Bytes) (r : Lex) (out : Filter) : Option (Filter × Lex) :=
  if key = b! "ids" then (readStrings r).map (fun p => ({ out with ids := some p.1 }, p.2))
  else if key = b! "kinds" then (readInts r).map (fun p => ({ out with kinds := some p.1 }, p.2))
  else if key = b! "authors" then (readStrings r).map (fun p => ({ out with authors := some p.1 }, p.2))
  else if key = b! "since" then r.int.map (fun p => ({ out with since := some p.1 }, p.2))
  else if key = b! "until" then r.int.map (fun p => ({ out with «until» := some p.1 }, p.2))
  else if key = b! "limit" then r.int.map (fun (p : Int × Lex) => ({ out with limit := p.1, limitZero := if p.1 = 0 then true else out.limitZero }, p.2))
  else if key = b! "search" then r.string.map (fun p => ({ out with search := p.1 }, p.2))
  else match key with
    | 35 :: c :: name => (readStrings r).map (fun p => ({ out with tags := some (tagSet (tagEntries out.tags) (c :: name) p.1) }, p.2))
    | _ => (r.skipRec valid).map (fun r => (out, r))

/-- filter_easyjson.go:27-161: the loop over the members. -/
def filterFields (valid : Bytes → Bool) : Nat → Lex → Filter → Option (Filter × Lex)
  | 0, _, _ => none
  | n + 1, r, out => do
    let (close, r) ← r.isDelim 125
    if close then (r.delim 125).map (fun r => (out, r))
    else
      let (key, r) ← r.fieldName false
      let (z, r) ← r.wantColon.isNull
      if z then filterFields valid n r.consume.wantComma out
      else
        let (out, r) ← setFilter valid key r out
        filterFields valid n r.wantComma out

/-- filter_easyjson.go:16-165, into the filter `out` (and UnmarshalJSON, UnmarshalEasyJSON, 299-309). -/
def decodeFilterInto (valid : Bytes → Bool) (out : Filter) (data : Bytes) : Option Filter := do
  let (z, r) ← (Lex.start data).isNull
  if z then r.consumed.map (fun _ => out)
  else
    let r ← r.delim 123
    let (out, r) ← filterFields valid (data.length + 1) r { out with tags := some [] }
    r.consumed.map (fun _ => out)

/-- Decoding into a zero filter. -/
def decodeFilter (valid : Bytes → Bool) (data : Bytes) : Option Filter := decodeFilterInto valid {} data

/-! ## Every way to write a filter -/

/-- The rest of an array of integers. -/
inductive IntItems : UInt8 → Bytes → List Int → Prop
  | close {sep : UInt8} {w : Bytes} (hw : Ws w) : IntItems sep (w ++ [93]) []
  | item {sep : UInt8} {pre t : Bytes} {i : Int} {l : List Int} (hs : Sep pre sep) (hi : InInt64 i) (h : IntItems 44 t l) : IntItems sep (pre ++ (fmtInt i ++ t)) (i :: l)

/-- Specification: the values of the members of a filter. -/
inductive FilterVal where
  | str (s : Bytes)
  | int (i : Int)
  | strs (l : List Bytes)
  | ints (l : List Int)
  | null

/-- Specification: the texts of such a value. -/
inductive FValText : Bytes → FilterVal → Prop
  | str {b v : Bytes} (h : Esc b v) : FValText (34 :: (b ++ [34])) (.str v)
  | int {i : Int} (h : InInt64 i) : FValText (fmtInt i) (.int i)
  | strs {u : Bytes} {l : List Bytes} (h : StrItems 0 u l) : FValText (91 :: u) (.strs l)
  | ints {u : Bytes} {l : List Int} (h : IntItems 0 u l) : FValText (91 :: u) (.ints l)
  | null : FValText (b! "null") .null

/-- The rest of an object; the keys may be written with escapes. -/
inductive FMembers : UInt8 → Bytes → List (Bytes × FilterVal) → Prop
  | close {sep : UInt8} {w : Bytes} (hw : Ws w) : FMembers sep (w ++ [125]) []
  | member {sep : UInt8} {pre key k col val t : Bytes} {v : FilterVal} {l : List (Bytes × FilterVal)} (hs : Sep pre sep) (hk : Esc k key) (hc : Sep col 58) (hv : FValText val v)
      (h : FMembers 44 t l) : FMembers sep (pre ++ 34 :: (k ++ 34 :: (col ++ (val ++ t)))) ((key, v) :: l)

/-- Specification: the texts of an object with these members. -/
def IsFilterObject (text : Bytes) (l : List (Bytes × FilterVal)) : Prop := ∃ w1 body w2, Ws w1 ∧ Ws w2 ∧ FMembers 0 body l ∧ text = w1 ++ 123 :: (body ++ w2)

/-- What a member says about the filter. Unknown members with a string or a number as value say nothing. -/
def fmember (out : Filter) : Bytes × FilterVal → Option Filter
  | (_, .null) => some out
  | (key, .str s) => if key = b! "search" then some { out with search := s } else if key ∈ [b! "ids", b! "kinds", b! "authors", b! "since", b! "until", b! "limit"] then none
    else match key with
      | 35 :: _ :: _ => none
      | _ => some out
  | (key, .int i) =>
    if key = b! "since" then some { out with since := some i }
    else if key = b! "until" then some { out with «until» := some i }
    else if key = b! "limit" then some { out with limit := i, limitZero := if i = 0 then true else out.limitZero }
    else if key ∈ [b! "ids", b! "kinds", b! "authors", b! "search"] then none
    else match key with
      | 35 :: _ :: _ => none
      | _ => some out
  | (key, .strs l) =>
    if key = b! "ids" then some { out with ids := some l }
    else if key = b! "authors" then some { out with authors := some l }
    else match key with
      | 35 :: c :: name => some { out with tags := some (tagSet (tagEntries out.tags) (c :: name) l) }
      | _ => none
  | (key, .ints l) => if key = b! "kinds" then some { out with kinds := some l } else none

/-! ## Reading any layout -/

theorem fetch_ints {sep : UInt8} {t : Bytes} {l : List Int} (h : IntItems sep t l) (hsep : sep = 44) (rest : Bytes) : Ends (t ++ rest) := by
  cases h with
  | close hw => rw [List.append_assoc]; exact ws_ends hw (by decide) rest
  | item hs =>
    rcases hs with ⟨_, h0⟩ | ⟨u, v, hu, _, rfl, _⟩
    · rw [h0] at hsep; cases hsep
    · rw [List.append_assoc, List.append_assoc, List.cons_append, hsep]
      exact ws_ends hu (by decide) _

theorem intLoop_items {sep : UInt8} {t : Bytes} {l : List Int} (h : IntItems sep t l) (rest : Bytes) : ∀ n first, l.length < n → first = true ∨ sep = 44 →
    ∃ f, intLoop n ⟨t ++ rest, .undef, sep, first⟩ = some (l, ⟨rest, .undef, 0, f⟩) := by
  induction h with
  | @close sep w hw =>
    intro n first hn hf
    match n, hn with
    | n + 1, _ =>
      have hd := isDelim_this (c := 93) (fetch_close hw hf (.inr rfl) rest) rfl
      refine ⟨first, ?_⟩
      rw [intLoop]
      simp [hd, delim_of]
  | @item sep pre t i l hs hi ht ih =>
    intro n first hn _
    match n, hn with
    | n + 1, hn =>
      obtain ⟨f, hf⟩ := ih n false (by simpa using hn) (.inr rfl)
      have hd := isDelim_other (c := 93) (fetch_num (first := first) hs i (fetch_ints ht rfl rest)) (by simp)
      refine ⟨f, ?_⟩
      rw [intLoop]
      simp only [List.append_assoc, hd, Option.bind_eq_bind, Option.bind_some]
      simp [int_of hi, Lex.wantComma, hf]

theorem IntItems.length {sep : UInt8} {t : Bytes} {l : List Int} (h : IntItems sep t l) : l.length < t.length := by
  induction h with
  | close => simp
  | @item sep pre t i l _ _ _ ih =>
    have := List.length_pos_iff.2 (fmtInt_ne_nil i)
    simp only [List.length_append, List.length_cons]; omega

theorem readInts_items {t : Bytes} {l : List Int} (h : IntItems 0 t l) (rest : Bytes) : ∃ f, readInts ⟨t ++ rest, .delim 91, 0, true⟩ = some (l, ⟨rest, .undef, 0, f⟩) := by
  unfold readInts
  rw [delim_of, Option.bind_some]
  have := h.length
  exact intLoop_items h rest _ true (by simp only [List.length_append]; omega) (.inl rfl)

theorem FMembers.ends {sep : UInt8} {t : Bytes} {l : List (Bytes × FilterVal)} (h : FMembers sep t l) (hsep : sep = 44) (rest : Bytes) : Ends (t ++ rest) := by
  cases h with
  | close hw => rw [List.append_assoc]; exact ws_ends hw (by decide) rest
  | member hs =>
    rcases hs with ⟨_, h0⟩ | ⟨u, v, hu, _, rfl, _⟩
    · rw [h0] at hsep; cases hsep
    · rw [List.append_assoc, List.append_assoc, List.cons_append, hsep]
      exact ws_ends hu (by decide) _

theorem FMembers.length {sep : UInt8} {t : Bytes} {l : List (Bytes × FilterVal)} (h : FMembers sep t l) : l.length < t.length := by
  induction h with
  | close => simp
  | member _ _ _ _ _ ih => simp only [List.length_append, List.length_cons]; omega

theorem fvalue_read (valid : Bytes → Bool) {col val rest : Bytes} {v : FilterVal} (hc : Sep col 58) (hv : FValText val v) (hr : Ends rest) {key : Bytes} {out out' : Filter}
    (hm : fmember out (key, v) = some out') :
    ∃ r', (⟨col ++ (val ++ rest), .undef, 58, false⟩ : Lex).fetch = some r' ∧
      ((r'.tok = .null ∧ out' = out ∧ r'.consume.wantComma = ⟨rest, .undef, 44, false⟩) ∨
       (r'.tok ≠ .null ∧ ∃ r'', setFilter valid key r' out = some (out', r'') ∧ r''.wantComma = ⟨rest, .undef, 44, false⟩)) := by
  cases hv with
  | @str b s he =>
    refine ⟨⟨rest, .str b, 0, false⟩, by simpa using fetch_str (first := false) hc he rest, .inr ⟨by simp, ⟨rest, .undef, 0, false⟩, ?_, rfl⟩⟩
    have hs := string_of (data := rest) (sep := 0) (first := false) he
    have hk : (⟨rest, .str b, 0, false⟩ : Lex).skipRec valid = some ⟨rest, .undef, 0, false⟩ := by simp [Lex.skipRec, Lex.fetch, Lex.consume]
    simp only [fmember, List.mem_cons, List.not_mem_nil, or_false] at hm
    split at hm
    · next h => cases hm; subst h; simp only [setFilter, hs]; rfl
    · next h1 =>
      split at hm
      · cases hm
      · next h2 =>
        simp only [not_or] at h2
        unfold setFilter
        simp only [if_neg h1, if_neg h2.1, if_neg h2.2.1, if_neg h2.2.2.1, if_neg h2.2.2.2.1, if_neg h2.2.2.2.2.1, if_neg h2.2.2.2.2.2, hk]
        split at hm
        · cases hm
        · cases hm; rfl
  | @int i hi =>
    refine ⟨⟨rest, .num (fmtInt i), 0, false⟩, fetch_num (first := false) hc i hr, .inr ⟨by simp, ⟨rest, .undef, 0, false⟩, ?_, rfl⟩⟩
    have hs := int_of (data := rest) (sep := 0) (first := false) hi
    have hk : (⟨rest, .num (fmtInt i), 0, false⟩ : Lex).skipRec valid = some ⟨rest, .undef, 0, false⟩ := by simp [Lex.skipRec, Lex.fetch, Lex.consume]
    simp only [fmember, List.mem_cons, List.not_mem_nil, or_false] at hm
    split at hm
    · next h => cases hm; subst h; simp only [setFilter, hs]; rfl
    next h1 =>
    split at hm
    · next h => cases hm; subst h; simp only [setFilter, hs]; rfl
    next h2 =>
    split at hm
    · next h => cases hm; subst h; simp only [setFilter, hs]; rfl
    next h3 =>
    split at hm
    · cases hm
    next h4 =>
    simp only [not_or] at h4
    unfold setFilter
    simp only [if_neg h1, if_neg h2, if_neg h3, if_neg h4.1, if_neg h4.2.1, if_neg h4.2.2.1, if_neg h4.2.2.2, hk]
    split at hm
    · cases hm
    · cases hm; rfl
  | @strs u l hl =>
    obtain ⟨f, hf⟩ := readStrings_items hl rest
    refine ⟨⟨u ++ rest, .delim 91, 0, true⟩, by simpa using fetch_open (first := false) hc (.inr rfl) (u ++ rest), .inr ⟨by simp, ⟨rest, .undef, 0, f⟩, ?_, rfl⟩⟩
    simp only [fmember] at hm
    split at hm
    · next h => cases hm; subst h; simp only [setFilter, hf]; rfl
    split at hm
    · next h => cases hm; subst h; simp only [setFilter, hf]; rfl
    split at hm
    · cases hm
      simp only [setFilter, hf]
      rfl
    · cases hm
  | @ints u l hl =>
    obtain ⟨f, hf⟩ := readInts_items hl rest
    refine ⟨⟨u ++ rest, .delim 91, 0, true⟩, by simpa using fetch_open (first := false) hc (.inr rfl) (u ++ rest), .inr ⟨by simp, ⟨rest, .undef, 0, f⟩, ?_, rfl⟩⟩
    simp only [fmember] at hm
    split at hm
    · next h => cases hm; subst h; simp only [setFilter, hf]; rfl
    · cases hm
  | null =>
    simp only [fmember, Option.some.injEq] at hm
    exact ⟨⟨rest, .null, 0, false⟩, fetch_null hc hr, .inl ⟨rfl, hm.symm, rfl⟩⟩

theorem filterFields_members (valid : Bytes → Bool) {sep : UInt8} {t : Bytes} {l : List (Bytes × FilterVal)} (h : FMembers sep t l) (rest : Bytes) :
    ∀ n first (out res : Filter), l.length < n → first = true ∨ sep = 44 → l.foldlM fmember out = some res →
      ∃ f, filterFields valid n ⟨t ++ rest, .undef, sep, first⟩ out = some (res, ⟨rest, .undef, 0, f⟩) := by
  induction h with
  | @close sep w hw =>
    intro n first out res hn hf hres
    simp only [List.foldlM_nil, Option.pure_def, Option.some.injEq] at hres
    subst hres
    match n, hn with
    | n + 1, _ =>
      have hd := isDelim_this (c := 125) (fetch_close hw hf (.inl rfl) rest) rfl
      refine ⟨first, ?_⟩
      rw [filterFields]
      simp [hd, delim_of]
  | @member sep pre key k col val t v l hs hk hc hv ht ih =>
    intro n first out res hn _ hres
    match n, hn with
    | n + 1, hn =>
      rw [List.foldlM_cons] at hres
      cases hm : fmember out (key, v) with
      | none => rw [hm] at hres; cases hres
      | some out' =>
        rw [hm] at hres
        obtain ⟨f, hf⟩ := ih n false out' res (by simpa using hn) (.inr rfl) hres
        obtain ⟨r', hr', hcase⟩ := fvalue_read valid hc hv (ht.ends rfl rest) hm
        have hd := isDelim_other (c := 125) (fetch_str (first := first) hs hk (col ++ (val ++ (t ++ rest)))) (by simp)
        have hfn : (⟨col ++ (val ++ (t ++ rest)), .str k, 0, first⟩ : Lex).fieldName false = some (key, ⟨col ++ (val ++ (t ++ rest)), .undef, 0, first⟩) := by
          unfold Lex.fieldName
          rw [Lex.fetch_of (by simp)]
          simp [Lex.consume, unescape_esc hk _ (Nat.le_refl _)]
        refine ⟨f, ?_⟩
        rw [filterFields]
        simp only [List.append_assoc, List.cons_append, hd, hfn, Option.bind_eq_bind, Option.bind_some, Lex.wantColon]
        rcases hcase with ⟨hnull, ho, hnext⟩ | ⟨hnn, r'', hset, hnext⟩
        · subst ho
          simp [isNull_this hr' hnull, hnext, hf]
        · simp [isNull_other hr' hnn, hset, hnext, hf]

/-- C22: a filter is read from any JSON object, whatever the order of the members, the white space and the escapes; unknown members are ignored (here: with strings and numbers as values). -/
theorem C22_any_layout (valid : Bytes → Bool) {text : Bytes} {l : List (Bytes × FilterVal)} {f : Filter} (h : IsFilterObject text l) (hf : l.foldlM fmember { tags := some [] } = some f) :
    decodeFilter valid text = some f := by
  obtain ⟨w1, body, w2, hw1, hw2, hb, rfl⟩ := h
  have hfe : (Lex.start (w1 ++ 123 :: (body ++ w2))).isNull = some (false, ⟨body ++ w2, .delim 123, 0, true⟩) :=
    isNull_other (fetch_open (first := false) (.inl ⟨hw1, rfl⟩) (.inl rfl) (body ++ w2)) (by simp)
  have hlen := hb.length
  obtain ⟨g, hr⟩ := filterFields_members valid hb w2 ((w1 ++ 123 :: (body ++ w2)).length + 1) true _ f (by simp only [List.length_append, List.length_cons]; omega) (.inl rfl) hf
  unfold decodeFilter decodeFilterInto
  simp only [hfe, Option.bind_eq_bind, Option.bind_some, delim_of, hr]
  have : ∀ c ∈ w2, isSpace c = true := fun c hc => isSpace_iff.2 (hw2 c hc)
  simpa [Lex.consumed] using this

/-! ## What the encoder writes -/

/-- The members written: key, text of the value, value. -/
def filterMembers (f : Filter) : List (Bytes × Bytes × FilterVal) :=
  (if elems f.ids = [] then [] else [(b! "ids", wStrings (elems f.ids), .strs ((elems f.ids).map clean))]) ++
  (if elems f.kinds = [] then [] else [(b! "kinds", wInts (elems f.kinds), .ints (elems f.kinds))]) ++
  (if elems f.authors = [] then [] else [(b! "authors", wStrings (elems f.authors), .strs ((elems f.authors).map clean))]) ++
  (match f.since with | some t => [(b! "since", fmtInt t, .int t)] | none => []) ++
  (match f.until with | some t => [(b! "until", fmtInt t, .int t)] | none => []) ++
  (if f.limit ≠ 0 ∨ f.limitZero = true then [(b! "limit", fmtInt f.limit, .int f.limit)] else []) ++
  (if f.search = [] then [] else [(b! "search", wString f.search, .str (clean f.search))]) ++
  (tagEntries f.tags).map (fun e => (35 :: e.1, wStrings (elems e.2), .strs ((elems e.2).map clean)))

theorem filterParts_eq (f : Filter) : filterParts f = (filterMembers f).map (fun x => (x.1, x.2.1)) := by
  unfold filterParts filterMembers
  simp only [List.map_append]
  congr 1
  · congr 1
    · congr 1
      · congr 1
        · congr 1
          · congr 1
            · congr 1
              · split <;> rfl
              · split <;> rfl
            · split <;> rfl
          · split <;> rfl
        · split <;> rfl
      · split <;> rfl
    · split <;> rfl
  · rw [List.map_map]; rfl

theorem intItems_more (l : List Int) (h : ∀ i ∈ l, InInt64 i) : IntItems 44 ((l.map fmtInt).flatMap (fun y => 44 :: y) ++ [93]) l := by
  induction l with
  | nil => exact .close (w := []) .nil
  | cons i l ih =>
    have := IntItems.item sep_comma (h i (by simp)) (ih (fun x hx => h x (List.mem_cons_of_mem _ hx)))
    simpa using this

theorem fvalText_ints {l : List Int} (h : ∀ i ∈ l, InInt64 i) : FValText (wInts l) (.ints l) := by
  have : IntItems 0 (commas (l.map fmtInt) ++ [93]) l := by
    cases l with
    | nil => exact .close (w := []) .nil
    | cons i l =>
      have := IntItems.item sep_none (h i (by simp)) (intItems_more l (fun x hx => h x (List.mem_cons_of_mem _ hx)))
      simpa [commas] using this
  have := FValText.ints this
  simpa [wInts] using this

theorem fvalText_strs (l : List Bytes) : FValText (wStrings l) (.strs (l.map clean)) := by
  have := FValText.strs (strItems_commas l)
  simpa [wStrings] using this

theorem fvalText_str (s : Bytes) : FValText (wString s) (.str (clean s)) := by
  have := FValText.str (wString_esc s)
  simpa [wString] using this

/-- Everything in the filter can be written down: the numbers are Go integers, and the names of the tag conditions are distinct, not empty and need no escapes in JSON. -/
structure Writable (f : Filter) : Prop where
  kinds : ∀ k ∈ elems f.kinds, InInt64 k
  since : ∀ t, f.since = some t → InInt64 t
  til : ∀ t, f.until = some t → InInt64 t
  limit : InInt64 f.limit
  names : ∀ e ∈ tagEntries f.tags, e.1 ≠ [] ∧ ∀ c ∈ e.1, 32 ≤ c ∧ c ≠ 34 ∧ c ≠ 92
  distinct : ((tagEntries f.tags).map (·.1)).Nodup

theorem filterMembers_ok {f : Filter} (h : Writable f) : ∀ x ∈ filterMembers f, Esc x.1 x.1 ∧ FValText x.2.1 x.2.2 := by
  intro x hx
  simp only [filterMembers, List.mem_append] at hx
  rcases hx with ((((((hx | hx) | hx) | hx) | hx) | hx) | hx) | hx
  · split at hx
    · cases hx
    · cases List.mem_singleton.1 hx; exact ⟨plainKey rfl, fvalText_strs _⟩
  · split at hx
    · cases hx
    · cases List.mem_singleton.1 hx; exact ⟨plainKey rfl, fvalText_ints h.kinds⟩
  · split at hx
    · cases hx
    · cases List.mem_singleton.1 hx; exact ⟨plainKey rfl, fvalText_strs _⟩
  · split at hx
    · next t ht => cases List.mem_singleton.1 hx; exact ⟨plainKey rfl, .int (h.since t ht)⟩
    · cases hx
  · split at hx
    · next t ht => cases List.mem_singleton.1 hx; exact ⟨plainKey rfl, .int (h.til t ht)⟩
    · cases hx
  · split at hx
    · cases List.mem_singleton.1 hx; exact ⟨plainKey rfl, .int h.limit⟩
    · cases hx
  · split at hx
    · cases hx
    · cases List.mem_singleton.1 hx; exact ⟨plainKey rfl, fvalText_str _⟩
  · obtain ⟨e, he, rfl⟩ := List.mem_map.1 hx
    refine ⟨.raw (by decide) (by decide) (by decide) (Esc.plain (h.names e he).2), fvalText_strs _⟩

theorem fmembers_more : ∀ (l : List (Bytes × Bytes × FilterVal)), (∀ x ∈ l, Esc x.1 x.1 ∧ FValText x.2.1 x.2.2) →
    FMembers 44 ((l.map (fun x => wPart (x.1, x.2.1))).flatMap (fun y => 44 :: y) ++ [125]) (l.map (fun x => (x.1, x.2.2)))
  | [], _ => .close (w := []) .nil
  | x :: l, h => by
    obtain ⟨hk, hv⟩ := h x (by simp)
    have := FMembers.member sep_comma hk sep_colon hv (fmembers_more l (fun y hy => h y (List.mem_cons_of_mem _ hy)))
    simpa [wPart] using this

theorem fmembers_commas (l : List (Bytes × Bytes × FilterVal)) (h : ∀ x ∈ l, Esc x.1 x.1 ∧ FValText x.2.1 x.2.2) :
    FMembers 0 (commas (l.map (fun x => wPart (x.1, x.2.1))) ++ [125]) (l.map (fun x => (x.1, x.2.2))) := by
  cases l with
  | nil => exact .close (w := []) .nil
  | cons x l =>
    obtain ⟨hk, hv⟩ := h x (by simp)
    have := FMembers.member sep_none hk sep_colon hv (fmembers_more l (fun y hy => h y (List.mem_cons_of_mem _ hy)))
    simpa [wPart, commas] using this

theorem encodeFilter_members {f : Filter} (h : Writable f) : ∃ body, FMembers 0 body ((filterMembers f).map (fun x => (x.1, x.2.2))) ∧ encodeFilter f = 123 :: body := by
  refine ⟨_, fmembers_commas _ (filterMembers_ok h), ?_⟩
  unfold encodeFilter
  rw [filterParts_eq, List.map_map]
  simp [Function.comp_def]

theorem encodeFilter_isObject {f : Filter} (h : Writable f) : IsFilterObject (encodeFilter f) ((filterMembers f).map (fun x => (x.1, x.2.2))) := by
  obtain ⟨body, h, he⟩ := encodeFilter_members h
  exact ⟨[], body, [], .nil, .nil, h, by simp [he]⟩

/-- What the receiver of a written filter gets: empty lists have become absent, a nil list of tag values has become empty, `limit` 0 is only told apart from none by `LimitZero`. -/
def onWire (f : Filter) : Filter where
  ids := if elems f.ids = [] then none else some ((elems f.ids).map clean)
  kinds := if elems f.kinds = [] then none else some (elems f.kinds)
  authors := if elems f.authors = [] then none else some ((elems f.authors).map clean)
  tags := some ((tagEntries f.tags).map (fun e => (e.1, some ((elems e.2).map clean))))
  since := f.since
  «until» := f.until
  limit := f.limit
  search := clean f.search
  limitZero := decide (f.limit = 0) && f.limitZero

theorem tagSet_new {m : TagMap} {k : Bytes} (h : k ∉ m.map (·.1)) (v : List Bytes) : tagSet m k v = m ++ [(k, some v)] := by
  unfold tagSet
  rw [if_neg]
  simp only [List.any_eq_true, decide_eq_true_eq, not_exists, not_and]
  exact fun e he hk => h (List.mem_map.2 ⟨e, he, hk⟩)

theorem foldlM_tags : ∀ (t : TagMap) (out : Filter), (∀ e ∈ t, e.1 ≠ []) → ((tagEntries out.tags).map (·.1) ++ t.map (·.1)).Nodup →
    (t.map (fun e => ((35 :: e.1 : Bytes), FilterVal.strs ((elems e.2).map clean)))).foldlM fmember { out with tags := some (tagEntries out.tags) } =
      some { out with tags := some (tagEntries out.tags ++ t.map (fun e => (e.1, some ((elems e.2).map clean)))) }
  | [], out, _, _ => by simp
  | (k, v) :: t, out, hn, hd => by
    have hk := hn (k, v) (by simp)
    match k, hk with
    | c :: name, _ =>
      rw [List.map_cons, List.foldlM_cons]
      have hnew : (c :: name : Bytes) ∉ (tagEntries out.tags).map (·.1) := by
        rw [List.map_cons] at hd
        exact fun hm => (List.disjoint_of_nodup_append hd) hm (by simp)
      have h1 : fmember { out with tags := some (tagEntries out.tags) } ((35 :: c :: name : Bytes), FilterVal.strs ((elems v).map clean)) =
          some { out with tags := some (tagSet (tagEntries out.tags) (c :: name) ((elems v).map clean)) } := by
        simp [fmember, tagEntries]
      rw [h1, tagSet_new hnew]
      have := foldlM_tags t { out with tags := some (tagEntries out.tags ++ [(c :: name, some ((elems v).map clean))]) } (fun e he => hn e (List.mem_cons_of_mem _ he))
        (by simpa [tagEntries, List.append_assoc] using hd)
      simpa [tagEntries] using this

theorem filterMembers_says {f : Filter} (h : Writable f) : ((filterMembers f).map (fun x => (x.1, x.2.2))).foldlM fmember { tags := some [] } = some (onWire f) := by
  have e1 : ∀ out : Filter, out.ids = none → ((if elems f.ids = [] then [] else [(b! "ids", wStrings (elems f.ids), FilterVal.strs ((elems f.ids).map clean))]).map
      (fun x => (x.1, x.2.2))).foldlM fmember out = some { out with ids := if elems f.ids = [] then none else some ((elems f.ids).map clean) } := by
    intro out ho; obtain ⟨⟩ := out; cases ho; split <;> rfl
  have e2 : ∀ out : Filter, out.kinds = none → ((if elems f.kinds = [] then [] else [(b! "kinds", wInts (elems f.kinds), FilterVal.ints (elems f.kinds))]).map
      (fun x => (x.1, x.2.2))).foldlM fmember out = some { out with kinds := if elems f.kinds = [] then none else some (elems f.kinds) } := by
    intro out ho; obtain ⟨⟩ := out; cases ho; split <;> rfl
  have e3 : ∀ out : Filter, out.authors = none → ((if elems f.authors = [] then [] else [(b! "authors", wStrings (elems f.authors), FilterVal.strs ((elems f.authors).map clean))]).map
      (fun x => (x.1, x.2.2))).foldlM fmember out = some { out with authors := if elems f.authors = [] then none else some ((elems f.authors).map clean) } := by
    intro out ho; obtain ⟨⟩ := out; cases ho; split <;> rfl
  have e4 : ∀ out : Filter, out.since = none → ((match f.since with | some t => [(b! "since", fmtInt t, FilterVal.int t)] | none => []).map
      (fun x : Bytes × Bytes × FilterVal => (x.1, x.2.2))).foldlM fmember out = some { out with since := f.since } := by
    intro out ho; obtain ⟨⟩ := out; cases ho; cases f.since <;> rfl
  have e5 : ∀ out : Filter, out.until = none → ((match f.until with | some t => [(b! "until", fmtInt t, FilterVal.int t)] | none => []).map
      (fun x : Bytes × Bytes × FilterVal => (x.1, x.2.2))).foldlM fmember out = some { out with «until» := f.until } := by
    intro out ho; obtain ⟨⟩ := out; cases ho; cases f.until <;> rfl
  have e6 : ∀ out : Filter, out.limit = 0 → out.limitZero = false → ((if f.limit ≠ 0 ∨ f.limitZero = true then [(b! "limit", fmtInt f.limit, FilterVal.int f.limit)] else []).map
      (fun x => (x.1, x.2.2))).foldlM fmember out = some { out with limit := f.limit, limitZero := decide (f.limit = 0) && f.limitZero } := by
    intro out ho hz
    obtain ⟨⟩ := out
    cases ho; cases hz
    split
    · next hc =>
      rw [List.map_singleton, List.foldlM_cons]
      show ((some _ : Option Filter).bind _) = _
      rw [Option.bind_some, List.foldlM_nil]
      show some _ = some _
      congr 2
      by_cases h0 : f.limit = 0
      · have := hc.resolve_left (by simp [h0]); simp [h0, this]
      · simp [h0]
    · next hc =>
      simp only [not_or, ne_eq, Decidable.not_not, Bool.not_eq_true] at hc
      simp [hc.1, hc.2]
  have e7 : ∀ out : Filter, out.search = [] → ((if f.search = [] then [] else [(b! "search", wString f.search, FilterVal.str (clean f.search))]).map
      (fun x => (x.1, x.2.2))).foldlM fmember out = some { out with search := clean f.search } := by
    intro out ho
    obtain ⟨⟩ := out
    cases ho
    split
    · next hs => rw [hs]; rfl
    · rfl
  have hmm : ((tagEntries f.tags).map (fun e => ((35 :: e.1 : Bytes), wStrings (elems e.2), FilterVal.strs ((elems e.2).map clean)))).map (fun x => (x.1, x.2.2)) =
      (tagEntries f.tags).map (fun e => ((35 :: e.1 : Bytes), FilterVal.strs ((elems e.2).map clean))) := by rw [List.map_map]; rfl
  unfold filterMembers
  rw [List.map_append, hmm]
  simp only [List.map_append, List.foldlM_append]
  rw [e1 _ (by rfl)]
  simp only [Option.bind_eq_bind, Option.bind_some]
  rewrite [e2 _ (by rfl), Option.bind_some, e3 _ (by rfl), Option.bind_some, e4 _ (by rfl), Option.bind_some, e5 _ (by rfl), Option.bind_some, e6 _ (by rfl) (by rfl), Option.bind_some,
    e7 _ (by rfl), Option.bind_some]
  have := foldlM_tags (tagEntries f.tags) { onWire f with tags := some [] } (fun e he => (h.names e he).1) (by simpa [tagEntries] using h.distinct)
  exact this

/-- C22: what exactly arrives when a filter is written and read. -/
theorem C22_what_arrives (valid : Bytes → Bool) {f : Filter} (h : Writable f) : decodeFilter valid (encodeFilter f) = some (onWire f) :=
  C22_any_layout valid (encodeFilter_isObject h) (filterMembers_says h)

/-- Lists are absent or not empty, tag conditions have values, all strings are UTF-8, and `LimitZero` goes with a limit of 0. -/
structure Plain (f : Filter) : Prop where
  ids : f.ids ≠ some []
  kinds : f.kinds ≠ some []
  authors : f.authors ≠ some []
  values : ∀ e ∈ tagEntries f.tags, e.2 ≠ none
  limitZero : f.limitZero = true → f.limit = 0
  idsUtf8 : ∀ s ∈ elems f.ids, Utf8 s
  authorsUtf8 : ∀ s ∈ elems f.authors, Utf8 s
  searchUtf8 : Utf8 f.search
  valuesUtf8 : ∀ e ∈ tagEntries f.tags, ∀ s ∈ elems e.2, Utf8 s

theorem map_clean {l : List Bytes} (h : ∀ s ∈ l, Utf8 s) : l.map clean = l := by
  conv => rhs; rw [← List.map_id l]
  exact List.map_congr_left (fun s hs => clean_utf8 (h s hs))

theorem onWire_plain {f : Filter} (h : Plain f) : onWire f = { f with tags := some (tagEntries f.tags) } := by
  have hlist : ∀ {α : Type} (v : Option (List α)), v ≠ some [] → (if elems v = [] then none else some (elems v)) = v := by
    intro α v hv
    cases v with
    | none => rfl
    | some l => cases l with
      | nil => exact absurd rfl hv
      | cons => rfl
  have ht : (tagEntries f.tags).map (fun e => (e.1, some ((elems e.2).map clean))) = tagEntries f.tags := by
    conv => rhs; rw [← List.map_id (tagEntries f.tags)]
    refine List.map_congr_left (fun e he => ?_)
    obtain ⟨k, v⟩ := e
    rw [map_clean (h.valuesUtf8 _ he)]
    cases v with
    | none => exact absurd rfl (h.values _ he)
    | some l => rfl
  unfold onWire
  rw [ht, map_clean h.idsUtf8, map_clean h.authorsUtf8, clean_utf8 h.searchUtf8, hlist _ h.ids, hlist _ h.kinds, hlist _ h.authors]
  have : (decide (f.limit = 0) && f.limitZero) = f.limitZero := by
    cases hz : f.limitZero with
    | false => simp
    | true => simp [h.limitZero hz]
  rw [this]

/-- C22: a plain filter arrives as it was sent: it matches the same events, and limit, window, search and `LimitZero` are the same. Missing for the full property: filters that are not plain
or not writable, for which it is false (below). -/
theorem C22_same_meaning_partial (valid : Bytes → Bool) {f : Filter} (hw : Writable f) (hp : Plain f) :
    ∃ g, decodeFilter valid (encodeFilter f) = some g ∧ (∀ e : Event, Spec.Matches g e ↔ Spec.Matches f e) ∧ g.limit = f.limit ∧ g.limitZero = f.limitZero ∧ g.search = f.search ∧
      g.since = f.since ∧ g.until = f.until := by
  refine ⟨{ f with tags := some (tagEntries f.tags) }, (C22_what_arrives valid hw).trans (by rw [onWire_plain hp]), ?_, rfl, rfl, rfl, rfl, rfl⟩
  intro e
  unfold Spec.Matches Spec.MatchesButTime Spec.InWindow
  cases hf : f.tags <;> simp [tagEntries]

/-- What holds in general: the filter that arrives never asks for fewer events than one that is plain; precisely, whatever matches what was sent matches what arrives, if the strings are UTF-8 and every tag condition has values. -/
theorem C22_never_narrower (valid : Bytes → Bool) {f : Filter} (hw : Writable f) (hv : ∀ e ∈ tagEntries f.tags, e.2 ≠ none)
    (hu : (∀ s ∈ elems f.ids, Utf8 s) ∧ (∀ s ∈ elems f.authors, Utf8 s) ∧ (∀ e ∈ tagEntries f.tags, ∀ s ∈ elems e.2, Utf8 s)) :
    ∃ g, decodeFilter valid (encodeFilter f) = some g ∧ ∀ e : Event, Spec.Matches f e → Spec.Matches g e := by
  refine ⟨_, C22_what_arrives valid hw, ?_⟩
  rintro e ⟨⟨h1, h2, h3, h4⟩, h5⟩
  refine ⟨⟨?_, ?_, ?_, ?_⟩, h5⟩
  · intro ids hids
    simp only [onWire, map_clean hu.1] at hids
    split at hids
    · cases hids
    · cases hids
      cases hfi : f.ids with
      | none => rename_i hne; simp [hfi, elems] at hne
      | some l => exact h1 l hfi
  · intro ks hks
    simp only [onWire] at hks
    split at hks
    · cases hks
    · cases hks
      cases hfi : f.kinds with
      | none => rename_i hne; simp [hfi, elems] at hne
      | some l => exact h2 l hfi
  · intro as has
    simp only [onWire, map_clean hu.2.1] at has
    split at has
    · cases has
    · cases has
      cases hfi : f.authors with
      | none => rename_i hne; simp [hfi, elems] at hne
      | some l => exact h3 l hfi
  · intro m hm name vals hmem
    simp only [onWire, Option.some.injEq] at hm
    subst hm
    obtain ⟨⟨k, v⟩, he, heq⟩ := List.mem_map.1 hmem
    simp only [Prod.mk.injEq, Option.some.injEq] at heq
    obtain ⟨rfl, rfl⟩ := heq
    rw [map_clean (hu.2.2 _ he)]
    cases v with
    | none => exact absurd rfl (hv _ he)
    | some l =>
      cases hft : f.tags with
      | none => rw [hft] at he; cases he
      | some m => rw [hft] at he; exact h4 m hft k l he

/-- C22 is false for lists that are present and empty: a filter that matches nothing arrives as one that matches everything. -/
theorem C22_empty_list_widens (valid : Bytes → Bool) : ∃ f g : Filter, Writable f ∧ decodeFilter valid (encodeFilter f) = some g ∧ ∀ e, ¬ Spec.Matches f e ∧ Spec.Matches g e := by
  refine ⟨{ ids := some [] }, { tags := some [] }, ⟨by simp [elems], by simp, by simp, by decide, by simp [tagEntries], by simp [tagEntries]⟩, ?_, ?_⟩
  · exact (C22_what_arrives valid ⟨by simp [elems], by simp, by simp, by decide, by simp [tagEntries], by simp [tagEntries]⟩).trans (by simp [onWire, elems, tagEntries, clean, sanitize])
  · intro e
    refine ⟨fun h => by simpa using h.1.1 [] rfl, ⟨⟨by simp, by simp, by simp, by simp⟩, by simp [Spec.InWindow]⟩⟩

/-- C22 is false for tag conditions without values: a filter that matches everything arrives as one that matches nothing. -/
theorem C22_nil_values_narrow (valid : Bytes → Bool) : ∃ f g : Filter, Writable f ∧ decodeFilter valid (encodeFilter f) = some g ∧ ∀ e, Spec.Matches f e ∧ ¬ Spec.Matches g e := by
  have hw : Writable { tags := some [(b! "e", none)] } := ⟨by simp [elems], by simp, by simp, by decide, by simp [tagEntries], by simp [tagEntries]⟩
  refine ⟨_, _, hw, C22_what_arrives valid hw, ?_⟩
  intro e
  refine ⟨⟨⟨by simp, by simp, by simp, by simp⟩, by simp [Spec.InWindow]⟩, fun h => ?_⟩
  obtain ⟨_, _, v, rest, _, hv⟩ := h.1.2.2.2 _ rfl (b! "e") [] (by simp [tagEntries, elems])
  cases hv

/-- C22 is false for odd tag names, which are written without escaping: the first filter cannot be read, the second arrives with another limit, and the condition of the third is lost. -/
theorem C22_tag_names (valid : Bytes → Bool) :
    decodeFilter valid (encodeFilter { tags := some [(b! "a\"b", some [b! "x"])] }) = none ∧
    decodeFilter valid (encodeFilter { tags := some [(b! "e\":[],\"limit\":5,\"#p", some [b! "x"])] }) = some { limit := 5, tags := some [(b! "e", some []), (b! "p", some [b! "x"])] } ∧
    decodeFilter (fun _ => true) (encodeFilter { tags := some [([], some [b! "x"])] }) = some { tags := some [] } :=
  ⟨rfl, rfl, by decide +kernel⟩

example : ∃ f : Filter, Writable f ∧ Plain f ∧ f.kinds = some [1, 30023] ∧ f.limitZero = true ∧ f.tags = some [(b! "e", some [b! "a\"", b! "b"]), (b! "p", some [])] := by
  refine ⟨{ kinds := some [1, 30023], limitZero := true, tags := some [(b! "e", some [b! "a\"", b! "b"]), (b! "p", some [])] },
    ⟨by decide, by simp, by simp, by decide, by decide +kernel, by decide +kernel⟩, ⟨by simp, by simp, by simp, by decide +kernel, by simp, by simp [elems], by simp [elems], .nil, ?_⟩, rfl, rfl, rfl⟩
  intro e he s hs
  have : ∀ e ∈ tagEntries (some [(b! "e", some [b! "a\"", b! "b"]), (b! "p", some [])]), ∀ s ∈ elems e.2, ∀ c ∈ s, c < 0x80 := by decide +kernel
  exact .ascii (this e he s hs)

end GoNostr.Json
