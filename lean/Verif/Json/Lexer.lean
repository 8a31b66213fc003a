import Verif.Json.Text
/-!
# easyjson's lexer

*library* Model of `jlexer.Lexer` (easyjson v0.9.0) with the operations the decoders in event_easyjson.go and filter_easyjson.go call. Every error is fatal in Go: later calls do nothing
and the decoder returns the error; here an error ends the computation (`none`), and the half filled value is not modelled.
-/

set_option autoImplicit false

namespace GoNostr.Json

/-- *library* easyjson jlexer: the tokens. -/
inductive Tok where
  | undef
  | str (raw : Bytes)
  | num (raw : Bytes)
  | delim (c : UInt8)
  | null
  | bool (b : Bool)
  deriving DecidableEq, Repr

/-- The input not yet read, the token fetched and not consumed, the separator expected (0 for none), and whether the next element is the first of its object or array. -/
structure Lex where
  data : Bytes
  tok : Tok
  sep : UInt8
  first : Bool
  deriving DecidableEq, Repr

/-- `isTokenEnd`. -/
def isTokenEnd (c : UInt8) : Bool := [32, 9, 13, 10, 91, 93, 123, 125, 44, 58].contains c

/-- *library* jlexer: white space. -/
def isSpace (c : UInt8) : Bool := c == 32 || c == 9 || c == 13 || c == 10

/-- The loop of `fetchNumber`: the rest of the number and of the input. -/
def scanNum (hasE afterE hasDot : Bool) : Bytes → Option (Bytes × Bytes)
  | [] => some ([], [])
  | c :: s =>
    if 48 ≤ c && c ≤ 57 then (scanNum hasE false hasDot s).map (fun r => (c :: r.1, r.2))
    else if c == 46 && !hasDot then (scanNum hasE afterE true s).map (fun r => (c :: r.1, r.2))
    else if (c == 101 || c == 69) && !hasE then (scanNum true true true s).map (fun r => (c :: r.1, r.2))
    else if (c == 43 || c == 45) && afterE then (scanNum hasE false hasDot s).map (fun r => (c :: r.1, r.2))
    else if isTokenEnd c then some ([], c :: s) else none

/-- `fetchNull`, `fetchTrue`, `fetchFalse`: the input after the word. -/
def scanWord (w s : Bytes) : Option Bytes :=
  if w.isPrefixOf s then
    match s.drop w.length with
    | [] => some []
    | c :: rest => if isTokenEnd c then some (c :: rest) else none
  else none

/-- `FetchToken`. -/
def fetchToken (first : Bool) : UInt8 → Bytes → Option Lex
  | _, [] => none
  | sep, c :: s =>
    if c = 58 ∨ c = 44 then (if sep = c then fetchToken first 0 s else none)
    else if isSpace c then fetchToken first sep s
    else if c = 34 then (if sep ≠ 0 then none else (scan false s).map (fun r => ⟨r.2, .str r.1, sep, first⟩))
    else if c = 123 ∨ c = 91 then (if sep ≠ 0 then none else some ⟨s, .delim c, sep, true⟩)
    else if c = 125 ∨ c = 93 then (if first = false ∧ sep ≠ 44 then none else some ⟨s, .delim c, 0, first⟩)
    else if (48 ≤ c ∧ c ≤ 57) ∨ c = 45 then (if sep ≠ 0 then none else (scanNum false false false s).map (fun r => ⟨r.2, .num (c :: r.1), sep, first⟩))
    else if c = 110 then (if sep ≠ 0 then none else (scanWord (b! "null") (c :: s)).map (fun r => ⟨r, .null, sep, first⟩))
    else if c = 116 then (if sep ≠ 0 then none else (scanWord (b! "true") (c :: s)).map (fun r => ⟨r, .bool true, sep, first⟩))
    else if c = 102 then (if sep ≠ 0 then none else (scanWord (b! "false") (c :: s)).map (fun r => ⟨r, .bool false, sep, first⟩))
    else none

/-- `if r.token.kind == TokenUndef && r.Ok() { r.FetchToken() }` -/
def Lex.fetch (r : Lex) : Option Lex :=
  match r.tok with
  | .undef => fetchToken r.first r.sep r.data
  | _ => some r

/-- *library* jlexer `consume`. -/
def Lex.consume (r : Lex) : Lex := { r with tok := .undef }

/-- `IsNull`, `IsDelim`, with the state after the fetch. -/
def Lex.isNull (r : Lex) : Option (Bool × Lex) := r.fetch.map (fun r => (r.tok == .null, r))
/-- *library* jlexer `IsDelim`. -/
def Lex.isDelim (c : UInt8) (r : Lex) : Option (Bool × Lex) := r.fetch.map (fun r => (r.tok == .delim c, r))

/-- `Skip`. -/
def Lex.skip (r : Lex) : Option Lex := r.fetch.map Lex.consume

/-- `Delim`. -/
def Lex.delim (c : UInt8) (r : Lex) : Option Lex := r.fetch.bind (fun r => if r.tok = .delim c then some r.consume else none)

/-- *library* jlexer `WantColon`. -/
def Lex.wantColon (r : Lex) : Lex := { r with sep := 58, first := false }
/-- *library* jlexer `WantComma`. -/
def Lex.wantComma (r : Lex) : Lex := { r with sep := 44, first := false }

/-- `String`. -/
def Lex.string (r : Lex) : Option (Bytes × Lex) := r.fetch.bind (fun r => match r.tok with
  | .str raw => (unescape raw.length raw).map (fun s => (s, r.consume))
  | _ => none)

/-- `UnsafeFieldName`. -/
def Lex.fieldName (skipUnescape : Bool) (r : Lex) : Option (Bytes × Lex) := r.fetch.bind (fun r => match r.tok with
  | .str raw => if skipUnescape then some (raw, r.consume) else (unescape raw.length raw).map (fun s => (s, r.consume))
  | _ => none)

/-- `Int64`, and `Int` on 64-bit machines. -/
def Lex.int (r : Lex) : Option (Int × Lex) := r.fetch.bind (fun r => match r.tok with
  | .num raw => match parseInt64 raw with
    | .ok i => some (i, r.consume)
    | _ => none
  | _ => none)

/-- `Consumed`. -/
def Lex.consumed (r : Lex) : Option Lex := if r.data.all isSpace then some r else none

/-- A lexer at the start of its input. -/
def Lex.start (data : Bytes) : Lex := ⟨data, .undef, 0, false⟩

/-! ## Reading what was written -/

/-- Insignificant white space (RFC 8259). -/
def Ws (s : Bytes) : Prop := ∀ c ∈ s, c = 32 ∨ c = 9 ∨ c = 13 ∨ c = 10

/-- What may stand between two tokens: white space, with the comma or colon if one is due. -/
def Sep (pre : Bytes) (sep : UInt8) : Prop := (Ws pre ∧ sep = 0) ∨ (∃ u v, Ws u ∧ Ws v ∧ pre = u ++ sep :: v ∧ (sep = 44 ∨ sep = 58))

theorem Ws.nil : Ws [] := by simp [Ws]

theorem sep_colon : Sep [58] 58 := .inr ⟨[], [], .nil, .nil, rfl, .inr rfl⟩
theorem sep_comma : Sep [44] 44 := .inr ⟨[], [], .nil, .nil, rfl, .inl rfl⟩
theorem sep_none : Sep [] 0 := .inl ⟨.nil, rfl⟩

theorem isSpace_iff {c : UInt8} : isSpace c = true ↔ c = 32 ∨ c = 9 ∨ c = 13 ∨ c = 10 := by
  simp [isSpace, or_assoc]

theorem fetchToken_ws {w : Bytes} (h : Ws w) {first : Bool} {sep : UInt8} {s : Bytes} : fetchToken first sep (w ++ s) = fetchToken first sep s := by
  induction w with
  | nil => rfl
  | cons c w ih =>
    have hc := h c (by simp)
    rw [List.cons_append, fetchToken, if_neg (by rcases hc with rfl | rfl | rfl | rfl <;> decide), if_pos (isSpace_iff.2 hc)]
    exact ih (fun x hx => h x (List.mem_cons_of_mem _ hx))

theorem fetchToken_sep {pre : Bytes} {sep : UInt8} (h : Sep pre sep) {first : Bool} {s : Bytes} : fetchToken first sep (pre ++ s) = fetchToken first 0 s := by
  rcases h with ⟨hw, rfl⟩ | ⟨u, v, hu, hv, rfl, hs⟩
  · exact fetchToken_ws hw
  · rw [List.append_assoc, fetchToken_ws hu, List.cons_append, fetchToken, if_pos (by rcases hs with rfl | rfl <;> simp), if_pos rfl, fetchToken_ws hv]

theorem fetch_str {pre : Bytes} {sep : UInt8} (h : Sep pre sep) {first : Bool} {b v : Bytes} (he : Esc b v) (rest : Bytes) :
    (⟨pre ++ 34 :: (b ++ 34 :: rest), .undef, sep, first⟩ : Lex).fetch = some ⟨rest, .str b, 0, first⟩ := by
  unfold Lex.fetch
  simp only
  rw [fetchToken_sep h, fetchToken]
  simp [isSpace, scan_esc he]

theorem fetch_open {pre : Bytes} {sep : UInt8} (h : Sep pre sep) {first : Bool} {c : UInt8} (hc : c = 123 ∨ c = 91) (rest : Bytes) :
    (⟨pre ++ c :: rest, .undef, sep, first⟩ : Lex).fetch = some ⟨rest, .delim c, 0, true⟩ := by
  unfold Lex.fetch
  simp only
  rw [fetchToken_sep h, fetchToken]
  rcases hc with rfl | rfl <;> simp [isSpace]

/-- The end of an object or array: right at its start, or after an element. -/
theorem fetch_close {w : Bytes} (hw : Ws w) {sep : UInt8} {first : Bool} (h : first = true ∨ sep = 44) {c : UInt8} (hc : c = 125 ∨ c = 93) (rest : Bytes) :
    (⟨w ++ c :: rest, .undef, sep, first⟩ : Lex).fetch = some ⟨rest, .delim c, 0, first⟩ := by
  unfold Lex.fetch
  simp only
  rw [fetchToken_ws hw, fetchToken]
  rcases hc with rfl | rfl <;> rcases h with rfl | rfl <;> simp [isSpace]

/-- What may follow a number: a separator, a closing bracket or brace, or white space. -/
def Ends (rest : Bytes) : Prop := ∃ d r, rest = d :: r ∧ isTokenEnd d = true

theorem scanNum_digits {s : Bytes} (hs : ∀ c ∈ s, IsDigitByte c) {a b c : Bool} {rest : Bytes} (hr : Ends rest) : scanNum a b c (s ++ rest) = some (s, rest) := by
  induction s generalizing b with
  | nil =>
    obtain ⟨d, r, rfl, hd⟩ := hr
    rw [List.nil_append, scanNum]
    simp only [isTokenEnd, List.contains_eq_mem, List.mem_cons, List.not_mem_nil, or_false, decide_eq_true_eq] at hd
    rcases hd with rfl | rfl | rfl | rfl | rfl | rfl | rfl | rfl | rfl | rfl <;> simp [isTokenEnd]
  | cons x s ih =>
    have hx := hs x (by simp)
    rw [List.cons_append, scanNum, if_pos (by simpa [IsDigitByte] using hx), ih (fun y hy => hs y (List.mem_cons_of_mem _ hy))]
    rfl

theorem fmtInt_shape (i : Int) : ∃ c s, fmtInt i = c :: s ∧ ((48 ≤ c ∧ c ≤ 57) ∨ c = 45) ∧ ∀ x ∈ s, IsDigitByte x := by
  unfold fmtInt
  split
  · exact ⟨45, _, rfl, .inr rfl, fmtNat_digits _⟩
  · cases h : fmtNat i.natAbs with
    | nil => exact absurd h (fmtNat_ne_nil _)
    | cons c s =>
      have hd := fmtNat_digits i.natAbs
      rw [h] at hd
      exact ⟨c, s, rfl, .inl (hd c (by simp)), fun x hx => hd x (List.mem_cons_of_mem _ hx)⟩

theorem fetch_num {pre : Bytes} {sep : UInt8} (h : Sep pre sep) {first : Bool} (i : Int) {rest : Bytes} (hr : Ends rest) :
    (⟨pre ++ (fmtInt i ++ rest), .undef, sep, first⟩ : Lex).fetch = some ⟨rest, .num (fmtInt i), 0, first⟩ := by
  obtain ⟨c, s, hcs, hc, hs⟩ := fmtInt_shape i
  unfold Lex.fetch
  simp only
  rw [hcs, List.cons_append, fetchToken_sep h, fetchToken]
  have n1 : ¬ (c = 58 ∨ c = 44) := by rcases hc with hc | rfl; · rintro (rfl | rfl) <;> revert hc <;> decide
                                      · decide
  have n2 : ¬ isSpace c = true := by
    rcases hc with hc | rfl
    · intro hh
      simp only [isSpace, Bool.or_eq_true, beq_iff_eq] at hh
      rcases hh with ((rfl | rfl) | rfl) | rfl <;> revert hc <;> decide
    · decide
  have n3 : c ≠ 34 ∧ c ≠ 123 ∧ c ≠ 91 ∧ c ≠ 125 ∧ c ≠ 93 := by
    refine ⟨?_, ?_, ?_, ?_, ?_⟩ <;> · rintro rfl; revert hc; decide
  rw [if_neg n1, if_neg n2, if_neg n3.1, if_neg (by simp [n3]), if_neg (by simp [n3]), if_pos hc, scanNum_digits hs hr]
  simp

theorem fetch_null {pre : Bytes} {sep : UInt8} (h : Sep pre sep) {first : Bool} {rest : Bytes} (hr : Ends rest) :
    (⟨pre ++ (b! "null" ++ rest), .undef, sep, first⟩ : Lex).fetch = some ⟨rest, .null, 0, first⟩ := by
  obtain ⟨d, r, rfl, hd⟩ := hr
  unfold Lex.fetch
  simp only
  have hw : scanWord (b! "null") (b! "null" ++ d :: r) = some (d :: r) := by
    unfold scanWord
    rw [if_pos (List.isPrefixOf_iff_prefix.2 (List.prefix_append _ _)), List.drop_left]
    simp [hd]
  rw [fetchToken_sep h]
  rw [List.cons_append, fetchToken]
  rw [List.cons_append] at hw
  simp [isSpace]
  exact hw

end GoNostr.Json
