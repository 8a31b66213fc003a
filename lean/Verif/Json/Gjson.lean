import Verif.Json.Filter
/-!
# gjson

*library* Model of the part of `github.com/tidwall/gjson` (v1.18.0) the envelopes use: `Parse(data).Array()`, and `Raw`, `Str` and `IsObject` of the elements.
-/

set_option autoImplicit false

namespace GoNostr.Json

/-- `Result`: the text of the value, the unescaped string if it is one (else empty), and whether it is a JSON object. -/
structure GVal where
  raw : Bytes
  str : Bytes
  isObject : Bool
  deriving DecidableEq, Repr

/-- `squash` after its first character: the text up to the bracket that closes `depth` open ones. -/
def squash (depth : Nat) (inStr esc : Bool) : Bytes → Bytes
  | [] => []
  | c :: s =>
    if inStr then
      if esc then c :: squash depth true false s
      else if c = 92 then c :: squash depth true true s
      else if c = 34 then c :: squash depth false false s
      else c :: squash depth true false s
    else if c = 34 then c :: squash depth true false s
    else if c = 123 ∨ c = 91 ∨ c = 40 then c :: squash (depth + 1) false false s
    else if c = 125 ∨ c = 93 ∨ c = 41 then (if depth = 1 then [c] else c :: squash (depth - 1) false false s)
    else c :: squash depth false false s

/-- `tostr` after the quote. -/
def tostr (s : Bytes) : GVal := match scan false s with
  | some (body, _) => ⟨34 :: (body ++ [34]), if 92 ∈ body then gUnescape body.length body else body, false⟩
  | none => ⟨34 :: s, if 92 ∈ s then gUnescape s.length s else s, false⟩

/-- `tolit` after the first character. -/
def tolit (s : Bytes) : Bytes := s.takeWhile (fun c => 97 ≤ c && c ≤ 122)

/-- `tonum` after the first character. -/
def tonum (s : Bytes) : Bytes := s.takeWhile (fun c => !(c ≤ 32 || c == 44 || c == 93 || c == 125))

/-- The value starting at `c :: s`; `none` if no value starts there. -/
def gValue (c : UInt8) (s : Bytes) : Option GVal :=
  if c = 123 then some ⟨c :: squash 1 false false s, [], true⟩
  else if c = 91 then some ⟨c :: squash 1 false false s, [], false⟩
  else if c = 110 ∨ c = 116 ∨ c = 102 then some ⟨c :: tolit s, [], false⟩
  else if c = 34 then some (tostr s)
  else if (48 ≤ c ∧ c ≤ 57) ∨ c = 45 then some ⟨c :: tonum s, [], false⟩
  else none

/-- The loop of `arrayOrMap` over the elements. The first argument is how many characters of the last value are still to be passed over (`i += len(value.Raw) - 1`). -/
def gElems : Nat → Bytes → List GVal
  | _, [] => []
  | k + 1, _ :: s => gElems k s
  | 0, c :: s =>
    if c ≤ 32 then gElems 0 s
    else if c = 93 ∨ c = 125 then []
    else match gValue c s with
      | some v => v :: gElems (v.raw.length - 1) s
      | none => gElems 0 s

/-- `Parse(data).Array()`. For a text that is not an array the result has one element or none; every caller asks for at least two, so this is the empty list here. -/
def gArray (data : Bytes) : List GVal := match data.dropWhile (fun c => c ≤ 32) with
  | 91 :: s => gElems 0 s
  | _ => []

/-! ## Reading well-formed texts -/

/-- The text is passed over by `squash`, going from `d` to `d'` open brackets. -/
def Skips (t : Bytes) (d d' : Nat) : Prop := ∀ rest, squash d false false (t ++ rest) = t ++ squash d' false false rest

theorem Skips.append {t u : Bytes} {d d' d'' : Nat} (h1 : Skips t d d') (h2 : Skips u d' d'') : Skips (t ++ u) d d'' := by
  intro rest
  rw [List.append_assoc, h1, h2, List.append_assoc]

/-- *library* gjson: the opening brackets. -/
def isBracket (c : UInt8) : Bool := c == 34 || c == 123 || c == 91 || c == 40 || c == 125 || c == 93 || c == 41

theorem Skips.plain {t : Bytes} (h : ∀ c ∈ t, isBracket c = false) (d : Nat) : Skips t d d := by
  intro rest
  induction t with
  | nil => rfl
  | cons c t ih =>
    have hc := h c (by simp)
    simp only [isBracket, Bool.or_eq_false_iff, beq_eq_false_iff_ne] at hc
    obtain ⟨⟨⟨⟨⟨⟨h1, h2⟩, h3⟩, h4⟩, h5⟩, h6⟩, h7⟩ := hc
    rw [List.cons_append, squash]
    simp [h1, h2, h3, h4, h5, h6, h7, ih (fun x hx => h x (List.mem_cons_of_mem _ hx))]

theorem squash_str {b v : Bytes} (h : Esc b v) (d : Nat) (rest : Bytes) : squash d true false (b ++ 34 :: rest) = b ++ 34 :: squash d false false rest := by
  induction h with
  | nil => rw [List.nil_append, squash]; simp
  | raw h32 h34 h92 _ ih => rw [List.cons_append, squash]; simp [h34, h92, ih]
  | short he _ ih =>
    rw [List.cons_append, List.cons_append, squash]
    simp only [if_true, Bool.false_eq_true, if_false]
    rw [squash]
    simp [ih]
  | @u h1 h2 h3 h4 r b v hr _ _ ih =>
    have hs := u4_not_special hr
    obtain ⟨⟨a1, a2⟩, ⟨b1, b2⟩, ⟨c1, c2⟩, d1, d2⟩ := hs
    simp only [List.cons_append]
    rw [squash]
    simp only [if_true, Bool.false_eq_true, if_false]
    rw [squash]
    simp only [if_true]
    rw [squash, squash, squash, squash]
    simp [a1, a2, b1, b2, c1, c2, d1, d2, ih]

theorem Skips.str {b v : Bytes} (h : Esc b v) (d : Nat) : Skips (34 :: (b ++ [34])) d d := by
  intro rest
  have := squash_str h d rest
  rw [List.cons_append, squash]
  simp [this]

theorem Skips.open' {c : UInt8} (hc : c = 123 ∨ c = 91) (d : Nat) : Skips [c] d (d + 1) := by
  intro rest
  rw [List.singleton_append, squash]
  rcases hc with rfl | rfl <;> simp

theorem Skips.close' {c : UInt8} (hc : c = 125 ∨ c = 93) (d : Nat) : Skips [c] (d + 2) (d + 1) := by
  intro rest
  rw [List.singleton_append, squash]
  rcases hc with rfl | rfl <;> simp

theorem Ws.skips {w : Bytes} (h : Ws w) (d : Nat) : Skips w d d :=
  Skips.plain (fun c hc => by rcases h c hc with rfl | rfl | rfl | rfl <;> decide) d

theorem Sep.skips {p : Bytes} {sep : UInt8} (h : Sep p sep) (d : Nat) : Skips p d d := by
  rcases h with ⟨hw, _⟩ | ⟨u, v, hu, hv, rfl, hs⟩
  · exact hw.skips d
  · refine (hu.skips d).append ?_
    have : Skips [sep] d d := Skips.plain (by simp; rcases hs with rfl | rfl <;> decide) d
    exact this.append (hv.skips d)

theorem StrItems.skips {sep : UInt8} {t : Bytes} {l : List Bytes} (h : StrItems sep t l) (d : Nat) : Skips t (d + 2) (d + 1) := by
  induction h with
  | close hw => exact (hw.skips _).append (Skips.close' (.inr rfl) d)
  | item hs he _ ih =>
    have := (hs.skips (d + 2)).append ((Skips.str he (d + 2)).append ih)
    simpa using this

theorem TagItems.skips {sep : UInt8} {t : Bytes} {l : Tags} (h : TagItems sep t l) (d : Nat) : Skips t (d + 2) (d + 1) := by
  induction h with
  | close hw => exact (hw.skips _).append (Skips.close' (.inr rfl) d)
  | item hs hu _ ih =>
    have := (hs.skips (d + 2)).append ((Skips.open' (.inr rfl) (d + 2)).append ((hu.skips (d + 1)).append ih))
    simpa using this

theorem fmtInt_noBracket (i : Int) : ∀ c ∈ fmtInt i, isBracket c = false := by
  obtain ⟨c, s, h, hc, hs⟩ := fmtInt_shape i
  have key : ∀ c : UInt8, (48 ≤ c ∧ c ≤ 57) ∨ c = 45 → isBracket c = false := by decide +kernel
  rw [h]
  intro x hx
  rcases List.mem_cons.1 hx with rfl | hx
  · exact key _ hc
  · exact key _ (.inl (hs x hx))

theorem IntItems.skips {sep : UInt8} {t : Bytes} {l : List Int} (h : IntItems sep t l) (d : Nat) : Skips t (d + 2) (d + 1) := by
  induction h with
  | close hw => exact (hw.skips _).append (Skips.close' (.inr rfl) d)
  | item hs _ _ ih => exact (hs.skips (d + 2)).append ((Skips.plain (fmtInt_noBracket _) _).append ih)

theorem ValText.skips {t : Bytes} {v : FieldVal} (h : ValText t v) (d : Nat) : Skips t (d + 1) (d + 1) := by
  cases h with
  | str he => exact Skips.str he _
  | int => exact Skips.plain (fmtInt_noBracket _) _
  | tags ht => exact (Skips.open' (.inr rfl) (d + 1)).append (ht.skips d)
  | null => exact Skips.plain (by decide +kernel) _

theorem FValText.skips {t : Bytes} {v : FilterVal} (h : FValText t v) (d : Nat) : Skips t (d + 1) (d + 1) := by
  cases h with
  | str he => exact Skips.str he _
  | int => exact Skips.plain (fmtInt_noBracket _) _
  | strs ht => exact (Skips.open' (.inr rfl) (d + 1)).append (ht.skips d)
  | ints ht => exact (Skips.open' (.inr rfl) (d + 1)).append (ht.skips d)
  | null => exact Skips.plain (by decide +kernel) _

theorem squash_end {w : Bytes} (hw : Ws w) (rest : Bytes) : squash 1 false false (w ++ 125 :: rest) = w ++ [125] := by
  rw [hw.skips 1, squash]
  simp

/-- An object is cut out exactly, whatever follows. -/
theorem Members.squash {sep : UInt8} {t : Bytes} {l : List (Bytes × FieldVal)} (h : Members sep t l) (rest : Bytes) : Json.squash 1 false false (t ++ rest) = t := by
  induction h with
  | close hw => simpa using squash_end hw rest
  | @member sep pre key col val t v l hs hk hc hv _ ih =>
    have h1 := (hs.skips 1).append ((Skips.str hk 1).append ((hc.skips 1).append (hv.skips 0)))
    have h2 := h1 (t ++ rest)
    rw [ih] at h2
    simpa using h2

theorem FMembers.squash {sep : UInt8} {t : Bytes} {l : List (Bytes × FilterVal)} (h : FMembers sep t l) (rest : Bytes) : Json.squash 1 false false (t ++ rest) = t := by
  induction h with
  | close hw => simpa using squash_end hw rest
  | @member sep pre key k col val t v l hs hk hc hv _ ih =>
    have h1 := (hs.skips 1).append ((Skips.str hk 1).append ((hc.skips 1).append (hv.skips 0)))
    have h2 := h1 (t ++ rest)
    rw [ih] at h2
    simpa using h2

/-- The text of an element and how it is read. -/
inductive GText : Bytes → GVal → Prop
  | str {b v : Bytes} (h : Esc b v) : GText (34 :: (b ++ [34])) ⟨34 :: (b ++ [34]), v, false⟩
  | obj {body : Bytes} (h : ∀ rest, squash 1 false false (body ++ rest) = body) : GText (123 :: body) ⟨123 :: body, [], true⟩
  | bool (x : Bool) : GText (if x then b! "true" else b! "false") ⟨if x then b! "true" else b! "false", [], false⟩

/-- The rest of an array, with anything behind its closing bracket. -/
inductive GItems : UInt8 → Bytes → List GVal → Prop
  | close {sep : UInt8} {w rest : Bytes} (hw : Ws w) : GItems sep (w ++ 93 :: rest) []
  | item {sep : UInt8} {pre t u : Bytes} {v : GVal} {l : List GVal} (hs : Sep pre sep) (ht : GText t v) (h : GItems 44 u l) : GItems sep (pre ++ (t ++ u)) (v :: l)

theorem gElems_skip (t rest : Bytes) : gElems t.length (t ++ rest) = gElems 0 rest := by
  induction t with
  | nil => rfl
  | cons c t ih => exact ih

theorem gElems_ws {w : Bytes} (h : Ws w) (s : Bytes) : gElems 0 (w ++ s) = gElems 0 s := by
  induction w with
  | nil => rfl
  | cons c w ih =>
    rw [List.cons_append, gElems, if_pos (by rcases h c (by simp) with rfl | rfl | rfl | rfl <;> decide)]
    exact ih (fun x hx => h x (List.mem_cons_of_mem _ hx))

theorem gElems_sep {p : Bytes} {sep : UInt8} (h : Sep p sep) (s : Bytes) : gElems 0 (p ++ s) = gElems 0 s := by
  rcases h with ⟨hw, _⟩ | ⟨u, v, hu, hv, rfl, hs⟩
  · exact gElems_ws hw s
  · rw [List.append_assoc, gElems_ws hu, List.cons_append, gElems, if_neg (by rcases hs with rfl | rfl <;> decide), if_neg (by rcases hs with rfl | rfl <;> decide)]
    have : gValue sep (v ++ s) = none := by rcases hs with rfl | rfl <;> rfl
    rw [this]
    exact gElems_ws hv s

theorem esc_no_backslash {b v : Bytes} (h : Esc b v) (hb : 92 ∉ b) : b = v := by
  induction h with
  | nil => rfl
  | raw _ _ _ _ ih => rw [ih (fun hm => hb (List.mem_cons_of_mem _ hm))]
  | short => simp at hb
  | u => simp at hb

theorem tostr_esc {b v : Bytes} (h : Esc b v) (rest : Bytes) : tostr (b ++ 34 :: rest) = ⟨34 :: (b ++ [34]), v, false⟩ := by
  unfold tostr
  rw [scan_esc h]
  simp only
  split
  · rw [gUnescape_esc h _ (Nat.le_refl _)]
  · next hb => rw [← esc_no_backslash h hb]

theorem GItems.ends {sep : UInt8} {t : Bytes} {l : List GVal} (h : GItems sep t l) (hsep : sep = 44) : Ends t := by
  cases h with
  | close hw => exact ws_ends hw (by decide) _
  | item hs =>
    rcases hs with ⟨_, h0⟩ | ⟨u, v, hu, _, rfl, _⟩
    · rw [h0] at hsep; cases hsep
    · rw [List.append_assoc, List.cons_append, hsep]
      exact ws_ends hu (by decide) _

theorem gElems_value {c : UInt8} {s u : Bytes} {v : GVal} (h32 : ¬ c ≤ 32) (hc : ¬ (c = 93 ∨ c = 125)) (hv : gValue c (s ++ u) = some v) (hraw : v.raw = c :: s) :
    gElems 0 (c :: (s ++ u)) = v :: gElems 0 u := by
  rw [gElems, if_neg h32, if_neg hc, hv]
  simp only [hraw, List.length_cons, Nat.add_sub_cancel, gElems_skip]

theorem gElems_items {sep : UInt8} {t : Bytes} {l : List GVal} (h : GItems sep t l) : gElems 0 t = l := by
  induction h with
  | close hw => rw [gElems_ws hw, gElems]; simp
  | @item sep pre t u v l hs ht hu ih =>
    rw [gElems_sep hs]
    cases ht with
    | @str b v he =>
      have := gElems_value (c := 34) (s := b ++ [34]) (u := u) (v := ⟨34 :: (b ++ [34]), v, false⟩) (by decide) (by decide) (by simp [gValue, tostr_esc he]) rfl
      rw [List.cons_append, this, ih]
    | @obj body hb =>
      have := gElems_value (c := 123) (s := body) (u := u) (v := ⟨123 :: body, [], true⟩) (by decide) (by decide) (by simp [gValue, hb]) rfl
      rw [List.cons_append, this, ih]
    | bool x =>
      obtain ⟨d, r, rfl, hd⟩ := hu.ends rfl
      have key : ∀ d : UInt8, (decide (97 ≤ d) && decide (d ≤ 122)) = false ∨ isTokenEnd d = false := by decide +kernel
      have hd'' := (key d).resolve_right (by simp [hd])
      cases x with
      | true =>
        have := gElems_value (c := 116) (s := [114, 117, 101]) (u := d :: r) (v := ⟨b! "true", [], false⟩) (by decide) (by decide) (by simp [gValue, tolit, List.takeWhile, hd'']) rfl
        rw [← ih]
        exact this
      | false =>
        have := gElems_value (c := 102) (s := [97, 108, 115, 101]) (u := d :: r) (v := ⟨b! "false", [], false⟩) (by decide) (by decide) (by simp [gValue, tolit, List.takeWhile, hd'']) rfl
        rw [← ih]
        exact this

/-- An array is read element by element. -/
theorem gArray_items {w t : Bytes} {l : List GVal} (hw : Ws w) (h : GItems 0 t l) : gArray (w ++ 91 :: t) = l := by
  unfold gArray
  have : (w ++ 91 :: t).dropWhile (fun c => decide (c ≤ 32)) = 91 :: t := by
    induction w with
    | nil => rfl
    | cons c w ih =>
      rw [List.cons_append, List.dropWhile_cons, if_pos (by rcases hw c (by simp) with rfl | rfl | rfl | rfl <;> decide)]
      exact ih (fun x hx => hw x (List.mem_cons_of_mem _ hx))
  rw [this]
  exact gElems_items h

end GoNostr.Json
