import Verif.Json.Preparse
/-!
# C119: protected events (nip70)

`HasEmbeddedProtected` looks for the protection mark in the text of an embedded event without parsing it. Here this is compared with the event.
-/

set_option autoImplicit false

namespace GoNostr.Nip70

open GoNostr.Json

/-- `IsProtected` (nip70/nip70.go:9-16). -/
def isProtected (e : Event) : Bool := e.tags.any (fun t => match t with | [k] => k == b! "-" | _ => false)

/-- `HasEmbeddedProtected` (nip70/nip70.go:18-29). -/
def hasEmbeddedProtected (e : Event) : Bool :=
  if e.kind = 6 ∨ e.kind = 16 then
    let tidx := indexOf (b! "\"tags\":[") e.content
    let eidx := indexOf (b! "]]") e.content
    let pidx := indexOf (b! "[\"-\"]") e.content
    if tidx ≠ -1 ∧ eidx ≠ -1 ∧ pidx ≠ -1 then decide (pidx > tidx ∧ pidx < eidx) else false
  else false

/-! ## Where the mark is and is not -/

theorem mark_body {b v : Bytes} (h : Esc b v) {c : UInt8} (hc : c ≠ 45) (rest : Bytes) : NoOcc (b! "[\"-\"]") b (34 :: c :: rest) := by
  induction h with
  | nil => exact .nil _ _
  | @raw x b v h32 h34 h92 hb ih =>
    refine .cons ?_ ih
    cases hb with
    | nil => simp [List.isPrefixOf, Ne.symm hc]
    | raw _ h34' => simp [List.isPrefixOf, Ne.symm h34']
    | short => simp [List.isPrefixOf]
    | u => simp [List.isPrefixOf]
  | @short e x b v he _ ih =>
    have key : ∀ e c : UInt8, shortEscape e = some c → e ≠ 91 := by
      intro e c h
      rintro rfl
      simp [shortEscape] at h
    exact .cons (by simp [List.isPrefixOf]) (.cons (by simp [List.isPrefixOf, Ne.symm (key e x he)]) ih)
  | @u h1 h2 h3 h4 r b v hr _ _ ih =>
    have hn : ∀ (c : UInt8) (n : Nat), hexNibble c = some n → c ≠ 91 := by
      intro c n h
      rintro rfl
      revert h
      unfold hexNibble
      simp
    have : h1 ≠ 91 ∧ h2 ≠ 91 ∧ h3 ≠ 91 ∧ h4 ≠ 91 := by
      unfold u4 at hr
      split at hr
      · next a b c d ha hb hc hd => exact ⟨hn _ _ ha, hn _ _ hb, hn _ _ hc, hn _ _ hd⟩
      · cases hr
    obtain ⟨a1, a2, a3, a4⟩ := this
    exact .cons (by simp [List.isPrefixOf]) (.cons (by simp [List.isPrefixOf]) (.cons (by simp [List.isPrefixOf, Ne.symm a1]) (.cons (by simp [List.isPrefixOf, Ne.symm a2]) (.cons (by simp [List.isPrefixOf, Ne.symm a3])
      (.cons (by simp [List.isPrefixOf, Ne.symm a4]) ih)))))

theorem mark_string (s : Bytes) {c : UInt8} (hc : c ≠ 45) (rest : Bytes) : NoOcc (b! "[\"-\"]") (wString s) (c :: rest) := by
  have e : wString s = [34] ++ (wBody s.length s ++ [34]) := by simp [wString]
  rw [e]
  exact .append (.free (by decide) _) (.append (mark_body (wString_esc s) hc rest) (.free (by decide) _))

theorem mark_more (l : List Bytes) {c : UInt8} (hc : c ≠ 45) (rest : Bytes) : NoOcc (b! "[\"-\"]") ((l.map wString).flatMap (fun y => 44 :: y)) (c :: rest) := by
  induction l with
  | nil => exact .nil _ _
  | cons s l ih =>
    have e : (((s :: l).map wString).flatMap (fun y => 44 :: y)) = [44] ++ (wString s ++ (l.map wString).flatMap (fun y => 44 :: y)) := by simp
    rw [e]
    refine .append (.free (by decide) _) (.append ?_ ih)
    cases l with
    | nil => exact mark_string s hc rest
    | cons s' l => simpa using mark_string s (c := 44) (by decide) _

/-- A tag that is not the mark does not look like it. -/
theorem mark_tag {t : Tag} (hu : ∀ s ∈ t, Utf8 s) (ht : t ≠ [b! "-"]) (rest : Bytes) : NoOcc (b! "[\"-\"]") (wStrings t) rest := by
  cases t with
  | nil => exact .clash (by decide +kernel) _
  | cons n l =>
    have e : wStrings (n :: l) = 91 :: (wString n ++ ((l.map wString).flatMap (fun y => 44 :: y) ++ [93])) := by simp [wStrings, commas]
    rw [e]
    refine .cons ?_ (.append ?_ (.append (mark_more l (by decide) _) (.free (by decide) _)))
    · have hb := wBody_utf8 (hu n (by simp))
      have hw : wString n = 34 :: (wBody n.length n ++ [34]) := by simp [wString]
      by_cases hn : wBody n.length n = [45]
      · rw [hn] at hb
        have := esc_no_backslash hb (by decide)
        subst this
        cases l with
        | nil => exact absurd rfl ht
        | cons s' l =>
          rw [hw, hn]
          simp [List.isPrefixOf]
      · rw [hw]
        cases hbody : wBody n.length n with
        | nil => simp [List.isPrefixOf]
        | cons x b =>
          rw [hbody] at hb hn
          by_cases hx : x = 45
          · subst hx
            cases hb with
            | raw _ _ _ hb' =>
              cases hb' with
              | nil => exact absurd rfl hn
              | raw _ h34 => simp [List.isPrefixOf, Ne.symm h34]
              | short => simp [List.isPrefixOf]
              | u => simp [List.isPrefixOf]
          · simp [List.isPrefixOf, Ne.symm hx]
    · cases l with
      | nil => exact mark_string n (c := 93) (by decide) _
      | cons s' l => simpa using mark_string n (c := 44) (by decide) _

theorem mark_tags (l : Tags) (hu : ∀ t ∈ l, ∀ s ∈ t, Utf8 s) (hl : [b! "-"] ∉ l) (rest : Bytes) : NoOcc (b! "[\"-\"]") (l.flatMap (fun t => wStrings t ++ [44])) rest := by
  induction l with
  | nil => exact .nil _ _
  | cons t l ih =>
    rw [List.flatMap_cons]
    exact .append (.append (mark_tag (hu t (by simp)) (fun h => hl (by simp [h])) _) (.free (by decide) _)) (ih (fun t ht => hu t (List.mem_cons_of_mem _ ht)) (fun hm => hl (List.mem_cons_of_mem _ hm)))

/-! ## Where two closing brackets are -/

theorem infix_skip {a b : Bytes} (ha : 93 ∉ a) (h : [93, 93] <:+: a ++ b) : [93, 93] <:+: b := by
  induction a with
  | nil => simpa using h
  | cons c a ih =>
    rw [List.cons_append, List.infix_cons_iff] at h
    rcases h with h | h
    · obtain ⟨t, ht⟩ := h
      simp only [List.cons_append, List.cons.injEq] at ht
      exact absurd ht.1 (fun h => ha (by simp [← h]))
    · exact ih (fun hm => ha (List.mem_cons_of_mem _ hm)) h

theorem high_no_bracket {a : Bytes} (h : ∀ x ∈ a, 0x80 ≤ x) : 93 ∉ a := fun hm => absurd (h 93 hm) (by decide)

theorem brackets_kept : ∀ (n : Nat) (s : Bytes), s.length ≤ n → [93, 93] <:+: s → [93, 93] <:+: wBody n s
  | _, [], _, h => by simp at h
  | 0, _ :: _, h, _ => by simp at h
  | n + 1, c :: s, hn, h => by
    have hn' : s.length ≤ n := by simpa using hn
    unfold wBody
    by_cases hc : c < 0x80
    · rw [if_pos hc]
      rcases List.infix_cons_iff.1 h with h | h
      · obtain ⟨t, ht⟩ := h
        simp only [List.cons_append, List.nil_append, List.cons.injEq] at ht
        obtain ⟨rfl, rfl⟩ := ht
        cases n with
        | zero => simp at hn'
        | succ n =>
          refine ⟨[], wBody n t, ?_⟩
          simp [wBody, wByte]
      · exact (brackets_kept n s hn' h).trans (List.suffix_append _ _).isInfix
    · rw [if_neg hc]
      have hs : [93, 93] <:+: s := by
        have : [93, 93] <:+: [c] ++ s := h
        refine infix_skip ?_ this
        simp only [List.mem_singleton]
        rintro rfl
        exact hc (by decide)
      cases hw : runeWidth (c :: s) with
      | none => exact (brackets_kept n s hn' hs).trans (List.suffix_append _ _).isInfix
      | some w =>
        obtain ⟨h1, h2, h3⟩ := runeWidth_high rfl hc hw
        have hd : [93, 93] <:+: (c :: s).drop w := by
          refine infix_skip (high_no_bracket h3) ?_
          rw [List.take_append_drop]
          exact h
        have := brackets_kept n ((c :: s).drop w) (by simp; omega) hd
        simp only
        split
        · exact this.trans (List.suffix_append _ _).isInfix
        · split
          · exact this.trans (List.suffix_append _ _).isInfix
          · exact this.trans (List.suffix_append _ _).isInfix

theorem wBody_head {n : Nat} {s : Bytes} (h : (wBody n s).head? = some 93) : s.head? = some 93 := by
  cases n with
  | zero => simp [wBody] at h
  | succ n =>
    cases s with
    | nil => simp [wBody] at h
    | cons c s =>
      unfold wBody at h
      by_cases hc : c < 0x80
      · rw [if_pos hc] at h
        have key : ∀ c : UInt8, (wByte c).head? = some 93 → c = 93 := by decide +kernel
        have hne : ∀ c : UInt8, wByte c ≠ [] := by decide +kernel
        rw [List.head?_append_of_ne_nil _ (hne c)] at h
        simp [key c h]
      · rw [if_neg hc] at h
        cases hw : runeWidth (c :: s) with
        | none => rw [hw] at h; simp at h
        | some w =>
          rw [hw] at h
          obtain ⟨h1, h2, h3⟩ := runeWidth_high rfl hc hw
          simp only at h
          split at h
          · simp at h
          · split at h
            · simp at h
            · cases w with
              | zero => omega
              | succ w =>
                simp only [List.take_succ_cons, List.cons_append, List.head?_cons, Option.some.injEq] at h
                exact absurd (h ▸ hc) (by decide)

theorem brackets_none : ∀ (n : Nat) (s : Bytes), ¬ [93, 93] <:+: s → ∀ rest, NoOcc [93, 93] (wBody n s) (34 :: rest)
  | 0, s, _, rest => by simp only [wBody]; exact .nil _ _
  | n + 1, [], _, rest => by simp only [wBody]; exact .nil _ _
  | n + 1, c :: s, h, rest => by
    have hs : ¬ [93, 93] <:+: s := fun h' => h (List.infix_cons_iff.2 (.inr h'))
    have ih := brackets_none n s hs rest
    unfold wBody
    by_cases hc : c < 0x80
    · rw [if_pos hc]
      by_cases h93 : c = 93
      · subst h93
        have : wByte 93 = [93] := by decide
        rw [this]
        refine .append (.cons ?_ (.nil _ _)) ih
        have hh : (wBody n s).head? ≠ some 93 := by
          intro hh
          have := wBody_head hh
          cases s with
          | nil => simp at this
          | cons x s =>
            simp only [List.head?_cons, Option.some.injEq] at this
            subst this
            exact h ⟨[], s, rfl⟩
        cases hb : wBody n s with
        | nil => simp [List.isPrefixOf]
        | cons x b =>
          rw [hb] at hh
          simp only [List.head?_cons, ne_eq, Option.some.injEq] at hh
          simp [List.isPrefixOf, Ne.symm hh]
      · have key : ∀ c : UInt8, c ≠ 93 → 93 ∉ wByte c := by decide +kernel
        exact .append (.free (key c h93) _) ih
    · rw [if_neg hc]
      cases hw : runeWidth (c :: s) with
      | none => exact .append (.free (by decide) _) ih
      | some w =>
        obtain ⟨h1, h2, h3⟩ := runeWidth_high rfl hc hw
        have hd : ¬ [93, 93] <:+: (c :: s).drop w := fun h' => h (h'.trans (List.drop_suffix _ _).isInfix)
        have ih' := brackets_none n _ hd rest
        simp only
        split
        · exact .append (.free (by decide) _) ih'
        · split
          · exact .append (.free (by decide) _) ih'
          · exact .append (.free (high_no_bracket h3) _) ih'

theorem brackets_string {s : Bytes} (h : ¬ [93, 93] <:+: s) (rest : Bytes) : NoOcc [93, 93] (wString s) rest := by
  have e : wString s = [34] ++ (wBody s.length s ++ [34]) := by simp [wString]
  rw [e]
  exact .append (.free (by decide) _) (.append (brackets_none _ _ h _) (.free (by decide) _))

/-- A tag without such a value, followed by a comma. -/
theorem brackets_tag {t : Tag} (h : ∀ s ∈ t, ¬ [93, 93] <:+: s) (rest : Bytes) : NoOcc [93, 93] (wStrings t) (44 :: rest) := by
  have hmore : ∀ (l : List Bytes), (∀ s ∈ l, ¬ [93, 93] <:+: s) → ∀ r, NoOcc [93, 93] ((l.map wString).flatMap (fun y => 44 :: y)) r := by
    intro l
    induction l with
    | nil => intro _ r; exact .nil _ _
    | cons s l ih =>
      intro hl r
      have e : (((s :: l).map wString).flatMap (fun y => 44 :: y)) = [44] ++ (wString s ++ (l.map wString).flatMap (fun y => 44 :: y)) := by simp
      rw [e]
      exact .append (.free (by decide) _) (.append (brackets_string (hl s (by simp)) _) (ih (fun x hx => hl x (by simp [hx])) _))
  cases t with
  | nil => exact .append (a := [91]) (b := [93]) (.free (by decide) _) (.cons (by simp [List.isPrefixOf]) (.nil _ _))
  | cons n l =>
    have e : wStrings (n :: l) = [91] ++ (wString n ++ ((l.map wString).flatMap (fun y => 44 :: y) ++ [93])) := by simp [wStrings, commas]
    rw [e]
    exact .append (.free (by decide) _) (.append (brackets_string (h n (by simp)) _) (.append (hmore l (fun x hx => h x (by simp [hx])) _) (.cons (by simp [List.isPrefixOf]) (.nil _ _))))

theorem brackets_tags (l : Tags) (h : ∀ t ∈ l, ∀ s ∈ t, ¬ [93, 93] <:+: s) (rest : Bytes) : NoOcc [93, 93] (l.flatMap (fun t => wStrings t ++ [44])) rest := by
  induction l with
  | nil => exact .nil _ _
  | cons t l ih =>
    rw [List.flatMap_cons]
    exact .append (.append (brackets_tag (h t (by simp)) _) (.free (by decide) _)) (ih (fun t ht => h t (List.mem_cons_of_mem _ ht)))

theorem infix_tags {l : Tags} {t : Tag} {s : Bytes} (ht : t ∈ l) (hs : s ∈ t) (h : [93, 93] <:+: s) : [93, 93] <:+: l.flatMap (fun t => wStrings t ++ [44]) := by
  have h1 : [93, 93] <:+: wString s := by
    have := brackets_kept s.length s (Nat.le_refl _) h
    exact this.trans ⟨[34], [34], rfl⟩
  have h2 : [93, 93] <:+: wStrings t := by
    obtain ⟨a, b, rfl⟩ := List.append_of_mem hs
    have : wStrings (a ++ s :: b) = [91] ++ (a.map wString).flatMap (fun x => x ++ [44]) ++ wString s ++ ((b.map wString).flatMap (fun y => 44 :: y) ++ [93]) := by
      rw [wStrings, List.map_append, List.map_cons, commas_split]
      simp [commas]
    rw [this]
    exact h1.trans ⟨_, _, rfl⟩
  obtain ⟨a, b, rfl⟩ := List.append_of_mem ht
  rw [List.flatMap_append, List.flatMap_cons]
  exact h2.trans ⟨a.flatMap (fun t => wStrings t ++ [44]), [44] ++ b.flatMap (fun t => wStrings t ++ [44]), by simp⟩

theorem occurs_of_infix {p a : Bytes} (rest : Bytes) (h : p <:+: a) (hp : 0 < p.length) : ∃ j < a.length, OccursAt p (a ++ rest) j := by
  obtain ⟨x, y, rfl⟩ := h
  refine ⟨x.length, by simp; omega, ?_⟩
  exact ⟨x, y ++ rest, by simp, rfl⟩

/-! ## C119 -/

/-- **C119.** `IsProtected` is true exactly for events with the tag `["-"]`. -/
theorem C119_is_protected (e : Event) : isProtected e = true ↔ [b! "-"] ∈ e.tags := by
  unfold isProtected
  rw [List.any_eq_true]
  constructor
  · rintro ⟨t, ht, h⟩
    split at h
    · rw [beq_iff_eq] at h; subst h; exact ht
    · cases h
  · intro h
    exact ⟨_, h, by decide⟩

/-- **C119.** Only reposts embed events. -/
theorem C119_other_kinds (e : Event) (h : e.kind ≠ 6 ∧ e.kind ≠ 16) : hasEmbeddedProtected e = false := by
  unfold hasEmbeddedProtected
  rw [if_neg (by rintro (h' | h') <;> simp [h'] at h)]

/-- What the encoder writes before and after the tags. -/
def headOf (e : Event) : Bytes := b! "{\"kind\":" ++ (fmtInt e.kind ++ (b! ",\"id\":\"" ++ (e.id ++ (b! "\",\"pubkey\":\"" ++ (e.pubkey ++ (b! "\",\"created_at\":" ++ (fmtInt e.createdAt ++ [44])))))))
/-- A value of the examples. -/
def endOf (e : Event) : Bytes := b! ",\"content\":" ++ (wString e.content ++ (wOpt (b! "sig") e.sig ++ [125]))

theorem text_eq {e : Event} (hi : Hex64 e.id) (hp : Hex64 e.pubkey) : encodeEvent e = headOf e ++ (b! "\"tags\":[" ++ (commas (e.tags.map wStrings) ++ ([93] ++ endOf e))) := by
  simp only [encodeEvent, hi.written, hp.written, rawQuoted, headOf, endOf, wTags, List.append_assoc, List.cons_append, List.nil_append]

theorem head_free {e : Event} (hi : Hex64 e.id) (hp : Hex64 e.pubkey) {p : UInt8} (hp' : p = 91 ∨ p = 93) : p ∉ headOf e := by
  have hex : ∀ {s : Bytes}, Hex64 s → p ∉ s := by
    intro s hs hm
    have := hs.2 p hm
    revert this
    unfold IsLowerHexByte
    rcases hp' with rfl | rfl <;> decide
  have hf : ∀ i, p ∉ fmtInt i := fun i => fmtInt_free i (by rcases hp' with rfl | rfl <;> decide)
  unfold headOf
  simp only [List.mem_append, not_or]
  refine ⟨?_, hf _, ?_, hex hi, ?_, hex hp, ?_, hf _, ?_⟩ <;> rcases hp' with rfl | rfl <;> decide +kernel

theorem mark_end (e : Event) : ∀ r, NoOcc (b! "[\"-\"]") ([93] ++ endOf e) r := by
  intro r
  unfold endOf
  refine .append (.free (by decide) _) (.append (.free (by decide +kernel) _) (.append ?_ (.append ?_ (.free (by decide +kernel) _))))
  · by_cases hs : e.sig = []
    · simpa [wOpt, hs] using mark_string e.content (c := 125) (by decide) r
    · simpa [wOpt, hs] using mark_string e.content (c := 44) (by decide) _
  · by_cases hs : e.sig = []
    · simp only [wOpt, if_pos hs]; exact .nil _ _
    · simp only [wOpt, if_neg hs]
      exact .append (.free (by decide +kernel) _) (mark_string e.sig (c := 125) (by decide) _)

/-- Without the mark among the tags it is nowhere in the text. -/
theorem no_mark {e : Event} (hi : Hex64 e.id) (hp : Hex64 e.pubkey) (hu : EventUtf8 e) (hn : [b! "-"] ∉ e.tags) : indexOf (b! "[\"-\"]") (encodeEvent e) = -1 := by
  have hut : ∀ t ∈ e.tags, ∀ s ∈ t, Utf8 s := hu.2.2.2.2
  rw [text_eq hi hp]
  refine NoOcc.none (by decide) (.append (.free (head_free hi hp (.inl rfl)) _) ?_)
  have e0 : b! "\"tags\":[" = b! "\"tags\":" ++ [91] := rfl
  rw [e0, List.append_assoc]
  refine .append (.free (by decide +kernel) _) ?_
  rcases List.eq_nil_or_concat e.tags with h0 | ⟨init, last, h0⟩
  · rw [h0]
    exact .append (.cons (by simp [List.isPrefixOf, commas]) (.nil _ _)) (mark_end e _)
  · rw [List.concat_eq_append] at h0
    rw [h0, List.map_append, List.map_singleton, commas_split]
    refine .append (.cons ?_ (.nil _ _)) (.append (.append ?_ ?_) (mark_end e _))
    · cases init with
      | nil => simp [List.isPrefixOf, wStrings, commas]
      | cons t pre => simp [List.isPrefixOf, wStrings]
    · rw [List.flatMap_map]
      exact mark_tags init (fun t hm => hut t (by simp [h0, hm])) (fun hm => hn (by simp [h0, hm])) _
    · have : commas [wStrings last] = wStrings last := by simp [commas]
      rw [this]
      exact mark_tag (hut last (by simp [h0])) (fun h => hn (by simp [h0, h])) _

theorem first_mark : ∀ {l : Tags}, [b! "-"] ∈ l → ∃ pre post, l = pre ++ [b! "-"] :: post ∧ [b! "-"] ∉ pre
  | [], h => by simp at h
  | t :: l, h => by
    by_cases ht : t = [b! "-"]
    · exact ⟨[], l, by simp [ht], by simp⟩
    · obtain ⟨pre, post, h1, h2⟩ := first_mark ((List.mem_cons.1 h).resolve_left (Ne.symm ht))
      exact ⟨t :: pre, post, by simp [h1], by simp [h2, Ne.symm ht]⟩

theorem first_unique {pre post pre' post' : Tags} {m : Tag} (h : pre ++ m :: post = pre' ++ m :: post') (h1 : m ∉ pre) (h2 : m ∉ pre') : pre = pre' := by
  induction pre generalizing pre' with
  | nil =>
    cases pre' with
    | nil => rfl
    | cons x p =>
      simp only [List.nil_append, List.cons_append, List.cons.injEq] at h
      exact absurd (by simp [h.1]) h2
  | cons y p ih =>
    cases pre' with
    | nil =>
      simp only [List.nil_append, List.cons_append, List.cons.injEq] at h
      exact absurd (by simp [h.1]) h1
    | cons x p' =>
      simp only [List.cons_append, List.cons.injEq] at h
      rw [h.1, ih h.2 (fun hm => h1 (by simp [hm])) (fun hm => h2 (by simp [hm]))]

/-- **C119 (partial): embedded events as this package writes them.** For a repost whose content is the JSON text of an event as this package lays it out, the answer is true exactly if the event has the protection tag
and no value of a tag before it contains `]]`. So there are no false alarms. Missing: events with such a value, and other layouts, for which protection is overlooked, see `C119_overlooked`. -/
theorem C119_own_layout_partial (kind : Int) (hk : kind = 6 ∨ kind = 16) (outer inner : Event) (hok : outer.kind = kind) (hoc : outer.content = encodeEvent inner)
    (hi : Hex64 inner.id) (hp : Hex64 inner.pubkey) (hu : EventUtf8 inner) :
    hasEmbeddedProtected outer = true ↔ ∃ pre post, inner.tags = pre ++ [b! "-"] :: post ∧ ∀ t ∈ pre, ∀ s ∈ t, ¬ b! "]]" <:+: s := by
  have hut : ∀ t ∈ inner.tags, ∀ s ∈ t, Utf8 s := hu.2.2.2.2
  unfold hasEmbeddedProtected
  rw [if_pos (by rw [hok]; exact hk), hoc]
  simp only
  by_cases hm : [b! "-"] ∈ inner.tags
  swap
  · rw [no_mark hi hp hu hm]
    simp only [ne_eq, not_true_eq_false, and_false, if_false, Bool.false_eq_true, false_iff]
    rintro ⟨pre, post, h, -⟩
    exact hm (by simp [h])
  obtain ⟨pre, post, ht, hpre⟩ := first_mark hm
  have hw : wStrings [b! "-"] = b! "[\"-\"]" := by decide +kernel
  let P := pre.flatMap (fun t => wStrings t ++ [44])
  let A := headOf inner ++ (b! "\"tags\":[" ++ P)
  let Q := (post.map wStrings).flatMap (fun y => 44 :: y)
  have hT : encodeEvent inner = A ++ b! "[\"-\"]" ++ (Q ++ ([93] ++ endOf inner)) := by
    rw [text_eq hi hp, ht, List.map_append, List.map_cons, commas_split, List.flatMap_map]
    simp only [commas, hw, A, P, Q, List.append_assoc]
  have e0 : b! "\"tags\":[" = b! "\"tags\":" ++ [91] := rfl
  have hnA : NoOcc (b! "[\"-\"]") A (b! "[\"-\"]" ++ (Q ++ ([93] ++ endOf inner))) := by
    refine .append (.free (head_free hi hp (.inl rfl)) _) ?_
    rw [e0, List.append_assoc]
    refine .append (.free (by decide +kernel) _) (.append (.cons ?_ (.nil _ _)) (mark_tags pre (fun t hm => hut t (by simp [ht, hm])) hpre _))
    cases pre with
    | nil => simp [P, List.isPrefixOf]
    | cons t pre => simp [P, List.isPrefixOf, wStrings]
  have hpidx : indexOf (b! "[\"-\"]") (encodeEvent inner) = A.length := by
    rw [hT]; exact hnA.first.index
  have htidx : ∃ i : Nat, indexOf (b! "\"tags\":[") (encodeEvent inner) = i ∧ i < A.length := by
    have hocc : OccursAt (b! "\"tags\":[") (encodeEvent inner) (headOf inner).length := ⟨headOf inner, commas (inner.tags.map wStrings) ++ ([93] ++ endOf inner), by rw [text_eq hi hp]; simp only [List.append_assoc], rfl⟩
    rcases indexOf_spec (b! "\"tags\":[") (encodeEvent inner) with ⟨_, h⟩ | ⟨i, h1, _, h3⟩
    · exact absurd hocc (h _)
    · refine ⟨i, h1, ?_⟩
      have : i ≤ (headOf inner).length := Nat.le_of_not_lt (fun hlt => h3 _ hlt hocc)
      simp only [A, List.length_append, List.length_cons]
      omega
  obtain ⟨ti, ht1, ht2⟩ := htidx
  have hmem : [93, 93] <:+: b! "[\"-\"]" ++ (Q ++ ([93] ++ endOf inner)) := by
    rcases List.eq_nil_or_concat post with h0 | ⟨init, last, h0⟩
    · simp only [Q, h0]
      exact ⟨b! "[\"-\"", endOf inner, rfl⟩
    · rw [List.concat_eq_append] at h0
      have : Q = (init.map wStrings).flatMap (fun y => 44 :: y) ++ ([44, 91] ++ commas (last.map wString)) ++ [93] := by
        simp [Q, h0, wStrings]
      rw [this]
      exact ⟨b! "[\"-\"]" ++ ((init.map wStrings).flatMap (fun y => 44 :: y) ++ ([44, 91] ++ commas (last.map wString))), endOf inner, by simp⟩
  have hex : ∃ i : Nat, indexOf (b! "]]") (encodeEvent inner) = i ∧ OccursAt [93, 93] (encodeEvent inner) i ∧ ∀ j < i, ¬ OccursAt [93, 93] (encodeEvent inner) j := by
    rcases indexOf_spec (b! "]]") (encodeEvent inner) with ⟨_, h⟩ | ⟨i, h1, h2, h3⟩
    · exfalso
      have hinf : [93, 93] <:+: encodeEvent inner := by
        rw [hT, List.append_assoc]
        exact hmem.trans (List.suffix_append _ _).isInfix
      obtain ⟨j, -, hj⟩ := occurs_of_infix [] hinf (by decide)
      exact h j (by simpa using hj)
    · exact ⟨i, h1, h2, h3⟩
  obtain ⟨ei, he1, he2, he3⟩ := hex
  rw [hpidx, ht1, he1, if_pos ⟨by omega, by omega, by omega⟩, decide_eq_true_eq]
  constructor
  · rintro ⟨-, hlt⟩
    refine ⟨pre, post, ht, fun t htm s hs hinf => ?_⟩
    have hP : [93, 93] <:+: A := (infix_tags htm hs hinf).trans ⟨headOf inner ++ b! "\"tags\":[", [], by simp [A, P]⟩
    obtain ⟨j, hj1, hj2⟩ := occurs_of_infix (b! "[\"-\"]" ++ (Q ++ ([93] ++ endOf inner))) hP (by decide)
    rw [← List.append_assoc, ← hT] at hj2
    exact he3 j (by omega) hj2
  · rintro ⟨pre', post', ht', hpre'⟩
    refine ⟨by omega, ?_⟩
    have hsub : ∀ t ∈ pre, ∀ s ∈ t, ¬ b! "]]" <:+: s := by
      by_cases hm' : [b! "-"] ∈ pre'
      · obtain ⟨a, b, hab, ha⟩ := first_mark hm'
        have : pre = a := by
          refine first_unique (m := [b! "-"]) (post := post) (post' := b ++ [b! "-"] :: post') ?_ hpre ha
          rw [← ht, ht', hab]; simp
        subst this
        exact fun t htm => hpre' t (by simp [hab, htm])
      · have : pre = pre' := first_unique (m := [b! "-"]) (ht.symm.trans ht') hpre hm'
        subst this
        exact hpre'
    have hno : NoOcc [93, 93] A (b! "[\"-\"]" ++ (Q ++ ([93] ++ endOf inner))) :=
      .append (.free (head_free hi hp (.inr rfl)) _) (.append (.free (by decide +kernel) _) (brackets_tags pre hsub _))
    have hge : ¬ ei < A.length := by
      intro hlt
      refine hno ei hlt ?_
      rw [← List.append_assoc, ← hT]
      exact he2
    have hne : ei ≠ A.length := by
      rintro rfl
      have := (occurs_pair.1 he2).1
      rw [hT, List.append_assoc, List.getElem?_append_right (Nat.le_refl _)] at this
      simp at this
    omega

/-- The full C119 is false: a protected event is overlooked if a tag before the mark has `]]` in a value, if it was written with spaces, or with the content before the tags and `]]` in it. -/
theorem C119_overlooked :
    (∃ inner : Event, Hex64 inner.id ∧ Hex64 inner.pubkey ∧ EventUtf8 inner ∧ isProtected inner = true ∧
      hasEmbeddedProtected ⟨[], [], 0, 6, [], encodeEvent inner, []⟩ = false) ∧
    hasEmbeddedProtected ⟨[], [], 0, 6, [], b! "{\"tags\": [[\"-\"]],\"content\":\"\"}", []⟩ = false ∧
    hasEmbeddedProtected ⟨[], [], 0, 6, [], b! "{\"content\":\"[[x]]\",\"tags\":[[\"-\"]]}", []⟩ = false := by
  refine ⟨⟨⟨hexA, hexB, 1, 1, [[b! "subject", b! "[[a]]"], [b! "-"]], [], []⟩, ⟨by decide +kernel, ?_⟩, ⟨by decide +kernel, ?_⟩, ⟨?_, ?_, .nil, .nil, ?_⟩, by decide +kernel, by decide +kernel⟩, by decide +kernel, by decide +kernel⟩
  · unfold IsLowerHexByte hexA; decide +kernel
  · unfold IsLowerHexByte hexB; decide +kernel
  · exact .ascii (by decide +kernel)
  · exact .ascii (by decide +kernel)
  · intro t ht s hs
    simp only [List.mem_cons, List.not_mem_nil, or_false] at ht
    rcases ht with rfl | rfl
    · simp only [List.mem_cons, List.not_mem_nil, or_false] at hs
      rcases hs with rfl | rfl <;> exact .ascii (by decide +kernel)
    · simp only [List.mem_cons, List.not_mem_nil, or_false] at hs
      subst hs
      exact .ascii (by decide +kernel)

/-- Not vacuous: a protected event with several tags is found in a repost, an unprotected one is not. -/
example : ∃ inner : Event, Hex64 inner.id ∧ Hex64 inner.pubkey ∧ EventUtf8 inner ∧ hasEmbeddedProtected ⟨[], [], 0, 16, [], encodeEvent inner, []⟩ = true ∧
    hasEmbeddedProtected ⟨[], [], 0, 16, [], encodeEvent { inner with tags := [[b! "-", b! "x"], [b! "[\"-\"]"]] }, []⟩ = false := by
  refine ⟨⟨hexA, hexB, 1, 1, [[b! "x"], [b! "-"], []], b! "[[x]]", []⟩, ⟨by decide +kernel, ?_⟩, ⟨by decide +kernel, ?_⟩, ⟨?_, ?_, ?_, .nil, ?_⟩, by decide +kernel, by decide +kernel⟩
  · unfold IsLowerHexByte hexA; decide +kernel
  · unfold IsLowerHexByte hexB; decide +kernel
  · exact .ascii (by decide +kernel)
  · exact .ascii (by decide +kernel)
  · exact .ascii (by decide +kernel)
  · intro t ht s hs
    simp only [List.mem_cons, List.not_mem_nil, or_false] at ht
    rcases ht with rfl | rfl | rfl
    · simp only [List.mem_cons, List.not_mem_nil, or_false] at hs
      subst hs; exact .ascii (by decide +kernel)
    · simp only [List.mem_cons, List.not_mem_nil, or_false] at hs
      subst hs; exact .ascii (by decide +kernel)
    · simp at hs

end GoNostr.Nip70
