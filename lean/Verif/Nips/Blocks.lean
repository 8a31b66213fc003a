import Verif.Nip19.Model
import Verif.Base.Index
/-!
# C90: splitting a text into blocks (nip27)

`Parse` of nip27/blocks.go with the two regular expressions written out. `url.Parse` is a parameter: `hostDot t` says that `t` parses and its host contains a dot.
-/

set_option autoImplicit false

namespace GoNostr.Blocks

/-- The bytes of `\w`. -/
def isWord (c : UInt8) : Bool := (48 ≤ c && c ≤ 57) || (65 ≤ c && c ≤ 90) || (97 ≤ c && c ≤ 122) || c == 95

/-- The first position at which the predicate holds. -/
def findByte (q : UInt8 → Bool) : Bytes → Option Nat
  | [] => none
  | c :: rest => if q c then some 0 else (findByte q rest).map (· + 1)

/-- The width `utf8.DecodeRune` reports: that of a valid encoding, 1 otherwise. -/
def runeLen (s : Bytes) : Nat :=
  let cont (c : UInt8) : Bool := 0x80 ≤ c && c ≤ 0xBF
  match s with
  | c0 :: c1 :: rest =>
    if 0xC2 ≤ c0 && c0 ≤ 0xDF then (if cont c1 then 2 else 1)
    else if 0xE0 ≤ c0 && c0 ≤ 0xEF then
      let lo : UInt8 := if c0 = 0xE0 then 0xA0 else 0x80
      let hi : UInt8 := if c0 = 0xED then 0x9F else 0xBF
      match rest with
      | c2 :: _ => if lo ≤ c1 && c1 ≤ hi && cont c2 then 3 else 1
      | [] => 1
    else if 0xF0 ≤ c0 && c0 ≤ 0xF4 then
      let lo : UInt8 := if c0 = 0xF0 then 0x90 else 0x80
      let hi : UInt8 := if c0 = 0xF4 then 0x8F else 0xBF
      match rest with
      | c2 :: c3 :: _ => if lo ≤ c1 && c1 ≤ hi && cont c2 && cont c3 then 4 else 1
      | _ => 1
    else 1
  | _ => 1

/-- `(?m)\W` of blocks.go:21: the first byte outside `\w`. (Every byte of a multi-byte character is outside.) -/
def noCharacter (s : Bytes) : Option Nat := findByte (fun c => !isWord c) s

/-- One of the alternatives of `(?m)\W |\W$|$|,| ` of blocks.go:22 matches at the beginning. -/
def urlStop (s : Bytes) : Bool :=
  match s with
  | [] => true
  | c :: _ => c == 10 || c == 44 || c == 32 ||
    (!isWord c && (match s.drop (runeLen s) with | [] => true | d :: _ => d == 32 || d == 10))

/-- The leftmost match of that expression; positions advance by characters. The first argument bounds the steps. -/
def urlEnd : Nat → Bytes → Nat
  | 0, _ => 0
  | n + 1, s => if urlStop s then 0 else runeLen s + urlEnd n (s.drop (runeLen s))

/-- What a block points to. -/
inductive Ptr where
  | nostr (v : Nip19.Value)
  | external (thing : Bytes)
  deriving DecidableEq

/-- blocks.go:14-18 `Block`. -/
structure Block where
  text : Bytes
  start : Nat
  ptr : Option Ptr
  deriving DecidableEq

/-- `u >= len(w) && content[u-len(w):u] == w`. -/
def before (content : Bytes) (u : Nat) (w : Bytes) : Bool := w.length ≤ u && (content.drop (u - w.length)).take w.length == w

/-- The text before a block, if there is any (blocks.go:68-72, 98-102, 128-132). -/
def textBefore (content : Bytes) (prev s : Nat) : Out (List Block) :=
  if prev ≠ s then (goSlice content prev s).bind (fun t => .val [⟨t, prev, none⟩]) else .val []

/-- blocks.go:68-76, 98-106, 128-136: the text before, if there is any, then the block from `s` to `e`. -/
def emit (content : Bytes) (prev s e : Nat) (ptr : Ptr) : Out (List Block) := do
  let pre ← textBefore content prev s
  let t ← goSlice content s e
  return pre ++ [⟨t, s, some ptr⟩]

/-- blocks.go:148-150. -/
def finish (content : Bytes) (prev : Nat) : Out (List Block) :=
  if prev ≠ content.length then do
    let t ← goSliceFrom content prev
    return [⟨t, prev, none⟩]
  else return []

/-- The kinds of codes that make a block (blocks.go:54-66). -/
def isPointer (pre : Bytes) : Bool := pre == b! "npub" || pre == b! "nprofile" || pre == b! "nevent" || pre == b! "naddr"

/-- What an iteration of the loop of `Parse` finds. -/
inductive Found where
  | stop
  | skip (index : Nat)
  | block (s e : Nat) (ptr : Ptr)
  | panic

/-- blocks.go:41-45: the end of a code. -/
def codeEnd (content : Bytes) (u : Nat) : Nat :=
  match noCharacter (content.drop (u + 60)) with
  | some m => u + 60 + m
  | none => content.length

/-- blocks.go:82-86, 112-116: the end of a link. -/
def linkEnd (content : Bytes) (u : Nat) : Nat := u + 4 + urlEnd (content.length + 1) (content.drop (u + 4))

/-- blocks.go:41-66, 78: a possible code after the colon at `u`. -/
def lookCode (content : Bytes) (u : Nat) : Found :=
  match Nip19.decode ((content.drop (u + 1)).take (codeEnd content u - (u + 1))) with
  | .panic => .panic
  | .err _ => .skip (u + 1)
  | .ok (pre, v) => if isPointer pre then .block (u - 5) (codeEnd content u) (.nostr v) else .skip (codeEnd content u + 1)

/-- blocks.go:82-96, 108 and 112-126, 138: a possible link with a scheme of `len` letters before the colon at `u`. -/
def lookLink (hostDot : Bytes → Bool) (content : Bytes) (u len : Nat) : Found :=
  let t := (content.drop (u - len)).take (linkEnd content u - (u - len))
  if hostDot t then .block (u - len) (linkEnd content u) (.external t) else .skip (linkEnd content u + 1)

/-- An iteration (blocks.go:31-145). -/
def look (hostDot : Bytes → Bool) (content : Bytes) (index : Nat) : Found :=
  if index < content.length then
    match findByte (· == 58) (content.drop index) with
    | none => .stop
    | some pu =>
      let u := pu + index
      if before content u (b! "nostr") && u + 60 < content.length then lookCode content u
      else if (before content u (b! "https") || before content u (b! "http")) && u + 4 < content.length then
        lookLink hostDot content u (if content[u - 1]? = some 115 then 5 else 4)
      else if (before content u (b! "wss") || before content u (b! "ws")) && u + 4 < content.length then
        lookLink hostDot content u (if content[u - 2]? = some 115 then 3 else 2)
      else .skip (u + 1)
  else .stop

/-- The loop of `Parse` (blocks.go:31-150), for a consumer that takes all blocks. The first argument bounds the iterations, each of which advances `index` (`loop_enough`). -/
def loop (hostDot : Bytes → Bool) (content : Bytes) : Nat → Nat → Nat → Out (List Block)
  | 0, _, prev => finish content prev
  | n + 1, index, prev =>
    match look hostDot content index with
    | .stop => finish content prev
    | .skip i => loop hostDot content n i prev
    | .panic => .panic
    | .block s e ptr => do
      let bs ← emit content prev s e ptr
      let rest ← loop hostDot content n e e
      return bs ++ rest

/-- blocks.go:25-152 `Parse`. -/
def parse (hostDot : Bytes → Bool) (content : Bytes) : Out (List Block) := loop hostDot content (content.length + 1) 0 0

/-! ## Specification -/

/-- The blocks tile the text: put together they are the text, none is empty, and each starts where the ones before it end. -/
def Tiles (content : Bytes) (blocks : List Block) : Prop :=
  (blocks.map Block.text).flatten = content ∧ ∀ i b, blocks[i]? = some b → b.text ≠ [] ∧ b.start = ((blocks.take i).map Block.text).flatten.length

/-! ## Tiling -/

/-- `Tiles` for the part of the text from `p` on. -/
def TilesFrom (content : Bytes) (p : Nat) (blocks : List Block) : Prop :=
  (blocks.map Block.text).flatten = content.drop p ∧ ∀ i b, blocks[i]? = some b → b.text ≠ [] ∧ b.start = p + ((blocks.take i).map Block.text).flatten.length

theorem tiles_cons {content : Bytes} {p q : Nat} {t : Bytes} {ptr : Option Ptr} {bs : List Block} (h1 : p < q) (h2 : q ≤ content.length) (ht : t = (content.drop p).take (q - p))
    (h : TilesFrom content q bs) : TilesFrom content p (⟨t, p, ptr⟩ :: bs) := by
  have hlen : t.length = q - p := by rw [ht]; simp; omega
  refine ⟨?_, ?_⟩
  · rw [List.map_cons, List.flatten_cons, h.1, ht]
    have : content.drop q = (content.drop p).drop (q - p) := by rw [List.drop_drop]; congr 1; omega
    rw [this, List.take_append_drop]
  · intro i b hb
    cases i with
    | zero =>
      simp only [List.getElem?_cons_zero, Option.some.injEq] at hb
      subst hb
      refine ⟨?_, by simp⟩
      intro he
      simp only at he
      rw [he] at hlen
      simp at hlen
      omega
    | succ i =>
      obtain ⟨a, c⟩ := h.2 i b hb
      refine ⟨a, ?_⟩
      rw [c, List.take_succ_cons, List.map_cons, List.flatten_cons, List.length_append, hlen]
      omega

theorem finish_tiles {content : Bytes} {prev : Nat} {bs : List Block} (hp : prev ≤ content.length) (h : finish content prev = .val bs) : TilesFrom content prev bs := by
  unfold finish at h
  split at h
  · next hne =>
    unfold goSliceFrom goSlice at h
    rw [if_pos (by omega)] at h
    simp only [Out.val_bind, Out.pure_eq, Out.val.injEq] at h
    subst h
    refine tiles_cons (q := content.length) (by omega) (Nat.le_refl _) ?_ ⟨by simp, by simp⟩
    congr 1
    omega
  · next he =>
    simp only [Out.pure_eq, Out.val.injEq] at h
    subst h
    have : prev = content.length := by simpa using he
    exact ⟨by simp [this], by simp⟩

theorem finish_val {content : Bytes} {prev : Nat} (hp : prev ≤ content.length) : ∃ bs, finish content prev = .val bs := by
  unfold finish
  split
  · unfold goSliceFrom goSlice
    rw [if_pos (by omega)]
    exact ⟨_, rfl⟩
  · exact ⟨_, rfl⟩

theorem goSlice_nat {content : Bytes} {a b : Nat} (h1 : a ≤ b) (h2 : b ≤ content.length) : goSlice content a b = .val ((content.drop a).take (b - a)) := by
  unfold goSlice
  rw [if_pos (by omega)]
  have : ((b : Int) - a).toNat = b - a := by omega
  simp [this]

theorem goSlice_nat_val {content : Bytes} {a b : Nat} {t : Bytes} (h : goSlice content (a : Int) b = .val t) : a ≤ b ∧ b ≤ content.length ∧ t = (content.drop a).take (b - a) := by
  unfold goSlice at h
  split at h
  · next hc =>
    injection h with h
    have : ((b : Int) - a).toNat = b - a := by omega
    exact ⟨by omega, by omega, by rw [← h, this]; simp⟩
  · cases h

theorem bind_val {α β : Type} {x : Out α} {f : α → Out β} {b : β} (h : (x >>= f) = .val b) : ∃ a, x = .val a ∧ f a = .val b := by
  cases x with
  | panic => cases h
  | val a => exact ⟨a, rfl, h⟩

theorem emit_val {content : Bytes} {prev s e : Nat} {ptr : Ptr} {bs : List Block} (h : emit content prev s e ptr = .val bs) :
    prev ≤ s ∧ s ≤ e ∧ e ≤ content.length ∧
      bs = (if prev = s then [] else [⟨(content.drop prev).take (s - prev), prev, none⟩]) ++ [⟨(content.drop s).take (e - s), s, some ptr⟩] := by
  unfold emit at h
  obtain ⟨pre, h1, h⟩ := bind_val h
  obtain ⟨t, h2, h⟩ := bind_val h
  obtain ⟨a1, a2, rfl⟩ := goSlice_nat_val h2
  injection h with h
  unfold textBefore at h1
  split at h1
  · next hne =>
    obtain ⟨t2, h3, h1⟩ := bind_val h1
    obtain ⟨c1, c2, rfl⟩ := goSlice_nat_val h3
    injection h1 with h1
    subst h1
    have : ¬ prev = s := hne
    exact ⟨c1, a1, a2, by rw [← h, if_neg this]⟩
  · next he =>
    have : prev = s := by simpa using he
    injection h1 with h1
    subst h1
    exact ⟨by omega, a1, a2, by rw [← h, if_pos this]⟩

/-- A block that was emitted continues the tiling. -/
theorem emit_tiles {content : Bytes} {prev s e : Nat} {ptr : Ptr} {bs rest : List Block} (hse : s < e) (h : emit content prev s e ptr = .val bs)
    (hr : TilesFrom content e rest) : TilesFrom content prev (bs ++ rest) := by
  obtain ⟨h1, h2, h3, rfl⟩ := emit_val h
  have htile : TilesFrom content s (⟨(content.drop s).take (e - s), s, some ptr⟩ :: rest) := tiles_cons hse h3 rfl hr
  by_cases he : prev = s
  · subst he
    simpa using htile
  · rw [if_neg he]
    exact tiles_cons (by omega) (by omega) rfl htile

theorem emit_len {content : Bytes} {prev s e : Nat} {ptr : Ptr} {bs : List Block} (h : emit content prev s e ptr = .val bs) : e ≤ content.length := (emit_val h).2.2.1

theorem before_len {content : Bytes} {u : Nat} {w : Bytes} (h : before content u w = true) : w.length ≤ u := by
  unfold before at h
  simp only [Bool.and_eq_true, decide_eq_true_eq] at h
  exact h.1

/-- Every iteration advances; blocks are not empty. -/
def Found.Advances (index : Nat) : Found → Prop
  | .stop => True
  | .skip i => index < i
  | .block s e _ => s < e ∧ index < e
  | .panic => True

theorem codeEnd_le {content : Bytes} {u : Nat} (h : u + 60 < content.length) : u + 60 ≤ codeEnd content u := by
  unfold codeEnd
  split <;> omega

theorem lookCode_advances {content : Bytes} {u : Nat} (h : u + 60 < content.length) : (lookCode content u).Advances u := by
  have := codeEnd_le h
  unfold lookCode
  split
  · trivial
  · exact Nat.lt_succ_self u
  · split
    · exact ⟨by omega, by omega⟩
    · exact show u < codeEnd content u + 1 by omega

theorem lookLink_advances (hostDot : Bytes → Bool) (content : Bytes) (u len : Nat) : (lookLink hostDot content u len).Advances u := by
  unfold lookLink linkEnd
  simp only
  split
  · exact ⟨by omega, by omega⟩
  · exact show u < _ by omega

theorem advances_mono {i j : Nat} {f : Found} (h : i ≤ j) (hf : f.Advances j) : f.Advances i := by
  cases f with
  | stop => trivial
  | skip k => exact Nat.lt_of_le_of_lt h hf
  | panic => trivial
  | block s e p => exact ⟨hf.1, Nat.lt_of_le_of_lt h hf.2⟩

theorem look_advances (hostDot : Bytes → Bool) (content : Bytes) (index : Nat) : (look hostDot content index).Advances index := by
  unfold look
  split
  · split
    · trivial
    · next pu _ =>
      apply advances_mono (j := pu + index) (by omega)
      simp only
      split
      · next hb =>
        simp only [Bool.and_eq_true, decide_eq_true_eq] at hb
        exact lookCode_advances hb.2
      · split
        · exact lookLink_advances _ _ _ _
        · split
          · exact lookLink_advances _ _ _ _
          · exact Nat.lt_succ_self _
  · trivial

theorem loop_tiles (hostDot : Bytes → Bool) (content : Bytes) : ∀ (n index prev : Nat) (bs : List Block), prev ≤ content.length →
    loop hostDot content n index prev = .val bs → TilesFrom content prev bs
  | 0, _, prev, bs, hp, h => finish_tiles hp h
  | n + 1, index, prev, bs, hp, h => by
    have ih := fun i p b => loop_tiles hostDot content n i p b
    have ha := look_advances hostDot content index
    unfold loop at h
    cases hl : look hostDot content index with
    | stop => rw [hl] at h; exact finish_tiles hp h
    | skip i => rw [hl] at h; exact ih _ _ _ hp h
    | panic => rw [hl] at h; cases h
    | block s e ptr =>
      rw [hl] at h ha
      obtain ⟨b1, e1, h⟩ := bind_val h
      obtain ⟨b2, e2, h⟩ := bind_val h
      injection h with h
      subst h
      exact emit_tiles ha.1 e1 (ih _ _ _ (emit_len e1) e2)

/-- The bound on the iterations is never reached: with more of it nothing changes. -/
theorem loop_enough (hostDot : Bytes → Bool) (content : Bytes) : ∀ (n index prev : Nat), content.length ≤ index + n →
    loop hostDot content (n + 1) index prev = loop hostDot content (n + 2) index prev
  | n, index, prev, hn => by
    have ha := look_advances hostDot content index
    have hstop : content.length ≤ index → look hostDot content index = .stop := by
      intro h
      unfold look
      rw [if_neg (by omega)]
    rw [loop, loop]
    cases hl : look hostDot content index with
    | stop => rfl
    | panic => rfl
    | skip i =>
      rw [hl] at ha
      simp only [Found.Advances] at ha ⊢
      cases n with
      | zero => rw [hstop (by omega)] at hl; cases hl
      | succ n => exact loop_enough hostDot content n i prev (by omega)
    | block s e ptr =>
      rw [hl] at ha
      simp only [Found.Advances] at ha ⊢
      cases n with
      | zero => rw [hstop (by omega)] at hl; cases hl
      | succ n => rw [loop_enough hostDot content n e e (by omega)]

/-- **C90, part.** Whenever `Parse` comes to its end, the blocks tile the text. Missing: it may panic instead, `C90_panics`. -/
theorem C90_tiles_partial (hostDot : Bytes → Bool) (content : Bytes) (blocks : List Block) (h : parse hostDot content = .val blocks) : Tiles content blocks := by
  have := loop_tiles hostDot content _ 0 0 blocks (Nat.zero_le _) h
  refine ⟨by rw [this.1, List.drop_zero], fun i b hb => ?_⟩
  obtain ⟨a, c⟩ := this.2 i b hb
  exact ⟨a, by rw [c]; omega⟩

/-! ## Panics -/

theorem findByte_spec {q : UInt8 → Bool} : ∀ {s : Bytes} {i : Nat}, findByte q s = some i → (∃ c, s[i]? = some c ∧ q c = true) ∧ ∀ j c, j < i → s[j]? = some c → q c = false
  | [], i, h => by cases h
  | c :: s, i, h => by
    unfold findByte at h
    split at h
    · next hc =>
      injection h with h
      subst h
      exact ⟨⟨c, rfl, hc⟩, fun j c hj => by omega⟩
    · next hc =>
      obtain ⟨k, hk, rfl⟩ := Option.map_eq_some_iff.1 h
      obtain ⟨h1, h2⟩ := findByte_spec hk
      refine ⟨h1, ?_⟩
      intro j d hj hd
      cases j with
      | zero =>
        simp only [List.getElem?_cons_zero, Option.some.injEq] at hd
        subst hd
        simpa using hc
      | succ j => exact h2 j d (by omega) hd

theorem before_at {content : Bytes} {u : Nat} {w : Bytes} (h : before content u w = true) {i : Nat} (hi : i < w.length) : content[u - w.length + i]? = w[i]? := by
  unfold before at h
  simp only [Bool.and_eq_true, decide_eq_true_eq, beq_iff_eq] at h
  have : ((content.drop (u - w.length)).take w.length)[i]? = w[i]? := by rw [h.2]
  rw [List.getElem?_take, if_pos hi, List.getElem?_drop] at this
  exact this

/-- The words before a colon that can make a block. -/
def schemes : List Bytes := [b! "nostr", b! "https", b! "http", b! "wss", b! "ws"]

/-- What is known of a block that an iteration finds. -/
theorem look_block {hostDot : Bytes → Bool} {content : Bytes} {index s e : Nat} {ptr : Ptr} (h : look hostDot content index = .block s e ptr) :
    ∃ u w, index ≤ u ∧ content[u]? = some 58 ∧ w ∈ schemes ∧ before content u w = true ∧ s = u - w.length ∧
      ((u + 60 < content.length ∧ e = codeEnd content u ∧ w = b! "nostr" ∧ ∃ pre v, Nip19.decode ((content.drop (u + 1)).take (e - (u + 1))) = .ok (pre, v) ∧ isPointer pre = true ∧ ptr = .nostr v) ∨
       (u + 4 < content.length ∧ w ≠ b! "nostr" ∧ e = linkEnd content u ∧ hostDot ((content.drop (u - w.length)).take (e - (u - w.length))) = true ∧ ptr = .external ((content.drop (u - w.length)).take (e - (u - w.length))))) := by
  unfold look at h
  split at h
  · split at h
    · cases h
    · next pu hpu =>
      have hu : content[pu + index]? = some 58 := by
        obtain ⟨⟨c, hc, hq⟩, -⟩ := findByte_spec hpu
        rw [List.getElem?_drop] at hc
        have : c = 58 := by simpa using hq
        rw [Nat.add_comm, hc, this]
      have link : ∀ w ∈ schemes, w ≠ b! "nostr" → before content (pu + index) w = true → pu + index + 4 < content.length → lookLink hostDot content (pu + index) w.length = .block s e ptr →
          ∃ u w, index ≤ u ∧ content[u]? = some 58 ∧ w ∈ schemes ∧ before content u w = true ∧ s = u - w.length ∧
      ((u + 60 < content.length ∧ e = codeEnd content u ∧ w = b! "nostr" ∧ ∃ pre v, Nip19.decode ((content.drop (u + 1)).take (e - (u + 1))) = .ok (pre, v) ∧ isPointer pre = true ∧ ptr = .nostr v) ∨
       (u + 4 < content.length ∧ w ≠ b! "nostr" ∧ e = linkEnd content u ∧ hostDot ((content.drop (u - w.length)).take (e - (u - w.length))) = true ∧ ptr = .external ((content.drop (u - w.length)).take (e - (u - w.length))))) := by
        intro w hw hne hb hl hh
        unfold lookLink at hh
        simp only at hh
        split at hh
        · next hd =>
          injection hh with h1 h2 h3
          subst h1 h2
          exact ⟨pu + index, w, by omega, hu, hw, hb, rfl, .inr ⟨hl, hne, rfl, hd, h3.symm⟩⟩
        · cases hh
      simp only at h
      split at h
      · next hb =>
        simp only [Bool.and_eq_true, decide_eq_true_eq] at hb
        unfold lookCode at h
        split at h
        · cases h
        · cases h
        · next pre v hd =>
          split at h
          · next hp =>
            injection h with h1 h2 h3
            subst h1 h2
            exact ⟨pu + index, b! "nostr", by omega, hu, by simp [schemes], hb.1, rfl, .inl ⟨hb.2, rfl, rfl, pre, v, hd, hp, h3.symm⟩⟩
          · cases h
      · split at h
        · next hb =>
          simp only [Bool.and_eq_true, Bool.or_eq_true, decide_eq_true_eq] at hb
          rcases hb with ⟨hb | hb, hl⟩
          · have := before_at hb (i := 4) (by decide)
            have hle := before_len hb
            simp only [List.length_cons, List.length_nil] at this hle
            rw [show pu + index - (0 + 1 + 1 + 1 + 1 + 1) + 4 = pu + index - 1 by omega] at this
            rw [this] at h
            exact link (b! "https") (by simp [schemes]) (by decide +kernel) hb hl h
          · have := before_at hb (i := 3) (by decide)
            have hle := before_len hb
            simp only [List.length_cons, List.length_nil] at this hle
            rw [show pu + index - (0 + 1 + 1 + 1 + 1) + 3 = pu + index - 1 by omega] at this
            rw [this] at h
            exact link (b! "http") (by simp [schemes]) (by decide +kernel) hb hl h
        · split at h
          · next hb =>
            simp only [Bool.and_eq_true, Bool.or_eq_true, decide_eq_true_eq] at hb
            rcases hb with ⟨hb | hb, hl⟩
            · have := before_at hb (i := 1) (by decide)
              have hle := before_len hb
              simp only [List.length_cons, List.length_nil] at this hle
              rw [show pu + index - (0 + 1 + 1 + 1) + 1 = pu + index - 2 by omega] at this
              rw [this] at h
              exact link (b! "wss") (by simp [schemes]) (by decide +kernel) hb hl h
            · have := before_at hb (i := 0) (by decide)
              have hle := before_len hb
              simp only [List.length_cons, List.length_nil] at this hle
              rw [show pu + index - (0 + 1 + 1) + 0 = pu + index - 2 by omega] at this
              rw [this] at h
              exact link (b! "ws") (by simp [schemes]) (by decide +kernel) hb hl h
          · cases h
  · cases h

/-! ## Pointers -/

/-- What a block claims to point to is what its text says: `nostr:` and a code that decodes to the pointer, or a link with a host; a block without pointer claims nothing. -/
def Says (hostDot : Bytes → Bool) (b : Block) : Prop :=
  match b.ptr with
  | none => True
  | some (.nostr v) => ∃ code pre, b.text = b! "nostr:" ++ code ∧ Nip19.decode code = .ok (pre, v) ∧ pre ∈ [b! "npub", b! "nprofile", b! "nevent", b! "naddr"]
  | some (.external t) => b.text = t ∧ hostDot t = true ∧ ∃ w ∈ [b! "http", b! "https", b! "ws", b! "wss"], (w ++ b! ":").isPrefixOf t = true

theorem slice_scheme {content w : Bytes} {u e : Nat} (hb : before content u w = true) (hu : content[u]? = some 58) (he : u < e) :
    (content.drop (u - w.length)).take (e - (u - w.length)) = w ++ 58 :: ((content.drop (u + 1)).take (e - (u + 1))) := by
  have hwl := before_len hb
  have hw : (content.drop (u - w.length)).take w.length = w := by
    unfold before at hb
    simp only [Bool.and_eq_true, decide_eq_true_eq, beq_iff_eq] at hb
    exact hb.2
  have : e - (u - w.length) = w.length + (e - u) := by omega
  rw [this, List.take_add, hw, List.drop_drop, show u - w.length + w.length = u by omega]
  congr 1
  obtain ⟨hlt2, hce2⟩ := List.getElem?_eq_some_iff.1 hu
  rw [List.drop_eq_getElem_cons hlt2, hce2]
  obtain ⟨k, hk⟩ : ∃ k, e - u = k + 1 := ⟨e - (u + 1), by omega⟩
  rw [hk, List.take_succ_cons]
  congr 2
  omega

theorem loop_says (hostDot : Bytes → Bool) (content : Bytes) : ∀ (n index prev : Nat) (bs : List Block),
    loop hostDot content n index prev = .val bs → ∀ b ∈ bs, Says hostDot b
  | n, index, prev, bs, h => by
    have hfin : ∀ bs, finish content prev = .val bs → ∀ b ∈ bs, Says hostDot b := by
      intro bs h b hb
      unfold finish at h
      split at h
      · obtain ⟨t, -, h⟩ := bind_val h
        injection h with h
        subst h
        rw [List.mem_singleton.1 hb]
        trivial
      · injection h with h
        subst h
        cases hb
    cases n with
    | zero => exact hfin _ h
    | succ n =>
      unfold loop at h
      cases hl : look hostDot content index with
      | stop => rw [hl] at h; exact hfin _ h
      | skip i => rw [hl] at h; exact loop_says hostDot content n _ _ _ h
      | panic => rw [hl] at h; cases h
      | block s e ptr =>
        rw [hl] at h
        obtain ⟨b1, e1, h⟩ := bind_val h
        obtain ⟨b2, e2, h⟩ := bind_val h
        injection h with h
        subst h
        intro b hb
        rcases List.mem_append.1 hb with hb | hb
        · unfold emit at e1
          obtain ⟨pre, hpre, e1⟩ := bind_val e1
          obtain ⟨t, ht, e1⟩ := bind_val e1
          injection e1 with e1
          subst e1
          rcases List.mem_append.1 hb with hb | hb
          · unfold textBefore at hpre
            split at hpre
            · obtain ⟨t', -, hpre⟩ := bind_val hpre
              injection hpre with hpre
              subst hpre
              rw [List.mem_singleton.1 hb]
              trivial
            · injection hpre with hpre
              subst hpre
              cases hb
          · rw [List.mem_singleton.1 hb]
            obtain ⟨u, w, h1, h2, h3, h4, h5, h6⟩ := look_block hl
            have hlen := (goSlice_val_iff _ _ _).1 ⟨t, ht⟩
            have hse : s ≤ e ∧ e ≤ content.length := by omega
            rw [goSlice_nat hse.1 hse.2] at ht
            injection ht with ht
            rcases h6 with ⟨hl, he, hw, pre, v, hr, hp, hptr⟩ | ⟨hl, hne, he, hr, hptr⟩
            · have hce := codeEnd_le hl
              subst hptr
              refine ⟨_, pre, ?_, hr, ?_⟩
              · rw [← ht, h5, slice_scheme h4 h2 (by omega), hw]
                rfl
              · simpa [isPointer, Bool.or_eq_true, or_assoc] using hp
            · subst hptr
              have hue : u < e := by rw [he]; unfold linkEnd; omega
              refine ⟨by rw [← ht, h5], hr, w, ?_, ?_⟩
              · simp only [schemes, List.mem_cons, List.not_mem_nil, or_false] at h3 ⊢
                rcases h3 with h | h | h | h | h
                · exact absurd h hne
                all_goals simp [h]
              · rw [slice_scheme h4 h2 hue, show w ++ 58 :: (content.drop (u + 1)).take (e - (u + 1)) = (w ++ b! ":") ++ (content.drop (u + 1)).take (e - (u + 1)) by simp,
                  List.isPrefixOf_iff_prefix]
                exact List.prefix_append _ _
        · exact loop_says hostDot content n e e b2 e2 b hb

/-- **C98.** A block that `Parse` returns with a pointer says so in its text. -/
theorem C98_pointers (hostDot : Bytes → Bool) (content : Bytes) (blocks : List Block) (h : parse hostDot content = .val blocks) : ∀ b ∈ blocks, Says hostDot b :=
  loop_says hostDot content _ 0 0 blocks h

/-- The places where a block may end without harm: the end of the text, or a character that is no letter, digit or underscore, and, if it is a colon, followed by a space, a line break or nothing. -/
def GoodEnd (content : Bytes) (p : Nat) : Prop :=
  p ≤ content.length ∧ ∀ c, content[p]? = some c → isWord c = false ∧ (c = 58 → content[p + 1]? = none ∨ content[p + 1]? = some 32 ∨ content[p + 1]? = some 10)

theorem schemes_word : ∀ w ∈ schemes, w ≠ [] ∧ ∀ c ∈ w, isWord c = true := by decide +kernel

theorem runeLen_ascii {s : Bytes} {c : UInt8} (h : s[0]? = some c) (hc : c < 128) : runeLen s = 1 := by
  match s with
  | [] => rfl
  | [_] => rfl
  | c0 :: c1 :: rest =>
    simp only [List.getElem?_cons_zero, Option.some.injEq] at h
    subst h
    have h1 : ¬ (0xC2 ≤ c0) := by rw [UInt8.not_le]; exact UInt8.lt_of_lt_of_le hc (by decide)
    have h2 : ¬ (0xE0 ≤ c0) := by rw [UInt8.not_le]; exact UInt8.lt_of_lt_of_le hc (by decide)
    have h3 : ¬ (0xF0 ≤ c0) := by rw [UInt8.not_le]; exact UInt8.lt_of_lt_of_le hc (by decide)
    simp [runeLen, h1, h2, h3]

theorem runeLen_le (s : Bytes) (h : s ≠ []) : 1 ≤ runeLen s ∧ runeLen s ≤ s.length := by
  match s with
  | [] => exact absurd rfl h
  | [_] => exact ⟨Nat.le_refl _, Nat.le_refl _⟩
  | [_, _] => unfold runeLen; simp only [List.length_cons, List.length_nil]; (repeat' split) <;> omega
  | [_, _, _] => unfold runeLen; simp only [List.length_cons, List.length_nil]; (repeat' split) <;> omega
  | _ :: _ :: _ :: _ :: rest => unfold runeLen; simp only [List.length_cons]; (repeat' split) <;> omega

theorem urlEnd_spec : ∀ (n : Nat) (s : Bytes), s.length < n → urlEnd n s ≤ s.length ∧ urlStop (s.drop (urlEnd n s)) = true
  | 0, s, h => by omega
  | n + 1, s, h => by
    unfold urlEnd
    split
    · next hs => exact ⟨by omega, by simpa using hs⟩
    · next hs =>
      have hne : s ≠ [] := by rintro rfl; exact hs rfl
      obtain ⟨h1, h2⟩ := runeLen_le s hne
      obtain ⟨h3, h4⟩ := urlEnd_spec n (s.drop (runeLen s)) (by simp; omega)
      rw [List.length_drop] at h3
      refine ⟨by omega, ?_⟩
      rw [List.drop_drop] at h4
      exact h4

theorem urlStop_good {content : Bytes} {p : Nat} (hp : p ≤ content.length) (h : urlStop (content.drop p) = true) : GoodEnd content p := by
  refine ⟨hp, ?_⟩
  intro c hc
  have h0 : (content.drop p)[0]? = some c := by rw [List.getElem?_drop]; simpa using hc
  cases hd : content.drop p with
  | nil => rw [hd] at h0; cases h0
  | cons d rest =>
    rw [hd] at h0 h
    simp only [List.getElem?_cons_zero, Option.some.injEq] at h0
    subst h0
    unfold urlStop at h
    simp only [Bool.or_eq_true, Bool.and_eq_true, Bool.not_eq_true', beq_iff_eq] at h
    rcases h with ((h | h) | h) | h
    · subst h; exact ⟨by decide, fun h => by cases h⟩
    · subst h; exact ⟨by decide, fun h => by cases h⟩
    · subst h; exact ⟨by decide, fun h => by cases h⟩
    · refine ⟨h.1, ?_⟩
      rintro rfl
      have hr : runeLen (58 :: rest) = 1 := runeLen_ascii (c := 58) rfl (by decide)
      rw [hr] at h
      have hnext : content[p + 1]? = rest[0]? := by
        have : (content.drop p)[1]? = rest[0]? := by rw [hd]; rfl
        rw [List.getElem?_drop] at this
        exact this
      rw [hnext]
      have h := h.2
      simp only [List.drop_succ_cons, List.drop_zero] at h
      cases rest with
      | nil => exact .inl rfl
      | cons x xs =>
        simp only [Bool.or_eq_true, beq_iff_eq] at h
        rcases h with h | h
        · subst h; exact .inr (.inl rfl)
        · subst h; exact .inr (.inr rfl)

theorem linkEnd_good {content : Bytes} {u : Nat} (h : u + 4 < content.length) : GoodEnd content (linkEnd content u) := by
  obtain ⟨h1, h2⟩ := urlEnd_spec (content.length + 1) (content.drop (u + 4)) (by simp; omega)
  rw [List.length_drop] at h1
  unfold linkEnd
  rw [List.drop_drop] at h2
  exact urlStop_good (by omega) h2

theorem codeEnd_good (content : Bytes) (u : Nat) : codeEnd content u ≤ content.length ∧ ∀ c, content[codeEnd content u]? = some c → isWord c = false := by
  unfold codeEnd
  split
  · next m hm =>
    obtain ⟨⟨c, hc, hq⟩, -⟩ := findByte_spec hm
    rw [List.getElem?_drop] at hc
    have := (List.getElem?_eq_some_iff.1 hc).1
    refine ⟨by omega, ?_⟩
    intro d hd
    rw [hc] at hd
    injection hd with hd
    subst hd
    simpa using hq
  · exact ⟨Nat.le_refl _, fun c hc => by rw [List.getElem?_eq_none (Nat.le_refl _)] at hc; cases hc⟩

/-- A code that starts with a space or a line break is refused. -/
theorem decode_space (c : UInt8) (rest : Bytes) (h : c < 33) : Nip19.decode (c :: rest) = .err () := by
  have : Nip19.bechDecode (c :: rest) = .err () := by
    unfold Nip19.bechDecode
    split
    · rfl
    · rw [if_pos]
      simp [h]
  unfold Nip19.decode
  rw [this]
  rfl

/-- What is asked of `url.Parse` (net/url): in a text that starts with a scheme and its colon, a host is only found after `//`. -/
def HostContract (hostDot : Bytes → Bool) : Prop := ∀ w ∈ schemes, ∀ rest, hostDot (w ++ 58 :: rest) = true → ∃ more, rest = b! "//" ++ more

/-- A block starts after the end of the one before. -/
theorem block_after {hostDot : Bytes → Bool} (hh : HostContract hostDot) {content : Bytes} {index prev s e : Nat} {ptr : Ptr} (hi : prev ≤ index) (hg : GoodEnd content prev ∨ prev = 0)
    (h : look hostDot content index = .block s e ptr) : prev ≤ s := by
  obtain ⟨u, w, h1, h2, h3, h4, h5, h6⟩ := look_block h
  obtain ⟨hw1, hw2⟩ := schemes_word w h3
  have hwl := before_len h4
  have hwpos : 0 < w.length := List.length_pos_iff.2 hw1
  rcases hg with hg | hg
  · by_cases hs : prev ≤ s
    · exact hs
    · exfalso
      by_cases hpu : prev = u
      · subst hpu
        have hn := (hg.2 58 h2).2 rfl
        have hlen : prev < content.length := (List.getElem?_eq_some_iff.1 h2).1
        rcases h6 with ⟨hl, he, -, pre, v, hr, -, -⟩ | ⟨hl, -, he, hr, -⟩
        · have hn1 : ∃ c, content[prev + 1]? = some c ∧ c < 33 := by
            rcases hn with hn | hn | hn
            · rw [List.getElem?_eq_none_iff] at hn; omega
            · exact ⟨_, hn, by decide⟩
            · exact ⟨_, hn, by decide⟩
          obtain ⟨c, hc, hlt⟩ := hn1
          have hce := codeEnd_le hl
          have : (content.drop (prev + 1)).take (e - (prev + 1)) = c :: (content.drop (prev + 2)).take (e - (prev + 2)) := by
            obtain ⟨hlt2, hce2⟩ := List.getElem?_eq_some_iff.1 hc
            rw [List.drop_eq_getElem_cons hlt2, hce2]
            obtain ⟨k, hk⟩ : ∃ k, e - (prev + 1) = k + 1 := ⟨e - (prev + 2), by omega⟩
            rw [hk, List.take_succ_cons]
            congr 2
            omega
          rw [this, decode_space c _ hlt] at hr
          cases hr
        · have he4 : prev + 4 ≤ e := by rw [he]; unfold linkEnd; omega
          have hsplit : (content.drop (prev - w.length)).take (e - (prev - w.length)) = w ++ 58 :: ((content.drop (prev + 1)).take (e - (prev + 1))) := by
            have hw : (content.drop (prev - w.length)).take w.length = w := by
              unfold before at h4
              simp only [Bool.and_eq_true, decide_eq_true_eq, beq_iff_eq] at h4
              exact h4.2
            have : e - (prev - w.length) = w.length + (e - prev) := by omega
            rw [this, List.take_add, hw, List.drop_drop, show prev - w.length + w.length = prev by omega]
            congr 1
            obtain ⟨hlt2, hce2⟩ := List.getElem?_eq_some_iff.1 h2
            rw [List.drop_eq_getElem_cons hlt2, hce2]
            obtain ⟨k, hk⟩ : ∃ k, e - prev = k + 1 := ⟨e - (prev + 1), by omega⟩
            rw [hk, List.take_succ_cons]
            congr 2
            omega
          rw [hsplit] at hr
          obtain ⟨more, this⟩ := hh w h3 _ hr
          have h47 : content[prev + 1]? = some 47 := by
            have h0 : ((content.drop (prev + 1)).take (e - (prev + 1)))[0]? = some 47 := by rw [this]; rfl
            rw [List.getElem?_take, if_pos (by omega), List.getElem?_drop] at h0
            exact h0
          rw [h47] at hn
          rcases hn with hn | hn | hn <;> cases hn
      · have hlen : prev < content.length := by
          have := (List.getElem?_eq_some_iff.1 h2).1
          omega
        obtain ⟨i, hi2, hi3⟩ : ∃ i, i < w.length ∧ u - w.length + i = prev := ⟨prev - (u - w.length), by omega, by omega⟩
        have hb := before_at h4 hi2
        rw [hi3, List.getElem?_eq_getElem hlen, List.getElem?_eq_getElem hi2] at hb
        injection hb with hb
        have := (hg.2 _ (List.getElem?_eq_getElem hlen)).1
        rw [hb, hw2 _ (List.getElem_mem hi2)] at this
        cases this
  · omega

theorem loop_val {hostDot : Bytes → Bool} (hh : HostContract hostDot) {content : Bytes}
    (hpanic : ∀ a b, Nip19.decode ((content.drop a).take b) ≠ .panic)
    (hcolon : ∀ a b r, Nip19.decode ((content.drop a).take b) = .ok r → content[a + b]? ≠ some 58) :
    ∀ (n index prev : Nat), prev ≤ index → prev ≤ content.length → (GoodEnd content prev ∨ prev = 0) → ∃ bs, loop hostDot content n index prev = .val bs
  | 0, _, prev, _, hp, _ => finish_val hp
  | n + 1, index, prev, hi, hp, hg => by
    unfold loop
    have ha := look_advances hostDot content index
    cases hl : look hostDot content index with
    | stop => exact finish_val hp
    | skip i =>
      rw [hl] at ha
      simp only [Found.Advances] at ha
      exact loop_val hh hpanic hcolon n i prev (by omega) hp hg
    | panic =>
      exfalso
      unfold look at hl
      split at hl
      · split at hl
        · cases hl
        · have link : ∀ u len, lookLink hostDot content u len ≠ .panic := by
            intro u len
            unfold lookLink
            simp only
            split <;> simp
          simp only at hl
          split at hl
          · unfold lookCode at hl
            split at hl
            · next hd => exact hpanic _ _ hd
            · cases hl
            · split at hl <;> cases hl
          · split at hl
            · exact link _ _ hl
            · split at hl
              · exact link _ _ hl
              · cases hl
      · cases hl
    | block s e ptr =>
      have hps := block_after hh hi hg hl
      rw [hl] at ha
      have hge : GoodEnd content e := by
        obtain ⟨u, w, h1, h2, h3, h4, h5, h6⟩ := look_block hl
        rcases h6 with ⟨hl, he, -, pre, v, hr, -, -⟩ | ⟨hl, -, he, hr, -⟩
        · obtain ⟨c1, c2⟩ := codeEnd_good content u
          have := hcolon _ _ _ hr
          have hce := codeEnd_le hl
          rw [show u + 1 + (e - (u + 1)) = e by omega] at this
          rw [he] at this ⊢
          exact ⟨c1, fun c hc => ⟨c2 c hc, fun h58 => absurd (h58 ▸ hc) this⟩⟩
        · rw [he]
          exact linkEnd_good hl
      obtain ⟨rest, hr⟩ := loop_val hh hpanic hcolon n e e (Nat.le_refl _) hge.1 (.inl hge)
      simp only [Found.Advances] at ha
      have hem : ∃ bs, emit content prev s e ptr = .val bs := by
        unfold emit textBefore
        rw [goSlice_nat (by omega) hge.1]
        split
        · rw [goSlice_nat hps (by have := hge.1; omega)]
          exact ⟨_, rfl⟩
        · exact ⟨_, rfl⟩
      obtain ⟨bs, hb⟩ := hem
      refine ⟨bs ++ rest, ?_⟩
      simp only
      rw [hb, hr]
      rfl

/-- **C90 (no panic), part.** `Parse` comes to its end, with blocks that tile the text, unless the text contains a valid code that is directly followed by a colon, or one whose decoding panics (C54). -/
theorem C90_no_panic_partial (hostDot : Bytes → Bool) (hh : HostContract hostDot) (content : Bytes)
    (hpanic : ∀ a b, Nip19.decode ((content.drop a).take b) ≠ .panic)
    (hcolon : ∀ a b r, Nip19.decode ((content.drop a).take b) = .ok r → content[a + b]? ≠ some 58) :
    ∃ blocks, parse hostDot content = .val blocks ∧ Tiles content blocks := by
  obtain ⟨bs, h⟩ := loop_val hh hpanic hcolon (content.length + 1) 0 0 (Nat.le_refl _) (Nat.zero_le _) (.inr rfl)
  exact ⟨bs, h, C90_tiles_partial hostDot content bs h⟩

theorem lastOne_none : ∀ {s : Bytes}, (49 : UInt8) ∉ s → Nip19.lastOne s = none
  | [], _ => rfl
  | c :: s, h => by
    unfold Nip19.lastOne
    rw [lastOne_none (fun hm => h (List.mem_cons_of_mem _ hm))]
    simp only
    rw [if_neg]
    rintro rfl
    exact h List.mem_cons_self

theorem lowerByte_one (c : UInt8) (h : Nip19.lowerByte c = 49) : c = 49 := by
  have key : ∀ c : UInt8, Nip19.lowerByte c = 49 → c = 49 := by decide +kernel
  exact key c h

/-- A text without the separator `1` is no code. -/
theorem noOne_bech {code : Bytes} (h : (49 : UInt8) ∉ code) : Nip19.bechDecode code = .err () := by
  have : (49 : UInt8) ∉ code.map Nip19.lowerByte := by
    intro hm
    obtain ⟨c, hc, he⟩ := List.mem_map.1 hm
    rw [lowerByte_one c he] at hc
    exact h hc
  unfold Nip19.bechDecode
  split
  · rfl
  · split
    · rfl
    · split
      · rfl
      · simp only [lastOne_none this]

theorem noOne_decode (code : Bytes) (h : (49 : UInt8) ∉ code) : Nip19.decode code ≠ .panic := by
  unfold Nip19.decode
  rw [noOne_bech h]
  intro hh
  cases hh

theorem noOne_decode_ok (code : Bytes) (r : Bytes × Nip19.Value) (h : (49 : UInt8) ∉ code) : Nip19.decode code ≠ .ok r := by
  unfold Nip19.decode
  rw [noOne_bech h]
  intro hh
  cases hh

/-- A public key code that happens to end in `ws`, as one in a thousand does. -/
def wsCode : Bytes := b! "npub180cvv07tjdrrgpa0j7j7tmnyl2yr6yr7l8j4s3evf6u64th6qv7q0qcews"

/-- **C90 is false.** A `nostr:` code directly followed by `://` makes the code's own last letters the scheme of a link that starts inside the block before it: slicing backwards panics. -/
theorem C90_panics : parse (fun t => t == b! "ws://a.b") (b! "nostr:" ++ wsCode ++ b! "://a.b") = .panic := by decide +kernel

example : parse (fun t => t == b! "https://x.com/y" || t == b! "wss://r.io") (b! "see https://x.com/y, nostr:" ++ wsCode ++ b! " and wss://r.io!") =
    .val [⟨b! "see ", 0, none⟩, ⟨b! "https://x.com/y", 4, some (.external (b! "https://x.com/y"))⟩, ⟨b! ", ", 19, none⟩,
      ⟨b! "nostr:" ++ wsCode, 21, some (.nostr (.str (b! "3bf0c63fcb93463407af97a5e5ee64fa883d107ef9e558472c4eb9aaaefa033c")))⟩, ⟨b! " and ", 90, none⟩,
      ⟨b! "wss://r.io", 95, some (.external (b! "wss://r.io"))⟩, ⟨b! "!", 105, none⟩] := by decide +kernel

/-- Short texts contain no code at all, so the hypotheses of `C90_no_panic_partial` are met by every link. -/
example : ∃ blocks, parse (fun t => t == b! "ws://a.b") (b! "ws://a.b ws: //a.b") = .val blocks ∧ Tiles (b! "ws://a.b ws: //a.b") blocks := by
  refine C90_no_panic_partial _ ?_ _ ?_ ?_
  · intro w hw rest ht
    have ht : w ++ 58 :: rest = b! "ws://a.b" := by simpa using ht
    simp only [schemes, List.mem_cons, List.not_mem_nil, or_false] at hw
    rcases hw with rfl | rfl | rfl | rfl | rfl
    · cases ht
    · cases ht
    · cases ht
    · cases ht
    · exact ⟨b! "a.b", by simpa using ht⟩
  · intro a b h
    have key : ∀ code : Bytes, (49 : UInt8) ∉ code → Nip19.decode code ≠ .panic := noOne_decode
    exact key _ (fun hm => absurd (List.mem_of_mem_drop (List.mem_of_mem_take hm)) (by decide +kernel)) h
  · intro a b r h
    have key : ∀ (code : Bytes) r, (49 : UInt8) ∉ code → Nip19.decode code ≠ .ok r := noOne_decode_ok
    exact absurd h (key _ r (fun hm => absurd (List.mem_of_mem_drop (List.mem_of_mem_take hm)) (by decide +kernel)))

end GoNostr.Blocks
