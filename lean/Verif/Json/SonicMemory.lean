import Verif.Json.Sonic
import Mathlib.Data.List.Induction
/-!
# C127: the memory of the messages the `sonic` build reads

`envelopes_sonic.go`: the lists of a message are not allocated one by one but cut from large arrays that the parser keeps "to be reused many times". `ParseMessage` has the parser as a value, so what
it notes about the parts of the arrays that are in use is forgotten when it returns.

Modelled: the arrays of strings and of tags, as blocks of memory with Go's slices and `append`. The arrays of numbers and of filters are used in the same way and are not modelled.
-/

set_option autoImplicit false

namespace GoNostr.Json.SonicMemory

/-- Memory: blocks of cells, of which those below `next` have been allocated. -/
structure Mem (α : Type) where
  cell : Nat → Nat → α
  next : Nat

/-- A Go slice: where it begins, how long it is, how far it may grow in place. -/
structure Slice where
  block : Nat
  off : Nat
  len : Nat
  cap : Nat
  deriving DecidableEq

variable {α : Type}

/-- The elements of a slice. -/
def Mem.read (m : Mem α) (s : Slice) : List α := (List.range s.len).map (fun i => m.cell s.block (s.off + i))

/-- `make([]T, 0, size)`; new cells hold some value. -/
def Mem.make (m : Mem α) (size : Nat) : Mem α × Slice := ({ m with next := m.next + 1 }, ⟨m.next, 0, 0, size⟩)

/-- Go's `append` of one element: in place if the capacity allows, otherwise into a new block with a copy. How large the new block is (`grow`) is up to the runtime. -/
def Mem.append (grow : Nat → Nat) (m : Mem α) (s : Slice) (x : α) : Mem α × Slice :=
  if s.len < s.cap then
    ({ m with cell := fun b i => if b = s.block ∧ i = s.off + s.len then x else m.cell b i }, { s with len := s.len + 1 })
  else
    ({ cell := fun b i => if b = m.next then (if i < s.len then m.cell s.block (s.off + i) else x) else m.cell b i, next := m.next + 1 }, ⟨m.next, 0, s.len + 1, grow s.len⟩)

/-- The appends in the visitor's methods, one element after the other (envelopes_sonic.go:201, 399, 401, 406, 422). -/
def Mem.appendAll (grow : Nat → Nat) (m : Mem α) (s : Slice) (l : List α) : Mem α × Slice := l.foldl (fun p x => p.1.append grow p.2 x) (m, s)

/-- `doneWithStringSlice` and `doneWithTagSlice` (envelopes_sonic.go:517-537): the reusable array is what remains after the slice, if the slice begins where the array does; it is replaced when little remains. -/
def done (m : Mem α) (free s : Slice) (low size : Nat) : Mem α × Slice :=
  let free := if s.block = free.block ∧ s.off = free.off then ⟨s.block, s.off + s.len, 0, s.cap - s.len⟩ else free
  if free.cap < low then m.make size else (m, free)

/-- The lists of strings of a message, one after the other: the tags of an event, or the `ids`, `authors` and tag conditions of filters (envelopes_sonic.go:142-206, 269-288). -/
def lists (grow : Nat → Nat) : Mem Bytes → Slice → List (List Bytes) → Mem Bytes × Slice × List Slice
  | m, free, [] => (m, free, [])
  | m, free, t :: ts =>
    let (m, c) := m.appendAll grow free t
    let (m, free) := done m free c 15 10000
    let (m, free, cs) := lists grow m free ts
    (m, free, c :: cs)

/-- All of the memory. -/
structure Heap where
  strs : Mem Bytes
  tags : Mem Slice

/-- `sonicMessageParser` (envelopes_sonic.go:486-491), strings and tags only. -/
structure Parser where
  strs : Slice
  tags : Slice

/-- `NewMessageParser` (envelopes_sonic.go:495-502) -/
def newParser (h : Heap) : Heap × Parser :=
  let (s, fs) := h.strs.make 10000
  let (t, ft) := h.tags.make 10000
  (⟨s, t⟩, ⟨fs, ft⟩)

/-- `ParseMessage` (envelopes_sonic.go:557-564) on a message with an event with the tags `ts`: the memory afterwards, and `Tags` of the event. The parser is a value and remains what it was. The tags are
appended to their own array; that this happens in turn with the strings makes no difference. -/
def parseEvent (grow : Nat → Nat) (p : Parser) (h : Heap) (ts : List (List Bytes)) : Heap × Slice :=
  let (m, _, cs) := lists grow h.strs p.strs ts
  let (t, T) := h.tags.appendAll grow p.tags cs
  (⟨m, t⟩, T)

/-- The tags of an event, as one who holds the event sees them. -/
def Heap.tagsOf (h : Heap) (T : Slice) : List (List Bytes) := (h.tags.read T).map h.strs.read

/-! ## Lemmas -/

/-- A reusable array: empty, allocated. -/
def Free (m : Mem α) (f : Slice) : Prop := f.len = 0 ∧ f.block < m.next

/-- A slice that was there before and does not reach into the array. -/
def Owned (n : Nat) (f s : Slice) : Prop := s.block < n ∧ (s.block ≠ f.block ∨ s.off + s.len ≤ f.off)

/-- A slice being built on the array `f` since the memory had `n` blocks. -/
def Cur (n : Nat) (f : Slice) (m : Mem α) (c : Slice) : Prop :=
  n ≤ m.next ∧ c.block < m.next ∧ ((c = { f with len := c.len } ∧ c.len ≤ f.cap) ∨ (n ≤ c.block ∧ c.len ≤ c.cap))

theorem read_congr {m m' : Mem α} {s : Slice} (h : ∀ i, i < s.len → m'.cell s.block (s.off + i) = m.cell s.block (s.off + i)) : m'.read s = m.read s := by
  unfold Mem.read
  exact List.map_congr_left (fun i hi => h i (List.mem_range.1 hi))

theorem append_spec {grow : Nat → Nat} (hg : ∀ n, n < grow n) {n : Nat} {f c : Slice} {m : Mem α} (hc : Cur n f m c) (x : α) :
    Cur n f (m.append grow c x).1 (m.append grow c x).2 ∧ (m.append grow c x).1.read (m.append grow c x).2 = m.read c ++ [x] ∧
    (∀ s, Owned n f s → (m.append grow c x).1.read s = m.read s) := by
  obtain ⟨h1, h2, h3⟩ := hc
  unfold Mem.append
  split
  · next hlt =>
    refine ⟨⟨h1, h2, ?_⟩, ?_, ?_⟩
    · rcases h3 with ⟨h3, h4⟩ | ⟨h3, h4⟩
      · left
        have : c.cap = f.cap := by rw [h3]
        exact ⟨by rw [h3], by simp only; omega⟩
      · right; exact ⟨h3, by simp only; omega⟩
    · simp only [Mem.read, List.range_succ, List.map_append, List.map_cons, List.map_nil]
      congr 1
      · apply List.map_congr_left
        intro i hi
        have := List.mem_range.1 hi
        rw [if_neg (by omega)]
    · intro s hs
      refine read_congr (fun i hi => ?_)
      simp only
      rw [if_neg]
      rintro ⟨hb, he⟩
      obtain ⟨o1, o2⟩ := hs
      rcases h3 with ⟨h3, _⟩ | ⟨h3, _⟩
      · have e1 : c.block = f.block := by rw [h3]
        have e2 : c.off = f.off := by rw [h3]
        rcases o2 with o2 | o2
        · exact o2 (by omega)
        · omega
      · omega
  · next hlt =>
    refine ⟨⟨by simp only; omega, by simp only; omega, .inr ⟨h1, ?_⟩⟩, ?_, ?_⟩
    · have := hg c.len
      simp only; omega
    · simp only [Mem.read, List.range_succ, List.map_append, List.map_cons, List.map_nil]
      congr 1
      · apply List.map_congr_left
        intro i hi
        have := List.mem_range.1 hi
        simp [this]
      · simp
    · intro s hs
      refine read_congr (fun i hi => ?_)
      have := hs.1
      simp only
      rw [if_neg (by omega)]

theorem appendAll_snoc (grow : Nat → Nat) (m : Mem α) (s : Slice) (l : List α) (x : α) :
    m.appendAll grow s (l ++ [x]) = ((m.appendAll grow s l).1.append grow (m.appendAll grow s l).2 x) := by
  simp [Mem.appendAll, List.foldl_append]

theorem appendAll_spec {grow : Nat → Nat} (hg : ∀ n, n < grow n) {m : Mem α} {f : Slice} (hf : Free m f) (l : List α) :
    Cur m.next f (m.appendAll grow f l).1 (m.appendAll grow f l).2 ∧ (m.appendAll grow f l).1.read (m.appendAll grow f l).2 = l ∧
    (∀ s, Owned m.next f s → (m.appendAll grow f l).1.read s = m.read s) := by
  induction l using List.reverseRecOn with
  | nil =>
    refine ⟨⟨Nat.le_refl _, hf.2, .inl ⟨?_, ?_⟩⟩, ?_, fun s _ => rfl⟩
    · rfl
    · simp [Mem.appendAll, hf.1]
    · simp [Mem.appendAll, Mem.read, hf.1]
  | append_singleton l x ih =>
    rw [appendAll_snoc]
    obtain ⟨i1, i2, i3⟩ := ih
    obtain ⟨a1, a2, a3⟩ := append_spec hg i1 x
    exact ⟨a1, by rw [a2, i2], fun s hs => by rw [a3 s hs, i3 s hs]⟩

/-- While the capacity lasts nothing moves. -/
theorem appendAll_inPlace (grow : Nat → Nat) {m : Mem α} {f : Slice} (hf : Free m f) (l : List α) (h : l.length ≤ f.cap) :
    (m.appendAll grow f l).2 = { f with len := l.length } ∧ (m.appendAll grow f l).1.next = m.next := by
  induction l using List.reverseRecOn with
  | nil => simp [Mem.appendAll, ← hf.1]
  | append_singleton l x ih =>
    simp only [List.length_append, List.length_cons, List.length_nil] at h
    obtain ⟨i1, i2⟩ := ih (by omega)
    rw [appendAll_snoc]
    unfold Mem.append
    rw [i1]
    simp only
    rw [if_pos (by omega)]
    simp [i2]

theorem done_spec {n : Nat} {m : Mem α} {f c : Slice} (low size : Nat) (hf : f.len = 0 ∧ f.block < n) (hc : Cur n f m c) :
    Free (done m f c low size).1 (done m f c low size).2 ∧ (done m f c low size).1.cell = m.cell ∧ m.next ≤ (done m f c low size).1.next ∧
    Owned (done m f c low size).1.next (done m f c low size).2 c ∧
    (∀ s, Owned n f s → Owned (done m f c low size).1.next (done m f c low size).2 s) := by
  obtain ⟨h1, h2, h3⟩ := hc
  have hb : (if c.block = f.block ∧ c.off = f.off then (⟨c.block, c.off + c.len, 0, c.cap - c.len⟩ : Slice) else f).block = f.block := by
    split
    · next h => exact h.1
    · rfl
  have hl : (if c.block = f.block ∧ c.off = f.off then (⟨c.block, c.off + c.len, 0, c.cap - c.len⟩ : Slice) else f).len = 0 := by
    split
    · rfl
    · exact hf.1
  have ho : f.off ≤ (if c.block = f.block ∧ c.off = f.off then (⟨c.block, c.off + c.len, 0, c.cap - c.len⟩ : Slice) else f).off := by
    split
    · next h => simp only; omega
    · exact Nat.le_refl _
  have hoc : c.block ≠ f.block ∨ c.off + c.len ≤ (if c.block = f.block ∧ c.off = f.off then (⟨c.block, c.off + c.len, 0, c.cap - c.len⟩ : Slice) else f).off := by
    rcases h3 with ⟨h3, _⟩ | ⟨h3, _⟩
    · right
      have e1 : c.block = f.block := by rw [h3]
      have e2 : c.off = f.off := by rw [h3]
      rw [if_pos ⟨e1, e2⟩]
      exact Nat.le_refl _
    · left; omega
  unfold done
  generalize (if c.block = f.block ∧ c.off = f.off then (⟨c.block, c.off + c.len, 0, c.cap - c.len⟩ : Slice) else f) = g at *
  simp only
  split
  · refine ⟨⟨rfl, Nat.lt_succ_self _⟩, rfl, Nat.le_succ _, ⟨Nat.lt_succ_of_lt h2, .inl (Nat.ne_of_lt h2)⟩, ?_⟩
    intro s hs
    have hb' : s.block < m.next := Nat.lt_of_lt_of_le hs.1 h1
    exact ⟨Nat.lt_succ_of_lt hb', .inl (Nat.ne_of_lt hb')⟩
  · refine ⟨⟨hl, by show g.block < m.next; omega⟩, rfl, Nat.le_refl _, ⟨h2, by show c.block ≠ g.block ∨ _; rw [hb]; exact hoc⟩, ?_⟩
    intro s hs
    obtain ⟨o1, o2⟩ := hs
    refine ⟨Nat.lt_of_lt_of_le o1 h1, ?_⟩
    show s.block ≠ g.block ∨ _
    rw [hb]
    exact o2.imp id (fun h => Nat.le_trans h ho)

theorem lists_spec {grow : Nat → Nat} (hg : ∀ n, n < grow n) : ∀ (ts : List (List Bytes)) (m : Mem Bytes) (f : Slice), Free m f →
    (lists grow m f ts).2.2.map (lists grow m f ts).1.read = ts ∧ (∀ s, Owned m.next f s → (lists grow m f ts).1.read s = m.read s) ∧ m.next ≤ (lists grow m f ts).1.next
  | [], m, f, _ => ⟨rfl, fun _ _ => rfl, Nat.le_refl _⟩
  | t :: ts, m, f, hf => by
    obtain ⟨a1, a2, a3⟩ := appendAll_spec hg hf t
    obtain ⟨d1, d2, d3, d4, d5⟩ := done_spec 15 10000 hf a1
    obtain ⟨i1, i2, i3⟩ := lists_spec hg ts _ _ d1
    simp only [lists]
    have hrd : ∀ s, (done (m.appendAll grow f t).1 f (m.appendAll grow f t).2 15 10000).1.read s = (m.appendAll grow f t).1.read s := fun s => read_congr (fun i _ => by rw [d2])
    refine ⟨?_, ?_, ?_⟩
    · simp only [List.map_cons]
      rw [i1, i2 _ d4, hrd, a2]
    · intro s hs
      rw [i2 _ (d5 s hs), hrd, a3 s hs]
    · have := a1.1
      omega

/-! ## C127 -/

/-- **C127.** Right after a message has been parsed its tags are those of the message, whatever their number and size, and whatever was parsed before. -/
theorem C127_read_now {grow : Nat → Nat} (hg : ∀ n, n < grow n) (p : Parser) (h : Heap) (hs : Free h.strs p.strs) (ht : Free h.tags p.tags) (ts : List (List Bytes)) :
    (parseEvent grow p h ts).1.tagsOf (parseEvent grow p h ts).2 = ts := by
  obtain ⟨l1, -, -⟩ := lists_spec hg ts h.strs p.strs hs
  obtain ⟨-, a2, -⟩ := appendAll_spec hg ht (lists grow h.strs p.strs ts).2.2
  simp only [parseEvent, Heap.tagsOf]
  rw [a2, l1]

/-- The parser stays usable. -/
theorem C127_usable {grow : Nat → Nat} (hg : ∀ n, n < grow n) (p : Parser) (h : Heap) (hs : Free h.strs p.strs) (ht : Free h.tags p.tags) (ts : List (List Bytes)) :
    Free (parseEvent grow p h ts).1.strs p.strs ∧ Free (parseEvent grow p h ts).1.tags p.tags := by
  obtain ⟨-, -, l3⟩ := lists_spec hg ts h.strs p.strs hs
  obtain ⟨a1, -, -⟩ := appendAll_spec hg ht (lists grow h.strs p.strs ts).2.2
  have := a1.1
  have := hs.2
  have := ht.2
  exact ⟨⟨hs.1, by simp only [parseEvent]; omega⟩, ⟨ht.1, Nat.lt_of_lt_of_le ht.2 a1.1⟩⟩

/-- A call leaves alone everything that lies outside the arrays of its parser, such as the events another parser has read. -/
theorem C127_others_untouched {grow : Nat → Nat} (hg : ∀ n, n < grow n) (p : Parser) (h : Heap) (hs : Free h.strs p.strs) (ht : Free h.tags p.tags) (ts : List (List Bytes)) (T : Slice)
    (hT : Owned h.tags.next p.tags T) (hc : ∀ c ∈ h.tags.read T, Owned h.strs.next p.strs c) : (parseEvent grow p h ts).1.tagsOf T = h.tagsOf T := by
  obtain ⟨-, l2, -⟩ := lists_spec hg ts h.strs p.strs hs
  obtain ⟨-, -, a3⟩ := appendAll_spec hg ht (lists grow h.strs p.strs ts).2.2
  simp only [parseEvent, Heap.tagsOf]
  rw [a3 T hT]
  exact List.map_congr_left (fun c hm => l2 c (hc c hm))

/-- **C127 is false across messages.** An event that was parsed shows, as soon as the same parser has parsed another one, the other's tags in the place of its own, for all events of up to ten thousand
tags. -/
theorem C127_next_message {grow : Nat → Nat} (hg : ∀ n, n < grow n) (p : Parser) (h : Heap) (hs : Free h.strs p.strs) (ht : Free h.tags p.tags) (ts ts' : List (List Bytes))
    (h1 : ts.length ≤ p.tags.cap) (h2 : ts'.length ≤ p.tags.cap) :
    let first := parseEvent grow p h ts
    let second := parseEvent grow p first.1 ts'
    (second.1.tagsOf first.2).take ts'.length = ts'.take ts.length := by
  intro first second
  have hlen : ∀ (ts : List (List Bytes)) (m : Mem Bytes) (f : Slice), (lists grow m f ts).2.2.length = ts.length := by
    intro ts
    induction ts with
    | nil => intro m f; rfl
    | cons t ts ih => intro m f; simp only [lists, List.length_cons, ih]
  obtain ⟨u1, u2⟩ := C127_usable hg p h hs ht ts
  have e1 : first.2 = { p.tags with len := ts.length } := by
    have := (appendAll_inPlace grow ht (lists grow h.strs p.strs ts).2.2 (by rw [hlen]; exact h1)).1
    rw [hlen] at this
    exact this
  have e2 : second.2 = { p.tags with len := ts'.length } := by
    have := (appendAll_inPlace grow u2 (lists grow first.1.strs p.strs ts').2.2 (by rw [hlen]; exact h2)).1
    rw [hlen] at this
    exact this
  have hn : second.1.tagsOf second.2 = ts' := C127_read_now hg p first.1 u1 u2 ts'
  rw [e2] at hn
  rw [e1]
  rw [← hn]
  simp only [Heap.tagsOf, Mem.read, List.map_map, ← List.map_take, List.take_range, List.length_map, List.length_range]
  rw [Nat.min_comm]

/-- So two events of the same number of tags are the same event after the second was parsed. -/
theorem C127_same_number {grow : Nat → Nat} (hg : ∀ n, n < grow n) (p : Parser) (h : Heap) (hs : Free h.strs p.strs) (ht : Free h.tags p.tags) (ts ts' : List (List Bytes))
    (h1 : ts.length ≤ p.tags.cap) (he : ts'.length = ts.length) :
    let first := parseEvent grow p h ts
    let second := parseEvent grow p first.1 ts'
    second.1.tagsOf first.2 = ts' := by
  intro first second
  have this : (second.1.tagsOf first.2).take ts'.length = ts'.take ts.length := C127_next_message hg p h hs ht ts ts' h1 (by omega)
  have hl : (second.1.tagsOf first.2).length = ts.length := by
    have hlen : ∀ (ts : List (List Bytes)) (m : Mem Bytes) (f : Slice), (lists grow m f ts).2.2.length = ts.length := by
      intro ts
      induction ts with
      | nil => intro m f; rfl
      | cons t ts ih => intro m f; simp only [lists, List.length_cons, ih]
    have e1 := (appendAll_inPlace grow ht (lists grow h.strs p.strs ts).2.2 (by rw [hlen]; exact h1)).1
    have e1' : first.2 = { p.tags with len := ts.length } := by
      rw [hlen] at e1
      exact e1
    simp [Heap.tagsOf, Mem.read, e1']
  rw [List.take_of_length_le (by omega), List.take_of_length_le (by omega)] at this
  exact this

/-- A new parser meets the hypotheses, with room for ten thousand tags. -/
theorem C127_new_parser (h : Heap) : Free (newParser h).1.strs (newParser h).2.strs ∧ Free (newParser h).1.tags (newParser h).2.tags ∧ (newParser h).2.tags.cap = 10000 :=
  ⟨⟨rfl, Nat.lt_succ_self _⟩, ⟨rfl, Nat.lt_succ_self _⟩, rfl⟩

/-! ## Examples -/

/-- A value of the examples. -/
def emptyHeap : Heap := ⟨⟨fun _ _ => [], 0⟩, ⟨fun _ _ => ⟨0, 0, 0, 0⟩, 0⟩⟩

example : let (h, p) := newParser emptyHeap
    let first := parseEvent (fun n => 2 * n + 1) p h [[b! "e", b! "1"], [b! "p", b! "alice"]]
    let second := parseEvent (fun n => 2 * n + 1) p first.1 [[b! "p", b! "bob", b! "x"]]
    first.1.tagsOf first.2 = [[b! "e", b! "1"], [b! "p", b! "alice"]] ∧ second.1.tagsOf first.2 = [[b! "p", b! "bob", b! "x"], [b! "x", b! "alice"]] := by decide +kernel

end GoNostr.Json.SonicMemory
