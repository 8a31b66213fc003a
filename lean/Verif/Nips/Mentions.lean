import Verif.Nips.Blocks
import Verif.Misc.Pointers
import Verif.Tags.Theorems
/-!
# C137, C138: tagging what a note mentions (sdk/note.go), and the older search for mentions (nip27/references.go)

`PrepareNoteEvent` goes through the blocks of the content (`Blocks.parse`, C90 and C98) and appends tags. `ParseReferences` finds mentions with a regular expression, written out here.
-/

set_option autoImplicit false

namespace GoNostr.Mentions

open Nip19 (ProfilePointer EventPointer EntityPointer Value)
open Blocks (isWord)
open Ptr (profileAsTag eventAsTag entityAsTag entityReference)

/-! ## PrepareNoteEvent -/

/-- What is looked up, and the tag to be added, for each kind of pointer (note.go:25-41); the text of an `npub` makes a profile pointer without relays. -/
def plan : Value → Bytes × Bytes × Tag
  | .str pk => (b! "b", pk, profileAsTag { publicKey := pk })
  | .profile p => (b! "b", p.publicKey, profileAsTag p)
  | .event p => (b! "q", p.id, eventAsTag p)
  | .entity p => (b! "q", entityReference p, entityAsTag p)

/-- The body of the loop (note.go:21-42). -/
def noteStep (tags : Tags) (b : Blocks.Block) : Tags := match b.ptr with
  | some (.nostr v) =>
    let (key, ref, tag) := plan v
    if (Tags.findWithValue key ref tags).isNone then tags ++ [tag] else tags
  | _ => tags

/-- `PrepareNoteEvent` (note.go:11-43). -/
def prepare (hostDot : Bytes → Bool) (e : Event) : Out Event := match Blocks.parse hostDot e.content with
  | .panic => .panic
  | .val bs => .val { e with tags := bs.foldl noteStep e.tags }

/-- The tags one block adds, judged by the tags there were at the beginning. -/
def added (tags : Tags) (b : Blocks.Block) : Option Tag := match b.ptr with
  | some (.nostr v) => if (Tags.findWithValue (plan v).1 (plan v).2.1 tags).isNone then some (plan v).2.2 else none
  | _ => none

/-! ### Specification -/

/-- The tag a mention calls for: its name, and the reference in second place. -/
def Tagged (tags : Tags) : Value → Prop
  | .str pk => ∃ rest, (b! "p" :: pk :: rest) ∈ tags
  | .profile p => ∃ rest, (b! "p" :: p.publicKey :: rest) ∈ tags
  | .event p => ∃ rest, (b! "e" :: p.id :: rest) ∈ tags
  | .entity p => ∃ rest, (b! "a" :: entityReference p :: rest) ∈ tags

/-- A profile with a "b" tag, or anything else with a quote ("q") tag. -/
def Excused (tags : Tags) : Value → Prop
  | .str pk => ∃ rest, (b! "b" :: pk :: rest) ∈ tags
  | .profile p => ∃ rest, (b! "b" :: p.publicKey :: rest) ∈ tags
  | .event p => ∃ rest, (b! "q" :: p.id :: rest) ∈ tags
  | .entity p => ∃ rest, (b! "q" :: entityReference p :: rest) ∈ tags

theorem eventAsTag_form (p : EventPointer) : ∃ rest, eventAsTag p = b! "e" :: p.id :: rest := by
  unfold eventAsTag
  split
  · split
    · exact ⟨_, rfl⟩
    · exact ⟨_, rfl⟩
  · exact ⟨_, rfl⟩

theorem plan_form (v : Value) : ((plan v).1 = b! "b" ∨ (plan v).1 = b! "q") ∧ ∃ k rest, (plan v).2.2 = k :: (plan v).2.1 :: rest ∧ (k = b! "p" ∨ k = b! "e" ∨ k = b! "a") := by
  cases v with
  | str pk => exact ⟨Or.inl rfl, b! "p", _, rfl, Or.inl rfl⟩
  | profile p => exact ⟨Or.inl rfl, b! "p", _, rfl, Or.inl rfl⟩
  | event p => obtain ⟨rest, h⟩ := eventAsTag_form p; exact ⟨Or.inr rfl, b! "e", rest, h, Or.inr (Or.inl rfl)⟩
  | entity p => exact ⟨Or.inr rfl, b! "a", _, rfl, Or.inr (Or.inr rfl)⟩

theorem find_append (key value : Bytes) : ∀ (l : Tags) (t : Tag) (k : Bytes) (v : Bytes) (rest : List Bytes), t = k :: v :: rest → k ≠ key →
    (Tags.findWithValue key value (l ++ [t])).isNone = (Tags.findWithValue key value l).isNone := by
  intro l t k v rest ht hk
  induction l with
  | nil => subst ht; simp [Tags.findWithValue, hk]
  | cons x xs ih =>
    match x with
    | [] => simpa [Tags.findWithValue] using ih
    | [a] => simpa [Tags.findWithValue] using ih
    | a :: b :: c =>
      simp only [List.cons_append, Tags.findWithValue]
      by_cases h : b = value ∧ a = key
      · rw [if_pos h, if_pos h]
      · rw [if_neg h, if_neg h]; exact ih

theorem find_other (key value : Bytes) (hk : key = b! "b" ∨ key = b! "q") (l : Tags) (v : Value) :
    (Tags.findWithValue key value (l ++ [(plan v).2.2])).isNone = (Tags.findWithValue key value l).isNone := by
  obtain ⟨-, k, rest, h, h3⟩ := plan_form v
  apply find_append key value l _ k _ rest h
  rcases hk with rfl | rfl <;> rcases h3 with rfl | rfl | rfl <;> decide +kernel

theorem fold_eq (bs : List Blocks.Block) : ∀ (tags acc : Tags), (∀ key value, (key = b! "b" ∨ key = b! "q") →
    (Tags.findWithValue key value acc).isNone = (Tags.findWithValue key value tags).isNone) →
    bs.foldl noteStep acc = acc ++ bs.filterMap (added tags) := by
  induction bs with
  | nil => intro tags acc _; simp
  | cons b bs ih =>
    intro tags acc h
    simp only [List.foldl_cons, List.filterMap_cons]
    cases hp : b.ptr with
    | none => simp only [noteStep, added, hp]; exact ih tags acc h
    | some p =>
      cases p with
      | external t => simp only [noteStep, added, hp]; exact ih tags acc h
      | nostr v =>
        simp only [noteStep, added, hp]
        rw [h _ _ (plan_form v).1]
        by_cases hf : (Tags.findWithValue (plan v).1 (plan v).2.1 tags).isNone = true
        · rw [if_pos hf, if_pos hf, ih tags _ (fun key value hk => by rw [find_other key value hk, h key value hk])]
          simp
        · rw [if_neg hf, if_neg hf]; exact ih tags acc h

/-- **C137 (what it does).** Only tags are appended; one for each mention in the content, in order, unless a profile has a "b" tag or an event or address a "q" tag already. -/
theorem C137_appends (hostDot : Bytes → Bool) (e e' : Event) (h : prepare hostDot e = .val e') : ∃ bs, Blocks.parse hostDot e.content = .val bs ∧
    e' = { e with tags := e.tags ++ bs.filterMap (added e.tags) } := by
  unfold prepare at h
  split at h
  · cases h
  · rename_i bs hb
    injection h with h
    exact ⟨bs, hb, by rw [← h, fold_eq bs e.tags e.tags (fun _ _ _ => rfl)]⟩

/-- The mentions in a text: codes after `nostr:` that `Parse` finds. -/
def Mentioned (hostDot : Bytes → Bool) (content : Bytes) (v : Value) : Prop :=
  ∃ bs, Blocks.parse hostDot content = .val bs ∧ ∃ b ∈ bs, b.ptr = some (.nostr v)

theorem excused_of_find (tags : Tags) (v : Value) (h : (Tags.findWithValue (plan v).1 (plan v).2.1 tags).isNone = false) : Excused tags v := by
  have hf := C12_findWithValue (plan v).1 (plan v).2.1 tags
  cases hx : Tags.findWithValue (plan v).1 (plan v).2.1 tags with
  | none => rw [hx] at h; simp at h
  | some t =>
    rw [hx] at hf
    obtain ⟨pre, post, h1, ⟨rest, h2⟩, -⟩ := hf
    have hm : ((plan v).1 :: (plan v).2.1 :: rest) ∈ tags := by rw [h1, h2]; simp
    cases v <;> exact ⟨rest, hm⟩

theorem tagged_plan (tags : Tags) (v : Value) (h : (plan v).2.2 ∈ tags) : Tagged tags v := by
  cases v with
  | str pk => exact ⟨_, h⟩
  | profile p => exact ⟨_, h⟩
  | event p => obtain ⟨rest, hr⟩ := eventAsTag_form p; exact ⟨rest, by rw [← hr]; exact h⟩
  | entity p => exact ⟨_, h⟩

/-- **C137 (every mention is tagged).** Afterwards every profile, event and address mentioned in the content has its tag, or had a "b" (profiles) or "q" tag; and every tag added
belongs to a mention, whose `nostr:` code stands in the content. -/
theorem C137_mentions_tagged (hostDot : Bytes → Bool) (e e' : Event) (h : prepare hostDot e = .val e') :
    (∀ v, Mentioned hostDot e.content v → Tagged e'.tags v ∨ Excused e.tags v) ∧
    (∃ new, e'.tags = e.tags ++ new ∧ ∀ t ∈ new, ∃ v, Mentioned hostDot e.content v ∧ t = (plan v).2.2 ∧
      ∃ pre mid post code, e.content = pre ++ mid ++ post ∧ mid = b! "nostr:" ++ code ∧ ∃ k, Nip19.decode code = .ok (k, v)) := by
  obtain ⟨bs, hb, he⟩ := C137_appends hostDot e e' h
  refine ⟨?_, bs.filterMap (added e.tags), by rw [he], ?_⟩
  · rintro v ⟨bs', hb', b, hm, hp⟩
    rw [hb] at hb'; injection hb' with hb'; subst hb'
    by_cases hf : (Tags.findWithValue (plan v).1 (plan v).2.1 e.tags).isNone = true
    · refine Or.inl (tagged_plan _ v ?_)
      rw [he]
      refine List.mem_append_right _ (List.mem_filterMap.2 ⟨b, hm, ?_⟩)
      simp [added, hp, hf]
    · exact Or.inr (excused_of_find _ _ (by rw [Bool.not_eq_true] at hf; exact hf))
  · intro t ht
    obtain ⟨b, hm, ha⟩ := List.mem_filterMap.1 ht
    unfold added at ha
    split at ha
    · rename_i v hp
      split at ha
      · injection ha with ha
        refine ⟨v, ⟨bs, hb, b, hm, hp⟩, ha.symm, ?_⟩
        have hs := Blocks.C98_pointers hostDot e.content bs hb b hm
        unfold Blocks.Says at hs
        rw [hp] at hs
        obtain ⟨code, k, h1, h2, -⟩ := hs
        have ht := (Blocks.C90_tiles_partial hostDot e.content bs hb).1
        obtain ⟨p1, p2, rfl⟩ := List.append_of_mem hm
        refine ⟨(p1.map (·.text)).flatten, b.text, (p2.map (·.text)).flatten, code, ?_, h1, k, h2⟩
        rw [← ht]; simp
      · cases ha
    · cases ha

/-- **C137 (running it again).** The tags it adds are not the ones it looks for: every run adds all of them again, so an event prepared twice has each new tag twice, and a tag for
someone who had a "p" tag already. -/
theorem C137_not_idempotent (hostDot : Bytes → Bool) (e e1 e2 : Event) (h1 : prepare hostDot e = .val e1) (h2 : prepare hostDot e1 = .val e2) :
    ∃ new, e1.tags = e.tags ++ new ∧ e2.tags = e.tags ++ new ++ new ∧
      ∀ v, Mentioned hostDot e.content v → ¬ Excused e.tags v → (plan v).2.2 ∈ new := by
  obtain ⟨bs, hb, he⟩ := C137_appends hostDot e e1 h1
  have hc : e1.content = e.content := by rw [he]
  unfold prepare at h2
  rw [hc, hb] at h2
  injection h2 with h2
  refine ⟨bs.filterMap (added e.tags), by rw [he], ?_, ?_⟩
  · rw [← h2, he]
    simp only
    apply fold_eq
    intro key value hk
    generalize e.tags = l
    have : ∀ (m : List Tag) (l : Tags), (∀ t ∈ m, ∃ v, t = (plan v).2.2) → (Tags.findWithValue key value (l ++ m)).isNone = (Tags.findWithValue key value l).isNone := by
      intro m
      induction m with
      | nil => intro l _; simp
      | cons t m ih =>
        intro l hm
        obtain ⟨v, hv⟩ := hm t (by simp)
        rw [show l ++ t :: m = (l ++ [t]) ++ m by simp, ih _ (fun x hx => hm x (List.mem_cons_of_mem _ hx)), hv, find_other key value hk]
    apply this
    intro t ht
    obtain ⟨b, -, ha⟩ := List.mem_filterMap.1 ht
    unfold added at ha
    split at ha
    · rename_i v _
      split at ha
      · injection ha with ha; exact ⟨v, ha.symm⟩
      · cases ha
    · cases ha
  · rintro v ⟨bs', hb', b, hm, hp⟩ hx
    rw [hb] at hb'; injection hb' with hb'; subst hb'
    refine List.mem_filterMap.2 ⟨b, hm, ?_⟩
    have hf : (Tags.findWithValue (plan v).1 (plan v).2.1 e.tags).isNone = true := by
      cases hf : (Tags.findWithValue (plan v).1 (plan v).2.1 e.tags).isNone with
      | true => rfl
      | false => exact absurd (excused_of_find _ _ hf) hx
    simp [added, hp, hf]

/-- A note that mentions somebody and has their tag. -/
def sampleNote : Event := ⟨[], [], 0, 1, [[b! "p", b! "3bf0c63fcb93463407af97a5e5ee64fa883d107ef9e558472c4eb9aaaefa033c"]], b! "hi nostr:" ++ Blocks.wsCode, []⟩

/-- **C137 is false.** Somebody who is tagged already is tagged again. -/
theorem C137_tagged_twice : prepare (fun _ => false) sampleNote = .val { sampleNote with
    tags := [[b! "p", b! "3bf0c63fcb93463407af97a5e5ee64fa883d107ef9e558472c4eb9aaaefa033c"], [b! "p", b! "3bf0c63fcb93463407af97a5e5ee64fa883d107ef9e558472c4eb9aaaefa033c"]] } := by
  decide +kernel

example : Mentioned (fun _ => false) sampleNote.content (.str (b! "3bf0c63fcb93463407af97a5e5ee64fa883d107ef9e558472c4eb9aaaefa033c")) :=
  ⟨[⟨b! "hi ", 0, none⟩, ⟨b! "nostr:" ++ Blocks.wsCode, 3, some (.nostr (.str (b! "3bf0c63fcb93463407af97a5e5ee64fa883d107ef9e558472c4eb9aaaefa033c")))⟩], by decide +kernel,
    _, List.mem_cons_of_mem _ (List.mem_cons_self ..), rfl⟩

/-! ## ParseReferences: where mentions are -/

/-- The names in the expression (references.go:18). -/
def names : List Bytes := [b! "note", b! "npub", b! "naddr", b! "nevent", b! "nprofile"]

/-- `nostr:(name1\w+)\b` at the beginning: the length of the match. The words after the 1 go as far as they can, and then there is a boundary. -/
def mentionLen (s : Bytes) : Option Nat := match names.find? (fun n => (b! "nostr:" ++ n ++ b! "1").isPrefixOf s) with
  | none => none
  | some n =>
    let w := (s.drop (n.length + 7)).takeWhile isWord
    if w = [] then none else some (n.length + 7 + w.length)

/-- `\b` before the `n` of `nostr`. -/
def boundary (content : Bytes) (i : Nat) : Bool := match i with
  | 0 => true
  | j + 1 => match content[j]? with
    | some c => !isWord c
    | none => true

/-- `FindAllStringSubmatchIndex` (references.go:23): beginnings and ends of the matches, from left to right. The first argument bounds the steps. -/
def scan (content : Bytes) : Nat → Nat → List (Nat × Nat)
  | 0, _ => []
  | n + 1, i =>
    if content.length ≤ i then []
    else if boundary content i then match mentionLen (content.drop i) with
      | some k => (i, i + k) :: scan content n (i + k)
      | none => scan content n (i + 1)
    else scan content n (i + 1)

/-- All matches. -/
def mentions (content : Bytes) : List (Nat × Nat) := scan content (content.length + 1) 0

/-- A mention from `i` to `j`: not in the middle of a word, `nostr:`, a name, 1 and at least one more letter, digit or underscore, up to the end of the word. -/
def Mention (content : Bytes) (i j : Nat) : Prop :=
  ∃ pre name w post, content = pre ++ (b! "nostr:" ++ name ++ b! "1" ++ w) ++ post ∧ pre.length = i ∧ j = i + (name.length + 7 + w.length) ∧ name ∈ names ∧ w ≠ [] ∧
    (∀ c ∈ w, isWord c = true) ∧ (∀ c, pre.getLast? = some c → isWord c = false) ∧ (∀ c, post.head? = some c → isWord c = false)

theorem takeWhile_split (s w post : Bytes) (h : s = w ++ post) (hw : ∀ c ∈ w, isWord c = true) (hp : ∀ c, post.head? = some c → isWord c = false) : s.takeWhile isWord = w := by
  subst h
  induction w with
  | nil =>
    cases post with
    | nil => rfl
    | cons c cs => simp [hp c rfl]
  | cons c cs ih =>
    have := hw c (by simp)
    simp only [List.cons_append, List.takeWhile_cons, this, if_true]
    rw [ih (fun x hx => hw x (List.mem_cons_of_mem _ hx))]

theorem names_unique : ∀ a ∈ names, ∀ b ∈ names, ∀ s : Bytes, (b! "nostr:" ++ a ++ b! "1").isPrefixOf s = true → (b! "nostr:" ++ b ++ b! "1").isPrefixOf s = true → a = b := by
  intro a ha b hb s h1 h2
  rw [List.isPrefixOf_iff_prefix] at h1 h2
  have : ∀ a ∈ names, ∀ b ∈ names, (b! "nostr:" ++ a ++ b! "1" <+: b! "nostr:" ++ b ++ b! "1") → a = b := by decide +kernel
  rcases List.prefix_or_prefix_of_prefix h1 h2 with h | h
  · exact this a ha b hb h
  · exact (this b hb a ha h).symm

theorem boundary_iff {content pre rest : Bytes} {i : Nat} (h : content = pre ++ rest) (hi : pre.length = i) :
    boundary content i = true ↔ ∀ c, pre.getLast? = some c → isWord c = false := by
  subst h; subst hi
  rcases List.eq_nil_or_concat pre with rfl | ⟨l, a, rfl⟩
  · simp [boundary]
  · simp [boundary]

theorem mentionLen_spec {s : Bytes} {k : Nat} : mentionLen s = some k ↔ ∃ name w post, s = (b! "nostr:" ++ name ++ b! "1" ++ w) ++ post ∧ k = name.length + 7 + w.length ∧ name ∈ names ∧
    w ≠ [] ∧ (∀ c ∈ w, isWord c = true) ∧ (∀ c, post.head? = some c → isWord c = false) := by
  have hlen : ∀ n : Bytes, (b! "nostr:" ++ n ++ b! "1").length = n.length + 7 := by intro n; simp
  constructor
  · intro h
    unfold mentionLen at h
    split at h
    · cases h
    · rename_i n hn
      have hm := List.mem_of_find?_eq_some hn
      have hp := List.find?_some hn
      rw [List.isPrefixOf_iff_prefix] at hp
      obtain ⟨t, ht⟩ := hp
      have hd : s.drop (n.length + 7) = t := by rw [← ht, ← hlen n, List.drop_left]
      simp only [hd] at h
      split at h
      · cases h
      · rename_i hw
        injection h with h
        refine ⟨n, t.takeWhile isWord, t.dropWhile isWord, ?_, h.symm, hm, hw, ?_, ?_⟩
        · rw [List.append_assoc, List.takeWhile_append_dropWhile, ht]
        · have : ∀ t : Bytes, ∀ c ∈ t.takeWhile isWord, isWord c = true := fun t c hc => (List.all_eq_true.1 (List.all_takeWhile (l := t))) c hc
          exact this t
        · intro c hc
          cases hdw : t.dropWhile isWord with
          | nil => rw [hdw] at hc; cases hc
          | cons x xs =>
            rw [hdw] at hc
            simp only [List.head?_cons, Option.some.injEq] at hc
            subst hc
            have hne : t.dropWhile isWord ≠ [] := by rw [hdw]; simp
            have := List.head_dropWhile_not isWord hne
            simpa [hdw] using this
  · rintro ⟨n, w, post, h1, h2, h3, h4, h5, h6⟩
    have hp : (b! "nostr:" ++ n ++ b! "1").isPrefixOf s = true := by
      rw [List.isPrefixOf_iff_prefix]; exact ⟨w ++ post, by rw [h1]; simp⟩
    unfold mentionLen
    cases hf : names.find? (fun n => (b! "nostr:" ++ n ++ b! "1").isPrefixOf s) with
    | none =>
      rw [List.find?_eq_none] at hf
      exact absurd hp (hf n h3)
    | some n' =>
      have : n' = n := names_unique n' (List.mem_of_find?_eq_some hf) n h3 s (List.find?_some (p := fun n => (b! "nostr:" ++ n ++ b! "1").isPrefixOf s) hf) hp
      subst this
      have hd : s.drop (n'.length + 7) = w ++ post := by rw [h1, List.append_assoc, ← hlen n', List.drop_left]
      have ht := takeWhile_split _ w post hd h5 h6
      simp only
      rw [ht, if_neg h4, h2]

theorem mention_iff {content : Bytes} {i j : Nat} (hi : i ≤ content.length) : Mention content i j ↔ boundary content i = true ∧ ∃ k, mentionLen (content.drop i) = some k ∧ j = i + k := by
  constructor
  · rintro ⟨pre, n, w, post, h1, h2, h3, h4, h5, h6, h7, h8⟩
    have hd : content.drop i = (b! "nostr:" ++ n ++ b! "1" ++ w) ++ post := by rw [h1, ← h2, List.append_assoc, List.drop_left]
    refine ⟨(boundary_iff (rest := (b! "nostr:" ++ n ++ b! "1" ++ w) ++ post) (by rw [h1, List.append_assoc]) h2).2 h7, n.length + 7 + w.length, ?_, h3⟩
    exact mentionLen_spec.2 ⟨n, w, post, hd, rfl, h4, h5, h6, h8⟩
  · rintro ⟨hb, k, hk, hj⟩
    obtain ⟨n, w, post, h1, h2, h3, h4, h5, h6⟩ := mentionLen_spec.1 hk
    have hc : content = content.take i ++ content.drop i := (List.take_append_drop i content).symm
    have hl : (content.take i).length = i := by simp [hi]
    exact ⟨content.take i, n, w, post, by rw [List.append_assoc, ← h1]; exact hc, hl, by rw [hj, h2], h3, h4, h5, (boundary_iff hc hl).1 hb, h6⟩

theorem names_word : ∀ n ∈ names, (∀ c ∈ n ++ b! "1", isWord c = true) ∧ 4 ≤ n.length := by decide +kernel

/-- Inside a mention no other begins. -/
theorem no_overlap {content : Bytes} {i j i' j' : Nat} (h : Mention content i j) (h' : Mention content i' j') (hlt : i < i') : j ≤ i' := by
  obtain ⟨pre, n, w, post, h1, h2, h3, h4, h5, h6, h7, h8⟩ := h
  obtain ⟨pre', n', w', post', g1, g2, g3, g4, g5, g6, g7, g8⟩ := h'
  by_contra hcon
  obtain ⟨hnw, hn4⟩ := names_word n h4
  have hw1 : 1 ≤ w.length := by cases w with
    | nil => exact absurd rfl h5
    | cons => simp
  -- the bytes of the first mention after its colon are words
  have hin : ∀ p, i + 6 ≤ p → p < j → ∃ c, content[p]? = some c ∧ isWord c = true := by
    intro p hp1 hp2
    have e : content = (pre ++ b! "nostr:") ++ ((n ++ b! "1" ++ w) ++ post) := by rw [h1]; simp
    have hl : (pre ++ b! "nostr:").length = i + 6 := by simp [h2]
    have hlt2 : p - (i + 6) < (n ++ b! "1" ++ w).length := by simp; omega
    refine ⟨(n ++ b! "1" ++ w)[p - (i + 6)], ?_, ?_⟩
    · rw [e, List.getElem?_append_right (by omega), hl, List.getElem?_append_left hlt2, List.getElem?_eq_getElem hlt2]
    · have hm : (n ++ b! "1" ++ w)[p - (i + 6)] ∈ n ++ b! "1" ++ w := List.getElem_mem ..
      rcases List.mem_append.1 hm with hm | hm
      · exact hnw _ hm
      · exact h6 _ hm
  have hpre : ∀ q, q < 5 → ∃ c, content[i + q]? = some c ∧ isWord c = true := by
    intro q hq
    have e : content = pre ++ (b! "nostr:" ++ (n ++ b! "1" ++ w ++ post)) := by rw [h1]; simp
    have : ∀ q, q < 5 → ∃ c, (b! "nostr:")[q]? = some c ∧ isWord c = true := by decide +kernel
    obtain ⟨c, hc, hcw⟩ := this q hq
    refine ⟨c, ?_, hcw⟩
    rw [e, List.getElem?_append_right (by omega), h2, show i + q - i = q by omega, List.getElem?_append_left (by simp; omega)]
    exact hc
  -- the byte before the second mention is none
  have hb : ∀ c, content[i' - 1]? = some c → isWord c = false := by
    intro c hc
    apply g7
    rw [List.getLast?_eq_getElem?, g2]
    rw [g1, List.append_assoc, List.getElem?_append_left (by omega)] at hc
    exact hc
  have h6' : i' = i + 6 := by
    by_cases hq : i' - 1 < i + 5
    · obtain ⟨c, hc, hcw⟩ := hpre (i' - 1 - i) (by omega)
      rw [show i + (i' - 1 - i) = i' - 1 by omega] at hc
      rw [hb c hc] at hcw; cases hcw
    · by_cases hq2 : i + 6 ≤ i' - 1
      · obtain ⟨c, hc, hcw⟩ := hin (i' - 1) hq2 (by omega)
        rw [hb c hc] at hcw; cases hcw
      · omega
  -- its colon would be a word
  obtain ⟨c, hc, hcw⟩ := hin (i' + 5) (by omega) (by omega)
  have e : content = pre' ++ (b! "nostr:" ++ (n' ++ b! "1" ++ w' ++ post')) := by rw [g1]; simp
  rw [e, List.getElem?_append_right (by omega), g2, show i' + 5 - i' = 5 by omega, List.getElem?_append_left (by simp)] at hc
  have : c = 58 := by
    have h58 : (b! "nostr:")[5]? = some 58 := by decide +kernel
    rw [h58] at hc; injection hc with hc; exact hc.symm
  subst this
  revert hcw; decide +kernel

theorem scan_spec (content : Bytes) : ∀ (fuel i : Nat), content.length < i + fuel →
    (∀ a b, (a, b) ∈ scan content fuel i ↔ i ≤ a ∧ Mention content a b) ∧ (scan content fuel i).Pairwise (fun x y => x.2 ≤ y.1) := by
  have hlen : ∀ {a b}, Mention content a b → a < content.length ∧ a < b ∧ b ≤ content.length := by
    rintro a b ⟨pre, n, w, post, h1, h2, h3, -⟩
    have := congrArg List.length h1
    simp at this
    omega
  intro fuel
  induction fuel with
  | zero =>
    intro i h
    refine ⟨fun a b => ⟨fun hm => (by simp [scan] at hm), fun ⟨h1, h2⟩ => ?_⟩, List.Pairwise.nil⟩
    have := (hlen h2).1; omega
  | succ fuel ih =>
    intro i h
    simp only [scan]
    by_cases hl : content.length ≤ i
    · rw [if_pos hl]
      refine ⟨fun a b => ⟨fun hm => (by simp at hm), fun ⟨h1, h2⟩ => ?_⟩, List.Pairwise.nil⟩
      have := (hlen h2).1; omega
    · rw [if_neg hl]
      have hskip : (∀ b, ¬ Mention content i b) → (∀ a b, (a, b) ∈ scan content fuel (i + 1) ↔ i ≤ a ∧ Mention content a b) ∧
          (scan content fuel (i + 1)).Pairwise (fun x y => x.2 ≤ y.1) := by
        intro hno
        obtain ⟨h1, h2⟩ := ih (i + 1) (by omega)
        refine ⟨fun a b => ?_, h2⟩
        rw [h1]
        constructor
        · rintro ⟨p, q⟩; exact ⟨by omega, q⟩
        · rintro ⟨p, q⟩
          refine ⟨?_, q⟩
          by_contra hc
          have : a = i := by omega
          subst this
          exact hno b q
      by_cases hb : boundary content i = true
      · rw [if_pos hb]
        cases hm : mentionLen (content.drop i) with
        | none =>
          apply hskip
          intro b hM
          obtain ⟨-, k, hk, -⟩ := (mention_iff (by omega)).1 hM
          rw [hm] at hk; cases hk
        | some k =>
          have hM : Mention content i (i + k) := (mention_iff (by omega)).2 ⟨hb, k, hm, rfl⟩
          have hk := (hlen hM).2.1
          obtain ⟨h1, h2⟩ := ih (i + k) (by omega)
          refine ⟨fun a b => ?_, ?_⟩
          · simp only [List.mem_cons, Prod.mk.injEq]
            rw [h1]
            constructor
            · rintro (⟨rfl, rfl⟩ | ⟨p, q⟩)
              · exact ⟨Nat.le_refl _, hM⟩
              · exact ⟨by omega, q⟩
            · rintro ⟨p, q⟩
              by_cases ha : a = i
              · subst ha
                obtain ⟨-, k', hk', hj⟩ := (mention_iff (by omega)).1 q
                rw [hm] at hk'; injection hk' with hk'; subst hk'
                exact Or.inl ⟨rfl, hj⟩
              · exact Or.inr ⟨no_overlap hM q (by omega), q⟩
          · rw [List.pairwise_cons]
            exact ⟨fun ⟨a, b⟩ hab => ((h1 a b).1 hab).1, h2⟩
      · rw [if_neg hb]
        apply hskip
        intro b hM
        exact hb ((mention_iff (by omega)).1 hM).1

/-- **C138 (the mentions).** The references are exactly the mentions in the text, from left to right, without overlap. -/
theorem C138_mentions (content : Bytes) : (∀ i j, (i, j) ∈ mentions content ↔ Mention content i j) ∧ (mentions content).Pairwise (fun x y => x.2 ≤ y.1) := by
  obtain ⟨h1, h2⟩ := scan_spec content (content.length + 1) 0 (by omega)
  exact ⟨fun i j => by unfold mentions; rw [h1]; simp, h2⟩

example : mentions (b! "a nostr:npub1x, xnostr:npub1y nostr:note1 nostr:note1zz") = [(2, 14), (42, 55)] := by decide +kernel

/-! ## ParseReferences: what they point to -/

/-- `pointer.Relays` with the third item of the first tag of that name and value (references.go:42-45 and so on). -/
def hint (tags : Tags) (key ref : Bytes) : List Bytes := match Tags.findWithValue key ref tags with
  | some (_ :: _ :: r :: _) => [r]
  | _ => []

/-- The author in the fifth place (references.go:66-68). -/
def hintAuthor (env : Ptr.Env) (tags : Tags) (id author : Bytes) : Bytes := match Tags.findWithValue (b! "e") id tags with
  | some (_ :: _ :: _ :: _ :: a :: _) => if author = [] ∧ isValidPublicKey env.parsePub a = true then a else author
  | _ => author

/-- A value of the examples. -/
def more (r : Option (List Bytes)) (l : List Bytes) : Option (List Bytes) := match l with
  | [] => r
  | _ => some (r.getD [] ++ l)

/-- The switch of `ParseReferences` (references.go:33-80): the pointer, if any. -/
def pointerOf (env : Ptr.Env) (tags : Tags) (code : Bytes) : Out (Option Value) := match Nip19.decode code with
  | .panic => .panic
  | .err _ => .val none
  | .ok (pre, v) => .val <| match v with
    | .str s =>
      if pre = b! "npub" then if isValidPublicKey env.parsePub s then some (.profile ⟨s, some (hint tags (b! "p") s)⟩) else none
      else if pre = b! "note" then some (.event { id := s }) else none
    | .profile p => if isValidPublicKey env.parsePub p.publicKey then some (.profile { p with relays := more p.relays (hint tags (b! "p") p.publicKey) }) else none
    | .event p => some (.event { p with relays := more p.relays (hint tags (b! "e") p.id), author := hintAuthor env tags p.id p.author })
    | .entity p => some (.entity { p with relays := more p.relays (hint tags (b! "a") (entityReference p)) })

/-- What a value refers to: a key, an event id or an address. -/
def target : Value → Bytes
  | .str s => s
  | .profile p => p.publicKey
  | .event p => p.id
  | .entity p => entityReference p

/-- Specification: the relays of a pointer. -/
def relaysOf : Value → List Bytes
  | .str _ => []
  | .profile p => p.relays.getD []
  | .event p => p.relays.getD []
  | .entity p => p.relays.getD []

theorem hint_spec (tags : Tags) (key ref : Bytes) : hint tags key ref = [] ∨ ∃ r rest, hint tags key ref = [r] ∧ (key :: ref :: r :: rest) ∈ tags := by
  unfold hint
  have h := C12_findWithValue key ref tags
  cases hf : Tags.findWithValue key ref tags with
  | none => exact Or.inl rfl
  | some t =>
    rw [hf] at h
    obtain ⟨pre, post, h1, ⟨rest, h2⟩, -⟩ := h
    subst h2
    cases rest with
    | nil => exact Or.inl rfl
    | cons r rest => exact Or.inr ⟨r, rest, rfl, by rw [h1]; simp⟩

theorem more_spec (r : Option (List Bytes)) (l : List Bytes) : (more r l).getD [] = r.getD [] ++ l := by
  cases l with
  | nil => simp [more]
  | cons a l => simp [more]

/-- **C138 (the pointers).** A reference points to what its code says: the same key, event or address; its relays are the code's, and at most one more, from a tag of the event for the same
thing; nothing but the author of an event may come from a tag besides, and only if the code names none. -/
theorem C138_pointer (env : Ptr.Env) (tags : Tags) (code : Bytes) (v : Value) (h : pointerOf env tags code = .val (some v)) :
    ∃ pre u, Nip19.decode code = .ok (pre, u) ∧ target v = target u ∧
      (relaysOf v = relaysOf u ∨ ∃ k r rest, relaysOf v = relaysOf u ++ [r] ∧ (k :: target u :: r :: rest) ∈ tags ∧ (k = b! "p" ∨ k = b! "e" ∨ k = b! "a")) ∧
      (∀ p, v = .event p → ∀ q, u = .event q → p.kind = q.kind ∧ (p.author = q.author ∨ q.author = [] ∧ isValidPublicKey env.parsePub p.author = true ∧
        ∃ a b rest, (b! "e" :: p.id :: a :: b :: p.author :: rest) ∈ tags)) := by
  unfold pointerOf at h
  split at h
  · cases h
  · cases h
  · rename_i pre u hd
    injection h with h
    refine ⟨pre, u, hd, ?_⟩
    cases u with
    | str s =>
      simp only at h
      split at h
      · split at h
        · injection h with h; subst h
          refine ⟨rfl, ?_, (by intro p hp; cases hp)⟩
          rcases hint_spec tags (b! "p") s with hh | ⟨r, rest, hh, hm⟩
          · exact Or.inl (by simp [relaysOf, hh])
          · exact Or.inr ⟨b! "p", r, rest, by simp [relaysOf, hh], hm, Or.inl rfl⟩
        · cases h
      · split at h
        · injection h with h; subst h
          exact ⟨rfl, Or.inl (by simp [relaysOf]), (by intro p _ q hq; cases hq)⟩
        · cases h
    | profile p =>
      simp only at h
      split at h
      · injection h with h; subst h
        refine ⟨rfl, ?_, (by intro p hp; cases hp)⟩
        rcases hint_spec tags (b! "p") p.publicKey with hh | ⟨r, rest, hh, hm⟩
        · exact Or.inl (by simp [relaysOf, more_spec, hh])
        · exact Or.inr ⟨b! "p", r, rest, by simp [relaysOf, more_spec, hh], hm, Or.inl rfl⟩
      · cases h
    | event p =>
      simp only at h
      injection h with h; subst h
      refine ⟨rfl, ?_, ?_⟩
      · rcases hint_spec tags (b! "e") p.id with hh | ⟨r, rest, hh, hm⟩
        · exact Or.inl (by simp [relaysOf, more_spec, hh])
        · exact Or.inr ⟨b! "e", r, rest, by simp [relaysOf, more_spec, hh], hm, Or.inr (Or.inl rfl)⟩
      · intro p' hp' q hq
        injection hp' with hp'; injection hq with hq
        subst hp'; subst hq
        refine ⟨rfl, ?_⟩
        show hintAuthor env tags p.id p.author = p.author ∨ _
        unfold hintAuthor
        have hx := C12_findWithValue (b! "e") p.id tags
        split
        · rename_i a1 a2 a3 a4 a5 rest hf
          rw [hf] at hx
          obtain ⟨pre', post, h1, ⟨rest', h2⟩, -⟩ := hx
          split
          · rename_i hc
            refine Or.inr ⟨hc.1, ?_, a3, a4, rest, ?_⟩
            · exact hc.2
            · rw [h1, ← (List.cons.inj h2).1, ← (List.cons.inj (List.cons.inj h2).2).1]; simp
          · exact Or.inl rfl
        · exact Or.inl rfl
    | entity p =>
      simp only at h
      injection h with h; subst h
      refine ⟨rfl, ?_, (by intro p hp; cases hp)⟩
      rcases hint_spec tags (b! "a") (entityReference p) with hh | ⟨r, rest, hh, hm⟩
      · exact Or.inl (by simp [relaysOf, more_spec, hh])
      · exact Or.inr ⟨b! "a", r, rest, by simp [relaysOf, more_spec, hh], hm, Or.inr (Or.inr rfl)⟩

/-- **C138 (the hint is not looked at).** Whatever stands in the third place of the tag becomes a relay of the pointer, also nothing at all. -/
theorem C138_empty_relay (env : Ptr.Env) (tags : Tags) (code : Bytes) (pre : Bytes) (p : EventPointer) (hd : Nip19.decode code = .ok (pre, .event p)) (rest : List Bytes)
    (ht : Tags.findWithValue (b! "e") p.id tags = some (b! "e" :: p.id :: [] :: rest)) :
    ∃ v, pointerOf env tags code = .val (some v) ∧ ([] : Bytes) ∈ relaysOf v := by
  refine ⟨.event { p with relays := more p.relays (hint tags (b! "e") p.id), author := hintAuthor env tags p.id p.author }, by simp only [pointerOf, hd], ?_⟩
  simp [relaysOf, more_spec, hint, ht]

example : ∃ v, pointerOf ⟨fun _ => true, fun _ => true⟩ [[b! "p", b! "3bf0c63fcb93463407af97a5e5ee64fa883d107ef9e558472c4eb9aaaefa033c", b! "wss://x.y"]] Blocks.wsCode = .val (some v) ∧
    relaysOf v = [b! "wss://x.y"] :=
  ⟨.profile ⟨b! "3bf0c63fcb93463407af97a5e5ee64fa883d107ef9e558472c4eb9aaaefa033c", some [b! "wss://x.y"]⟩, by decide +kernel, rfl⟩

end GoNostr.Mentions
