import Verif.Negentropy.Codec
import Verif.Filter.Theorems
import Verif.Helpers.Theorems
/-! # Order, minimal bounds, accumulator and lower bounds (C46, C47, C48) -/

set_option autoImplicit false

namespace GoNostr.Neg

/-- Specification of the order on items and bounds: earlier timestamp first, ties by id. -/
def ItemLt (a b : Item) : Prop := a.ts < b.ts ∨ (a.ts = b.ts ∧ LexLt a.id b.id)

theorem itemCompare_spec (a b : Item) :
    (itemCompare a b = -1 ∧ ItemLt a b ∧ ¬ ItemLt b a ∧ a ≠ b) ∨ (itemCompare a b = 0 ∧ a = b) ∨
    (itemCompare a b = 1 ∧ ItemLt b a ∧ ¬ ItemLt a b ∧ a ≠ b) := by
  obtain ⟨at', ai⟩ := a
  obtain ⟨bt, bi⟩ := b
  unfold itemCompare ItemLt
  by_cases h : at' = bt
  · subst h
    simp only [if_true, Int.lt_irrefl, false_or, true_and, ne_eq, Item.mk.injEq]
    exact compareStrings_spec ai bi
  · simp only [h, if_false, compareInts, false_and, or_false, ne_eq, Item.mk.injEq, Ne.symm h, not_false_eq_true, and_true]
    by_cases hlt : at' < bt
    · simp [hlt]; omega
    · have : bt < at' := by omega
      simp [hlt, this]

theorem itemCompare_neg (a b : Item) : itemCompare a b < 0 ↔ ItemLt a b := by
  rcases itemCompare_spec a b with ⟨h, h1, h2, _⟩ | ⟨h, rfl⟩ | ⟨h, h1, h2, _⟩
  · simp [h, h1]
  · simp [h, ItemLt, lexLt_irrefl]
  · simp [h, h2]

instance (a b : Item) : Decidable (ItemLt a b) := decidable_of_iff _ (itemCompare_neg a b)

theorem ItemLt.irrefl (a : Item) : ¬ ItemLt a a := by simp [ItemLt, lexLt_irrefl]

theorem ItemLt.trans {a b c : Item} (h1 : ItemLt a b) (h2 : ItemLt b c) : ItemLt a c := by
  unfold ItemLt at *
  rcases h1 with h1 | ⟨e1, h1⟩ <;> rcases h2 with h2 | ⟨e2, h2⟩
  · left; omega
  · left; omega
  · left; omega
  · right; exact ⟨e1.trans e2, lexLt_trans h1 h2⟩

theorem ItemLt.total (a b : Item) : ItemLt a b ∨ a = b ∨ ItemLt b a := by
  rcases itemCompare_spec a b with ⟨_, h, _⟩ | ⟨_, h⟩ | ⟨_, h, _⟩
  · exact Or.inl h
  · exact Or.inr (Or.inl h)
  · exact Or.inr (Or.inr h)

theorem ItemLt.asymm {a b : Item} (h : ItemLt a b) : ¬ ItemLt b a := fun h2 => ItemLt.irrefl _ (h.trans h2)

/-- `a ≤ b < c` gives `a < c`. -/
theorem ItemLt.of_le_lt {a b c : Item} (h1 : ¬ ItemLt b a) (h2 : ItemLt b c) : ItemLt a c := by
  rcases ItemLt.total a b with h | rfl | h
  · exact h.trans h2
  · exact h2
  · exact absurd h h1

theorem ItemLt.of_lt_le {a b c : Item} (h1 : ItemLt a b) (h2 : ¬ ItemLt c b) : ItemLt a c := by
  rcases ItemLt.total b c with h | rfl | h
  · exact h1.trans h
  · exact h1
  · exact absurd h h2

theorem ItemLt.le_trans {a b c : Item} (h1 : ¬ ItemLt b a) (h2 : ¬ ItemLt c b) : ¬ ItemLt c a :=
  fun h => h1 (ItemLt.of_le_lt h2 h)

/-! ## C46 -/

theorem lexLt_take {a b : Bytes} (h : LexLt a b) : ∀ m, a.take m ≠ b.take m → LexLt a (b.take m) := by
  induction a generalizing b with
  | nil =>
    intro m hm
    cases b with
    | nil => simp [LexLt] at h
    | cons y b =>
      cases m with
      | zero => simp at hm
      | succ m => simp [LexLt]
  | cons x a ih =>
    intro m hm
    cases b with
    | nil => simp [LexLt] at h
    | cons y b =>
      cases m with
      | zero => simp at hm
      | succ m =>
        simp only [List.take_succ_cons, LexLt] at *
        rcases h with h | ⟨rfl, h⟩
        · exact Or.inl h
        · exact Or.inr ⟨rfl, ih h m (by simpa using hm)⟩

theorem not_lexLt_take (a : Bytes) : ∀ m, ¬ LexLt a (a.take m) := by
  induction a with
  | nil => intro m; simp [LexLt]
  | cons x a ih =>
    intro m
    cases m with
    | zero => simp [LexLt]
    | succ m =>
      have : ¬ x < x := by rw [UInt8.lt_iff_toNat_lt]; omega
      simp [LexLt, this, ih m]

theorem goSlice_nat {α : Type} (s : List α) (i j : Nat) (h : i ≤ j) (hj : j ≤ s.length) :
    goSlice s (i : Int) (j : Int) = .val ((s.drop i).take (j - i)) := by
  unfold goSlice
  rw [if_pos (by omega)]
  have : ((j : Int) - i).toNat = j - i := by omega
  simp [this]

theorem take_add_two (a : Bytes) (m : Nat) : a.take (m + 2) = a.take m ++ (a.drop m).take 2 := by
  rw [List.take_add]

/-- The loop of `getMinimalBound`. -/
theorem sharedLoop_spec (c p : Bytes) (hc : c.length = 64) (hp : p.length = 64) : ∀ (n k : Nat), k + n = 16 →
    c.take (2 * k) = p.take (2 * k) →
    ∃ j, sharedLoop c p n k = .val j ∧ j ≤ 16 ∧ c.take (2 * j) = p.take (2 * j) ∧
      (j < 16 → c.take (2 * j + 2) ≠ p.take (2 * j + 2)) := by
  intro n
  induction n with
  | zero =>
    intro k hk h
    exact ⟨k, rfl, by omega, h, fun hj => by omega⟩
  | succ n ih =>
    intro k hk h
    have e1 := goSlice_nat c (2 * k) (2 * k + 2) (by omega) (by omega)
    have e2 := goSlice_nat p (2 * k) (2 * k + 2) (by omega) (by omega)
    have e3 : 2 * k + 2 - 2 * k = 2 := by omega
    rw [e3] at e1 e2
    unfold sharedLoop
    rw [e1, e2]
    simp only [Out.val_bind]
    by_cases hd : (c.drop (2 * k)).take 2 = (p.drop (2 * k)).take 2
    · rw [if_neg (by simpa using hd)]
      apply ih (k + 1) (by omega)
      rw [show 2 * (k + 1) = 2 * k + 2 by ring, take_add_two c, take_add_two p, h, hd]
    · rw [if_pos hd]
      refine ⟨k, rfl, by omega, h, fun _ he => hd ?_⟩
      rw [take_add_two c, take_add_two p, h] at he
      exact List.append_cancel_left he

/-- What `getMinimalBound` computes, for items as the vector holds them. -/
theorem getMinimalBound_eq (prev curr : Item) (hp : prev.id.length = 64) (hc : curr.id.length = 64) :
    ∃ b, getMinimalBound prev curr = .val b ∧ b.ts = curr.ts ∧
      ((curr.ts ≠ prev.ts ∧ b.id = []) ∨ (curr.ts = prev.ts ∧ ∃ j, j ≤ 16 ∧ b.id = curr.id.take (2 * j + 2) ∧
        curr.id.take (2 * j) = prev.id.take (2 * j) ∧
        (j < 16 → curr.id.take (2 * j + 2) ≠ prev.id.take (2 * j + 2)))) := by
  unfold getMinimalBound
  by_cases h : curr.ts = prev.ts
  · obtain ⟨j, h1, h2, h3, h4⟩ := sharedLoop_spec curr.id prev.id hc hp 16 0 rfl (by simp)
    have e := goSlice_nat curr.id 0 ((j + 1) * 2) (by omega) (by omega)
    rw [if_neg (by simpa using h), h1, Out.val_bind]
    have e2 : goSlice curr.id 0 (((j + 1) * 2 : Nat) : Int) = .val (curr.id.take (2 * j + 2)) := by
      rw [show (0 : Int) = ((0 : Nat) : Int) from rfl, e]
      simp [show (j + 1) * 2 = 2 * j + 2 by ring]
    rw [e2]
    exact ⟨_, rfl, rfl, Or.inr ⟨h, j, h2, rfl, h3, h4⟩⟩
  · rw [if_pos h]
    exact ⟨_, rfl, rfl, Or.inl ⟨h, rfl⟩⟩

/-- Neighbours the bound separates: different timestamps, or ids that differ within their first 17 bytes (34 hex
characters). -/
def Separable (prev curr : Item) : Prop := prev.ts ≠ curr.ts ∨ prev.id.take 34 ≠ curr.id.take 34

/-- **C46 (partial).** For adjacent items `prev < curr` of a vector (64-character ids) whose ids, if the timestamps are
equal, differ within the first 17 bytes, the chosen bound is above `prev` and not above `curr`. Missing: pairs with the
same timestamp sharing more than 16 bytes (`C46_long_prefix_not_separated`). -/
theorem C46_separates_partial (prev curr : Item) (hp : prev.id.length = 64) (hc : curr.id.length = 64)
    (hlt : ItemLt prev curr) (hs : Separable prev curr) :
    ∃ b, getMinimalBound prev curr = .val b ∧ ItemLt prev b ∧ ¬ ItemLt curr b := by
  obtain ⟨b, h1, h2, h3⟩ := getMinimalBound_eq prev curr hp hc
  refine ⟨b, h1, ?_, ?_⟩
  · rcases h3 with ⟨h3, h4⟩ | ⟨h3, j, hj, h4, h5, h6⟩
    · left
      rcases hlt with h | ⟨h, _⟩
      · omega
      · exact absurd h.symm h3
    · right
      refine ⟨by omega, ?_⟩
      have hl : LexLt prev.id curr.id := by
        rcases hlt with h | ⟨_, h⟩
        · omega
        · exact h
      rw [h4]
      apply lexLt_take hl
      by_cases hj16 : j < 16
      · exact (h6 hj16).symm
      · have : j = 16 := by omega
        subst this
        rcases hs with hs | hs
        · exact absurd h3.symm hs
        · exact hs
  · rintro (h | ⟨_, h⟩)
    · omega
    · rcases h3 with ⟨h3, h4⟩ | ⟨h3, j, hj, h4, h5, h6⟩
      · rw [h4] at h; cases hh : curr.id <;> simp [hh, LexLt] at h
      · rw [h4] at h; exact not_lexLt_take _ _ h

/-- **C46, the rest.** For equal timestamps and ids agreeing on their first 17 bytes, the bound is not above `prev`: the
two sides of the protocol may put `prev` on different sides of it. -/
theorem C46_long_prefix_not_separated (prev curr : Item) (hp : prev.id.length = 64) (hc : curr.id.length = 64)
    (hs : ¬ Separable prev curr) : ∃ b, getMinimalBound prev curr = .val b ∧ ¬ ItemLt prev b := by
  unfold Separable at hs
  push Not at hs
  obtain ⟨b, h1, h2, h3⟩ := getMinimalBound_eq prev curr hp hc
  refine ⟨b, h1, ?_⟩
  rintro (h | ⟨_, h⟩)
  · omega
  · rcases h3 with ⟨h3, h4⟩ | ⟨h3, j, hj, h4, h5, h6⟩
    · exact h3 hs.1.symm
    · have : curr.id.take (2 * j + 2) = prev.id.take (2 * j + 2) := by
        have := congrArg (List.take (2 * j + 2)) hs.2
        rw [List.take_take, List.take_take, Nat.min_eq_left (by omega)] at this
        exact this.symm
      rw [h4, this] at h
      exact not_lexLt_take _ _ h

/-- Sample ids: `c` repeated. -/
def idOf (c : UInt8) : Bytes := List.replicate 64 c

example : Separable ⟨5, idOf 48⟩ ⟨5, idOf 49⟩ ∧ ItemLt ⟨5, idOf 48⟩ ⟨5, idOf 49⟩ ∧
    getMinimalBound ⟨5, idOf 48⟩ ⟨5, idOf 49⟩ = .val ⟨5, b! "11"⟩ := by
  refine ⟨Or.inr (by decide +kernel), by decide +kernel, by decide +kernel⟩

/-- The hypothesis of the negative result is satisfiable: two ids that differ in the last byte only. -/
example : ∃ p c : Item, p.id.length = 64 ∧ c.id.length = 64 ∧ ItemLt p c ∧ ¬ Separable p c :=
  ⟨⟨5, idOf 48⟩, ⟨5, idOf 48 |>.set 63 49⟩, by decide +kernel, by decide +kernel, by decide +kernel, by
    unfold Separable
    rw [not_or]
    exact ⟨by decide, by decide +kernel⟩⟩

/-! ## C48 -/

/-- Sorted by timestamp and id, as a sealed vector is. -/
def Sorted (items : List Item) : Prop := items.Pairwise (fun a b => ¬ ItemLt b a)

theorem binarySearch_spec (xs : List Item) (t : Item) (hs : Sorted xs) : ∀ (fuel i j : Nat), i ≤ j → j ≤ xs.length →
    j - i ≤ fuel → (∀ k (hk : k < xs.length), k < i → ItemLt xs[k] t) → (∀ k (hk : k < xs.length), j ≤ k → ¬ ItemLt xs[k] t) →
    let r := binarySearch xs t fuel i j
    i ≤ r ∧ r ≤ j ∧ (∀ k (hk : k < xs.length), k < r → ItemLt xs[k] t) ∧ (∀ k (hk : k < xs.length), r ≤ k → ¬ ItemLt xs[k] t) := by
  intro fuel
  have mono : ∀ a b (ha : a < xs.length) (hb : b < xs.length), a ≤ b → ¬ ItemLt xs[b] xs[a] := by
    intro a b ha hb hab
    rcases Nat.lt_or_eq_of_le hab with h | rfl
    · exact List.pairwise_iff_getElem.1 hs a b ha hb h
    · exact ItemLt.irrefl _
  induction fuel with
  | zero =>
    intro i j hij hj hf h1 h2
    have : i = j := by omega
    subst this
    exact ⟨by simp [binarySearch], by simp [binarySearch], by simpa [binarySearch] using h1, by simpa [binarySearch] using h2⟩
  | succ fuel ih =>
    intro i j hij hj hf h1 h2
    by_cases h : i < j
    · have hh : (i + j) / 2 < xs.length := by omega
      by_cases hc : itemCompare xs[(i + j) / 2] t < 0
      · have e : binarySearch xs t (fuel + 1) i j = binarySearch xs t fuel ((i + j) / 2 + 1) j := by
          conv_lhs => unfold binarySearch
          simp [h, List.getElem?_eq_getElem hh, hc]
        rw [e]
        have := ih ((i + j) / 2 + 1) j (by omega) hj (by omega) (fun k hk hk2 => ?_) h2
        · exact ⟨by omega, this.2⟩
        · exact ItemLt.of_le_lt (mono k _ hk hh (by omega)) ((itemCompare_neg _ _).1 hc)
      · have e : binarySearch xs t (fuel + 1) i j = binarySearch xs t fuel i ((i + j) / 2) := by
          conv_lhs => unfold binarySearch
          simp [h, List.getElem?_eq_getElem hh, hc]
        rw [e]
        have hn : ¬ ItemLt xs[(i + j) / 2] t := fun hx => hc ((itemCompare_neg _ _).2 hx)
        have := ih i ((i + j) / 2) (by omega) (by omega) (by omega) h1 (fun k hk hk2 => ?_)
        · exact ⟨this.1, by omega, this.2.2⟩
        · intro hx
          exact hn (ItemLt.of_le_lt (mono _ k hh hk hk2) hx)
    · have : i = j := by omega
      subst this
      exact ⟨by simp [binarySearch], by simp [binarySearch], by simpa [binarySearch] using h1, by simpa [binarySearch] using h2⟩

/-- **C48.** On a sorted vector and `begin ≤ end ≤ size`, `FindLowerBound` returns the insertion point of the bound in
`[begin, end]`: every item of the range before it is below the bound, none from it on is. -/
theorem C48_findLowerBound (items : List Item) (hs : Sorted items) (b e : Nat) (hbe : b ≤ e) (he : e ≤ items.length)
    (bound : Item) : ∃ r, findLowerBound items b e bound = .val r ∧ b ≤ r ∧ r ≤ e ∧
      (∀ k (hk : k < items.length), b ≤ k → k < r → ItemLt items[k] bound) ∧
      (∀ k (hk : k < items.length), r ≤ k → k < e → ¬ ItemLt items[k] bound) := by
  have hs2 : Sorted ((items.drop b).take (e - b)) :=
    List.Pairwise.sublist ((List.take_sublist _ _).trans (List.drop_sublist _ _)) hs
  have hl : ((items.drop b).take (e - b)).length = e - b := by simp; omega
  obtain ⟨h1, h2, h3, h4⟩ := binarySearch_spec _ bound hs2 ((items.drop b).take (e - b)).length 0 _ (by omega)
    (le_refl _) (by omega)
    (fun k hk hk2 => by omega) (fun k hk hk2 => by omega)
  refine ⟨b + binarySearch ((items.drop b).take (e - b)) bound ((items.drop b).take (e - b)).length 0
    ((items.drop b).take (e - b)).length, ?_, by omega, by omega, ?_, ?_⟩
  · unfold findLowerBound; rw [if_pos ⟨hbe, he⟩]
  · intro k hk hk1 hk2
    have := h3 (k - b) (by omega) (by omega)
    simp only [List.getElem_take, List.getElem_drop] at this
    simpa [show b + (k - b) = k by omega] using this
  · intro k hk hk1 hk2
    have := h4 (k - b) (by omega) (by omega)
    simp only [List.getElem_take, List.getElem_drop] at this
    simpa [show b + (k - b) = k by omega] using this

/-- Sealing sorts: the result is a permutation of what was inserted, in order. -/
theorem C48_seal_sorts (items : List Item) : (vecSeal items).Perm items ∧ Sorted (vecSeal items) := by
  have ins : ∀ (x : Item) (l : List Item), (insertSorted x l).Perm (x :: l) ∧ (Sorted l → Sorted (insertSorted x l)) := by
    intro x l
    induction l with
    | nil => simp [insertSorted, Sorted]
    | cons y l ih =>
      unfold insertSorted
      by_cases h : itemCompare x y ≤ 0
      · rw [if_pos h]
        refine ⟨List.Perm.refl _, fun hs => ?_⟩
        have hxy : ¬ ItemLt y x := by
          rcases itemCompare_spec x y with ⟨_, _, h2, _⟩ | ⟨_, rfl⟩ | ⟨h2, _⟩
          · exact h2
          · exact ItemLt.irrefl _
          · omega
        unfold Sorted at *
        rw [List.pairwise_cons] at hs ⊢
        refine ⟨?_, List.pairwise_cons.2 hs⟩
        intro z hz
        rcases List.mem_cons.1 hz with rfl | hz
        · exact hxy
        · exact ItemLt.le_trans hxy (hs.1 z hz)
      · rw [if_neg h]
        refine ⟨(List.Perm.cons y ih.1).trans (List.Perm.swap x y l), fun hs => ?_⟩
        have hxy : ItemLt y x := by
          rcases itemCompare_spec x y with ⟨h2, _⟩ | ⟨h2, _⟩ | ⟨h2, h3, _⟩
          · omega
          · omega
          · exact h3
        unfold Sorted at *
        rw [List.pairwise_cons] at hs ⊢
        refine ⟨?_, ih.2 hs.2⟩
        intro z hz
        rcases List.mem_cons.1 (ih.1.mem_iff.1 hz) with rfl | hz
        · exact hxy.asymm
        · exact hs.1 z hz
  induction items with
  | nil => exact ⟨List.Perm.refl _, List.Pairwise.nil⟩
  | cons x l ih =>
    refine ⟨(ins x _).1.trans (List.Perm.cons x ih.1), (ins x _).2 ih.2⟩

theorem inserts_eq (l : List Item) (acc : List Item) :
    l.foldlM (fun items x => vecInsert items x.ts x.id) acc = if ∀ x ∈ l, x.id.length = 64 then .val (acc ++ l) else .panic := by
  induction l generalizing acc with
  | nil => simp
  | cons x l ih =>
    rw [List.foldlM_cons]
    unfold vecInsert
    by_cases h : x.id.length = 64
    · rw [if_neg (by simp [h]), Out.val_bind]
      have := ih (acc ++ [x])
      unfold vecInsert at this
      rw [this]
      simp [h]
    · rw [if_pos h, Out.panic_bind, if_neg (by simp [h])]

/-- **C48 (what is stored).** Whatever is inserted, in any order: if every id has 64 characters, the sealed vector has exactly those items, each as often as it was inserted, in order; if one has not, inserting panics. -/
theorem C48_built (l : List Item) :
    ((∀ x ∈ l, x.id.length = 64) → ∃ items, l.foldlM (fun items x => vecInsert items x.ts x.id) [] = .val items ∧ (vecSeal items).Perm l ∧ Sorted (vecSeal items)) ∧
    ((∃ x ∈ l, x.id.length ≠ 64) → l.foldlM (fun items x => vecInsert items x.ts x.id) [] = .panic) := by
  constructor
  · intro h
    refine ⟨l, by rw [inserts_eq, if_pos h]; rfl, C48_seal_sorts l⟩
  · rintro ⟨x, hx, hn⟩
    rw [inserts_eq, if_neg (fun h => hn (h x hx))]

/-- **C48 is false of vectors that grow after they were sealed:** nothing refuses an item then, and the search misses an item that is there. -/
theorem C48_insert_after_seal : let a : Item := ⟨10, List.replicate 64 97⟩
    let b : Item := ⟨5, List.replicate 64 98⟩
    ∃ grown, vecInsert (vecSeal [a]) b.ts b.id = .val grown ∧ b ∈ grown ∧ findLowerBound grown 0 2 b = .val 0 ∧ grown[0]? = some a := by
  exact ⟨[⟨10, List.replicate 64 97⟩, ⟨5, List.replicate 64 98⟩], by decide +kernel, by simp, by decide +kernel, rfl⟩

example : findLowerBound (vecSeal [⟨9, idOf 48⟩, ⟨3, idOf 49⟩, ⟨3, idOf 48⟩, ⟨7, idOf 50⟩]) 0 4 ⟨3, b! "1"⟩ = .val 1 := by
  decide +kernel

/-! ## C47 -/

/-- The number a list of bytes stands for, least significant byte first. -/
def leVal : Bytes → Nat
  | [] => 0
  | b :: bs => b.toNat + 256 * leVal bs

/-- No aligned four-byte word of the id is `0xFFFFFFFF`. -/
def NoFullWord : Bytes → Prop
  | a :: b :: c :: d :: rest => ¬ (a = 255 ∧ b = 255 ∧ c = 255 ∧ d = 255) ∧ NoFullWord rest
  | _ => True

theorem le32_lt (a b c d : UInt8) : le32 a b c d < 2 ^ 32 := by
  unfold le32
  have := a.toNat_lt; have := b.toNat_lt; have := c.toNat_lt; have := d.toNat_lt
  omega

theorem le32_full (a b c d : UInt8) (h : ¬ (a = 255 ∧ b = 255 ∧ c = 255 ∧ d = 255)) : le32 a b c d ≠ 2 ^ 32 - 1 := by
  intro he
  apply h
  unfold le32 at he
  have h1 := a.toNat_lt; have h2 := b.toNat_lt; have h3 := c.toNat_lt; have h4 := d.toNat_lt
  have ha : a.toNat = 255 := by omega
  have hb : b.toNat = 255 := by omega
  have hc : c.toNat = 255 := by omega
  have hd : d.toNat = 255 := by omega
  refine ⟨?_, ?_, ?_, ?_⟩ <;> (apply UInt8.toNat_inj.mp; assumption)

theorem put32_leVal (n : Nat) (h : n < 2 ^ 32) (rest : Bytes) : leVal (put32 n ++ rest) = n + 2 ^ 32 * leVal rest := by
  simp only [put32, List.cons_append, List.nil_append, leVal]
  have e : ∀ m, m < 256 → (UInt8.ofNat m).toNat = m := by
    intro m hm; rw [UInt8.toNat_ofNat']; exact Nat.mod_eq_of_lt (by omega)
  rw [e _ (by omega), e _ (by omega), e _ (by omega), e _ (by omega)]
  omega

theorem carry_arith (o w c la lb P Q : Nat) (hP : 0 < P) :
    (o + c + w) % P + P * ((la + lb + (o + c + w) / P) % Q) = (o + P * la + (w + P * lb) + c) % (P * Q) := by
  have h : o + P * la + (w + P * lb) + c = (o + c + w) % P + P * (la + lb + (o + c + w) / P) := by
    have := Nat.mod_add_div (o + c + w) P
    rw [Nat.mul_add, Nat.mul_add]
    omega
  rw [h, Nat.mod_mul, Nat.add_mul_mod_self_left, Nat.mod_mod]
  congr 2
  rw [Nat.add_mul_div_left _ _ hP, Nat.div_eq_of_lt (Nat.mod_lt _ hP), Nat.zero_add]

theorem addWords_spec : ∀ (k : Nat) (a b : Bytes) (carry : Nat), a.length = 4 * k → b.length = 4 * k → NoFullWord b →
    carry ≤ 1 → ∃ r, addWords a b carry = .val r ∧ r.length = 4 * k ∧
      leVal r = (leVal a + leVal b + carry) % 2 ^ (32 * k)
  | 0, a, b, carry, ha, hb, _, _ => by
    have : a = [] := List.length_eq_zero_iff.1 (by omega)
    subst this
    exact ⟨[], by simp [addWords], rfl, by simp [leVal, Nat.mod_one]⟩
  | k + 1, a, b, carry, ha, hb, hn, hc => by
    match a, b, ha, hb, hn with
    | a0 :: a1 :: a2 :: a3 :: as, b0 :: b1 :: b2 :: b3 :: bs, ha, hb, hn =>
      have ho := le32_lt a0 a1 a2 a3
      have hw := le32_lt b0 b1 b2 b3
      have hf := le32_full _ _ _ _ hn.1
      have hva : leVal (a0 :: a1 :: a2 :: a3 :: as) = le32 a0 a1 a2 a3 + 2 ^ 32 * leVal as := by
        simp only [leVal, le32]; ring
      have hvb : leVal (b0 :: b1 :: b2 :: b3 :: bs) = le32 b0 b1 b2 b3 + 2 ^ 32 * leVal bs := by
        simp only [leVal, le32]; ring
      rw [hva, hvb]
      generalize hO : le32 a0 a1 a2 a3 = o at *
      generalize hW : le32 b0 b1 b2 b3 = w at *
      obtain ⟨r, e1, e2, e3⟩ := addWords_spec k as bs (if (o + carry + w) % 2 ^ 32 < o ∨ (o + carry + w) % 2 ^ 32 < w then 1 else 0)
        (by simpa [Nat.mul_add] using ha) (by simpa [Nat.mul_add] using hb) hn.2 (by split <;> omega)
      refine ⟨put32 ((o + carry + w) % 2 ^ 32) ++ r, ?_, ?_, ?_⟩
      · simp only [addWords, hO, hW, e1, Out.val_bind, Out.pure_eq]
      · simp [put32, e2]; omega
      · rw [put32_leVal _ (Nat.mod_lt _ (by norm_num)), e3]
        have hcar : (if (o + carry + w) % 2 ^ 32 < o ∨ (o + carry + w) % 2 ^ 32 < w then 1 else 0) = (o + carry + w) / 2 ^ 32 := by
          by_cases hlt : o + carry + w < 2 ^ 32
          · rw [Nat.mod_eq_of_lt hlt, Nat.div_eq_of_lt hlt, if_neg (by omega)]
          · have h1 : (o + carry + w) / 2 ^ 32 = 1 := by omega
            have h2 : (o + carry + w) % 2 ^ 32 = o + carry + w - 2 ^ 32 := by omega
            rw [h1, h2, if_pos (by omega)]
        rw [hcar]
        have hp : (2:Nat) ^ (32 * (k + 1)) = 2 ^ 32 * 2 ^ (32 * k) := by rw [← pow_add]; congr 1; omega
        rw [hp]
        exact carry_arith o w carry (leVal as) (leVal bs) (2 ^ 32) (2 ^ (32 * k)) (by norm_num)

/-- **C47 (partial).** Adding a 32-byte id none of whose aligned words is `0xFFFFFFFF` adds it to the accumulator modulo
2^256. -/
theorem C47_add_partial (acc id : Bytes) (ha : acc.length = 32) (hi : id.length = 32) (hn : NoFullWord id) :
    ∃ r, accAdd acc id = .val r ∧ r.length = 32 ∧ leVal r = (leVal acc + leVal id) % 2 ^ 256 := by
  simpa [accAdd] using addWords_spec 8 acc id 0 (by omega) (by omega) hn (by omega)

/-- Sum of ids given in hex. -/
def idSum : List Bytes → Nat
  | [] => 0
  | b :: bs => leVal b + idSum bs

/-- **C47 (partial).** Accumulating items whose ids are the hex of `raw` computes the sum of the raw ids modulo 2^256. -/
theorem C47_accumulate_partial (raw : List Bytes) (items : List Item) (hi : items.map (·.id) = raw.map hexEnc)
    (hr : ∀ r ∈ raw, r.length = 32 ∧ NoFullWord r) (acc tmp : Bytes) (ha : acc.length = 32) (ht : tmp.length = 32) :
    ∃ r, accumulate acc tmp items = .val r ∧ r.length = 32 ∧ leVal r % 2 ^ 256 = (leVal acc + idSum raw) % 2 ^ 256 := by
  induction raw generalizing items acc tmp with
  | nil =>
    have : items = [] := by simpa using hi
    subst this
    exact ⟨acc, rfl, ha, by simp [idSum]⟩
  | cons x raw ih =>
    match items, hi with
    | it :: items, hi =>
      simp only [List.map_cons, List.cons.injEq] at hi
      obtain ⟨hx1, hx2⟩ := hr x (by simp)
      have ht2 : hexDecodeInto tmp it.id = x := by
        rw [hexDecodeInto, hi.1, hexDecPartial_eq (hexDec_hexEnc x)]
        simp [List.drop_eq_nil_of_le (show tmp.length ≤ x.length by omega)]
      obtain ⟨acc', a1, a2, a3⟩ := C47_add_partial acc x ha hx1 hx2
      obtain ⟨r, r1, r2, r3⟩ := ih items hi.2 (fun r h => hr r (List.mem_cons_of_mem _ h)) acc' x a2 hx1
      refine ⟨r, ?_, r2, ?_⟩
      · simp only [accumulate, ht2, a1, Out.val_bind, r1]
      · rw [r3, a3]
        simp only [idSum]
        rw [Nat.mod_add_mod, Nat.add_assoc]

theorem leVal_lt (b : Bytes) : leVal b < 256 ^ b.length := by
  induction b with
  | nil => simp [leVal]
  | cons x b ih =>
    have := x.toNat_lt
    simp only [leVal, List.length_cons, pow_succ]
    omega

theorem leVal_inj {a b : Bytes} (hl : a.length = b.length) (h : leVal a = leVal b) : a = b := by
  induction a generalizing b with
  | nil => cases b <;> simp_all
  | cons x a ih =>
    cases b with
    | nil => simp at hl
    | cons y b =>
      have hx := x.toNat_lt; have hy := y.toNat_lt
      simp only [leVal] at h
      have h1 : x.toNat = y.toNat := by omega
      have h2 : leVal a = leVal b := by omega
      rw [UInt8.toNat_inj.mp h1, ih (by simpa using hl) h2]

/-- **C47 (partial).** For such ids the accumulated value does not depend on the order. -/
theorem C47_order_irrelevant_partial (raw raw' : List Bytes) (hp : raw.Perm raw')
    (hr : ∀ r ∈ raw, r.length = 32 ∧ NoFullWord r) (items items' : List Item)
    (hi : items.map (·.id) = raw.map hexEnc) (hi' : items'.map (·.id) = raw'.map hexEnc) (zero : Bytes) (hz : zero.length = 32) :
    accumulate zero zero items = accumulate zero zero items' := by
  obtain ⟨r, a1, a2, a3⟩ := C47_accumulate_partial raw items hi hr zero zero hz hz
  obtain ⟨r', b1, b2, b3⟩ := C47_accumulate_partial raw' items' hi' (fun x hx => hr x (hp.mem_iff.2 hx)) zero zero hz hz
  have hsum : idSum raw = idSum raw' := by
    clear a1 a2 a3 b1 b2 b3 hr hi hi'
    induction hp with
    | nil => rfl
    | cons _ _ ih => simp [idSum, ih]
    | swap => simp only [idSum]; omega
    | trans _ _ ih1 ih2 => exact ih1.trans ih2
  have e256 : (256:Nat) ^ 32 = 2 ^ 256 := by norm_num
  have l1 := leVal_lt r; have l2 := leVal_lt r'
  rw [a2, e256] at l1; rw [b2, e256] at l2
  rw [Nat.mod_eq_of_lt l1] at a3
  rw [Nat.mod_eq_of_lt l2] at b3
  have : r = r' := leVal_inj (by omega) (by rw [a3, b3, hsum])
  rw [a1, b1, this]

/-- Three ids for the negative result: `2^64 - 1`, `2^64 - 2^32 + 1` and `2^32` as little-endian numbers. -/
def badX : Bytes := [255, 255, 255, 255, 255, 255, 255, 255] ++ List.replicate 24 0
/-- See `badX`. -/
def badY : Bytes := [1, 0, 0, 0, 255, 255, 255, 255] ++ List.replicate 24 0
/-- See `badX`. -/
def badZ : Bytes := [0, 0, 0, 0, 1, 0, 0, 0] ++ List.replicate 24 0

/-- **C47, the rest.** A carry into a word where both operands are `0xFFFFFFFF` is lost: the accumulator does not hold the
sum, and the result depends on the order in which the same ids are added. -/
theorem C47_lost_carry : (∃ r, accAdd badX badY = .val r ∧ leVal r ≠ (leVal badX + leVal badY) % 2 ^ 256) ∧
    (∃ r1 r2 s1 s2, accAdd badX badY = .val r1 ∧ accAdd r1 badZ = .val r2 ∧ accAdd badX badZ = .val s1 ∧
      accAdd s1 badY = .val s2 ∧ r2 ≠ s2) := by
  refine ⟨⟨_, rfl, by decide +kernel⟩, ⟨_, _, _, _, rfl, rfl, rfl, rfl, by decide +kernel⟩⟩

theorem sorted_perm_eq : ∀ {a b : List Item}, a.Perm b → Sorted a → Sorted b → a = b
  | [], b, h, _, _ => (List.nil_perm.1 h).symm
  | x :: a, [], h, _, _ => by simp at h
  | x :: a, y :: b, h, ha, hb => by
    unfold Sorted at ha hb
    rw [List.pairwise_cons] at ha hb
    have hxy : x = y := by
      have hx : x ∈ y :: b := h.mem_iff.1 (by simp)
      have hy : y ∈ x :: a := h.mem_iff.2 (by simp)
      rcases List.mem_cons.1 hx with h1 | h1
      · exact h1
      · rcases List.mem_cons.1 hy with h2 | h2
        · exact h2.symm
        · rcases ItemLt.total x y with t | t | t
          · exact absurd t (hb.1 x h1)
          · exact t
          · exact absurd t (ha.1 y h2)
    subst hxy
    rw [sorted_perm_eq (List.Perm.cons_inv h) ha.2 hb.2]

/-- **C47.** Whatever the ids, two vectors into which the same items were inserted (in any order) have, once sealed, the
same fingerprint for every range. -/
theorem C47_equal_sets_equal_fingerprints (H : Hash32) (a b : List Item) (h : a.Perm b) (i j : Nat) :
    fingerprint H (vecSeal a) i j = fingerprint H (vecSeal b) i j := by
  have e : vecSeal a = vecSeal b :=
    sorted_perm_eq (((C48_seal_sorts a).1.trans h).trans (C48_seal_sorts b).1.symm) (C48_seal_sorts a).2 (C48_seal_sorts b).2
  rw [e]

example : NoFullWord (List.replicate 32 7) ∧ NoFullWord ([255, 255, 255, 254, 0, 255, 255, 255] ++ List.replicate 24 0) := by
  simp [NoFullWord, List.replicate]

end GoNostr.Neg
