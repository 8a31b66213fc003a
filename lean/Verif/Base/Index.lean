import Verif.Base.Bytes
import Mathlib.Tactic.Common
/-!
# Facts about `strings.Index`, `strings.IndexAny` and slicing
-/

set_option autoImplicit false

namespace GoNostr

/-- `sub` occurs in `s` at offset `i`. -/
def OccursAt (sub s : Bytes) (i : Nat) : Prop := ∃ pre post, s = pre ++ sub ++ post ∧ pre.length = i

theorem occursAt_zero {sub s : Bytes} : OccursAt sub s 0 ↔ sub.isPrefixOf s = true := by
  rw [List.isPrefixOf_iff_prefix]
  constructor
  · rintro ⟨pre, post, h, hl⟩
    have : pre = [] := List.eq_nil_of_length_eq_zero hl
    subst this
    exact ⟨post, by simp [h]⟩
  · rintro ⟨t, ht⟩
    exact ⟨[], t, by simp [ht], rfl⟩

theorem occursAt_succ {sub s : Bytes} {c : UInt8} {i : Nat} : OccursAt sub (c :: s) (i + 1) ↔ OccursAt sub s i := by
  constructor
  · rintro ⟨pre, post, h, hl⟩
    cases pre with
    | nil => simp at hl
    | cons p pre =>
      simp at h hl
      exact ⟨pre, post, by simpa using h.2, hl⟩
  · rintro ⟨pre, post, h, hl⟩
    exact ⟨c :: pre, post, by simp [h], by simp [hl]⟩

theorem occursAt_nil {sub : Bytes} {i : Nat} : OccursAt sub [] i ↔ sub = [] ∧ i = 0 := by
  constructor
  · rintro ⟨pre, post, h, hl⟩
    have := congrArg List.length h
    simp at this
    exact ⟨List.eq_nil_of_length_eq_zero (by omega), by omega⟩
  · rintro ⟨rfl, rfl⟩; exact ⟨[], [], rfl, rfl⟩

/-- Specification of `strings.Index`: either there is no occurrence and the result is -1, or it is the least one. -/
theorem indexOf_spec (sub s : Bytes) :
    (indexOf sub s = -1 ∧ ∀ i, ¬ OccursAt sub s i) ∨
    (∃ i : Nat, indexOf sub s = i ∧ OccursAt sub s i ∧ ∀ j < i, ¬ OccursAt sub s j) := by
  induction s with
  | nil =>
    by_cases h : sub = []
    · right; exact ⟨0, by simp [indexOf, h], occursAt_nil.mpr ⟨h, rfl⟩, by simp⟩
    · left; exact ⟨by simp [indexOf, h], fun i hi => h (occursAt_nil.mp hi).1⟩
  | cons c s ih =>
    by_cases hp : sub.isPrefixOf (c :: s) = true
    · right
      exact ⟨0, by simp [indexOf, hp], occursAt_zero.mpr hp, by simp⟩
    · have h0 : ¬ OccursAt sub (c :: s) 0 := fun h => hp (occursAt_zero.mp h)
      rcases ih with ⟨h1, h2⟩ | ⟨i, h1, h2, h3⟩
      · left
        refine ⟨by simp [indexOf, hp, h1], ?_⟩
        intro i hi
        cases i with
        | zero => exact h0 hi
        | succ i => exact h2 i (occursAt_succ.mp hi)
      · right
        refine ⟨i + 1, ?_, occursAt_succ.mpr h2, ?_⟩
        · simp only [indexOf, hp, h1]
          rw [if_neg (by simp), if_neg (by omega)]
          try simp
        · intro j hj
          cases j with
          | zero => exact h0
          | succ j => exact fun h => h3 j (by omega) (occursAt_succ.mp h)

theorem OccursAt.le {sub s : Bytes} {i : Nat} (h : OccursAt sub s i) : i + sub.length ≤ s.length := by
  obtain ⟨pre, post, rfl, rfl⟩ := h
  simp

/-- First occurrence, given as a split: `indexOf` finds it. -/
theorem indexOf_eq {sub s pre post : Bytes} (h : s = pre ++ sub ++ post)
    (hno : ∀ j < pre.length, ¬ OccursAt sub s j) : indexOf sub s = pre.length := by
  have ho : OccursAt sub s pre.length := ⟨pre, post, h, rfl⟩
  rcases indexOf_spec sub s with ⟨_, h2⟩ | ⟨i, h1, h2, h3⟩
  · exact absurd ho (h2 _)
  · have : i = pre.length := by
      rcases Nat.lt_trichotomy i pre.length with hlt | heq | hgt
      · exact absurd h2 (hno i hlt)
      · exact heq
      · exact absurd ho (h3 _ hgt)
    rw [h1, this]

theorem occursAt_singleton {c : UInt8} {s : Bytes} {i : Nat} : OccursAt [c] s i ↔ s[i]? = some c := by
  constructor
  · rintro ⟨pre, post, rfl, rfl⟩
    simp
  · intro h
    obtain ⟨hi, hc⟩ := List.getElem?_eq_some_iff.mp h
    refine ⟨s.take i, s.drop (i + 1), ?_, by simp; omega⟩
    subst hc
    simp

theorem indexOf_singleton_none {c : UInt8} {s : Bytes} : indexOf [c] s = -1 ↔ c ∉ s := by
  rcases indexOf_spec [c] s with ⟨h1, h2⟩ | ⟨i, h1, h2, h3⟩
  · simp only [h1, true_iff]
    intro hc
    obtain ⟨i, hi, he⟩ := List.getElem_of_mem hc
    exact h2 i (occursAt_singleton.mpr (by rw [List.getElem?_eq_getElem hi, he]))
  · have hm : c ∈ s := List.mem_of_getElem? (occursAt_singleton.mp h2)
    simp only [h1, hm, not_true_eq_false, iff_false]
    omega

/-- `s` splits around the first occurrence of `sub`. -/
def FirstSplit (sub s pre post : Bytes) : Prop := s = pre ++ sub ++ post ∧ ∀ j < pre.length, ¬ OccursAt sub s j

theorem indexOf_cases (sub s : Bytes) : (indexOf sub s = -1 ∧ ∀ i, ¬ OccursAt sub s i) ∨
    (∃ pre post, FirstSplit sub s pre post ∧ indexOf sub s = pre.length) := by
  rcases indexOf_spec sub s with h | ⟨i, h1, ⟨pre, post, hs, hl⟩, h3⟩
  · exact Or.inl h
  · right; exact ⟨pre, post, ⟨hs, by rw [hl]; exact h3⟩, by rw [h1, hl]⟩

theorem FirstSplit.index {sub s pre post : Bytes} (h : FirstSplit sub s pre post) : indexOf sub s = pre.length :=
  indexOf_eq h.1 h.2

/-- First occurrence of a byte. -/
theorem indexOf_singleton_eq {c : UInt8} {pre post : Bytes} (h : c ∉ pre) : indexOf [c] (pre ++ c :: post) = pre.length := by
  apply indexOf_eq (post := post) (by simp)
  intro j hj hocc
  have := occursAt_singleton.mp hocc
  rw [List.getElem?_append_left hj] at this
  exact h (List.mem_of_getElem? this)

theorem indexOf_singleton_cases (c : UInt8) (s : Bytes) : (indexOf [c] s = -1 ∧ c ∉ s) ∨
    (∃ pre post, s = pre ++ c :: post ∧ c ∉ pre ∧ indexOf [c] s = pre.length) := by
  by_cases h : c ∈ s
  · right
    obtain ⟨pre, post, hs, hn⟩ := List.eq_append_cons_of_mem h
    exact ⟨pre, post, hs, hn, by rw [hs]; exact indexOf_singleton_eq hn⟩
  · left; exact ⟨indexOf_singleton_none.mpr h, h⟩

theorem indexAny_cases (q : UInt8 → Bool) (s : Bytes) : (indexAny q s = -1 ∧ ∀ c ∈ s, q c = false) ∨
    (∃ pre c post, s = pre ++ c :: post ∧ (∀ x ∈ pre, q x = false) ∧ q c = true ∧ indexAny q s = pre.length) := by
  induction s with
  | nil => left; simp [indexAny]
  | cons c s ih =>
    by_cases hc : q c = true
    · right; exact ⟨[], c, s, rfl, by simp, hc, by simp [indexAny, hc]⟩
    · have hc' : q c = false := by simpa using hc
      rcases ih with ⟨h1, h2⟩ | ⟨pre, d, post, h1, h2, h3, h4⟩
      · left; exact ⟨by simp [indexAny, hc', h1], by simpa [hc'] using h2⟩
      · right
        refine ⟨c :: pre, d, post, by simp [h1], by simpa [hc'] using h2, h3, ?_⟩
        simp only [indexAny, hc', h4]
        rw [if_neg (by simp), if_neg (by omega)]
        simp

theorem indexAny_eq {q : UInt8 → Bool} {pre post : Bytes} {c : UInt8} (h : ∀ x ∈ pre, q x = false) (hc : q c = true) :
    indexAny q (pre ++ c :: post) = pre.length := by
  induction pre with
  | nil => simp [indexAny, hc]
  | cons p pre ih =>
    have hp := h p (by simp)
    simp only [List.cons_append, indexAny, hp, ih (fun x hx => h x (by simp [hx]))]
    rw [if_neg (by simp), if_neg (by omega)]
    simp

theorem goSlice_split {α : Type} (a b c : List α) : goSlice (a ++ b ++ c) a.length (a.length + b.length : Nat) = .val b := by
  unfold goSlice
  rw [if_pos (by simp; omega)]
  have : ((a.length + b.length : Nat) - (a.length : Int)).toNat = b.length := by omega
  rw [this]
  simp

theorem goSliceFrom_split {α : Type} (a b : List α) : goSliceFrom (a ++ b) a.length = .val b := by
  have := goSlice_split a b []
  simpa [goSliceFrom] using this

theorem goSlice_prefix {α : Type} (a b : List α) : goSlice (a ++ b) 0 a.length = .val a := by
  have := goSlice_split [] a b
  simpa using this

theorem goSlice_val_iff {α : Type} (s : List α) (lo hi : Int) :
    (∃ r, goSlice s lo hi = .val r) ↔ 0 ≤ lo ∧ lo ≤ hi ∧ hi ≤ s.length := by
  unfold goSlice
  split
  · next h => simp [h]
  · next h => simp [h]

theorem goSlice_panic_iff {α : Type} (s : List α) (lo hi : Int) :
    goSlice s lo hi = .panic ↔ ¬ (0 ≤ lo ∧ lo ≤ hi ∧ hi ≤ s.length) := by
  unfold goSlice
  split
  · next h => simp [h]
  · next h => simp [h]

end GoNostr
