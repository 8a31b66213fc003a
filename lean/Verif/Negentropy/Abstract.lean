import Verif.Negentropy.Vector
import Mathlib.Data.List.Perm.Basic
import Mathlib.Data.List.Perm.Lattice
/-!
# The reconciliation protocol on ranges instead of bytes

Proof layer between the byte-level model and C50: messages as lists of ranges, one reply as a relation `Proc`, and the
two facts about it: nothing is lost or reported twice, and every reply is smaller.
-/

set_option autoImplicit false

namespace GoNostr.Neg

/-- Payload of a range. -/
inductive Pay
  | skip
  | fp (f : Bytes)
  | ids (l : List Bytes)
  deriving DecidableEq, Repr

/-- A range of a message: its upper bound (exclusive) and its payload; its lower bound is the previous one's upper. -/
structure Rng where
  bound : Item
  pay : Pay
  deriving DecidableEq, Repr

/-- The items in front that are below the bound. -/
def takeW (b : Item) (l : List Item) : List Item := l.takeWhile (fun x => decide (ItemLt x b))
/-- The others. -/
def dropW (b : Item) (l : List Item) : List Item := l.dropWhile (fun x => decide (ItemLt x b))

theorem takeW_append_dropW (b : Item) (l : List Item) : takeW b l ++ dropW b l = l := List.takeWhile_append_dropWhile

theorem takeW_lt {b x : Item} {l : List Item} (h : x ∈ takeW b l) : ItemLt x b := by
  induction l with
  | nil => simp [takeW] at h
  | cons y l ih =>
    unfold takeW at h ih
    by_cases hy : ItemLt y b
    · rw [List.takeWhile_cons_of_pos (by simpa using hy)] at h
      rcases List.mem_cons.1 h with rfl | h
      · exact hy
      · exact ih h
    · rw [List.takeWhile_cons_of_neg (by simpa using hy)] at h
      simp at h

theorem takeW_mem {b x : Item} {l : List Item} (h : x ∈ takeW b l) : x ∈ l := by
  rw [← takeW_append_dropW b l]; exact List.mem_append_left _ h

theorem dropW_mem {b x : Item} {l : List Item} (h : x ∈ dropW b l) : x ∈ l := by
  rw [← takeW_append_dropW b l]; exact List.mem_append_right _ h

theorem sorted_dropW {b : Item} {l : List Item} (h : Sorted l) : Sorted (dropW b l) :=
  List.Pairwise.sublist (List.dropWhile_sublist _) h

theorem sorted_takeW {b : Item} {l : List Item} (h : Sorted l) : Sorted (takeW b l) :=
  List.Pairwise.sublist (List.takeWhile_sublist _) h

theorem dropW_ge {b x : Item} {l : List Item} (hs : Sorted l) (h : x ∈ dropW b l) : ¬ ItemLt x b := by
  induction l with
  | nil => simp [dropW] at h
  | cons y l ih =>
    unfold Sorted at hs
    rw [List.pairwise_cons] at hs
    unfold dropW at h
    by_cases hy : ItemLt y b
    · rw [List.dropWhile_cons_of_pos (by simpa using hy)] at h
      exact ih hs.2 h
    · rw [List.dropWhile_cons_of_neg (by simpa using hy)] at h
      rcases List.mem_cons.1 h with rfl | h
      · exact hy
      · exact ItemLt.le_trans (fun hx => (hy hx)) (hs.1 x h) |> fun hh => fun hxb => hh hxb

theorem dropW_dropW {p b : Item} (h : ¬ ItemLt b p) (l : List Item) : dropW b (dropW p l) = dropW b l := by
  induction l with
  | nil => rfl
  | cons y l ih =>
    unfold dropW at *
    by_cases hy : ItemLt y p
    · have hyb : ItemLt y b := ItemLt.of_lt_le hy h
      rw [List.dropWhile_cons_of_pos (by simpa using hy), List.dropWhile_cons_of_pos (by simpa using hyb)]
      exact ih
    · rw [List.dropWhile_cons_of_neg (by simpa using hy)]

theorem takeW_split {p b : Item} (h : ¬ ItemLt b p) (l : List Item) : takeW b l = takeW p l ++ takeW b (dropW p l) := by
  induction l with
  | nil => rfl
  | cons y l ih =>
    unfold takeW dropW at *
    by_cases hy : ItemLt y p
    · have hyb : ItemLt y b := ItemLt.of_lt_le hy h
      rw [List.dropWhile_cons_of_pos (by simpa using hy), List.takeWhile_cons_of_pos (by simpa using hyb),
        List.takeWhile_cons_of_pos (by simpa using hy), ih]
      rfl
    · rw [List.dropWhile_cons_of_neg (by simpa using hy), List.takeWhile_cons_of_neg (p := fun x => decide (ItemLt x p)) (by simpa using hy)]
      rfl

/-- What is in `a` and not in `b`. -/
def diff (a b : List Item) : List Item := a.filter (fun x => decide (x ∉ b))

theorem mem_diff {a b : List Item} {x : Item} : x ∈ diff a b ↔ x ∈ a ∧ x ∉ b := by simp [diff]

theorem diff_append (a1 a2 b1 b2 : List Item) (h12 : ∀ x ∈ a1, x ∉ b2) (h21 : ∀ x ∈ a2, x ∉ b1) :
    diff (a1 ++ a2) (b1 ++ b2) = diff a1 b1 ++ diff a2 b2 := by
  unfold diff
  rw [List.filter_append]
  congr 1
  · apply List.filter_congr
    intro x hx
    simp [h12 x hx]
  · apply List.filter_congr
    intro x hx
    simp [h21 x hx]

/-- The pairs (sender's items, receiver's items) of the ranges of a message that are not skipped. -/
def todo : List Rng → List Item → List Item → List (List Item × List Item)
  | [], _, _ => []
  | r :: M, S, R => (if r.pay = .skip then [] else [(takeW r.bound S, takeW r.bound R)]) ++
      todo M (dropW r.bound S) (dropW r.bound R)

/-- Items of the sender, in ranges still open, that the receiver lacks. -/
def openS (M : List Rng) (S R : List Item) : List Item := (todo M S R).flatMap (fun p => diff p.1 p.2)
/-- Items of the receiver, in ranges still open, that the sender lacks. -/
def openR (M : List Rng) (S R : List Item) : List Item := (todo M S R).flatMap (fun p => diff p.2 p.1)

theorem openS_swap (M : List Rng) : ∀ S R, openS M S R = openR M R S := by
  induction M with
  | nil => intro S R; rfl
  | cons r M ih =>
    intro S R
    have h := ih (dropW r.bound S) (dropW r.bound R)
    unfold openS openR at *
    simp only [todo, List.flatMap_append]
    rw [h]
    by_cases hr : r.pay = .skip <;> simp [hr]

/-- The bounds of a message do not decrease, starting from `p`. -/
def Mono : Item → List Rng → Prop
  | _, [] => True
  | p, r :: M => ¬ ItemLt r.bound p ∧ Mono r.bound M

/-- Payloads of a message describe the sender's items. -/
def Valid (fpOf : List Item → Bytes) : List Rng → List Item → Prop
  | [], _ => True
  | r :: M, S => (match r.pay with
      | .skip => True
      | .fp f => f = fpOf (takeW r.bound S)
      | .ids l => l = (takeW r.bound S).map (·.id)) ∧ Valid fpOf M (dropW r.bound S)

/-- The bound of the last range. -/
def lastBound : List Rng → Item → Item
  | [], p => p
  | r :: M, _ => lastBound M r.bound

/-- Consecutive buckets: each bucket is below its bound, everything after it is not. -/
def Covers : List (Item × List Item) → Prop
  | [] => True
  | (b, xs) :: ps => (∀ x ∈ xs, ItemLt x b) ∧ (∀ p ∈ ps, ∀ x ∈ p.2, ¬ ItemLt x b) ∧ Covers ps

/-- What splitting the items `seg` under the bound `ub` may produce: their ids if there are fewer than 32, and
fingerprints of consecutive, strictly smaller, non-empty buckets covering them otherwise. -/
def SplitOK (fpOf : List Item → Bytes) (seg : List Item) (ub : Item) (N : List Rng) : Prop :=
  (seg.length < 32 ∧ N = [⟨ub, .ids (seg.map (·.id))⟩]) ∨
  (32 ≤ seg.length ∧ ∃ parts : List (Item × List Item), N = parts.map (fun p => ⟨p.1, .fp (fpOf p.2)⟩) ∧
    (parts.map (·.2)).flatten = seg ∧ Covers parts ∧ (∃ init last, parts = init ++ [(ub, last)]) ∧
    ∀ p ∈ parts, p.2 ≠ [] ∧ p.2.length < seg.length)

/-- The pending skip that is flushed before a range that is not skipped. -/
def fin (sk : Bool) (pb : Item) : List Rng := if sk then [⟨pb, .skip⟩] else []

/-- One pass over a message by a party holding (from here on) the items `R`: the reply and what a client reports. -/
inductive Proc (fpOf : List Item → Bytes) (cl : Bool) :
    List Rng → List Item → Item → Bool → List Rng → List Bytes → List Bytes → Prop
  | nil (R : List Item) (pb : Item) (sk : Bool) : Proc fpOf cl [] R pb sk [] [] []
  | skip (b : Item) (M : List Rng) (R : List Item) (pb : Item) (sk : Bool) (M' : List Rng) (h hn : List Bytes) :
      Proc fpOf cl M (dropW b R) b true M' h hn → Proc fpOf cl (⟨b, .skip⟩ :: M) R pb sk M' h hn
  | fpEq (b : Item) (f : Bytes) (M : List Rng) (R : List Item) (pb : Item) (sk : Bool) (M' : List Rng) (h hn : List Bytes) :
      f = fpOf (takeW b R) → Proc fpOf cl M (dropW b R) b true M' h hn → Proc fpOf cl (⟨b, .fp f⟩ :: M) R pb sk M' h hn
  | fpNe (b : Item) (f : Bytes) (M : List Rng) (R : List Item) (pb : Item) (sk : Bool) (N M' : List Rng) (h hn : List Bytes) :
      f ≠ fpOf (takeW b R) → SplitOK fpOf (takeW b R) b N → Proc fpOf cl M (dropW b R) b false M' h hn →
      Proc fpOf cl (⟨b, .fp f⟩ :: M) R pb sk (fin sk pb ++ (N ++ M')) h hn
  | idsC (b : Item) (l : List Bytes) (M : List Rng) (R : List Item) (pb : Item) (sk : Bool) (M' : List Rng) (h hn : List Bytes) :
      cl = true → Proc fpOf cl M (dropW b R) b true M' h hn →
      Proc fpOf cl (⟨b, .ids l⟩ :: M) R pb sk M' ((cancelIds l.dedup ((takeW b R).map (·.id))).1 ++ h)
        ((cancelIds l.dedup ((takeW b R).map (·.id))).2 ++ hn)
  | idsS (b : Item) (l : List Bytes) (M : List Rng) (R : List Item) (pb : Item) (sk : Bool) (M' : List Rng) (h hn : List Bytes) :
      cl = false → Proc fpOf cl M (dropW b R) b false M' h hn →
      Proc fpOf cl (⟨b, .ids l⟩ :: M) R pb sk (fin sk pb ++ (⟨b, .ids ((takeW b R).map (·.id))⟩ :: M')) h hn

/-! ## Cancelling ids -/

theorem cancelIds_eq : ∀ (m t : List Bytes), m.Nodup →
    cancelIds t m = (m.filter (fun x => decide (x ∉ t)), t.filter (fun x => decide (x ∉ m)))
  | [], t, _ => by simp [cancelIds]
  | x :: m, t, hm => by
    rw [List.nodup_cons] at hm
    unfold cancelIds
    by_cases h : x ∈ t
    · rw [if_pos h, cancelIds_eq m _ hm.2]
      refine Prod.ext ?_ ?_
      · simp only [List.mem_filter, decide_eq_true_eq, ne_eq]
        rw [List.filter_cons_of_neg (by simp [h])]
        apply List.filter_congr
        intro y hy
        have : y ≠ x := by rintro rfl; exact hm.1 hy
        simp [this]
      · simp only [List.filter_filter]
        apply List.filter_congr
        intro y _
        by_cases hyx : y = x <;> simp [hyx]
    · rw [if_neg h, cancelIds_eq m _ hm.2]
      refine Prod.ext ?_ ?_
      · simp [h]
      · apply List.filter_congr
        intro y hy
        have : y ≠ x := by rintro rfl; exact h hy
        simp [this]

/-! ## Concatenations -/

theorem todo_append (N M : List Rng) : ∀ (S R : List Item) (p : Item), Mono p N →
    todo (N ++ M) S R = todo N S R ++ (if N = [] then todo M S R else todo M (dropW (lastBound N p) S) (dropW (lastBound N p) R)) := by
  induction N with
  | nil => intro S R p _; simp [todo]
  | cons r N ih =>
    intro S R p hm
    have hN := hm.2
    simp only [List.cons_append, todo, lastBound, List.append_assoc, reduceCtorEq, if_false]
    rw [ih _ _ r.bound hN]
    by_cases h : N = []
    · subst h; simp [lastBound]
    · simp only [h, if_false]
      have hge : ∀ (q : Item) (N : List Rng), Mono q N → ¬ ItemLt (lastBound N q) q := by
        intro q N
        induction N generalizing q with
        | nil => intro _; exact ItemLt.irrefl _
        | cons r N ih2 => intro h2; exact ItemLt.le_trans h2.1 (ih2 r.bound h2.2)
      rw [dropW_dropW (hge _ _ hN), dropW_dropW (hge _ _ hN)]

theorem lastBound_ge : ∀ (N : List Rng) (q : Item), Mono q N → ¬ ItemLt (lastBound N q) q
  | [], q, _ => ItemLt.irrefl _
  | r :: N, q, h => ItemLt.le_trans h.1 (lastBound_ge N r.bound h.2)

/-- Opening a range by a run of open ranges ending at the same bound changes nothing. -/
theorem open_seg (N : List Rng) : ∀ (S R : List Item) (p : Item), Mono p N → N ≠ [] → (∀ r ∈ N, r.pay ≠ .skip) →
    Sorted S → Sorted R → openS N S R = diff (takeW (lastBound N p) S) (takeW (lastBound N p) R) := by
  induction N with
  | nil => intro _ _ _ _ h; exact absurd rfl h
  | cons r N ih =>
    intro S R p hm _ hns hS hR
    have hr := hns r (by simp)
    by_cases hN : N = []
    · subst hN
      simp [openS, todo, hr, lastBound]
    · have ih' := ih (dropW r.bound S) (dropW r.bound R) r.bound hm.2 hN (fun q hq => hns q (List.mem_cons_of_mem _ hq))
        (sorted_dropW hS) (sorted_dropW hR)
      have hge := lastBound_ge N r.bound hm.2
      simp only [lastBound]
      rw [takeW_split hge S, takeW_split hge R, diff_append]
      · rw [← ih']
        simp [openS, todo, hr]
      · intro x hx hx2
        exact dropW_ge hR (takeW_mem hx2) (takeW_lt hx)
      · intro x hx hx2
        exact dropW_ge hS (takeW_mem hx) (takeW_lt hx2)

/-! ## Splits -/

theorem covers_facts : ∀ (parts : List (Item × List Item)) (rest : List Item) (p ub : Item) (fpOf : List Item → Bytes),
    Covers parts → (∃ init last, parts = init ++ [(ub, last)]) →
    (∀ q ∈ parts, q.2 ≠ []) → (∀ q ∈ parts, ∀ x ∈ q.2, ¬ ItemLt x p) → (∀ x ∈ rest, ¬ ItemLt x ub) →
    Mono p (parts.map (fun q => (⟨q.1, .fp (fpOf q.2)⟩ : Rng))) ∧
    lastBound (parts.map (fun q => (⟨q.1, .fp (fpOf q.2)⟩ : Rng))) p = ub ∧
    Valid fpOf (parts.map (fun q => (⟨q.1, .fp (fpOf q.2)⟩ : Rng))) ((parts.map (·.2)).flatten ++ rest) ∧
    (∀ q ∈ parts, ¬ ItemLt ub q.1) := by
  intro parts
  induction parts with
  | nil => intro rest p ub fpOf _ ⟨i, l, h⟩; simp at h
  | cons q parts ih =>
    intro rest p ub fpOf hc hl hne hge hrest
    obtain ⟨b, xs⟩ := q
    obtain ⟨c1, c2, c3⟩ := hc
    obtain ⟨x0, hx0⟩ := List.exists_mem_of_ne_nil xs (hne (b, xs) (by simp))
    have hbp : ¬ ItemLt b p := by
      intro h
      exact hge (b, xs) (by simp) x0 hx0 ((c1 x0 hx0).trans h)
    by_cases hp : parts = []
    · subst hp
      obtain ⟨i, l, he⟩ := hl
      have hi : i = [] := by
        have := congrArg List.length he
        simp at this
        exact this
      subst hi
      simp at he
      obtain ⟨rfl, rfl⟩ := he
      have htake : takeW b (xs ++ rest) = xs := by
        unfold takeW
        rw [List.takeWhile_append_of_pos (by intro x hx; simpa using c1 x hx)]
        cases rest with
        | nil => simp
        | cons y rest =>
          rw [List.takeWhile_cons_of_neg (by simpa using hrest y (by simp))]
          simp
      refine ⟨⟨hbp, trivial⟩, rfl, ?_, ?_⟩
      · simp [Valid, htake]
      · simp [ItemLt.irrefl]
    · have hl' : ∃ init last, parts = init ++ [(ub, last)] := by
        obtain ⟨i, l, he⟩ := hl
        cases i with
        | nil => simp at he; exact absurd he.2 hp
        | cons y i => simp at he; exact ⟨i, l, he.2⟩
      obtain ⟨a1, a2, a3, a4⟩ := ih rest b ub fpOf c3 hl' (fun q hq => hne q (List.mem_cons_of_mem _ hq)) c2 hrest
      have hub : ¬ ItemLt ub b := by
        have := lastBound_ge _ _ a1
        rwa [a2] at this
      have hall : ∀ x ∈ (parts.map (·.2)).flatten ++ rest, ¬ ItemLt x b := by
        intro x hx
        rcases List.mem_append.1 hx with hx | hx
        · simp only [List.mem_flatten, List.mem_map] at hx
          obtain ⟨l, ⟨q, hq, rfl⟩, hx⟩ := hx
          exact c2 q hq x hx
        · exact ItemLt.le_trans hub (hrest x hx)
      have hsplit : ∀ Z : List Item, (∀ x ∈ Z, ¬ ItemLt x b) → takeW b (xs ++ Z) = xs ∧ dropW b (xs ++ Z) = Z := by
        intro Z hZ
        have ht : takeW b (xs ++ Z) = xs := by
          unfold takeW
          rw [List.takeWhile_append_of_pos (by intro x hx; simpa using c1 x hx)]
          cases Z with
          | nil => simp
          | cons y Z =>
            rw [List.takeWhile_cons_of_neg (by simpa using hZ y (by simp))]
            simp
        refine ⟨ht, ?_⟩
        have := takeW_append_dropW b (xs ++ Z)
        rw [ht] at this
        exact List.append_cancel_left this
      refine ⟨⟨hbp, a1⟩, ?_, ?_, ?_⟩
      · simpa [lastBound] using a2
      · simp only [List.map_cons, List.flatten_cons, List.append_assoc, Valid]
        obtain ⟨s1, s2⟩ := hsplit _ hall
        rw [s1, s2]
        exact ⟨rfl, a3⟩
      · intro q hq
        rcases List.mem_cons.1 hq with rfl | hq
        · exact hub
        · exact a4 q hq

/-! ## One reply -/

/-- The position the reply is written from lags behind the position read while a skip is pending. -/
def Lag (sk : Bool) (pb : Item) (L0 L : List Item) : Prop := if sk then L = dropW pb L0 else L = L0

theorem Lag.step {sk : Bool} {pb b : Item} {L0 L : List Item} (h : Lag sk pb L0 L) (hb : ¬ ItemLt b pb) :
    Lag true b L0 (dropW b L) := by
  unfold Lag at *
  cases sk with
  | false => simp at h; simp [h]
  | true => simp at h; simp [h, dropW_dropW hb]

theorem todo_fin {sk : Bool} {pb : Item} {S0 S R0 R : List Item} (hS : Lag sk pb S0 S) (hR : Lag sk pb R0 R) (X : List Rng) :
    todo (fin sk pb ++ X) R0 S0 = todo X R S := by
  unfold Lag at *
  cases sk with
  | false => simp at hS hR; simp [fin, hS, hR]
  | true => simp at hS hR; simp [fin, todo, hS, hR]

theorem valid_fin {fpOf : List Item → Bytes} {sk : Bool} {pb : Item} {R0 R : List Item} (hR : Lag sk pb R0 R)
    {X : List Rng} (h : Valid fpOf X R) : Valid fpOf (fin sk pb ++ X) R0 := by
  unfold Lag at *
  cases sk with
  | false => simp at hR; simpa [fin, ← hR] using h
  | true => simp at hR; simp [fin, Valid, ← hR]; exact h

theorem mono_fin {sk : Bool} {p pb : Item} {X : List Rng} (hp : ¬ ItemLt pb p) (h : Mono pb X) : Mono p (fin sk pb ++ X) := by
  cases sk with
  | true => exact ⟨hp, h⟩
  | false =>
    simp only [fin, Bool.false_eq_true, if_false, List.nil_append]
    cases X with
    | nil => trivial
    | cons r X => exact ⟨ItemLt.le_trans hp h.1, h.2⟩

theorem mono_append {N M : List Rng} : ∀ {p : Item}, Mono p N → Mono (lastBound N p) M → Mono p (N ++ M) := by
  induction N with
  | nil => intro p _ h; exact h
  | cons r N ih => intro p h1 h2; exact ⟨h1.1, ih h1.2 h2⟩

theorem mono_weaken {M : List Rng} {p q : Item} (h : ¬ ItemLt q p) (hm : Mono q M) : Mono p M := by
  cases M with
  | nil => trivial
  | cons r M => exact ⟨ItemLt.le_trans h hm.1, hm.2⟩

theorem valid_append {fpOf : List Item → Bytes} {N M : List Rng} : ∀ {S : List Item} {p : Item}, N ≠ [] → Mono p N →
    Valid fpOf N S → Valid fpOf M (dropW (lastBound N p) S) → Valid fpOf (N ++ M) S := by
  induction N with
  | nil => intro S p h; exact absurd rfl h
  | cons r N ih =>
    intro S p _ hm h1 h2
    refine ⟨h1.1, ?_⟩
    by_cases hN : N = []
    · subst hN; exact h2
    · refine ih hN hm.2 h1.2 ?_
      rw [dropW_dropW (lastBound_ge _ _ hm.2)]
      exact h2

theorem splitOK_facts {fpOf : List Item → Bytes} {R : List Item} {b p : Item} {N : List Rng} (hR : Sorted R)
    (hge : ∀ x ∈ R, ¬ ItemLt x p) (hb : ¬ ItemLt b p) (h : SplitOK fpOf (takeW b R) b N) :
    N ≠ [] ∧ Mono p N ∧ lastBound N p = b ∧ Valid fpOf N R ∧ (∀ r ∈ N, r.pay ≠ .skip) := by
  rcases h with ⟨_, rfl⟩ | ⟨_, parts, rfl, h2, h3, h4, h5⟩
  · exact ⟨by simp, ⟨hb, trivial⟩, rfl, by simp [Valid], by simp⟩
  · have hne : parts ≠ [] := by rintro rfl; obtain ⟨i, l, h⟩ := h4; simp at h
    have := covers_facts parts (dropW b R) p b fpOf h3 h4 (fun q hq => (h5 q hq).1) ?_ (fun x hx => dropW_ge hR hx)
    · obtain ⟨a1, a2, a3, _⟩ := this
      rw [h2, takeW_append_dropW] at a3
      refine ⟨by simpa using hne, a1, a2, a3, ?_⟩
      intro r hr
      obtain ⟨q, _, rfl⟩ := List.mem_map.1 hr
      simp
    · intro q hq x hx
      apply hge
      apply takeW_mem (b := b)
      rw [← h2]
      simp only [List.mem_flatten, List.mem_map]
      exact ⟨q.2, ⟨q, hq, rfl⟩, hx⟩

theorem map_filter_ids (a b : List Item) (hinj : ∀ x ∈ a, ∀ y ∈ b, x.id = y.id → x = y) :
    (a.map (·.id)).filter (fun i => decide (i ∉ b.map (·.id))) = (diff a b).map (·.id) := by
  rw [List.filter_map]
  unfold diff
  congr 1
  apply List.filter_congr
  intro x hx
  simp only [Function.comp, decide_eq_decide]
  constructor
  · intro h hb; exact h (List.mem_map.2 ⟨x, hb, rfl⟩)
  · intro h hm
    obtain ⟨y, hy, he⟩ := List.mem_map.1 hm
    exact h (hinj x hx y hy he.symm ▸ hy)

/-- One reply: the reply is again a valid message, and what was open is what is reported now plus what stays open. -/
theorem proc_correct {fpOf : List Item → Bytes} {cl : Bool} {M : List Rng} {R : List Item} {pb : Item} {sk : Bool}
    {M' : List Rng} {h hn : List Bytes} (hp : Proc fpOf cl M R pb sk M' h hn) :
    ∀ (S S0 R0 : List Item) (p : Item), ¬ ItemLt pb p → Lag sk pb S0 S → Lag sk pb R0 R → Sorted S → Sorted R → Mono pb M →
      (∀ x ∈ R, ¬ ItemLt x pb) → Valid fpOf M S → (S.map (·.id)).Nodup → (R.map (·.id)).Nodup →
      (∀ x ∈ R, ∀ y ∈ S, x.id = y.id → x = y) →
      (∀ b1 b2, fpOf (takeW b1 (dropW b2 S)) = fpOf (takeW b1 (dropW b2 R)) → takeW b1 (dropW b2 S) = takeW b1 (dropW b2 R)) →
      (∀ b1, fpOf (takeW b1 S) = fpOf (takeW b1 R) → takeW b1 S = takeW b1 R) →
      Valid fpOf M' R0 ∧ Mono p M' ∧
      ((openR M S R).map (·.id)).Perm (h ++ (openS M' R0 S0).map (·.id)) ∧
      ((openS M S R).map (·.id)).Perm (hn ++ (openR M' R0 S0).map (·.id)) := by
  induction hp with
  | nil R pb sk =>
    intro S S0 R0 p _ _ _ _ _ _ _ _ _ _ _ _ _
    exact ⟨trivial, trivial, by simp [openR, openS, todo], by simp [openR, openS, todo]⟩
  | skip b M R pb sk M' h hn _ ih =>
    intro S S0 R0 p hpp lS lR sS sR hm hge hv nS nR hinj hc hc0
    have := ih (dropW b S) S0 R0 p (ItemLt.le_trans hpp hm.1) (lS.step hm.1) (lR.step hm.1) (sorted_dropW sS) (sorted_dropW sR)
      hm.2 (fun x hx => dropW_ge sR hx) hv.2 (nS.sublist ((List.dropWhile_sublist _).map _))
      (nR.sublist ((List.dropWhile_sublist _).map _)) (fun x hx y hy => hinj x (dropW_mem hx) y (dropW_mem hy))
      ?_ (fun b1 => hc b1 b)
    · simpa [openS, openR, todo] using this
    · intro b1 b2
      by_cases hb : ItemLt b2 b
      · have e : ∀ L : List Item, Sorted L → dropW b2 (dropW b L) = dropW b L := by
          intro L hL
          cases hd : dropW b L with
          | nil => rfl
          | cons y L' =>
            have hy : ¬ ItemLt y b := dropW_ge hL (by rw [hd]; simp)
            have hy2 : ¬ ItemLt y b2 := fun h => hy (h.trans hb)
            unfold dropW
            rw [List.dropWhile_cons_of_neg (by simpa using hy2)]
        rw [e S sS, e R sR]
        exact hc b1 b
      · rw [dropW_dropW hb, dropW_dropW hb]; exact hc b1 b2
  | fpEq b f M R pb sk M' h hn hf _ ih =>
    intro S S0 R0 p hpp lS lR sS sR hm hge hv nS nR hinj hc hc0
    have := ih (dropW b S) S0 R0 p (ItemLt.le_trans hpp hm.1) (lS.step hm.1) (lR.step hm.1) (sorted_dropW sS) (sorted_dropW sR)
      hm.2 (fun x hx => dropW_ge sR hx) hv.2 (nS.sublist ((List.dropWhile_sublist _).map _))
      (nR.sublist ((List.dropWhile_sublist _).map _)) (fun x hx y hy => hinj x (dropW_mem hx) y (dropW_mem hy))
      ?_ (fun b1 => hc b1 b)
    · have he : takeW b S = takeW b R := hc0 b (by rw [← hf]; exact hv.1.symm)
      have hd : ∀ L : List Item, diff L L = [] := by intro L; simp [diff]
      simpa [openS, openR, todo, he, hd] using this
    · intro b1 b2
      by_cases hb : ItemLt b2 b
      · have e : ∀ L : List Item, Sorted L → dropW b2 (dropW b L) = dropW b L := by
          intro L hL
          cases hd : dropW b L with
          | nil => rfl
          | cons y L' =>
            have hy : ¬ ItemLt y b := dropW_ge hL (by rw [hd]; simp)
            have hy2 : ¬ ItemLt y b2 := fun h => hy (h.trans hb)
            unfold dropW
            rw [List.dropWhile_cons_of_neg (by simpa using hy2)]
        rw [e S sS, e R sR]
        exact hc b1 b
      · rw [dropW_dropW hb, dropW_dropW hb]; exact hc b1 b2
  | fpNe b f M R pb sk N M' h hn hf hs _ ih =>
    intro S S0 R0 p hpp lS lR sS sR hm hge hv nS nR hinj hc hc0
    have hcd : ∀ b1 b2, fpOf (takeW b1 (dropW b2 (dropW b S))) = fpOf (takeW b1 (dropW b2 (dropW b R))) →
        takeW b1 (dropW b2 (dropW b S)) = takeW b1 (dropW b2 (dropW b R)) := by
      intro b1 b2
      by_cases hb : ItemLt b2 b
      · have e : ∀ L : List Item, Sorted L → dropW b2 (dropW b L) = dropW b L := by
          intro L hL
          cases hd : dropW b L with
          | nil => rfl
          | cons y L' =>
            have hy : ¬ ItemLt y b := dropW_ge hL (by rw [hd]; simp)
            have hy2 : ¬ ItemLt y b2 := fun h => hy (h.trans hb)
            unfold dropW
            rw [List.dropWhile_cons_of_neg (by simpa using hy2)]
        rw [e S sS, e R sR]
        exact hc b1 b
      · rw [dropW_dropW hb, dropW_dropW hb]; exact hc b1 b2
    obtain ⟨i1, i2, i3, i4⟩ := ih (dropW b S) (dropW b S) (dropW b R) b (ItemLt.irrefl _) (by simp [Lag]) (by simp [Lag])
      (sorted_dropW sS) (sorted_dropW sR) hm.2 (fun x hx => dropW_ge sR hx) hv.2 (nS.sublist ((List.dropWhile_sublist _).map _))
      (nR.sublist ((List.dropWhile_sublist _).map _)) (fun x hx y hy => hinj x (dropW_mem hx) y (dropW_mem hy)) hcd
      (fun b1 => hc b1 b)
    obtain ⟨f1, f2, f3, f4, f5⟩ := splitOK_facts sR hge hm.1 hs
    have t1 : todo (fin sk pb ++ (N ++ M')) R0 S0 = todo N R S ++ todo M' (dropW b R) (dropW b S) := by
      rw [todo_fin lS lR, todo_append N M' R S pb f2, if_neg f1, f3]
    have o1 : openS N R S = diff (takeW b R) (takeW b S) := by
      have := open_seg N R S pb f2 f1 f5 sR sS
      rwa [f3] at this
    have o2 : openR N R S = diff (takeW b S) (takeW b R) := by
      rw [← openS_swap]
      have := open_seg N S R pb f2 f1 f5 sS sR
      rwa [f3] at this
    refine ⟨valid_fin lR (valid_append f1 f2 f4 (by rw [f3]; exact i1)), mono_fin hpp (mono_append f2 (by rw [f3]; exact i2)), ?_, ?_⟩
    · have : openS (fin sk pb ++ (N ++ M')) R0 S0 = diff (takeW b R) (takeW b S) ++ openS M' (dropW b R) (dropW b S) := by
        rw [← o1]; unfold openS; rw [t1, List.flatMap_append]
      rw [this]
      have hL : openR (⟨b, .fp f⟩ :: M) S R = diff (takeW b R) (takeW b S) ++ openR M (dropW b S) (dropW b R) := by
        simp [openR, todo]
      rw [hL, List.map_append, List.map_append]
      refine (List.Perm.append_left _ i3).trans ?_
      rw [← List.append_assoc, ← List.append_assoc]
      exact List.Perm.append_right _ List.perm_append_comm
    · have : openR (fin sk pb ++ (N ++ M')) R0 S0 = diff (takeW b S) (takeW b R) ++ openR M' (dropW b R) (dropW b S) := by
        rw [← o2]; unfold openR; rw [t1, List.flatMap_append]
      rw [this]
      have hL : openS (⟨b, .fp f⟩ :: M) S R = diff (takeW b S) (takeW b R) ++ openS M (dropW b S) (dropW b R) := by
        simp [openS, todo]
      rw [hL, List.map_append, List.map_append]
      refine (List.Perm.append_left _ i4).trans ?_
      rw [← List.append_assoc, ← List.append_assoc]
      exact List.Perm.append_right _ List.perm_append_comm
  | idsC b l M R pb sk M' h hn hcl _ ih =>
    intro S S0 R0 p hpp lS lR sS sR hm hge hv nS nR hinj hc hc0
    have hcd : ∀ b1 b2, fpOf (takeW b1 (dropW b2 (dropW b S))) = fpOf (takeW b1 (dropW b2 (dropW b R))) →
        takeW b1 (dropW b2 (dropW b S)) = takeW b1 (dropW b2 (dropW b R)) := by
      intro b1 b2
      by_cases hb : ItemLt b2 b
      · have e : ∀ L : List Item, Sorted L → dropW b2 (dropW b L) = dropW b L := by
          intro L hL
          cases hd : dropW b L with
          | nil => rfl
          | cons y L' =>
            have hy : ¬ ItemLt y b := dropW_ge hL (by rw [hd]; simp)
            have hy2 : ¬ ItemLt y b2 := fun h => hy (h.trans hb)
            unfold dropW
            rw [List.dropWhile_cons_of_neg (by simpa using hy2)]
        rw [e S sS, e R sR]
        exact hc b1 b
      · rw [dropW_dropW hb, dropW_dropW hb]; exact hc b1 b2
    obtain ⟨i1, i2, i3, i4⟩ := ih (dropW b S) S0 R0 p (ItemLt.le_trans hpp hm.1) (lS.step hm.1) (lR.step hm.1)
      (sorted_dropW sS) (sorted_dropW sR) hm.2 (fun x hx => dropW_ge sR hx) hv.2 (nS.sublist ((List.dropWhile_sublist _).map _))
      (nR.sublist ((List.dropWhile_sublist _).map _)) (fun x hx y hy => hinj x (dropW_mem hx) y (dropW_mem hy)) hcd
      (fun b1 => hc b1 b)
    have hl : l = (takeW b S).map (·.id) := hv.1
    have nl : l.Nodup := by rw [hl]; exact nS.sublist ((List.takeWhile_sublist _).map _)
    have nm : ((takeW b R).map (·.id)).Nodup := nR.sublist ((List.takeWhile_sublist _).map _)
    rw [List.Nodup.dedup nl, cancelIds_eq _ _ nm]
    have e1 : ((takeW b R).map (·.id)).filter (fun x => decide (x ∉ l)) = (diff (takeW b R) (takeW b S)).map (·.id) := by
      rw [hl]; exact map_filter_ids _ _ (fun x hx y hy => hinj x (takeW_mem hx) y (takeW_mem hy))
    have e2 : l.filter (fun x => decide (x ∉ (takeW b R).map (·.id))) = (diff (takeW b S) (takeW b R)).map (·.id) := by
      rw [hl]; exact map_filter_ids _ _ (fun x hx y hy he => (hinj y (takeW_mem hy) x (takeW_mem hx) he.symm).symm)
    simp only [e1, e2]
    have hL1 : openR (⟨b, .ids l⟩ :: M) S R = diff (takeW b R) (takeW b S) ++ openR M (dropW b S) (dropW b R) := by
      simp [openR, todo]
    have hL2 : openS (⟨b, .ids l⟩ :: M) S R = diff (takeW b S) (takeW b R) ++ openS M (dropW b S) (dropW b R) := by
      simp [openS, todo]
    rw [hL1, hL2, List.map_append, List.map_append]
    refine ⟨i1, i2, ?_, ?_⟩
    · rw [List.append_assoc]; exact List.Perm.append_left _ i3
    · rw [List.append_assoc]; exact List.Perm.append_left _ i4
  | idsS b l M R pb sk M' h hn hcl _ ih =>
    intro S S0 R0 p hpp lS lR sS sR hm hge hv nS nR hinj hc hc0
    have hcd : ∀ b1 b2, fpOf (takeW b1 (dropW b2 (dropW b S))) = fpOf (takeW b1 (dropW b2 (dropW b R))) →
        takeW b1 (dropW b2 (dropW b S)) = takeW b1 (dropW b2 (dropW b R)) := by
      intro b1 b2
      by_cases hb : ItemLt b2 b
      · have e : ∀ L : List Item, Sorted L → dropW b2 (dropW b L) = dropW b L := by
          intro L hL
          cases hd : dropW b L with
          | nil => rfl
          | cons y L' =>
            have hy : ¬ ItemLt y b := dropW_ge hL (by rw [hd]; simp)
            have hy2 : ¬ ItemLt y b2 := fun h => hy (h.trans hb)
            unfold dropW
            rw [List.dropWhile_cons_of_neg (by simpa using hy2)]
        rw [e S sS, e R sR]
        exact hc b1 b
      · rw [dropW_dropW hb, dropW_dropW hb]; exact hc b1 b2
    obtain ⟨i1, i2, i3, i4⟩ := ih (dropW b S) (dropW b S) (dropW b R) b (ItemLt.irrefl _) (by simp [Lag]) (by simp [Lag])
      (sorted_dropW sS) (sorted_dropW sR) hm.2 (fun x hx => dropW_ge sR hx) hv.2 (nS.sublist ((List.dropWhile_sublist _).map _))
      (nR.sublist ((List.dropWhile_sublist _).map _)) (fun x hx y hy => hinj x (dropW_mem hx) y (dropW_mem hy)) hcd
      (fun b1 => hc b1 b)
    have t1 : todo (fin sk pb ++ (⟨b, .ids ((takeW b R).map (·.id))⟩ :: M')) R0 S0 =
        (takeW b R, takeW b S) :: todo M' (dropW b R) (dropW b S) := by
      rw [todo_fin lS lR]; simp [todo]
    refine ⟨valid_fin lR ⟨rfl, i1⟩, mono_fin hpp ⟨hm.1, i2⟩, ?_, ?_⟩
    · unfold openS; rw [t1]
      simp only [List.flatMap_cons, List.map_append]
      have hL : openR (⟨b, .ids l⟩ :: M) S R = diff (takeW b R) (takeW b S) ++ openR M (dropW b S) (dropW b R) := by
        simp [openR, todo]
      rw [hL, List.map_append]
      refine (List.Perm.append_left _ i3).trans ?_
      rw [← List.append_assoc, ← List.append_assoc]
      exact List.Perm.append_right _ List.perm_append_comm
    · unfold openR; rw [t1]
      simp only [List.flatMap_cons, List.map_append]
      have hL : openS (⟨b, .ids l⟩ :: M) S R = diff (takeW b S) (takeW b R) ++ openS M (dropW b S) (dropW b R) := by
        simp [openS, todo]
      rw [hL, List.map_append]
      refine (List.Perm.append_left _ i4).trans ?_
      rw [← List.append_assoc, ← List.append_assoc]
      exact List.Perm.append_right _ List.perm_append_comm

/-! ## Progress -/

/-- Weight bound: how many more replies a message from a client (`cl`) or server may cause. -/
def Wt (cl : Bool) (k : Nat) : List Rng → List Item → List Item → Prop
  | [], _, _ => True
  | r :: M, S, R => (match r.pay with
      | .skip => True
      | .ids _ => (if cl then 2 else 1) ≤ k
      | .fp _ => 3 + (takeW r.bound S).length + (takeW r.bound R).length ≤ k) ∧ Wt cl k M (dropW r.bound S) (dropW r.bound R)

theorem wt_fin {cl : Bool} {k : Nat} {sk : Bool} {pb : Item} {S0 S R0 R : List Item} (hS : Lag sk pb S0 S) (hR : Lag sk pb R0 R)
    {X : List Rng} (h : Wt cl k X R S) : Wt cl k (fin sk pb ++ X) R0 S0 := by
  unfold Lag at *
  cases sk with
  | false => simp at hS hR; simpa [fin, ← hS, ← hR] using h
  | true => simp at hS hR; simp [fin, Wt, ← hS, ← hR]; exact h

theorem wt_append {cl : Bool} {k : Nat} {N M : List Rng} : ∀ {S R : List Item} {p : Item}, N ≠ [] → Mono p N → Wt cl k N S R →
    Wt cl k M (dropW (lastBound N p) S) (dropW (lastBound N p) R) → Wt cl k (N ++ M) S R := by
  induction N with
  | nil => intro S R p h; exact absurd rfl h
  | cons r N ih =>
    intro S R p _ hm h1 h2
    refine ⟨h1.1, ?_⟩
    by_cases hN : N = []
    · subst hN; exact h2
    · refine ih hN hm.2 h1.2 ?_
      rw [dropW_dropW (lastBound_ge _ _ hm.2), dropW_dropW (lastBound_ge _ _ hm.2)]
      exact h2

theorem split_at {b : Item} {xs Z : List Item} (h1 : ∀ x ∈ xs, ItemLt x b) (h2 : ∀ x ∈ Z, ¬ ItemLt x b) :
    takeW b (xs ++ Z) = xs ∧ dropW b (xs ++ Z) = Z := by
  have ht : takeW b (xs ++ Z) = xs := by
    unfold takeW
    rw [List.takeWhile_append_of_pos (by intro x hx; simpa using h1 x hx)]
    cases Z with
    | nil => simp
    | cons y Z =>
      rw [List.takeWhile_cons_of_neg (by simpa using h2 y (by simp))]
      simp
  refine ⟨ht, ?_⟩
  have := takeW_append_dropW b (xs ++ Z)
  rw [ht] at this
  exact List.append_cancel_left this

theorem wt_parts (cl : Bool) (k c m : Nat) (hk : 3 + c + m ≤ k) : ∀ (parts : List (Item × List Item)) (rest S : List Item)
    (p ub : Item) (fpOf : List Item → Bytes), Covers parts → (∃ init last, parts = init ++ [(ub, last)]) →
    (∀ q ∈ parts, q.2 ≠ []) → (∀ q ∈ parts, ∀ x ∈ q.2, ¬ ItemLt x p) → (∀ x ∈ rest, ¬ ItemLt x ub) →
    (∀ q ∈ parts, q.2.length ≤ c) → (takeW ub S).length ≤ m →
    Wt cl k (parts.map (fun q => (⟨q.1, .fp (fpOf q.2)⟩ : Rng))) ((parts.map (·.2)).flatten ++ rest) S := by
  intro parts
  induction parts with
  | nil => intros; trivial
  | cons q parts ih =>
    intro rest S p ub fpOf hc hl hne hge hrest hlen hS
    obtain ⟨b, xs⟩ := q
    obtain ⟨c1, c2, c3⟩ := hc
    have hx := hlen (b, xs) (by simp)
    by_cases hp : parts = []
    · subst hp
      obtain ⟨i, l, he⟩ := hl
      have hi : i = [] := by
        have := congrArg List.length he
        simp at this
        exact this
      subst hi
      simp at he
      obtain ⟨rfl, rfl⟩ := he
      simp only [List.map_cons, List.map_nil, List.flatten_cons, List.flatten_nil, List.append_nil, Wt, and_true]
      rw [(split_at c1 hrest).1]
      simp only at hx
      omega
    · have hl' : ∃ init last, parts = init ++ [(ub, last)] := by
        obtain ⟨i, l, he⟩ := hl
        cases i with
        | nil => simp at he; exact absurd he.2 hp
        | cons y i => simp at he; exact ⟨i, l, he.2⟩
      obtain ⟨a1, a2, a3, a4⟩ := covers_facts parts rest b ub fpOf c3 hl' (fun q hq => hne q (List.mem_cons_of_mem _ hq)) c2 hrest
      have hub : ¬ ItemLt ub b := by
        have := lastBound_ge _ _ a1
        rwa [a2] at this
      have hall : ∀ x ∈ (parts.map (·.2)).flatten ++ rest, ¬ ItemLt x b := by
        intro x hx
        rcases List.mem_append.1 hx with hx | hx
        · simp only [List.mem_flatten, List.mem_map] at hx
          obtain ⟨l, ⟨q, hq, rfl⟩, hx⟩ := hx
          exact c2 q hq x hx
        · exact ItemLt.le_trans hub (hrest x hx)
      have hS' := hS
      rw [takeW_split hub S, List.length_append] at hS'
      simp only [List.map_cons, List.flatten_cons, List.append_assoc, Wt]
      obtain ⟨s1, s2⟩ := split_at c1 hall
      rw [s1, s2]
      simp only at hx
      exact ⟨by omega, ih rest _ b ub fpOf c3 hl' (fun q hq => hne q (List.mem_cons_of_mem _ hq)) c2 hrest
        (fun q hq => hlen q (List.mem_cons_of_mem _ hq)) (by omega)⟩

/-- Every reply is lighter than the message it answers. -/
theorem proc_wt {fpOf : List Item → Bytes} {cl : Bool} {M : List Rng} {R : List Item} {pb : Item} {sk : Bool}
    {M' : List Rng} {h hn : List Bytes} (hp : Proc fpOf cl M R pb sk M' h hn) :
    ∀ (k : Nat) (S S0 R0 : List Item), Lag sk pb S0 S → Lag sk pb R0 R → Sorted R → Mono pb M → (∀ x ∈ R, ¬ ItemLt x pb) →
      Wt (!cl) (k + 1) M S R → Wt cl k M' R0 S0 := by
  induction hp with
  | nil R pb sk => intros; trivial
  | skip b M R pb sk M' h hn _ ih =>
    intro k S S0 R0 lS lR sR hm hge hw
    exact ih k _ S0 R0 (lS.step hm.1) (lR.step hm.1) (sorted_dropW sR) hm.2 (fun x hx => dropW_ge sR hx) hw.2
  | fpEq b f M R pb sk M' h hn hf _ ih =>
    intro k S S0 R0 lS lR sR hm hge hw
    exact ih k _ S0 R0 (lS.step hm.1) (lR.step hm.1) (sorted_dropW sR) hm.2 (fun x hx => dropW_ge sR hx) hw.2
  | fpNe b f M R pb sk N M' h hn hf hs _ ih =>
    intro k S S0 R0 lS lR sR hm hge hw
    have h1 := ih k (dropW b S) (dropW b S) (dropW b R) (by simp [Lag]) (by simp [Lag]) (sorted_dropW sR) hm.2
      (fun x hx => dropW_ge sR hx) hw.2
    obtain ⟨f1, f2, f3, f4, f5⟩ := splitOK_facts sR hge hm.1 hs
    refine wt_fin lS lR (wt_append f1 f2 ?_ (by rw [f3]; exact h1))
    have hb := hw.1
    simp only at hb
    rcases hs with ⟨_, rfl⟩ | ⟨_, parts, rfl, h2, h3, h4, h5⟩
    · refine ⟨?_, trivial⟩
      simp only
      split <;> omega
    · have hmem : ∀ q ∈ parts, ∀ x ∈ q.2, ¬ ItemLt x pb := by
        intro q hq x hx
        apply hge
        apply takeW_mem (b := b)
        rw [← h2]
        simp only [List.mem_flatten, List.mem_map]
        exact ⟨q.2, ⟨q, hq, rfl⟩, hx⟩
      have := wt_parts cl k ((takeW b R).length - 1) (takeW b S).length (by
          have : 0 < (takeW b R).length := by omega
          omega) parts (dropW b R) S pb b fpOf h3 h4 (fun q hq => (h5 q hq).1) hmem (fun x hx => dropW_ge sR hx)
        (fun q hq => by have := (h5 q hq).2; omega) (le_refl _)
      rw [h2, takeW_append_dropW] at this
      exact this
  | idsC b l M R pb sk M' h hn hcl _ ih =>
    intro k S S0 R0 lS lR sR hm hge hw
    exact ih k _ S0 R0 (lS.step hm.1) (lR.step hm.1) (sorted_dropW sR) hm.2 (fun x hx => dropW_ge sR hx) hw.2
  | idsS b l M R pb sk M' h hn hcl _ ih =>
    intro k S S0 R0 lS lR sR hm hge hw
    have h1 := ih k (dropW b S) (dropW b S) (dropW b R) (by simp [Lag]) (by simp [Lag]) (sorted_dropW sR) hm.2
      (fun x hx => dropW_ge sR hx) hw.2
    refine wt_fin lS lR ⟨?_, h1⟩
    have hb := hw.1
    subst hcl
    simp at hb ⊢
    omega

/-- A weightless message causes no reply. -/
theorem proc_zero {fpOf : List Item → Bytes} {cl : Bool} {M : List Rng} {R : List Item} {pb : Item} {sk : Bool}
    {M' : List Rng} {h hn : List Bytes} (hp : Proc fpOf cl M R pb sk M' h hn) :
    ∀ S, Wt (!cl) 0 M S R → M' = [] := by
  induction hp with
  | nil R pb sk => intros; rfl
  | skip b M R pb sk M' h hn _ ih => intro S hw; exact ih _ hw.2
  | fpEq b f M R pb sk M' h hn hf _ ih => intro S hw; exact ih _ hw.2
  | fpNe b f M R pb sk N M' h hn hf hs _ ih => intro S hw; have := hw.1; simp at this
  | idsC b l M R pb sk M' h hn hcl _ ih => intro S hw; have := hw.1; simp at this; split at this <;> omega
  | idsS b l M R pb sk M' h hn hcl _ ih => intro S hw; have := hw.1; simp at this; split at this <;> omega

end GoNostr.Neg
