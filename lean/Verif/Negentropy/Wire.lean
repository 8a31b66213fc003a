import Verif.Negentropy.Abstract
/-! # Splitting and answering messages, at the byte level (C49 and the refinement used by C50) -/

set_option autoImplicit false

namespace GoNostr.Neg

/-! ## Wire format of messages -/

/-- A bound as it occurs in messages: infinite or with a timestamp in `[0, 2^56 - 1)`, and at most 32 whole id bytes. -/
def GoodBound (b : Item) : Prop :=
  (b.ts = maxTimestamp ∨ (0 ≤ b.ts ∧ b.ts + 1 < 2 ^ 56)) ∧ b.id.length % 2 = 0 ∧ b.id.length ≤ 64

theorem two56 : (2:Int) ^ 56 = 72057594037927936 := by norm_num
theorem two63 : (2:Int) ^ 63 = 9223372036854775808 := by norm_num

theorem GoodBound.ok {b : Item} (h : GoodBound b) {last : Int} (h0 : 0 ≤ last) (hl : last ≤ b.ts) : BoundOK last b := by
  obtain ⟨h1, h2, h3⟩ := h
  refine ⟨?_, h2, ?_⟩
  · rcases h1 with h1 | ⟨h1, h4⟩
    · exact Or.inl h1
    · right
      rw [two56] at *
      rw [two63]
      refine ⟨hl, by omega, by omega, by omega⟩
  · have : (32 : Nat) < 2 ^ 56 := by norm_num
    generalize (2:Nat) ^ 56 = q at *
    omega

/-- Payload on the wire. -/
def encPay : Pay → Bytes
  | .skip => vi 0
  | .fp f => vi 1 ++ f
  | .ids l => vi 2 ++ (vi l.length ++ l.flatten)

/-- A message (without the version byte) on the wire. -/
def encMsg : Int → List Rng → Bytes
  | _, [] => []
  | last, r :: M => encBound last r.bound ++ (encPay r.pay ++ encMsg r.bound.ts M)

/-- The timestamp cache after a message. -/
def lastTs : List Rng → Int → Int
  | [], t => t
  | r :: M, _ => lastTs M r.bound.ts

theorem encMsg_append (N M : List Rng) : ∀ last, encMsg last (N ++ M) = encMsg last N ++ encMsg (lastTs N last) M := by
  induction N with
  | nil => intro last; rfl
  | cons r N ih => intro last; simp [encMsg, lastTs, ih]

/-- Payloads that can be written. -/
def PayOK : Pay → Prop
  | .skip => True
  | .fp f => f.length = 32
  | .ids l => l.length < 2 ^ 56 ∧ ∀ i ∈ l, i.length = 64

/-- Messages that can be written, with the timestamp cache starting at `last`. -/
def MsgOK : Int → List Rng → Prop
  | _, [] => True
  | last, r :: M => 0 ≤ last ∧ last ≤ r.bound.ts ∧ GoodBound r.bound ∧ PayOK r.pay ∧ MsgOK r.bound.ts M

theorem msgOK_append {N M : List Rng} : ∀ {last : Int}, MsgOK last N → MsgOK (lastTs N last) M → MsgOK last (N ++ M) := by
  induction N with
  | nil => intro _ _ h; exact h
  | cons r N ih => intro last h1 h2; exact ⟨h1.1, h1.2.1, h1.2.2.1, h1.2.2.2.1, ih h1.2.2.2.2 h2⟩

theorem vi_byte0 : vi 0 = hexEnc [0] := by decide +kernel
theorem vi_byte1 : vi 1 = hexEnc [1] := by decide +kernel
theorem vi_byte2 : vi 2 = hexEnc [2] := by decide +kernel

theorem encMsg_length (M : List Rng) : ∀ last, MsgOK last M → M.length ≤ (encMsg last M).length := by
  induction M with
  | nil => intro last _; simp
  | cons r M ih =>
    intro last h
    have := ih r.bound.ts h.2.2.2.2
    have hp : 0 < (encPay r.pay).length := by
      have h0 := vi_ne_nil 0 (by norm_num)
      have h1 := vi_ne_nil 1 (by norm_num)
      have h2 := vi_ne_nil 2 (by norm_num)
      cases r.pay <;> simp [encPay] <;> omega
    simp only [encMsg, List.length_cons, List.length_append]
    omega

theorem Wr.bound_eq {w : Wr} {b : Item} (hb : GoodBound b) (h0 : 0 ≤ w.last) (hl : w.last ≤ b.ts) :
    w.bound b = .val ⟨w.buf ++ encBound w.last b, b.ts⟩ := by
  unfold Wr.bound
  rw [writeBound_eq _ _ (hb.ok h0 hl)]
  rfl

theorem Wr.varInt_eq {w : Wr} {n : Nat} (h : n < 2 ^ 56) : w.varInt (n : Int) = .val ⟨w.buf ++ vi n, w.last⟩ := by
  unfold Wr.varInt
  rw [vi_write n h]
  rfl

/-! ## Fingerprints -/

/-- What a sealed vector holds in the theorems below: strictly increasing items (no duplicates), 64-character ids,
timestamps in `[0, 2^56 - 1)`, fewer than 2^56 items, and no two items of the same timestamp sharing the first 17 id bytes
(see C46). -/
structure VecOK (items : List Item) : Prop where
  sorted : items.Pairwise ItemLt
  idLen : ∀ x ∈ items, x.id.length = 64
  ts : ∀ x ∈ items, 0 ≤ x.ts ∧ x.ts + 1 < 2 ^ 56
  size : items.length < 2 ^ 56
  sep : items.Pairwise Separable

theorem VecOK.weak {items : List Item} (h : VecOK items) : Sorted items :=
  h.sorted.imp (fun hh => hh.asymm)

theorem addWords_total : ∀ (k : Nat) (a b : Bytes) (c : Nat), a.length = 4 * k → b.length = 4 * k →
    ∃ r, addWords a b c = .val r ∧ r.length = 4 * k
  | 0, a, b, c, ha, hb => by
    have : a = [] := List.length_eq_zero_iff.1 (by omega)
    subst this
    exact ⟨[], by simp [addWords], rfl⟩
  | k + 1, a, b, c, ha, hb => by
    match a, b, ha, hb with
    | a0 :: a1 :: a2 :: a3 :: as, b0 :: b1 :: b2 :: b3 :: bs, ha, hb =>
      obtain ⟨r, e1, e2⟩ := addWords_total k as bs
        (if (le32 a0 a1 a2 a3 + c + le32 b0 b1 b2 b3) % 2 ^ 32 < le32 a0 a1 a2 a3 ∨
          (le32 a0 a1 a2 a3 + c + le32 b0 b1 b2 b3) % 2 ^ 32 < le32 b0 b1 b2 b3 then 1 else 0)
        (by simpa [Nat.mul_add] using ha) (by simpa [Nat.mul_add] using hb)
      refine ⟨put32 ((le32 a0 a1 a2 a3 + c + le32 b0 b1 b2 b3) % 2 ^ 32) ++ r, ?_, ?_⟩
      · simp only [addWords, e1, Out.val_bind, Out.pure_eq]
      · simp [put32, e2]; omega

theorem accumulate_total (l : List Item) : ∀ (acc tmp : Bytes), (∀ x ∈ l, x.id.length = 64) → acc.length = 32 → tmp.length = 32 →
    ∃ r, accumulate acc tmp l = .val r ∧ r.length = 32 := by
  induction l with
  | nil => intro acc tmp _ ha _; exact ⟨acc, rfl, ha⟩
  | cons x l ih =>
    intro acc tmp hl ha ht
    have hx := hl x (by simp)
    have hd : (hexDecodeInto tmp x.id).length = 32 := by
      have := hexDecPartial_length x.id
      simp [hexDecodeInto]; omega
    obtain ⟨r, e1, e2⟩ := addWords_total 8 acc (hexDecodeInto tmp x.id) 0 (by omega) (by omega)
    obtain ⟨r2, e3, e4⟩ := ih r (hexDecodeInto tmp x.id) (fun y hy => hl y (List.mem_cons_of_mem _ hy)) (by omega) hd
    refine ⟨r2, ?_, e4⟩
    simp only [accumulate, accAdd, e1, Out.val_bind, e3]

/-- The fingerprint of a list of items. -/
def rangeFp (H : Hash32) (l : List Item) : Bytes :=
  match fingerprint H l 0 l.length with | .val f => f | .panic => []

theorem fp_total (H : Hash32) (l : List Item) (hl : ∀ x ∈ l, x.id.length = 64) (hs : l.length < 2 ^ 56) :
    ∃ f, (do let acc ← accumulate (List.replicate 32 0) (List.replicate 32 0) l; getFingerprint H acc (l.length : Int)) = .val f ∧
      f.length = 32 := by
  obtain ⟨r, e1, e2⟩ := accumulate_total l (List.replicate 32 0) (List.replicate 32 0) hl (List.length_replicate ..) (List.length_replicate ..)
  obtain ⟨e, _, h1, _⟩ := varInt_roundtrip l.length hs
  refine ⟨hexEnc ((H (r ++ e)).val.take 16), ?_, ?_⟩
  · rw [e1]
    simp only [Out.val_bind, getFingerprint, h1, Out.pure_eq]
  · simp [(H (r ++ e)).property]

theorem fingerprint_eq (H : Hash32) (items : List Item) (h : VecOK items) (i j : Nat) (hij : i ≤ j) (hj : j ≤ items.length) :
    fingerprint H items i j = .val (rangeFp H ((items.drop i).take (j - i))) ∧
    (rangeFp H ((items.drop i).take (j - i))).length = 32 := by
  have hl : ((items.drop i).take (j - i)).length = j - i := by simp; omega
  have hmem : ∀ x ∈ (items.drop i).take (j - i), x.id.length = 64 :=
    fun x hx => h.idLen x (List.mem_of_mem_drop (List.mem_of_mem_take hx))
  have hsz := h.size
  obtain ⟨f, f1, f2⟩ := fp_total H _ hmem (by omega)
  have e1 : fingerprint H items i j = .val f := by
    unfold fingerprint vecRange
    rw [if_neg (by omega)]
    simp only [Out.val_bind]
    have : (j : Int) - i = (((items.drop i).take (j - i)).length : Int) := by omega
    rw [this]; exact f1
  have e2 : rangeFp H ((items.drop i).take (j - i)) = f := by
    unfold rangeFp fingerprint vecRange
    rw [if_neg (by omega)]
    simp only [Out.val_bind, List.drop_zero, Nat.sub_zero, List.take_length]
    have : (((items.drop i).take (j - i)).length : Int) - (0 : Nat) = (((items.drop i).take (j - i)).length : Int) := by simp
    rw [this, f1]
  rw [e2]
  exact ⟨e1, f2⟩

/-! ## Lower bounds as prefixes -/

theorem findLowerBound_eq (items : List Item) (h : VecOK items) (i : Nat) (hi : i ≤ items.length) (b : Item) :
    ∃ j, findLowerBound items i items.length b = .val j ∧ i ≤ j ∧ j ≤ items.length ∧
      (items.drop i).take (j - i) = takeW b (items.drop i) ∧ items.drop j = dropW b (items.drop i) := by
  obtain ⟨j, h1, h2, h3, h4, h5⟩ := C48_findLowerBound items h.weak i items.length hi (le_refl _) b
  refine ⟨j, h1, h2, h3, ?_⟩
  have hsplit : items.drop i = (items.drop i).take (j - i) ++ items.drop j := by
    have := (List.take_append_drop (j - i) (items.drop i)).symm
    rw [List.drop_drop, show i + (j - i) = j by omega] at this
    exact this
  have ha : ∀ x ∈ (items.drop i).take (j - i), ItemLt x b := by
    intro x hx
    obtain ⟨k, hk, rfl⟩ := List.getElem_of_mem hx
    simp only [List.length_take, List.length_drop] at hk
    simp only [List.getElem_take, List.getElem_drop]
    exact h4 (i + k) (by omega) (by omega) (by omega)
  have hb : ∀ x ∈ items.drop j, ¬ ItemLt x b := by
    intro x hx
    obtain ⟨k, hk, rfl⟩ := List.getElem_of_mem hx
    simp only [List.length_drop] at hk
    simp only [List.getElem_drop]
    exact h5 (j + k) (by omega) (by omega) (by omega)
  obtain ⟨s1, s2⟩ := split_at ha hb
  rw [← hsplit] at s1 s2
  exact ⟨s1.symm, s2.symm⟩

/-! ## SplitRange -/

theorem boundary_eq (items : List Item) (c : Nat) (h0 : 0 < c) (hc : c < items.length) :
    boundaryItems items c = .val (items[c - 1], items[c]) := by
  have e : (items.drop (c - 1)).take (c + 1 - (c - 1)) = [items[c - 1], items[c]] := by
    have h2 : c + 1 - (c - 1) = 2 := by omega
    rw [h2, List.drop_eq_getElem_cons (by omega), List.drop_eq_getElem_cons (i := c - 1 + 1) (by omega)]
    have : c - 1 + 1 = c := by omega
    simp only [this]
    rfl
  unfold boundaryItems vecRange
  rw [if_neg (by omega), e]
  rfl

theorem goodBound_min {prev curr b : Item} (hp : prev.id.length = 64) (hc : curr.id.length = 64)
    (ht : 0 ≤ curr.ts ∧ curr.ts + 1 < 2 ^ 56) (h : getMinimalBound prev curr = .val b) : GoodBound b ∧ b.ts = curr.ts := by
  obtain ⟨b', h1, h2, h3⟩ := getMinimalBound_eq prev curr hp hc
  rw [h] at h1
  cases h1
  refine ⟨⟨Or.inr (by rw [h2]; exact ht), ?_⟩, h2⟩
  rcases h3 with ⟨_, h4⟩ | ⟨_, j, hj, h4, _⟩
  · simp [h4]
  · rw [h4, List.length_take]; omega

/-- The bound between two neighbours. -/
def minB (prev curr : Item) : Item := match getMinimalBound prev curr with | .val b => b | .panic => curr

/-- The buckets of a split: `k` are left, the next one is number `i`. -/
def bucketsX (ub : Item) (per extra : Nat) : Nat → Nat → List Item → List (Item × List Item)
  | 0, _, _ => []
  | k + 1, i, seg =>
    let size := if i < extra then per + 1 else per
    (match (seg.take size).getLast?, seg.drop size with
      | some p, c :: _ => minB p c
      | _, _ => ub, seg.take size) :: bucketsX ub per extra k (i + 1) (seg.drop size)

/-- The ranges `SplitRange` writes for the items `seg` under the bound `ub`. -/
def splitX (fpOf : List Item → Bytes) (seg : List Item) (ub : Item) : List Rng :=
  if seg.length < 32 then [⟨ub, .ids (seg.map (·.id))⟩]
  else (bucketsX ub (seg.length / 16) (seg.length % 16) 16 0 seg).map (fun p => ⟨p.1, .fp (fpOf p.2)⟩)

theorem splitLoop_eq (H : Hash32) (items : List Item) (h : VecOK items) (upper : Nat) (hu : upper ≤ items.length) (ub : Item)
    (hub : GoodBound ub) (per extra : Nat) (hper : 2 ≤ per) : ∀ (k i curr : Nat) (w : Wr), i + (k + 1) = 16 →
    curr ≤ upper → upper - curr = (k + 1) * per + (extra - i) → extra - i ≤ k + 1 →
    (∀ x ∈ (items.drop curr).take (upper - curr), ItemLt x ub) →
    0 ≤ w.last → w.last ≤ ub.ts → (∀ x ∈ (items.drop curr).take (upper - curr), w.last ≤ x.ts) →
    ∃ parts : List (Item × List Item),
      splitLoop H items upper ub per extra (k + 1) i curr w =
        .val ⟨w.buf ++ encMsg w.last (parts.map (fun p => ⟨p.1, .fp (rangeFp H p.2)⟩)), ub.ts⟩ ∧
      (parts.map (·.2)).flatten = (items.drop curr).take (upper - curr) ∧ Covers parts ∧
      (∃ init last, parts = init ++ [(ub, last)]) ∧ (∀ p ∈ parts, p.2 ≠ [] ∧ p.2.length ≤ per + 1) ∧
      MsgOK w.last (parts.map (fun p => ⟨p.1, .fp (rangeFp H p.2)⟩)) ∧ parts.length = k + 1 ∧
      parts = bucketsX ub per extra (k + 1) i ((items.drop curr).take (upper - curr)) := by
  intro k
  induction k with
  | zero =>
    intro i curr w hik hcu hrem hex hlt h0 hl hts
    have hsz : curr + (if i < extra then per + 1 else per) = upper := by
      split <;> omega
    obtain ⟨f1, f2⟩ := fingerprint_eq H items h curr upper hcu hu
    refine ⟨[(ub, (items.drop curr).take (upper - curr))], ?_, by simp, ⟨hlt, by simp, trivial⟩, ⟨[], _, rfl⟩, ?_, ?_, rfl, ?_⟩
    · simp only [splitLoop, hsz, f1, Out.val_bind, if_true, Wr.bound_eq hub h0 hl]
      simp [Wr.byte, Wr.hex, encMsg, encPay, vi_byte1]
    · intro p hp
      simp at hp
      subst hp
      have : ((items.drop curr).take (upper - curr)).length = upper - curr := by simp; omega
      refine ⟨?_, by simp only; omega⟩
      intro he
      simp only at he
      rw [he] at this
      simp at this
      omega
    · exact ⟨h0, hl, hub, f2, trivial⟩
    · have hlen : ((items.drop curr).take (upper - curr)).length = (if i < extra then per + 1 else per) := by simp; omega
      simp only [bucketsX]
      rw [← hlen, List.take_length, List.drop_length]
      cases ((items.drop curr).take (upper - curr)).getLast? <;> rfl
  | succ k ih =>
    intro i curr w hik hcu hrem hex hlt h0 hl hts
    obtain ⟨size, hsize⟩ : ∃ s, s = (if i < extra then per + 1 else per) := ⟨_, rfl⟩
    have hmul : (k + 1 + 1) * per = (k + 1) * per + per := by ring
    have hkp : per ≤ (k + 1) * per := by
      have : 1 * per ≤ (k + 1) * per := Nat.mul_le_mul_right _ (by omega)
      omega
    have hs1 : per ≤ size ∧ size ≤ per + 1 := by rw [hsize]; split <;> omega
    have hrem2 : upper - (curr + size) = (k + 1) * per + (extra - (i + 1)) := by
      rw [hsize]; split <;> omega
    have hcs : curr + size < upper := by omega
    have hcl : curr + size < items.length := by omega
    obtain ⟨f1, f2⟩ := fingerprint_eq H items h curr (curr + size) (by omega) (by omega)
    have hb := boundary_eq items (curr + size) (by omega) hcl
    have hm1 : items[curr + size - 1] ∈ items := List.getElem_mem _
    have hm2 : items[curr + size] ∈ items := List.getElem_mem _
    have hlt2 : ItemLt items[curr + size - 1] items[curr + size] :=
      List.pairwise_iff_getElem.1 h.sorted _ _ (by omega) hcl (by omega)
    have hsep : Separable items[curr + size - 1] items[curr + size] :=
      List.pairwise_iff_getElem.1 h.sep _ _ (by omega) hcl (by omega)
    obtain ⟨b, b1, b2, b3⟩ := C46_separates_partial _ _ (h.idLen _ hm1) (h.idLen _ hm2) hlt2 hsep
    obtain ⟨gb, gt⟩ := goodBound_min (h.idLen _ hm1) (h.idLen _ hm2) (h.ts _ hm2) b1
    have hseg : (items.drop curr).take (upper - curr) =
        (items.drop curr).take (curr + size - curr) ++ (items.drop (curr + size)).take (upper - (curr + size)) := by
      have e1 : upper - curr = size + (upper - (curr + size)) := by omega
      rw [e1, List.take_add, List.drop_drop]
      simp
    have hmemc : items[curr + size] ∈ (items.drop curr).take (upper - curr) := by
      rw [hseg]
      apply List.mem_append_right
      rw [List.mem_iff_getElem]
      refine ⟨0, by simp; omega, by simp⟩
    have hlb : w.last ≤ b.ts := by rw [gt]; exact hts _ hmemc
    have hpart : ∀ x ∈ (items.drop curr).take (curr + size - curr), ItemLt x b := by
      intro x hx
      obtain ⟨q, hq, rfl⟩ := List.getElem_of_mem hx
      simp only [List.length_take, List.length_drop] at hq
      simp only [List.getElem_take, List.getElem_drop]
      by_cases hlast : curr + q = curr + size - 1
      · simp only [hlast]; exact b2
      · exact (List.pairwise_iff_getElem.1 h.sorted (curr + q) (curr + size - 1) (by omega) (by omega) (by omega)).trans b2
    have hrest : ∀ x ∈ (items.drop (curr + size)).take (upper - (curr + size)), ¬ ItemLt x b := by
      intro x hx
      obtain ⟨q, hq, rfl⟩ := List.getElem_of_mem hx
      simp only [List.length_take, List.length_drop] at hq
      simp only [List.getElem_take, List.getElem_drop]
      intro hxb
      by_cases hq0 : q = 0
      · subst hq0; exact b3 (by simpa using hxb)
      · exact b3 ((List.pairwise_iff_getElem.1 h.sorted (curr + size) (curr + size + q) hcl (by omega) (by omega)).trans hxb)
    obtain ⟨parts, p1, p2, p3, p4, p5, p6, p7, p8⟩ := ih (i + 1) (curr + size)
      ⟨w.buf ++ encBound w.last b ++ hexEnc [1] ++ rangeFp H ((items.drop curr).take (curr + size - curr)), b.ts⟩ (by omega) (by omega) hrem2 (by omega)
      (fun x hx => hlt x (by rw [hseg]; exact List.mem_append_right _ hx)) (by simp only; omega)
      (by
        simp only
        rw [gt]
        have := hlt _ hmemc
        rcases this with hh | ⟨hh, _⟩ <;> omega)
      (by
        intro x hx
        simp only
        have := hrest x hx
        by_contra hc
        exact this (Or.inl (by omega)))
    refine ⟨(b, (items.drop curr).take (curr + size - curr)) :: parts, ?_, ?_, ?_, ?_, ?_, ?_, by rw [List.length_cons, p7], ?_⟩
    · rw [show k + 1 + 1 = (k + 1) + 1 from rfl, splitLoop]
      simp only [← hsize]
      rw [f1]
      simp only [Out.val_bind]
      rw [if_neg (by omega : ¬ curr + size = upper), hb]
      simp only [Out.val_bind]
      rw [b1]
      simp only [Out.val_bind, Wr.bound_eq gb h0 hlb, Wr.byte, Wr.hex]
      rw [p1]
      simp [encMsg, encPay, vi_byte1]
    · simp only [List.map_cons, List.flatten_cons, p2]
      exact hseg.symm
    · refine ⟨hpart, ?_, p3⟩
      intro q hq x hx
      apply hrest
      rw [← p2]
      simp only [List.mem_flatten, List.mem_map]
      exact ⟨q.2, ⟨q, hq, rfl⟩, hx⟩
    · obtain ⟨init, last, e⟩ := p4
      exact ⟨_ :: init, last, by rw [e]; rfl⟩
    · intro q hq
      rcases List.mem_cons.1 hq with rfl | hq
      · have hl2 : ((items.drop curr).take (curr + size - curr)).length = size := by simp; omega
        refine ⟨?_, by simp only; omega⟩
        intro he
        simp only at he
        rw [he] at hl2
        simp at hl2
        omega
      · exact p5 q hq
    · exact ⟨h0, hlb, gb, f2, p6⟩
    · have hl2 : ((items.drop curr).take (curr + size - curr)).length = size := by simp; omega
      have e1 : ((items.drop curr).take (upper - curr)).take size = (items.drop curr).take (curr + size - curr) := by
        rw [hseg]
        exact List.take_left' hl2
      have e2 : ((items.drop curr).take (upper - curr)).drop size = (items.drop (curr + size)).take (upper - (curr + size)) := by
        rw [hseg]
        exact List.drop_left' hl2
      have e3 : ((items.drop curr).take (curr + size - curr)).getLast? = some items[curr + size - 1] := by
        rw [List.getLast?_eq_getElem?, hl2, List.getElem?_take, if_pos (by omega), List.getElem?_drop]
        rw [List.getElem?_eq_getElem (by omega)]
        congr 2
        omega
      have e4 : (items.drop (curr + size)).take (upper - (curr + size)) = items[curr + size] :: (items.drop (curr + size + 1)).take (upper - (curr + size) - 1) := by
        rw [List.drop_eq_getElem_cons hcl]
        obtain ⟨m, hm⟩ : ∃ m, upper - (curr + size) = m + 1 := ⟨upper - (curr + size) - 1, by omega⟩
        rw [hm]
        rfl
      rw [show k + 1 + 1 = (k + 1) + 1 from rfl, bucketsX]
      simp only [← hsize]
      rw [e1, e2, ← p8, e3, e4]
      simp only [minB, b1]

/-- `SplitRange` writes the wire form of a split, which has at most 16 ranges. -/
theorem splitRange_eq_exact (H : Hash32) (items : List Item) (h : VecOK items) (lower upper : Nat) (hlu : lower ≤ upper)
    (hu : upper ≤ items.length) (ub : Item) (hub : GoodBound ub) (w : Wr)
    (hlt : ∀ x ∈ (items.drop lower).take (upper - lower), ItemLt x ub)
    (h0 : 0 ≤ w.last) (hl : w.last ≤ ub.ts) (hts : ∀ x ∈ (items.drop lower).take (upper - lower), w.last ≤ x.ts) :
    ∃ N, splitRange H items lower upper ub w = .val ⟨w.buf ++ encMsg w.last N, ub.ts⟩ ∧
      SplitOK (rangeFp H) ((items.drop lower).take (upper - lower)) ub N ∧ MsgOK w.last N ∧ N.length ≤ 16 ∧
      N = splitX (rangeFp H) ((items.drop lower).take (upper - lower)) ub := by
  have hlen : ((items.drop lower).take (upper - lower)).length = upper - lower := by simp; omega
  have hsz := h.size
  by_cases hn : upper - lower < 32
  · refine ⟨[⟨ub, .ids (((items.drop lower).take (upper - lower)).map (·.id))⟩], ?_, Or.inl ⟨by omega, rfl⟩, ?_⟩
    · unfold splitRange
      simp only [if_pos hn, Wr.bound_eq hub h0 hl, Out.val_bind, Wr.byte]
      rw [Wr.varInt_eq (by have : (32:Nat) < 2 ^ 56 := by norm_num
                           omega)]
      unfold vecRange
      rw [if_neg (by omega)]
      simp only [Out.val_bind, Out.pure_eq, Wr.hex, encMsg, encPay, vi_byte2, List.length_map, hlen]
      simp
    · refine ⟨⟨h0, hl, hub, ⟨by rw [List.length_map, hlen]; omega, ?_⟩, trivial⟩, by simp, ?_⟩
      · intro i hi
        obtain ⟨x, hx, rfl⟩ := List.mem_map.1 hi
        exact h.idLen x (List.mem_of_mem_drop (List.mem_of_mem_take hx))
      · unfold splitX
        rw [if_pos (by omega)]
  · have hdm := Nat.div_add_mod (upper - lower) 16
    have hmod := Nat.mod_lt (upper - lower) (show 16 > 0 by omega)
    obtain ⟨parts, p1, p2, p3, p4, p5, p6, p7, p8⟩ := splitLoop_eq H items h upper hu ub hub ((upper - lower) / 16) ((upper - lower) % 16)
      (by omega) 15 0 lower w (by omega) hlu (by omega) (by omega) hlt h0 hl hts
    refine ⟨_, ?_, Or.inr ⟨by omega, parts, rfl, p2, p3, p4, ?_⟩, p6, by rw [List.length_map]; omega, ?_⟩
    · unfold splitRange
      simp only [if_neg hn]
      exact p1
    · intro q hq
      refine ⟨(p5 q hq).1, ?_⟩
      have := (p5 q hq).2
      rw [hlen]
      omega
    · unfold splitX
      rw [if_neg (by omega), hlen, ← p8]

theorem splitRange_eq_count (H : Hash32) (items : List Item) (h : VecOK items) (lower upper : Nat) (hlu : lower ≤ upper)
    (hu : upper ≤ items.length) (ub : Item) (hub : GoodBound ub) (w : Wr)
    (hlt : ∀ x ∈ (items.drop lower).take (upper - lower), ItemLt x ub)
    (h0 : 0 ≤ w.last) (hl : w.last ≤ ub.ts) (hts : ∀ x ∈ (items.drop lower).take (upper - lower), w.last ≤ x.ts) :
    ∃ N, splitRange H items lower upper ub w = .val ⟨w.buf ++ encMsg w.last N, ub.ts⟩ ∧
      SplitOK (rangeFp H) ((items.drop lower).take (upper - lower)) ub N ∧ MsgOK w.last N ∧ N.length ≤ 16 := by
  obtain ⟨N, h1, h2, h3, h4, _⟩ := splitRange_eq_exact H items h lower upper hlu hu ub hub w hlt h0 hl hts
  exact ⟨N, h1, h2, h3, h4⟩

/-- `SplitRange` writes the wire form of a split. -/
theorem splitRange_eq (H : Hash32) (items : List Item) (h : VecOK items) (lower upper : Nat) (hlu : lower ≤ upper)
    (hu : upper ≤ items.length) (ub : Item) (hub : GoodBound ub) (w : Wr)
    (hlt : ∀ x ∈ (items.drop lower).take (upper - lower), ItemLt x ub)
    (h0 : 0 ≤ w.last) (hl : w.last ≤ ub.ts) (hts : ∀ x ∈ (items.drop lower).take (upper - lower), w.last ≤ x.ts) :
    ∃ N, splitRange H items lower upper ub w = .val ⟨w.buf ++ encMsg w.last N, ub.ts⟩ ∧
      SplitOK (rangeFp H) ((items.drop lower).take (upper - lower)) ub N ∧ MsgOK w.last N := by
  obtain ⟨N, h1, h2, h3, _⟩ := splitRange_eq_count H items h lower upper hlu hu ub hub w hlt h0 hl hts
  exact ⟨N, h1, h2, h3⟩

end GoNostr.Neg
