import Verif.Nip19.Model
import Mathlib.Tactic.IntervalCases
import Mathlib.Tactic.Ring
/-!
# C51: bech32 round trip and bit regrouping
-/

set_option autoImplicit false

namespace GoNostr.Nip19

/-! ## The checksum -/

/-- A step with value zero. -/
def s0 (c : BitVec 30) : BitVec 30 := (c <<< 5) ^^^ genTerm c

theorem polyStep_eq (c : BitVec 30) (v : Nat) : polyStep c v = s0 c ^^^ BitVec.ofNat 30 v := by
  unfold polyStep s0
  ac_rfl

theorem ite_xor (x y : Bool) (g : BitVec 30) : (if (x ^^ y) then g else 0#30) = (if x then g else 0#30) ^^^ (if y then g else 0#30) := by
  cases x <;> cases y <;> simp

theorem genTerm_xor (a b : BitVec 30) : genTerm (a ^^^ b) = genTerm a ^^^ genTerm b := by
  unfold genTerm
  simp only [BitVec.getLsbD_xor, ite_xor]
  ac_rfl

theorem s0_xor (a b : BitVec 30) : s0 (a ^^^ b) = s0 a ^^^ s0 b := by
  unfold s0
  rw [genTerm_xor, BitVec.shiftLeft_xor_distrib]
  ac_rfl

theorem fold6 (c : BitVec 30) (v1 v2 v3 v4 v5 v6 : Nat) :
    [v1, v2, v3, v4, v5, v6].foldl polyStep c = List.foldl polyStep c (List.replicate 6 0) ^^^
      (s0 (s0 (s0 (s0 (s0 (BitVec.ofNat 30 v1))))) ^^^ s0 (s0 (s0 (s0 (BitVec.ofNat 30 v2)))) ^^^
       s0 (s0 (s0 (BitVec.ofNat 30 v3))) ^^^ s0 (s0 (BitVec.ofNat 30 v4)) ^^^ s0 (BitVec.ofNat 30 v5) ^^^ BitVec.ofNat 30 v6) := by
  simp only [List.replicate, List.foldl_cons, List.foldl_nil, polyStep_eq, s0_xor, BitVec.ofNat_eq_ofNat]
  simp only [BitVec.xor_zero, BitVec.zero_xor]
  have : s0 0#30 = 0#30 := by decide
  simp only [this, BitVec.xor_zero]
  ac_rfl

theorem s0_small : ∀ v : Fin 32, s0 (BitVec.ofNat 30 v) = BitVec.ofNat 30 (v * 32) ∧
    s0 (s0 (BitVec.ofNat 30 v)) = BitVec.ofNat 30 (v * 1024) ∧ s0 (s0 (s0 (BitVec.ofNat 30 v))) = BitVec.ofNat 30 (v * 32768) ∧
    s0 (s0 (s0 (s0 (BitVec.ofNat 30 v)))) = BitVec.ofNat 30 (v * 1048576) ∧
    s0 (s0 (s0 (s0 (s0 (BitVec.ofNat 30 v))))) = BitVec.ofNat 30 (v * 33554432) := by decide +kernel

/-- Splitting off the low five bits. -/
theorem xor_split (a b k : Nat) (hb : b < 2 ^ k) : (2 ^ k * a) ^^^ b = 2 ^ k * a + b := by
  rw [Nat.two_pow_add_eq_or_of_lt hb]
  apply Nat.eq_of_testBit_eq
  intro i
  rw [Nat.testBit_xor, Nat.testBit_or, Nat.testBit_two_pow_mul]
  by_cases h : k ≤ i
  · have : b.testBit i = false := Nat.testBit_lt_two_pow (lt_of_lt_of_le hb (Nat.pow_le_pow_right (by norm_num) h))
    simp [this, h]
  · simp [h]

theorem groups_xor (q : BitVec 30) :
    BitVec.ofNat 30 (q.toNat / 33554432 % 32 * 33554432) ^^^ BitVec.ofNat 30 (q.toNat / 1048576 % 32 * 1048576) ^^^
    BitVec.ofNat 30 (q.toNat / 32768 % 32 * 32768) ^^^ BitVec.ofNat 30 (q.toNat / 1024 % 32 * 1024) ^^^
    BitVec.ofNat 30 (q.toNat / 32 % 32 * 32) ^^^ BitVec.ofNat 30 (q.toNat % 32) = q := by
  have hq : q.toNat < 1073741824 := q.isLt
  have e : ∀ n : Nat, q.toNat = n → BitVec.ofNat 30 n = q := by
    rintro n rfl; simp
  simp only [← BitVec.ofNat_xor]
  apply e
  generalize q.toNat = n at hq ⊢
  have h1 : (n / 33554432 % 32 * 33554432) ^^^ (n / 1048576 % 32 * 1048576) = n / 1048576 % 1024 * 1048576 := by
    have := xor_split (n / 33554432 % 32) (n / 1048576 % 32 * 1048576) 25 (by norm_num; omega)
    norm_num at this
    rw [Nat.mul_comm (n / 33554432 % 32), this]
    omega
  have h2 : (n / 1048576 % 1024 * 1048576) ^^^ (n / 32768 % 32 * 32768) = n / 32768 % 32768 * 32768 := by
    have := xor_split (n / 1048576 % 1024) (n / 32768 % 32 * 32768) 20 (by norm_num; omega)
    norm_num at this
    rw [Nat.mul_comm (n / 1048576 % 1024), this]
    omega
  have h3 : (n / 32768 % 32768 * 32768) ^^^ (n / 1024 % 32 * 1024) = n / 1024 % 1048576 * 1024 := by
    have := xor_split (n / 32768 % 32768) (n / 1024 % 32 * 1024) 15 (by norm_num; omega)
    norm_num at this
    rw [Nat.mul_comm (n / 32768 % 32768), this]
    omega
  have h4 : (n / 1024 % 1048576 * 1024) ^^^ (n / 32 % 32 * 32) = n / 32 % 33554432 * 32 := by
    have := xor_split (n / 1024 % 1048576) (n / 32 % 32 * 32) 10 (by norm_num; omega)
    norm_num at this
    rw [Nat.mul_comm (n / 1024 % 1048576), this]
    omega
  have h5 : (n / 32 % 33554432 * 32) ^^^ (n % 32) = n := by
    have := xor_split (n / 32 % 33554432) (n % 32) 5 (by norm_num; omega)
    norm_num at this
    rw [Nat.mul_comm (n / 32 % 33554432), this]
    omega
  rw [h1, h2, h3, h4, h5]

theorem polymod_append (hrp : Bytes) (values cs : List Nat) :
    polymod hrp values cs = List.foldl polyStep (polymod hrp values []) cs := by
  unfold polymod
  rw [List.append_nil, List.foldl_append]

/-- The checksum makes the polymod 1. -/
theorem polymod_checksum (hrp : Bytes) (values : List Nat) : polymod hrp values (checksum hrp values) = 1#30 := by
  rw [polymod_append]
  unfold checksum
  generalize hq : polymod hrp values (List.replicate 6 0) ^^^ 1#30 = q
  rw [polymod_append] at hq
  generalize polymod hrp values [] = c at hq ⊢
  rw [fold6]
  have m : ∀ x : Nat, x % 32 < 32 := fun x => Nat.mod_lt _ (by norm_num)
  have k1 := (s0_small ⟨_, m (q.toNat / 33554432)⟩).2.2.2.2
  have k2 := (s0_small ⟨_, m (q.toNat / 1048576)⟩).2.2.2.1
  have k3 := (s0_small ⟨_, m (q.toNat / 32768)⟩).2.2.1
  have k4 := (s0_small ⟨_, m (q.toNat / 1024)⟩).2.1
  have k5 := (s0_small ⟨_, m (q.toNat / 32)⟩).1
  simp only at k1 k2 k3 k4 k5
  rw [k1, k2, k3, k4, k5, groups_xor, ← hq, ← BitVec.xor_assoc, BitVec.xor_self, BitVec.zero_xor]

theorem checksum_lt (hrp : Bytes) (values : List Nat) : ∀ v ∈ checksum hrp values, v < 32 := by
  unfold checksum
  intro v hv
  simp only [List.mem_cons, List.not_mem_nil, or_false] at hv
  rcases hv with rfl | rfl | rfl | rfl | rfl | rfl <;> exact Nat.mod_lt _ (by norm_num)

theorem checksum_length (hrp : Bytes) (values : List Nat) : (checksum hrp values).length = 6 := rfl

/-! ## Characters -/

theorem charset_get : ∀ v : Fin 32, ∃ c, charset[v.val]? = some c ∧ c ∈ charset ∧ charset.idxOf c = v.val ∧
    33 ≤ c ∧ c ≤ 126 ∧ ¬ (65 ≤ c ∧ c ≤ 90) ∧ c ≠ 49 := by
  have : ∀ v : Fin 32, (match charset[v.val]? with
    | some c => decide (c ∈ charset ∧ charset.idxOf c = v.val ∧ 33 ≤ c ∧ c ≤ 126 ∧ ¬ (65 ≤ c ∧ c ≤ 90) ∧ c ≠ 49)
    | none => false) = true := by decide +kernel
  intro v
  have h := this v
  split at h
  · rename_i c hc; exact ⟨c, hc, of_decide_eq_true h⟩
  · cases h

/-- A character of the data part. -/
def DataChar (c : UInt8) : Prop := 33 ≤ c ∧ c ≤ 126 ∧ ¬ (65 ≤ c ∧ c ≤ 90) ∧ c ≠ 49

theorem toChars_spec : ∀ l : List Nat, (∀ v ∈ l, v < 32) → ∃ s, toChars l = some s ∧ fromChars s = some l ∧
    s.length = l.length ∧ ∀ c ∈ s, DataChar c := by
  intro l
  induction l with
  | nil => intro _; exact ⟨[], rfl, rfl, rfl, by simp⟩
  | cons v rest ih =>
    intro h
    obtain ⟨s, h1, h2, h3, h4⟩ := ih (fun x hx => h x (List.mem_cons_of_mem _ hx))
    obtain ⟨c, c1, c2, c3, c4⟩ := charset_get ⟨v, h v List.mem_cons_self⟩
    simp only at c1 c3
    refine ⟨c :: s, ?_, ?_, by simp [h3], ?_⟩
    · rw [toChars, c1, h1]
    · rw [fromChars, if_pos c2, h2, c3]
    · intro x hx
      rcases List.mem_cons.1 hx with rfl | hx
      · exact c4
      · exact h4 x hx

theorem toChars_none {l : List Nat} (h : ∃ v ∈ l, 32 ≤ v) : toChars l = none := by
  induction l with
  | nil => obtain ⟨v, hv, _⟩ := h; simp at hv
  | cons a rest ih =>
    obtain ⟨v, hv, h32⟩ := h
    unfold toChars
    rcases List.mem_cons.1 hv with rfl | hv
    · rw [List.getElem?_eq_none (by simpa [charset] using h32)]
    · rw [ih ⟨v, hv, h32⟩]
      cases charset[a]? <;> rfl

theorem lastOne_none {s : Bytes} (h : ∀ c ∈ s, c ≠ 49) : lastOne s = none := by
  induction s with
  | nil => rfl
  | cons c rest ih =>
    rw [lastOne, ih (fun x hx => h x (List.mem_cons_of_mem _ hx)), if_neg (h c List.mem_cons_self)]

theorem lastOne_append (hrp s : Bytes) (h : ∀ c ∈ s, c ≠ 49) : lastOne (hrp ++ 49 :: s) = some hrp.length := by
  induction hrp with
  | nil => rw [List.nil_append, lastOne, lastOne_none h, if_pos rfl]; rfl
  | cons c rest ih => rw [List.cons_append, lastOne, ih]; rfl

/-- The prefixes bech32 allows, in lower case. -/
def LowerPrefix (hrp : Bytes) : Prop := hrp ≠ [] ∧ ∀ c ∈ hrp, 33 ≤ c ∧ c ≤ 126 ∧ ¬ (65 ≤ c ∧ c ≤ 90)

instance (hrp : Bytes) : Decidable (LowerPrefix hrp) := by unfold LowerPrefix; infer_instance

theorem map_lower {s : Bytes} (h : ∀ c ∈ s, ¬ (65 ≤ c ∧ c ≤ 90)) : s.map lowerByte = s := by
  induction s with
  | nil => rfl
  | cons c rest ih =>
    rw [List.map_cons, ih (fun x hx => h x (List.mem_cons_of_mem _ hx))]
    simp [lowerByte, h c List.mem_cons_self]

/-- **C51 (characters and checksum).** For every lower-case prefix and every 5-bit data, of any length, decoding the
encoding returns them. -/
theorem C51_bech32_roundtrip (hrp : Bytes) (data : List Nat) (hp : LowerPrefix hrp) (hd : ∀ v ∈ data, v < 32) :
    ∃ s, bechEncode hrp data = .ok s ∧ bechDecode s = .ok (hrp, data) := by
  obtain ⟨d, d1, d2, d3, d4⟩ := toChars_spec data hd
  obtain ⟨k, k1, k2, k3, k4⟩ := toChars_spec (checksum hrp data) (checksum_lt _ _)
  have hlow : hrp.map lowerByte = hrp := map_lower (fun c hc => (hp.2 c hc).2.2)
  have hk : k.length = 6 := by rw [k3, checksum_length]
  have hlen : 1 ≤ hrp.length := List.length_pos_iff.2 hp.1
  obtain ⟨e, e1, e2⟩ := toChars_spec (data ++ checksum hrp data) (by
    intro v hv
    rcases List.mem_append.1 hv with h | h
    · exact hd v h
    · exact checksum_lt _ _ v h)
  have edk : e = d ++ k := by
    have : ∀ a b x y, toChars a = some x → toChars b = some y → toChars (a ++ b) = some (x ++ y) := by
      intro a
      induction a with
      | nil => intro b x y h1 h2; simp only [toChars, Option.some.injEq] at h1; subst h1; simpa using h2
      | cons v r ih =>
        intro b x y h1 h2
        rw [toChars] at h1
        rw [List.cons_append, toChars]
        cases hc : charset[v]? with
        | none => simp [hc] at h1
        | some c =>
          cases hr : toChars r with
          | none => simp [hc, hr] at h1
          | some z =>
            simp only [hc, hr, Option.some.injEq] at h1
            subst h1
            rw [ih b z y hr h2]
            rfl
    have := this data _ d k d1 k1
    rw [e1] at this
    exact Option.some.inj this
  refine ⟨hrp ++ [49] ++ d ++ k, ?_, ?_⟩
  · unfold bechEncode
    simp only [hlow, d1, k1]
  · have hall : ∀ c ∈ hrp ++ [49] ++ d ++ k, 33 ≤ c ∧ c ≤ 126 ∧ ¬ (65 ≤ c ∧ c ≤ 90) := by
      intro c hc
      simp only [List.mem_append, List.mem_singleton] at hc
      rcases hc with ((hc | rfl) | hc) | hc
      · exact hp.2 c hc
      · decide
      · exact ⟨(d4 c hc).1, (d4 c hc).2.1, (d4 c hc).2.2.1⟩
      · exact ⟨(k4 c hc).1, (k4 c hc).2.1, (k4 c hc).2.2.1⟩
    have hm : (hrp ++ [49] ++ d ++ k).map lowerByte = hrp ++ [49] ++ d ++ k := map_lower (fun c hc => (hall c hc).2.2)
    have hl : lastOne (hrp ++ [49] ++ d ++ k) = some hrp.length := by
      have : hrp ++ [49] ++ d ++ k = hrp ++ 49 :: (d ++ k) := by simp
      rw [this]
      apply lastOne_append
      intro c hc
      rcases List.mem_append.1 hc with h | h
      · exact (d4 c h).2.2.2
      · exact (k4 c h).2.2.2
    unfold bechDecode
    rw [if_neg (by simp only [List.length_append, List.length_singleton, hk]; omega), if_neg, if_neg, hm]
    · simp only [hl]
      rw [if_neg (by simp only [List.length_append, List.length_singleton, hk]; omega)]
      have t1 : (hrp ++ [49] ++ d ++ k).take hrp.length = hrp := by simp [List.append_assoc]
      have t2 : (hrp ++ [49] ++ d ++ k).drop (hrp.length + 1) = d ++ k := by
        rw [List.append_assoc, List.drop_left' (by simp)]
      rw [t1, t2, ← edk, e2.1]
      have t3 : (data ++ checksum hrp data).length - 6 = data.length := by
        rw [List.length_append, checksum_length]; omega
      simp only [t3, List.take_left, List.drop_left, polymod_checksum, true_or, if_true]
    · rw [Bool.and_eq_true]
      rintro ⟨_, h⟩
      obtain ⟨c, hc, h⟩ := List.any_eq_true.1 h
      rw [Bool.and_eq_true, decide_eq_true_iff, decide_eq_true_iff] at h
      exact (hall c hc).2.2 h
    · intro h
      obtain ⟨c, hc, h⟩ := List.any_eq_true.1 h
      rw [Bool.or_eq_true, decide_eq_true_iff, decide_eq_true_iff] at h
      have := hall c hc
      rcases h with h | h
      · exact absurd this.1 (by simpa using h)
      · exact absurd this.2.1 (by simpa using h)

/-- Data outside 5 bits is refused. -/
theorem C51_rejects_wide_data (hrp : Bytes) (data : List Nat) (h : ∃ v ∈ data, 32 ≤ v) : bechEncode hrp data = .err () := by
  unfold bechEncode
  simp only [toChars_none h]

/-! ## Bit regrouping -/

theorem bitsOf_length (w x : Nat) : (bitsOf w x).length = w := by
  induction w with
  | zero => rfl
  | succ w ih => simp [bitsOf, ih]

theorem ofBits_foldl (l : List Bool) (a : Nat) : l.foldl (fun n b => 2 * n + b.toNat) a = 2 ^ l.length * a + ofBits l := by
  induction l generalizing a with
  | nil => simp [ofBits]
  | cons b rest ih =>
    unfold ofBits
    rw [List.foldl_cons, List.foldl_cons, ih, ih (2 * 0 + b.toNat), List.length_cons, pow_succ]
    ring

theorem ofBits_cons (b : Bool) (l : List Bool) : ofBits (b :: l) = 2 ^ l.length * b.toNat + ofBits l := by
  rw [ofBits, List.foldl_cons, ofBits_foldl]; simp

theorem ofBits_lt (l : List Bool) : ofBits l < 2 ^ l.length := by
  induction l with
  | nil => simp [ofBits]
  | cons b rest ih =>
    rw [ofBits_cons, List.length_cons, pow_succ]
    cases b <;> simp <;> omega

theorem bitsOf_mod (w x n : Nat) (h : w ≤ n) : bitsOf w (x % 2 ^ n) = bitsOf w x := by
  induction w with
  | zero => rfl
  | succ w ih =>
    rw [bitsOf, bitsOf, ih (by omega), Nat.testBit_mod_two_pow]
    simp [show w < n by omega]

theorem bitsOf_ofBits (l : List Bool) : bitsOf l.length (ofBits l) = l := by
  induction l with
  | nil => rfl
  | cons b rest ih =>
    rw [List.length_cons, bitsOf, ofBits_cons]
    have hlt := ofBits_lt rest
    congr 1
    · rw [Nat.testBit_two_pow_mul_add _ hlt]
      cases b <;> simp
    · rw [← bitsOf_mod _ _ rest.length (le_refl _), Nat.mul_add_mod, Nat.mod_eq_of_lt hlt, ih]

theorem ofBits_bitsOf (w x : Nat) (h : x < 2 ^ w) : ofBits (bitsOf w x) = x := by
  induction w generalizing x with
  | zero => simp [bitsOf, ofBits] at *; omega
  | succ w ih =>
    rw [bitsOf, ofBits_cons, bitsOf_length, ← bitsOf_mod w x w (le_refl _), ih _ (Nat.mod_lt _ (by positivity))]
    rw [pow_succ] at h
    have h2 : x / 2 ^ w < 2 := Nat.div_lt_of_lt_mul h
    have h1 : (x.testBit w).toNat = x / 2 ^ w := by
      rw [Nat.toNat_testBit]; exact Nat.mod_eq_of_lt h2
    rw [h1]
    exact Nat.div_add_mod x (2 ^ w)

theorem groups_eq (w : Nat) (hw : 0 < w) : ∀ (xs : List Nat) (rest : List Bool) (fuel : Nat), (∀ x ∈ xs, x < 2 ^ w) →
    rest.length < w → xs.length * w ≤ fuel → groups w fuel ((xs.map (bitsOf w)).flatten ++ rest) = (xs, rest) := by
  intro xs
  induction xs with
  | nil =>
    intro rest fuel _ hr _
    cases fuel with
    | zero => rfl
    | succ f => simp [groups, hr]
  | cons x xs ih =>
    intro rest fuel hx hr hf
    rw [List.length_cons, Nat.succ_mul] at hf
    cases fuel with
    | zero => omega
    | succ f =>
      have hl : (bitsOf w x).length = w := bitsOf_length _ _
      have hih := ih rest f (fun y hy => hx y (List.mem_cons_of_mem _ hy)) hr (by omega)
      rw [List.map_cons, List.flatten_cons, List.append_assoc, groups, if_neg (by rw [List.length_append, hl]; omega)]
      rw [List.drop_left' hl, List.take_left' hl, hih, ofBits_bitsOf _ _ (hx x List.mem_cons_self)]

theorem groups_exists (w : Nat) (hw : 0 < w) : ∀ (n : Nat) (l : List Bool), l.length ≤ n →
    ∃ (xs : List Nat) (rest : List Bool), l = (xs.map (bitsOf w)).flatten ++ rest ∧ (∀ x ∈ xs, x < 2 ^ w) ∧ rest.length < w := by
  intro n
  induction n with
  | zero =>
    intro l hl
    exact ⟨[], l, by simp, by simp, by omega⟩
  | succ n ih =>
    intro l hl
    by_cases h : l.length < w
    · exact ⟨[], l, by simp, by simp, h⟩
    · obtain ⟨xs, rest, h1, h2, h3⟩ := ih (l.drop w) (by rw [List.length_drop]; omega)
      have ht : (l.take w).length = w := by rw [List.length_take]; omega
      refine ⟨ofBits (l.take w) :: xs, rest, ?_, ?_, h3⟩
      · have := bitsOf_ofBits (l.take w)
        rw [ht] at this
        rw [List.map_cons, List.flatten_cons, this, List.append_assoc, ← h1, List.take_append_drop]
      · intro x hx
        rcases List.mem_cons.1 hx with rfl | hx
        · have := ofBits_lt (l.take w); rwa [ht] at this
        · exact h2 x hx

theorem flatten_bits_length (w : Nat) (xs : List Nat) : ((xs.map (bitsOf w)).flatten).length = xs.length * w := by
  induction xs with
  | nil => simp
  | cons x xs ih => simp [ih, bitsOf_length, Nat.succ_mul]; ring

theorem ofBits_false (n : Nat) : ofBits (List.replicate n false) = 0 := by
  induction n with
  | zero => rfl
  | succ n ih => rw [List.replicate_succ, ofBits_cons, ih]; simp

/-- **C51 (regrouping).** Regrouping bytes into 5-bit values, padded, and back is the identity, for any number of
bytes. -/
theorem C51_regroup_roundtrip (data : List Nat) (hd : ∀ x ∈ data, x < 256) :
    ∃ g, convertBits data 8 5 true = .ok g ∧ (∀ v ∈ g, v < 32) ∧ convertBits g 5 8 false = .ok data := by
  obtain ⟨xs, rest, h1, h2, h3⟩ := groups_exists 5 (by norm_num) _ ((data.map (bitsOf 8)).flatten) (le_refl _)
  have hl := flatten_bits_length 5 xs
  have hg : groups 5 ((data.map (bitsOf 8)).flatten).length ((data.map (bitsOf 8)).flatten) = (xs, rest) := by
    conv => lhs; rw [h1]
    refine groups_eq 5 (by norm_num) xs rest _ h2 h3 ?_
    rw [List.length_append, hl]; omega
  -- the padding bits
  have back : ∀ (g : List Nat) (z : Nat), (g.map (bitsOf 5)).flatten = (data.map (bitsOf 8)).flatten ++ List.replicate z false →
      z ≤ 4 → convertBits g 5 8 false = .ok data := by
    intro g z hz h4
    unfold convertBits
    have : groups 8 ((g.map (bitsOf 5)).flatten).length ((g.map (bitsOf 5)).flatten) = (data, List.replicate z false) := by
      conv => lhs; rw [hz]
      refine groups_eq 8 (by norm_num) data _ _ hd (by simp; omega) ?_
      rw [List.length_append, flatten_bits_length]; omega
    simp only [this]
    by_cases hz0 : List.replicate z false = ([] : List Bool)
    · rw [if_pos hz0]
    · rw [if_neg hz0, if_neg (by simp), if_neg (by rw [ofBits_false, List.length_replicate]; simp; omega)]
  have e : convertBits data 8 5 true = if rest = [] then .ok xs
      else .ok (xs ++ [ofBits (rest ++ List.replicate (5 - rest.length) false)]) := by
    unfold convertBits
    simp only [hg, if_true]
  rw [e]
  by_cases hr : rest = []
  · rw [if_pos hr]
    refine ⟨xs, rfl, h2, back xs 0 ?_ (by omega)⟩
    rw [h1, hr]; simp
  · rw [if_neg hr]
    have hlen : (rest ++ List.replicate (5 - rest.length) false).length = 5 := by
      rw [List.length_append, List.length_replicate]; omega
    refine ⟨_, rfl, ?_, back _ (5 - rest.length) ?_ ?_⟩
    · intro v hv
      rcases List.mem_append.1 hv with hv | hv
      · exact h2 v hv
      · rw [List.mem_singleton] at hv
        subst hv
        have := ofBits_lt (rest ++ List.replicate (5 - rest.length) false)
        rwa [hlen] at this
    · rw [List.map_append, List.flatten_append, h1]
      have := bitsOf_ofBits (rest ++ List.replicate (5 - rest.length) false)
      rw [hlen] at this
      simp [this]
    · have := List.length_pos_iff.2 hr; omega

example : LowerPrefix (b! "npub") ∧ (∀ v ∈ [0, 31, 7], v < 32) := by decide +kernel
example : bechEncode (b! "a") [] = .ok (b! "a12uel5l") := by decide +kernel
example : convertBits [255, 1] 8 5 true = .ok [31, 28, 0, 16] := by decide +kernel

end GoNostr.Nip19
