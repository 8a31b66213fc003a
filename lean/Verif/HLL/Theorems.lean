import Verif.HLL.Model
import Mathlib.Tactic.Ring
import Mathlib.Tactic.Linarith
import Verif.Helpers.Theorems
import Verif.Filter.Theorems
/-!
# C62–C64: HyperLogLog
-/

set_option autoImplicit false

namespace GoNostr.HLL

/-! ## Specification -/

/-- Big-endian value of a byte string. -/
def beValue (x : Bytes) : Nat := x.foldl (fun n c => n * 256 + c.toNat) 0

/-- `r` is the HyperLogLog rank of the 56-bit number `w`: one more than the number of leading zeros. -/
def IsRank (w r : Nat) : Prop := 1 ≤ r ∧ r ≤ 57 ∧ w < 2 ^ (57 - r) ∧ (r ≤ 56 → 2 ^ (56 - r) ≤ w)

/-- The key `k` (8 bytes: a register number followed by 7 bytes) addresses register `j` with rank `r`. -/
def Key (k : Bytes) (j r : Nat) : Prop := ∃ c rest, k = c :: rest ∧ rest.length = 7 ∧ j = c.toNat ∧ IsRank (beValue rest) r

/-- The 8 bytes a 32-byte pubkey contributes at an offset. -/
def keyAt (offset : Nat) (pk : Bytes) : Bytes := (pk.drop offset).take 8

/-- Register `j` of `regs` holds the largest rank among the keys addressing `j`, and 0 when there is none. -/
def MaxRanks (keys : List Bytes) (regs : List Nat) : Prop :=
  regs.length = 256 ∧ ∀ j v, regs[j]? = some v →
    (∀ k ∈ keys, ∀ r, Key k j r → r ≤ v) ∧ (v = 0 ∨ ∃ k ∈ keys, Key k j v)

/-! ## Lemmas -/

theorem goIndex_lt {α : Type} (s : List α) (i : Nat) (h : i < s.length) : goIndex s i = .val s[i] := by
  simp [goIndex, List.getElem?_eq_getElem h]

theorem goIndex_ge {α : Type} (s : List α) (i : Nat) (h : s.length ≤ i) : goIndex s i = .panic := by
  simp [goIndex, List.getElem?_eq_none h]

/-- What `setMax` computes. -/
def upd (regs : List Nat) (i v : Nat) : List Nat := regs.set i (max (regs.getD i 0) v)

theorem setMax_eq (regs : List Nat) (i v : Nat) (h : i < regs.length) : setMax regs i v = .val (upd regs i v) := by
  unfold setMax upd
  rw [goIndex_lt _ _ h]
  simp only [Out.val_bind, List.getD_eq_getElem?_getD, List.getElem?_eq_getElem h, Option.getD_some]
  split
  · next hv => rw [Nat.max_eq_right (Nat.le_of_lt hv)]; rfl
  · next hv =>
    rw [Nat.max_eq_left (by omega)]
    simp

theorem upd_get (regs : List Nat) (i v j : Nat) : (upd regs i v)[j]? =
    if j = i then (regs[j]?).map (fun x => max x v) else regs[j]? := by
  unfold upd
  by_cases h : j = i
  · subst h
    by_cases hl : j < regs.length
    · simp [hl]
    · simp [hl]
  · simp [h, List.getElem?_set_ne (Ne.symm h)]

@[simp] theorem upd_length (regs : List Nat) (i v : Nat) : (upd regs i v).length = regs.length := by simp [upd]

theorem mergeLoop_eq (other regs : List Nat) (i : Nat) (h : i + other.length ≤ regs.length) :
    ∃ r, mergeLoop regs i other = .val r ∧ r.length = regs.length ∧
      ∀ j, r[j]? = if i ≤ j then (regs[j]?).map (fun x => max x (other.getD (j - i) 0)) else regs[j]? := by
  induction other generalizing regs i with
  | nil =>
    refine ⟨regs, rfl, rfl, fun j => ?_⟩
    split
    · cases regs[j]? <;> simp
    · rfl
  | cons v rest ih =>
    simp only [List.length_cons] at h
    obtain ⟨r, hr, hl, hg⟩ := ih (upd regs i v) (i + 1) (by simp; omega)
    refine ⟨r, ?_, by simpa using hl, fun j => ?_⟩
    · simp only [mergeLoop, setMax_eq regs i v (by omega), Out.val_bind, hr]
    · rw [hg j, upd_get]
      by_cases h1 : j = i
      · subst h1
        rw [if_neg (by omega), if_pos rfl, if_pos (Nat.le_refl _)]; simp
      · by_cases h2 : i ≤ j
        · have h3 : i + 1 ≤ j := by omega
          have h4 : j - i = (j - (i + 1)) + 1 := by omega
          simp [h1, h2, h3, h4]
        · have h3 : ¬ i + 1 ≤ j := by omega
          simp [h1, h2, h3]

/-- Pointwise maximum of two register arrays. -/
theorem mergeRegisters_eq (h : Sketch) (other : List Nat) (hl : other.length ≤ h.registers.length) :
    ∃ r, mergeRegisters h other = .val { h with registers := r } ∧ r.length = h.registers.length ∧
      ∀ j, r[j]? = (h.registers[j]?).map (fun x => max x (other.getD j 0)) := by
  obtain ⟨r, hr, hlen, hg⟩ := mergeLoop_eq other h.registers 0 (by omega)
  refine ⟨r, by simp [mergeRegisters, hr], hlen, fun j => ?_⟩
  rw [hg j]; simp

theorem foldl_be (x : Bytes) (a : Nat) : x.foldl (fun n c => n * 256 + c.toNat) a = a * 256 ^ x.length + beValue x := by
  unfold beValue
  induction x generalizing a with
  | nil => simp
  | cons c x ih =>
    simp only [List.foldl_cons, List.length_cons]
    rw [ih, ih (0 * 256 + c.toNat), Nat.pow_succ, Nat.add_mul, Nat.zero_mul, Nat.zero_add, Nat.mul_assoc,
      Nat.mul_comm 256, Nat.add_assoc]

theorem beValue_lt (x : Bytes) : beValue x < 256 ^ x.length := by
  induction x with
  | nil => simp [beValue]
  | cons c x ih =>
    have h : beValue (c :: x) = c.toNat * 256 ^ x.length + beValue x := by
      have := foldl_be x (0 * 256 + c.toNat)
      simpa [beValue] using this
    have hc : c.toNat < 256 := c.toNat_lt
    rw [h, List.length_cons, Nat.pow_succ]
    have : c.toNat * 256 ^ x.length ≤ 255 * 256 ^ x.length := Nat.mul_le_mul_right _ (by omega)
    omega

theorem clzLoop_spec (x n : Nat) : clzLoop x n ≤ n ∧ x % 2 ^ n < 2 ^ (n - clzLoop x n) ∧
    (clzLoop x n < n → 2 ^ (n - clzLoop x n - 1) ≤ x % 2 ^ n) := by
  induction n with
  | zero => simp [clzLoop, Nat.mod_one]
  | succ n ih =>
    have hm : x % 2 ^ (n + 1) = x % 2 ^ n + 2 ^ n * (x / 2 ^ n % 2) := Nat.mod_pow_succ
    have hlt : x % 2 ^ n < 2 ^ n := Nat.mod_lt _ (Nat.two_pow_pos n)
    unfold clzLoop
    have hb := Nat.testBit_eq_decide_div_mod_eq (x := x) (i := n)
    by_cases h : x / 2 ^ n % 2 = 1
    · rw [h] at hm; rw [hb, h]
      simp only [decide_true, if_true, Nat.sub_zero]
      rw [hm, Nat.pow_succ]
      exact ⟨by omega, by omega, fun _ => by simp only [Nat.add_sub_cancel]; omega⟩
    · have h0 : x / 2 ^ n % 2 = 0 := by omega
      obtain ⟨h1, h2, h3⟩ := ih
      rw [h0] at hm; rw [hb, h0]
      simp only [Nat.zero_ne_one, decide_false, Bool.false_eq_true, if_false, hm, Nat.mul_zero, Nat.add_zero]
      have e1 : n + 1 - (clzLoop x n + 1) = n - clzLoop x n := by omega
      rw [e1]
      exact ⟨by omega, h2, fun h => h3 (by omega)⟩

theorem isRank_unique {w r s : Nat} (hr : IsRank w r) (hs : IsRank w s) : r = s := by
  obtain ⟨a1, a2, a3, a4⟩ := hr
  obtain ⟨b1, b2, b3, b4⟩ := hs
  rcases Nat.lt_trichotomy r s with h | h | h
  · have := a4 (by omega)
    have h2 : 2 ^ (57 - s) ≤ 2 ^ (56 - r) := Nat.pow_le_pow_right (by omega) (by omega)
    omega
  · exact h
  · have := b4 (by omega)
    have h2 : 2 ^ (57 - r) ≤ 2 ^ (56 - s) := Nat.pow_le_pow_right (by omega) (by omega)
    omega

theorem addKey_spec (h : Sketch) (c : UInt8) (rest : Bytes) (hr : rest.length = 7) (hl : h.registers.length = 256) :
    ∃ r, IsRank (beValue rest) r ∧
      addKey h (c :: rest) = .val { h with registers := upd h.registers c.toNat r } := by
  have hc : c.toNat < 256 := c.toNat_lt
  have hbe : beUint64 (c :: rest) % 2 ^ 56 = beValue rest := by
    have ht : (c :: rest).take 8 = c :: rest := List.take_of_length_le (by simp [hr])
    unfold beUint64
    rw [ht]
    have h2 := foldl_be rest (0 * 256 + c.toNat)
    simp only [List.foldl_cons]
    rw [h2, hr]
    have h3 := beValue_lt rest
    rw [hr] at h3
    have : (256 : Nat) ^ 7 = 2 ^ 56 := by norm_num
    rw [this] at h3 ⊢
    rw [Nat.mul_add_mod_self_right, Nat.mod_eq_of_lt h3]
  obtain ⟨h1, h2, h3⟩ := clzLoop_spec (beUint64 (c :: rest)) 56
  rw [hbe] at h2 h3
  refine ⟨clz56 (beUint64 (c :: rest)) + 1, ⟨by omega, by unfold clz56; omega, ?_, ?_⟩, ?_⟩
  · unfold clz56
    have : 57 - (clzLoop (beUint64 (c :: rest)) 56 + 1) = 56 - clzLoop (beUint64 (c :: rest)) 56 := by omega
    rw [this]; exact h2
  · unfold clz56
    intro hle
    have : 56 - (clzLoop (beUint64 (c :: rest)) 56 + 1) = 56 - clzLoop (beUint64 (c :: rest)) 56 - 1 := by omega
    rw [this]; exact h3 (by omega)
  · unfold addKey
    have g0 : goIndex (c :: rest) 0 = .val c := rfl
    have g7 : ∃ d, goIndex (c :: rest) 7 = .val d := ⟨_, goIndex_lt (c :: rest) 7 (by simp [hr])⟩
    obtain ⟨d, g7⟩ := g7
    rw [g0, g7]
    simp only [Out.val_bind]
    rw [setMax_eq _ _ _ (by omega)]
    rfl

/-- A 32-byte public key in hex. -/
def IsPubkey (s : Bytes) : Prop := ∃ b : Bytes, b.length = 32 ∧ s = hexEnc b

/-- The bytes a hex pubkey encodes. -/
def bytesOf (s : Bytes) : Bytes := hexDecPartial s

theorem hexEnc_append (a b : Bytes) : hexEnc (a ++ b) = hexEnc a ++ hexEnc b := by
  induction a with
  | nil => rfl
  | cons x a ih => simp [hexEnc, ih]

theorem add_eq_addBytes (h : Sketch) (b : Bytes) : add h (hexEnc b) = addBytes h b := by
  unfold add addBytes
  by_cases hb : h.offset + 8 ≤ b.length
  · have hs : b = b.take h.offset ++ (b.drop h.offset).take 8 ++ b.drop (h.offset + 8) := by
      rw [List.append_assoc]
      conv_lhs => rw [← List.take_append_drop h.offset b, ← List.take_append_drop 8 (b.drop h.offset)]
      simp [List.drop_drop]
    have l1 : (b.take h.offset).length = h.offset := by simp; omega
    have l2 : ((b.drop h.offset).take 8).length = 8 := by simp; omega
    have e : hexEnc b = hexEnc (b.take h.offset) ++ hexEnc ((b.drop h.offset).take 8) ++ hexEnc (b.drop (h.offset + 8)) := by
      rw [← hexEnc_append, ← hexEnc_append, ← hs]
    rw [goSlice_at e (by simp [l1]; omega) (by simp [l1, l2]; omega), goSlice_at hs (by rw [l1]) (by rw [l1, l2]; rfl)]
    simp only [Out.val_bind]
    rw [hexDecPartial_eq (hexDec_hexEnc _)]
  · have h1 : goSlice (hexEnc b) (h.offset * 2) (h.offset * 2 + 8 * 2) = .panic := by
      rw [goSlice_panic_iff]; simp; omega
    have h2 : goSlice b h.offset (h.offset + 8) = .panic := by
      rw [goSlice_panic_iff]; omega
    rw [h1, h2]; rfl

theorem addBytes_key (h : Sketch) (b : Bytes) (hb : h.offset + 8 ≤ b.length) : addBytes h b = addKey h (keyAt h.offset b) := by
  unfold addBytes keyAt
  have hs : b = b.take h.offset ++ (b.drop h.offset).take 8 ++ b.drop (h.offset + 8) := by
    rw [List.append_assoc]
    conv_lhs => rw [← List.take_append_drop h.offset b, ← List.take_append_drop 8 (b.drop h.offset)]
    simp [List.drop_drop]
  rw [goSlice_at hs (by simp; omega) (by simp; omega)]
  rfl

theorem keyAt_shape (o : Nat) (b : Bytes) (hb : o + 8 ≤ b.length) :
    ∃ c rest, keyAt o b = c :: rest ∧ rest.length = 7 := by
  have hl : (keyAt o b).length = 8 := by simp [keyAt]; omega
  match hk : keyAt o b, hl with
  | c :: rest, hl => exact ⟨c, rest, rfl, by simp at hl; exact hl⟩

/-- One `Add` preserves "maximum rank" with one more key. -/
theorem add_step (h : Sketch) (b : Bytes) (keys : List Bytes) (hb : h.offset + 8 ≤ b.length)
    (hm : MaxRanks keys h.registers) :
    ∃ r, addBytes h b = .val { h with registers := r } ∧ MaxRanks (keys ++ [keyAt h.offset b]) r := by
  rw [addBytes_key h b hb]
  obtain ⟨c, rest, hk, hr⟩ := keyAt_shape h.offset b hb
  rw [hk]
  obtain ⟨rank, hrank, he⟩ := addKey_spec h c rest hr hm.1
  refine ⟨_, he, by simp [hm.1], ?_⟩
  intro j v hv
  rw [upd_get] at hv
  have hkey : ∀ j r, Key (c :: rest) j r ↔ j = c.toNat ∧ r = rank := by
    intro j r
    constructor
    · rintro ⟨c', rest', he, _, hj, hr'⟩
      cases he
      exact ⟨hj, isRank_unique hr' hrank⟩
    · rintro ⟨rfl, rfl⟩
      exact ⟨c, rest, rfl, hr, rfl, hrank⟩
  by_cases hj : j = c.toNat
  · subst hj
    simp only [if_true, Option.map_eq_some_iff] at hv
    obtain ⟨x, hx, rfl⟩ := hv
    obtain ⟨m1, m2⟩ := hm.2 _ _ hx
    constructor
    · intro k hk' r hkr
      simp only [List.mem_append, List.mem_singleton] at hk'
      rcases hk' with hk' | rfl
      · have := m1 k hk' r hkr; omega
      · rw [hkey] at hkr; omega
    · rcases Nat.le_total x rank with hle | hle
      · right
        rw [Nat.max_eq_right hle]
        exact ⟨c :: rest, by simp, (hkey _ _).mpr ⟨rfl, rfl⟩⟩
      · rw [Nat.max_eq_left hle]
        rcases m2 with m2 | ⟨k, hk', m2⟩
        · exact Or.inl m2
        · exact Or.inr ⟨k, by simp [hk'], m2⟩
  · rw [if_neg hj] at hv
    obtain ⟨m1, m2⟩ := hm.2 _ _ hv
    constructor
    · intro k hk' r hkr
      simp only [List.mem_append, List.mem_singleton] at hk'
      rcases hk' with hk' | rfl
      · exact m1 k hk' r hkr
      · rw [hkey] at hkr; exact absurd hkr.1 hj
    · rcases m2 with m2 | ⟨k, hk', m2⟩
      · exact Or.inl m2
      · exact Or.inr ⟨k, by simp [hk'], m2⟩

theorem maxRanks_nil : MaxRanks [] (List.replicate 256 0) := by
  refine ⟨List.length_replicate, fun j v hv => ⟨fun k hk => absurd hk List.not_mem_nil, Or.inl ?_⟩⟩
  have := List.mem_of_getElem? hv
  exact (List.mem_replicate.mp this).2

theorem addAll_step (pks : List Bytes) (h : Sketch) (keys : List Bytes) (ho : h.offset ≤ 24)
    (hp : ∀ p ∈ pks, IsPubkey p) (hm : MaxRanks keys h.registers) :
    ∃ r, addAll h pks = .val { h with registers := r } ∧
      MaxRanks (keys ++ pks.map (fun p => keyAt h.offset (bytesOf p))) r := by
  induction pks generalizing h keys with
  | nil => exact ⟨h.registers, rfl, by simpa using hm⟩
  | cons p pks ih =>
    obtain ⟨b, hb, rfl⟩ := hp p (by simp)
    obtain ⟨r, hr, hm'⟩ := add_step h b keys (by omega) hm
    obtain ⟨r', hr', hm''⟩ := ih { h with registers := r } (keys ++ [keyAt h.offset b]) ho
      (fun q hq => hp q (by simp [hq])) hm'
    refine ⟨r', ?_, ?_⟩
    · simp only [addAll, add_eq_addBytes, hr, Out.val_bind, hr']
    · have e : bytesOf (hexEnc b) = b := hexDecPartial_eq (hexDec_hexEnc b)
      simpa [e] using hm''

theorem maxRanks_unique {ks ls : List Bytes} {r s : List Nat} (hr : MaxRanks ks r) (hs : MaxRanks ls s)
    (hkl : ∀ k, k ∈ ks ↔ k ∈ ls) : r = s := by
  apply List.ext_getElem? 
  intro j
  by_cases hj : j < 256
  · have hjr : j < r.length := by rw [hr.1]; exact hj
    have hjs : j < s.length := by rw [hs.1]; exact hj
    rw [List.getElem?_eq_getElem hjr, List.getElem?_eq_getElem hjs]
    obtain ⟨a1, a2⟩ := hr.2 j _ (List.getElem?_eq_getElem hjr)
    obtain ⟨b1, b2⟩ := hs.2 j _ (List.getElem?_eq_getElem hjs)
    congr 1
    apply Nat.le_antisymm
    · rcases a2 with a2 | ⟨k, hk, a2⟩
      · omega
      · exact b1 k ((hkl k).mp hk) _ a2
    · rcases b2 with b2 | ⟨k, hk, b2⟩
      · omega
      · exact a1 k ((hkl k).mpr hk) _ b2
  · rw [List.getElem?_eq_none (by rw [hr.1]; omega), List.getElem?_eq_none (by rw [hs.1]; omega)]

/-! ## C62 -/

/-- **C62.** Adding any list of pubkeys to a new sketch succeeds, and every register then holds the maximum rank of the
keys addressing it (0 when there is none). -/
theorem C62_registers_are_max_ranks (off : Nat) (ho : off ≤ 24) (pks : List Bytes) (hp : ∀ p ∈ pks, IsPubkey p) :
    ∃ h r, new off = .val h ∧ addAll h pks = .val { h with registers := r } ∧
      MaxRanks (pks.map (fun p => keyAt off (bytesOf p))) r := by
  have hn : new off = .val { offset := off, registers := List.replicate 256 0 } := by
    unfold new; rw [if_neg (by omega)]; rfl
  obtain ⟨r, h1, h2⟩ := addAll_step pks { offset := off, registers := List.replicate 256 0 } [] ho hp maxRanks_nil
  exact ⟨_, r, hn, h1, by simpa using h2⟩

/-- **C62.** Order and repetition do not matter: two lists with the same pubkeys give the same sketch. -/
theorem C62_order_and_repetition_irrelevant (off : Nat) (ho : off ≤ 24) (xs ys : List Bytes)
    (hx : ∀ p ∈ xs, IsPubkey p) (hy : ∀ p ∈ ys, IsPubkey p) (hset : ∀ p, p ∈ xs ↔ p ∈ ys) (h : Sketch)
    (hn : new off = .val h) : addAll h xs = addAll h ys := by
  obtain ⟨h1, r, hn1, ha, hm⟩ := C62_registers_are_max_ranks off ho xs hx
  obtain ⟨h2, s, hn2, hb, hm2⟩ := C62_registers_are_max_ranks off ho ys hy
  rw [hn] at hn1 hn2
  cases hn1; cases hn2
  rw [ha, hb, maxRanks_unique hm hm2]
  intro k
  simp only [List.mem_map]
  constructor <;> rintro ⟨p, hp, rfl⟩
  · exact ⟨p, (hset p).mp hp, rfl⟩
  · exact ⟨p, (hset p).mpr hp, rfl⟩

theorem getD_eq_of_some {l : List Nat} {j v : Nat} (h : l[j]? = some v) : l.getD j 0 = v := by
  simp [List.getD_eq_getElem?_getD, h]

/-- **C62.** Merging two sketches (at the same offset) equals the sketch of the union. -/
theorem C62_merge_is_union (off : Nat) (ho : off ≤ 24) (xs ys : List Bytes)
    (hx : ∀ p ∈ xs, IsPubkey p) (hy : ∀ p ∈ ys, IsPubkey p) (h hxs hys : Sketch) (hn : new off = .val h)
    (e1 : addAll h xs = .val hxs) (e2 : addAll h ys = .val hys) :
    merge hxs hys = addAll h (xs ++ ys) := by
  obtain ⟨h1, r, hn1, ha, hm⟩ := C62_registers_are_max_ranks off ho xs hx
  obtain ⟨h2, s, hn2, hb, hm2⟩ := C62_registers_are_max_ranks off ho ys hy
  obtain ⟨h3, t, hn3, hc, hm3⟩ := C62_registers_are_max_ranks off ho (xs ++ ys)
    (fun p hp => by rcases List.mem_append.mp hp with hp | hp; exact hx p hp; exact hy p hp)
  rw [hn] at hn1 hn2 hn3
  cases hn1; cases hn2; cases hn3
  rw [ha] at e1; rw [hb] at e2
  cases e1; cases e2
  obtain ⟨u, hu, hul, hug⟩ := mergeRegisters_eq { h with registers := r } s (by simp [hm.1, hm2.1])
  simp only at hul hug
  rw [merge, hu, hc]
  have : MaxRanks ((xs.map (fun p => keyAt off (bytesOf p))) ++ (ys.map (fun p => keyAt off (bytesOf p)))) u := by
    refine ⟨by rw [hul, hm.1], ?_⟩
    intro j v hv
    rw [hug j, Option.map_eq_some_iff] at hv
    obtain ⟨x, hx', rfl⟩ := hv
    have hj : j < s.length := by
      have := (List.getElem?_eq_some_iff.mp hx').1
      rw [hm2.1, ← hm.1]; exact this
    have hy' : s[j]? = some s[j] := List.getElem?_eq_getElem hj
    rw [getD_eq_of_some hy']
    obtain ⟨a1, a2⟩ := hm.2 _ _ hx'
    obtain ⟨b1, b2⟩ := hm2.2 _ _ hy'
    constructor
    · intro k hk q hq
      rcases List.mem_append.mp hk with hk | hk
      · have := a1 k hk q hq; omega
      · have := b1 k hk q hq; omega
    · rcases Nat.le_total x s[j] with hle | hle
      · rw [Nat.max_eq_right hle]
        rcases b2 with b2 | ⟨k, hk, b2⟩
        · exact Or.inl b2
        · exact Or.inr ⟨k, List.mem_append.mpr (Or.inr hk), b2⟩
      · rw [Nat.max_eq_left hle]
        rcases a2 with a2 | ⟨k, hk, a2⟩
        · exact Or.inl a2
        · exact Or.inr ⟨k, List.mem_append.mpr (Or.inl hk), a2⟩
  rw [maxRanks_unique this hm3 (by simp)]

/-- The sketch has 256 registers (true of every sketch made by the constructors and kept by every operation). -/
def Wf (h : Sketch) : Prop := h.registers.length = 256

theorem merge_pointwise (a b : Sketch) (ha : Wf a) (hb : Wf b) : ∃ c, merge a b = .val c ∧ c.offset = a.offset ∧ Wf c ∧
    ∀ j, j < 256 → c.registers.getD j 0 = max (a.registers.getD j 0) (b.registers.getD j 0) := by
  obtain ⟨r, hr, hl, hg⟩ := mergeRegisters_eq a b.registers (by unfold Wf at *; omega)
  refine ⟨_, hr, rfl, by unfold Wf at *; simpa [hl] using ha, fun j hj => ?_⟩
  have hja : j < a.registers.length := by unfold Wf at ha; omega
  simp only [List.getD_eq_getElem?_getD, hg j, List.getElem?_eq_getElem hja, Option.map_some, Option.getD_some]

theorem sketch_ext {a b : Sketch} (ho : a.offset = b.offset) (ha : Wf a) (hb : Wf b)
    (h : ∀ j, j < 256 → a.registers.getD j 0 = b.registers.getD j 0) : a = b := by
  have : a.registers = b.registers := by
    apply List.ext_getElem (by unfold Wf at *; omega)
    intro j h1 h2
    have := h j (by unfold Wf at ha; omega)
    simpa [List.getD_eq_getElem?_getD, List.getElem?_eq_getElem h1, List.getElem?_eq_getElem h2] using this
  cases a; cases b; simp_all

/-- **C62.** `Merge` is the pointwise maximum; on sketches of the same offset it is commutative, associative and
idempotent, and the empty sketch is neutral. -/
theorem C62_merge_semilattice (a b c : Sketch) (ha : Wf a) (hb : Wf b) (hc : Wf c) (hab : a.offset = b.offset)
    (hbc : b.offset = c.offset) :
    merge a b = merge b a ∧ (do let x ← merge a b; merge x c) = (do let y ← merge b c; merge a y) ∧
    merge a a = .val a ∧ (∀ e, new a.offset = .val e → merge a e = .val a) := by
  obtain ⟨ab, h1, o1, w1, g1⟩ := merge_pointwise a b ha hb
  obtain ⟨ba, h2, o2, w2, g2⟩ := merge_pointwise b a hb ha
  obtain ⟨bc, h3, o3, w3, g3⟩ := merge_pointwise b c hb hc
  obtain ⟨l, h4, o4, w4, g4⟩ := merge_pointwise ab c w1 hc
  obtain ⟨r, h5, o5, w5, g5⟩ := merge_pointwise a bc ha w3
  obtain ⟨aa, h6, o6, w6, g6⟩ := merge_pointwise a a ha ha
  refine ⟨?_, ?_, ?_, ?_⟩
  · rw [h1, h2, sketch_ext (by omega) w1 w2 (fun j hj => by rw [g1 j hj, g2 j hj, Nat.max_comm])]
  · rw [h1, h3]
    simp only [Out.val_bind]
    rw [h4, h5, sketch_ext (by omega) w4 w5 (fun j hj => by
      rw [g4 j hj, g5 j hj, g1 j hj, g3 j hj, Nat.max_assoc])]
  · rw [h6, sketch_ext o6 w6 ha (fun j hj => by rw [g6 j hj, Nat.max_self])]
  · intro e he
    have hew : Wf e ∧ e.registers = List.replicate 256 0 := by
      unfold new at he
      split at he
      · cases he
      · cases he; exact ⟨List.length_replicate, rfl⟩
    obtain ⟨x, h7, o7, w7, g7⟩ := merge_pointwise a e ha hew.1
    rw [h7, sketch_ext o7 w7 ha (fun j hj => by
      rw [g7 j hj, hew.2]
      simp only [List.getD_eq_getElem?_getD, List.getElem?_replicate, hj, if_true, Option.getD_some, Nat.max_zero])]

/-- **C62 (starting over).** After `Clear` a sketch is as a new one with the same offset, whatever was counted before. -/
theorem C62_clear (h : Sketch) (hw : Wf h) (ho : h.offset ≤ 24) : new h.offset = .val (clear h) := by
  have hl : h.registers.length = 256 := hw
  unfold new clear
  rw [if_neg (by omega)]
  rw [List.map_const', hl, Int.toNat_natCast]

/-- **C62.** `Add` on a hex pubkey and `AddBytes` on its bytes do the same. -/
theorem C62_add_eq_addBytes (h : Sketch) (b : Bytes) : add h (hexEnc b) = addBytes h b := add_eq_addBytes h b

/-- A sample pubkey. -/
def samplePk : Bytes := hexEnc ([0, 0, 7, 0, 16] ++ List.replicate 27 1)

example : IsPubkey samplePk := ⟨_, by simp, rfl⟩
example : (do let h ← new 2; let h ← add h samplePk; return h.registers.getD 7 0) = Out.val 12 := by decide +kernel

/-! ## C63 -/

/-- **C63.** For every 32-byte pubkey (as bytes or hex) and every offset accepted by the constructor, `Add` and `AddBytes`
return normally, set a register below 256 to a value between 1 and 57 or leave it, and keep 256 registers. -/
theorem C63_add_in_range (h : Sketch) (hw : Wf h) (ho : h.offset ≤ 24) (b : Bytes) (hb : b.length = 32) :
    ∃ j r, j < 256 ∧ 1 ≤ r ∧ r ≤ 57 ∧ Key (keyAt h.offset b) j r ∧
      add h (hexEnc b) = .val { h with registers := upd h.registers j r } ∧
      addBytes h b = .val { h with registers := upd h.registers j r } := by
  obtain ⟨c, rest, hk, hr⟩ := keyAt_shape h.offset b (by omega)
  obtain ⟨rank, hrank, he⟩ := addKey_spec h c rest hr hw
  have e : addBytes h b = .val { h with registers := upd h.registers c.toNat rank } := by
    rw [addBytes_key h b (by omega), hk]; exact he
  exact ⟨c.toNat, rank, c.toNat_lt, hrank.1, hrank.2.1, ⟨c, rest, hk, hr, rfl, hrank⟩, by rw [add_eq_addBytes]; exact e, e⟩

/-- **C63.** Register values never exceed 57: adding any pubkeys to a new sketch leaves every register at most 57, and
merging keeps that. -/
theorem C63_values_bounded (off : Nat) (ho : off ≤ 24) (pks : List Bytes) (hp : ∀ p ∈ pks, IsPubkey p) (h h' : Sketch)
    (hn : new off = .val h) (ha : addAll h pks = .val h') : Wf h' ∧ ∀ v ∈ h'.registers, v ≤ 57 := by
  obtain ⟨h1, r, hn1, ha1, hm⟩ := C62_registers_are_max_ranks off ho pks hp
  rw [hn] at hn1; cases hn1
  rw [ha] at ha1; cases ha1
  refine ⟨hm.1, fun v hv => ?_⟩
  obtain ⟨j, hj, rfl⟩ := List.getElem_of_mem hv
  rcases (hm.2 j _ (List.getElem?_eq_getElem hj)).2 with h0 | ⟨k, _, _, _, _, _, _, hr⟩
  · omega
  · exact hr.2.1

/-- **C63.** Merging keeps bounds and shape. -/
theorem C63_merge_bounded (a b : Sketch) (ha : Wf a) (hb : Wf b) (n : Nat) (h1 : ∀ v ∈ a.registers, v ≤ n)
    (h2 : ∀ v ∈ b.registers, v ≤ n) : ∃ c, merge a b = .val c ∧ Wf c ∧ ∀ v ∈ c.registers, v ≤ n := by
  obtain ⟨c, hc, _, hw, hg⟩ := merge_pointwise a b ha hb
  refine ⟨c, hc, hw, fun v hv => ?_⟩
  obtain ⟨j, hj, rfl⟩ := List.getElem_of_mem hv
  unfold Wf at *
  have hj' : j < 256 := by omega
  have e := hg j hj'
  have ja : j < a.registers.length := by omega
  have jb : j < b.registers.length := by omega
  simp only [List.getD_eq_getElem?_getD, List.getElem?_eq_getElem hj, List.getElem?_eq_getElem ja,
    List.getElem?_eq_getElem jb, Option.getD_some] at e
  have := h1 _ (List.getElem_mem ja)
  have := h2 _ (List.getElem_mem jb)
  omega

/-- **C63.** Constructors and merging fail loudly on bad shapes: an offset outside 0..24, a register array not of length
256, or merging more registers than there are. -/
theorem C63_bad_shapes_panic :
    (∀ o : Int, new o = .panic ↔ o < 0 ∨ 24 < o) ∧
    (∀ (regs : List Nat) (o : Int), newWithRegisters regs o = .panic ↔ (o < 0 ∨ 24 < o) ∨ regs.length ≠ 256) := by
  constructor
  · intro o; unfold new
    split
    · simp only [true_iff]; omega
    · simp only [reduceCtorEq, false_iff]; omega
  · intro regs o; unfold newWithRegisters
    split
    · simp; omega
    · split <;> simp <;> omega

theorem nibble32_valid {v : Bytes} (h : isValid32ByteHex v = true) :
    ∃ p : Int, nibble32 v = .val (some p) ∧ 0 ≤ p ∧ p < 16 := by
  obtain ⟨hl, hc⟩ := (C19_isValid32ByteHex_iff v).mp h
  have hi : 32 < v.length := by omega
  have hv : ∀ c : UInt8, IsLowerHexByte c → (hexVal c).isSome ∧ ((hexVal c).getD 0).toNat < 16 := by decide +kernel
  obtain ⟨h1, h2⟩ := hv v[32] (hc _ (List.getElem_mem hi))
  obtain ⟨x, hx⟩ := Option.isSome_iff_exists.mp h1
  have hs : v = v.take 32 ++ [v[32]] ++ v.drop 33 := by simp
  refine ⟨x.toNat, ?_, by omega, by rw [hx] at h2; simp at h2; omega⟩
  unfold nibble32
  rw [goSlice_at hs (by simp; omega) (by simp; omega)]
  simp [goIndex, hx]

theorem offsetBranch_range (kind : Int) (kinds : List Int) (hk : kinds.length = 1) (vals : List Bytes) :
    ∃ o, offsetBranch kind kinds vals = .val o ∧ (o = -1 ∨ (8 ≤ o ∧ o ≤ 23)) := by
  unfold offsetBranch
  split
  · next v =>
    split
    · next hv =>
      obtain ⟨p, hp, h0, h16⟩ := nibble32_valid hv
      match kinds, hk with
      | [k], _ =>
        have : goIndex [k] 0 = .val k := rfl
        simp only [this, Out.val_bind, hp]
        split
        · exact ⟨p + 8, rfl, by omega⟩
        · exact ⟨-1, rfl, by omega⟩
    · exact ⟨-1, rfl, Or.inl rfl⟩
  · exact ⟨-1, rfl, Or.inl rfl⟩

/-- **C63.** The offset derived from a filter is -1 or between 8 and 23, hence accepted by the constructor; computing it
never panics. -/
theorem C63_filter_offset_range (f : Filter) :
    ∃ o, offsetForFilter f = .val o ∧ (o = -1 ∨ ((8 ≤ o ∧ o ≤ 23) ∧ ∃ h, new o = .val h)) := by
  have key : ∀ o : Int, (8 ≤ o ∧ o ≤ 23) → ∃ h, new o = .val h := by
    intro o ho; unfold new; rw [if_neg (by omega)]; exact ⟨_, rfl⟩
  have fin : ∀ x : Out Int, (∃ o, x = .val o ∧ (o = -1 ∨ (8 ≤ o ∧ o ≤ 23))) →
      ∃ o, x = .val o ∧ (o = -1 ∨ ((8 ≤ o ∧ o ≤ 23) ∧ ∃ h, new o = .val h)) := by
    rintro x ⟨o, hx, h | h⟩
    · exact ⟨o, hx, Or.inl h⟩
    · exact ⟨o, hx, Or.inr ⟨h, key o h⟩⟩
  apply fin
  unfold offsetForFilter
  split
  · exact ⟨-1, rfl, Or.inl rfl⟩
  · next hc =>
    have hk : (elems f.kinds).length = 1 := by
      by_contra h
      exact hc (by simp [h])
    split
    · exact offsetBranch_range _ _ hk _
    · split
      · exact offsetBranch_range _ _ hk _
      · split
        · exact offsetBranch_range _ _ hk _
        · exact ⟨-1, rfl, Or.inl rfl⟩

/-! ## C64 -/

/-- The tag name counted for each supported kind. -/
def countedTag (kind : Int) : Option Bytes :=
  if kind = 3 then some (b! "p") else if kind = 7 then some (b! "e") else if kind = 1111 then some (b! "E") else none

/-- The filter that counts references to `ref`: one kind, one tag condition with one value. -/
def countFilter (kind : Int) (name ref : Bytes) : Filter :=
  { kinds := some [kind], tags := some [(name, some [ref])] }

theorem offsetForFilter_count (kind : Int) (name ref : Bytes) (hn : countedTag kind = some name)
    (hv : isValid32ByteHex ref = true) : ∃ p : Int, nibble32 ref = .val (some p) ∧
      offsetForFilter (countFilter kind name ref) = .val (p + 8) := by
  obtain ⟨p, hp, _, _⟩ := nibble32_valid hv
  refine ⟨p, hp, ?_⟩
  unfold countedTag at hn
  split at hn
  · next hk =>
    cases hn; subst hk
    simp [offsetForFilter, countFilter, elems, tagEntries, mapLookup, offsetBranch, hv, hp, goIndex]
  · split at hn
    · next hk =>
      cases hn; subst hk
      simp [offsetForFilter, countFilter, elems, tagEntries, mapLookup, offsetBranch, hv, hp, goIndex]
    · split at hn
      · next hk =>
        cases hn; subst hk
        simp [offsetForFilter, countFilter, elems, tagEntries, mapLookup, offsetBranch, hv, hp, goIndex]
      · cases hn

theorem offsetsKind3_spec (tags : Tags) : ∃ l, offsetsKind3 tags = .val l ∧
    ∀ ref o, (ref, o) ∈ l ↔ isValid32ByteHex ref = true ∧ (∃ rest, (b! "p" :: ref :: rest) ∈ tags) ∧
      ∃ p : Int, nibble32 ref = .val (some p) ∧ o = p + 8 := by
  induction tags with
  | nil => exact ⟨[], rfl, by simp⟩
  | cons tag tags ih =>
    obtain ⟨l, hl, hs⟩ := ih
    match tag with
    | [] => exact ⟨l, by simp [offsetsKind3, hl], by simpa using hs⟩
    | [_] => exact ⟨l, by simp [offsetsKind3, hl], by simpa using hs⟩
    | k :: v :: r =>
      by_cases hc : k = b! "p" ∧ isValid32ByteHex v = true
      · obtain ⟨p, hp, h0, h16⟩ := nibble32_valid hc.2
        refine ⟨(v, p + 8) :: l, ?_, ?_⟩
        · simp [offsetsKind3, hc, hl, nibble32Value, hp]
        · intro ref o
          simp only [List.mem_cons, Prod.mk.injEq, hs ref o]
          constructor
          · rintro (⟨rfl, rfl⟩ | ⟨a, ⟨rest, hm⟩, c⟩)
            · exact ⟨hc.2, ⟨r, Or.inl (by rw [hc.1])⟩, p, hp, rfl⟩
            · exact ⟨a, ⟨rest, Or.inr hm⟩, c⟩
          · rintro ⟨a, ⟨rest, hm | hm⟩, q, hq, rfl⟩
            · injection hm with e1 e2; injection e2 with e2 _
              subst e2
              rw [hp] at hq; cases hq
              exact Or.inl ⟨rfl, rfl⟩
            · exact Or.inr ⟨a, ⟨rest, hm⟩, q, hq, rfl⟩
      · refine ⟨l, by simp only [offsetsKind3, hc, if_false]; exact hl, ?_⟩
        intro ref o
        rw [hs ref o]
        constructor
        · rintro ⟨a, ⟨rest, hm⟩, c⟩; exact ⟨a, ⟨rest, by simp [hm]⟩, c⟩
        · rintro ⟨a, ⟨rest, hm⟩, c⟩
          simp only [List.mem_cons] at hm
          rcases hm with hm | hm
          · injection hm with e1 e2; injection e2 with e2 _
            subst e1 e2
            exact absurd ⟨rfl, a⟩ hc
          · exact ⟨a, ⟨rest, hm⟩, c⟩

theorem offsetsOfTag_spec (t : Option Tag) (name : Bytes) (ht : ∀ tag, t = some tag → ∃ v rest, tag = name :: v :: rest) :
    ∃ l, offsetsOfTag t = .val l ∧ ∀ ref o, (ref, o) ∈ l → isValid32ByteHex ref = true ∧
      (∃ rest, t = some (name :: ref :: rest)) ∧ ∃ p : Int, nibble32 ref = .val (some p) ∧ o = p + 8 := by
  cases t with
  | none => exact ⟨[], rfl, by simp⟩
  | some tag =>
    obtain ⟨v, rest, rfl⟩ := ht tag rfl
    have : goIndex (name :: v :: rest) 1 = .val v := rfl
    by_cases hv : isValid32ByteHex v = true
    · obtain ⟨p, hp, _, _⟩ := nibble32_valid hv
      refine ⟨[(v, p + 8)], by simp [offsetsOfTag, this, hv, nibble32Value, hp], ?_⟩
      intro ref o h
      simp at h
      obtain ⟨rfl, rfl⟩ := h
      exact ⟨hv, ⟨rest, rfl⟩, p, hp, rfl⟩
    · exact ⟨[], by simp [offsetsOfTag, this, hv], by simp⟩

/-- **C64.** Computing an event's offsets never panics, and every pair `(ref, offset)` it yields is for a kind counted by
the NIP and agrees with the filter counting `ref`: the filter yields the same offset, and it matches the event. -/
theorem C64_event_offsets_agree_with_filter (e : Event) : ∃ l, offsetsForEvent e = .val l ∧
    ∀ ref o, (ref, o) ∈ l → ∃ name, countedTag e.kind = some name ∧
      offsetForFilter (countFilter e.kind name ref) = .val o ∧
      (countFilter e.kind name ref).matches (some e) = true ∧ 8 ≤ o ∧ o ≤ 23 := by
  have fin : ∀ name ref (o : Int), countedTag e.kind = some name → isValid32ByteHex ref = true →
      (∃ rest, (name :: ref :: rest) ∈ e.tags) → (∃ p : Int, nibble32 ref = .val (some p) ∧ o = p + 8) →
      ∃ name, countedTag e.kind = some name ∧ offsetForFilter (countFilter e.kind name ref) = .val o ∧
      (countFilter e.kind name ref).matches (some e) = true ∧ 8 ≤ o ∧ o ≤ 23 := by
    rintro name ref o hn hv ⟨rest, hmem⟩ ⟨p, hp, rfl⟩
    obtain ⟨q, hq, ho⟩ := offsetForFilter_count e.kind name ref hn hv
    obtain ⟨q', hq', h0, h16⟩ := nibble32_valid hv
    rw [hp] at hq hq'; cases hq; cases hq'
    refine ⟨name, hn, ho, ?_, by omega, by omega⟩
    rw [C06_matches_iff]
    refine ⟨⟨by simp [countFilter], by simp [countFilter], by simp [countFilter], ?_⟩, by simp [Spec.InWindow, countFilter]⟩
    intro m hm n vals hmem'
    simp [countFilter] at hm; subst hm
    simp at hmem'
    obtain ⟨rfl, rfl⟩ := hmem'
    exact ⟨_, hmem, ref, rest, rfl, by simp⟩
  unfold offsetsForEvent
  by_cases h3 : e.kind = 3
  · obtain ⟨l, hl, hs⟩ := offsetsKind3_spec e.tags
    refine ⟨l, by simp [h3, hl], fun ref o h => ?_⟩
    obtain ⟨a, b, c⟩ := (hs ref o).mp h
    exact fin (b! "p") ref o (by simp [countedTag, h3]) a b c
  · by_cases h7 : e.kind = 7
    · have hL := C12_findLast (b! "e") e.tags
      obtain ⟨l, hl, hs⟩ := offsetsOfTag_spec (Tags.findLast (b! "e") e.tags) (b! "e") (fun tag ht => by
        rw [ht] at hL; obtain ⟨_, _, _, hk, _⟩ := hL; exact hk)
      refine ⟨l, by simp [h7, hl], fun ref o h => ?_⟩
      obtain ⟨a, ⟨rest, ht⟩, c⟩ := hs ref o h
      rw [ht] at hL
      obtain ⟨pre, post, he, _, _⟩ := hL
      exact fin (b! "e") ref o (by simp [countedTag, h7]) a ⟨rest, by rw [he]; simp⟩ c
    · by_cases h11 : e.kind = 1111
      · have hL := C12_find (b! "E") e.tags
        obtain ⟨l, hl, hs⟩ := offsetsOfTag_spec (Tags.find (b! "E") e.tags) (b! "E") (fun tag ht => by
          rw [ht] at hL; obtain ⟨_, _, _, hk, _⟩ := hL; exact hk)
        refine ⟨l, by simp [h11, hl], fun ref o h => ?_⟩
        obtain ⟨a, ⟨rest, ht⟩, c⟩ := hs ref o h
        rw [ht] at hL
        obtain ⟨pre, post, he, _, _⟩ := hL
        exact fin (b! "E") ref o (by simp [countedTag, h11]) a ⟨rest, by rw [he]; simp⟩ c
      · exact ⟨[], by simp [h3, h7, h11], by simp⟩

/-- **C64.** Completeness for follower counts: every valid `p` reference of a kind-3 event is yielded. -/
theorem C64_all_followed_are_yielded (e : Event) (hk : e.kind = 3) (ref : Bytes) (rest : List Bytes)
    (hmem : (b! "p" :: ref :: rest) ∈ e.tags) (hv : isValid32ByteHex ref = true) :
    ∃ l o, offsetsForEvent e = .val l ∧ (ref, o) ∈ l := by
  obtain ⟨l, hl, hs⟩ := offsetsKind3_spec e.tags
  obtain ⟨p, hp, _, _⟩ := nibble32_valid hv
  exact ⟨l, p + 8, by simp [offsetsForEvent, hk, hl], (hs ref _).mpr ⟨hv, ⟨rest, hmem⟩, p, hp, rfl⟩⟩

example : offsetsForEvent { sampleEvent with kind := 3, tags := [[b! "p", List.replicate 64 53], [b! "p", b! "x"]] } =
    .val [(List.replicate 64 53, 13)] := by decide +kernel

end GoNostr.HLL
