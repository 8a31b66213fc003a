import Verif.HLL.Theorems
import Mathlib.Analysis.SpecialFunctions.Log.Deriv
import Mathlib.Analysis.SpecialFunctions.Pow.Real
import Mathlib.Analysis.Complex.ExponentialBounds
/-!
# C173: the count a sketch stands for (nip45/hyperloglog/hll.go `Count`)

Real numbers stand for `float64` (rounding errors are not modelled). The conversion to `uint64` of a number that does not fit is left open (`wild`).
-/

set_option autoImplicit false

namespace GoNostr.HLL

noncomputable section

/-- `countZeros` (helpers.go:22-30). -/
def countZeros : List Nat → Nat
  | [] => 0
  | v :: rest => (if v = 0 then 1 else 0) + countZeros rest

/-- `linearCounting` with 256 registers (helpers.go:9-12). -/
def linearCounting (v : Nat) : ℝ := 256 * Real.log (256 / v)

/-- The sum of `calculateEstimate` (hll.go:109-112); `none` is `+Inf`: `uint64(1)<<val` is zero for values from 64 on. -/
def sumInv : List Nat → Option ℝ
  | [] => some 0
  | v :: rest => match sumInv rest with
    | none => none
    | some s => if v < 64 then some (1 / 2 ^ v + s) else none

/-- `calculateEstimate` (hll.go:108-115); a number divided by `+Inf` is zero. -/
def estimate (regs : List Nat) : ℝ :=
  match sumInv regs with
  | none => 0
  | some s => 0.7182725932495458 * 256 * 256 / s

/-- `uint64(x)` for `x ≥ 0`. -/
def toU64 (wild : ℝ → Nat) (x : ℝ) : Nat := if x < 2 ^ 64 then ⌊x⌋₊ else wild x

/-- `Count` (hll.go:87-106). -/
def count (wild : ℝ → Nat) (regs : List Nat) : Nat :=
  let v := countZeros regs
  if v ≠ 0 ∧ linearCounting v ≤ 220 then toU64 wild (linearCounting v)
  else if estimate regs ≤ 256 * 3 ∧ v ≠ 0 then toU64 wild (linearCounting v)
  else toU64 wild (estimate regs)

/-! ## Specification -/

/-- The byte of a public key that selects its register. -/
def byteAt (off : Nat) (pk : Bytes) : Nat := ((bytesOf pk).getD off 0).toNat

/-- How many different registers public keys fall into. -/
def spread (off : Nat) (pks : List Bytes) : Nat := (pks.map (byteAt off)).toFinset.card

/-! ## Lemmas -/

theorem zeros_le (l : List Nat) : countZeros l ≤ l.length := by
  induction l with
  | nil => exact Nat.le_refl _
  | cons v r ih => simp only [countZeros, List.length_cons]; split <;> omega

theorem zeros_zero {l : List Nat} (h : countZeros l = 0) : ∀ v ∈ l, 1 ≤ v := by
  induction l with
  | nil => intro v hv; cases hv
  | cons a r ih =>
    simp only [countZeros] at h
    intro v hv
    rcases List.mem_cons.1 hv with rfl | hv
    · by_contra hc
      rw [if_pos (by omega)] at h; omega
    · exact ih (by omega) v hv

theorem zeros_of_pos {l : List Nat} (h : ∀ v ∈ l, 1 ≤ v) : countZeros l = 0 := by
  induction l with
  | nil => rfl
  | cons a r ih =>
    have ha := h a List.mem_cons_self
    simp only [countZeros]
    rw [if_neg (by omega), ih (fun v hv => h v (List.mem_cons_of_mem _ hv))]

theorem sumInv_small {n : Nat} (hn : n ≤ 63) : ∀ {l : List Nat}, (∀ v ∈ l, v ≤ n) → ∃ s, sumInv l = some s ∧ (l.length : ℝ) / 2 ^ n ≤ s
  | [], _ => ⟨0, rfl, by simp⟩
  | v :: r, h => by
    obtain ⟨s, e, hs⟩ := sumInv_small hn (l := r) (fun x hx => h x (List.mem_cons_of_mem _ hx))
    have hv := h v List.mem_cons_self
    refine ⟨1 / 2 ^ v + s, by simp only [sumInv, e]; rw [if_pos (by omega)], ?_⟩
    have h1 : (1 : ℝ) / 2 ^ n ≤ 1 / 2 ^ v := one_div_le_one_div_of_le (by positivity) (pow_le_pow_right₀ (by norm_num) hv)
    rw [List.length_cons, Nat.cast_succ, add_div]
    linarith

theorem sumInv_half : ∀ {l : List Nat} {s : ℝ}, (∀ v ∈ l, 1 ≤ v) → sumInv l = some s → s ≤ l.length / 2
  | [], s, _, e => by simp only [sumInv, Option.some.injEq] at e; rw [← e]; simp
  | v :: r, s, h, e => by
    simp only [sumInv] at e
    cases e1 : sumInv r with
    | none => rw [e1] at e; cases e
    | some t =>
      rw [e1] at e
      have ih := sumInv_half (fun x hx => h x (List.mem_cons_of_mem _ hx)) e1
      dsimp only at e
      split at e
      · simp only [Option.some.injEq] at e
        have hv := h v List.mem_cons_self
        have h1 : (1 : ℝ) / 2 ^ v ≤ 1 / 2 ^ 1 := one_div_le_one_div_of_le (by positivity) (pow_le_pow_right₀ (by norm_num) hv)
        rw [← e, List.length_cons, Nat.cast_succ, add_div]
        linarith
      · cases e

theorem sumInv_anti {n : Nat} (hn : n ≤ 63) {l l' : List Nat} (h : List.Forall₂ (· ≤ ·) l l') (hb : ∀ v ∈ l', v ≤ n) : ∃ s s', sumInv l = some s ∧ sumInv l' = some s' ∧ s' ≤ s := by
  induction h with
  | nil => exact ⟨0, 0, rfl, rfl, le_refl _⟩
  | @cons a b r r' hab _ ih =>
    obtain ⟨s, s', e, e', hs⟩ := ih (fun x hx => hb x (List.mem_cons_of_mem _ hx))
    have hv := hb b List.mem_cons_self
    refine ⟨1 / 2 ^ a + s, 1 / 2 ^ b + s', by simp only [sumInv, e]; rw [if_pos (by omega)], by simp only [sumInv, e']; rw [if_pos (by omega)], ?_⟩
    have h1 : (1 : ℝ) / 2 ^ b ≤ 1 / 2 ^ a := one_div_le_one_div_of_le (by positivity) (pow_le_pow_right₀ (by norm_num) hab)
    linarith

theorem zeros_anti {l l' : List Nat} (h : List.Forall₂ (· ≤ ·) l l') : countZeros l' ≤ countZeros l := by
  induction h with
  | nil => exact Nat.le_refl _
  | @cons a b r r' hab _ ih =>
    simp only [countZeros]
    split <;> split <;> omega

theorem sumInv_inf : ∀ {l : List Nat}, (∃ v ∈ l, 64 ≤ v) → sumInv l = none
  | [], h => by obtain ⟨v, hv, -⟩ := h; cases hv
  | a :: r, h => by
    simp only [sumInv]
    obtain ⟨v, hv, h64⟩ := h
    rcases List.mem_cons.1 hv with rfl | hv
    · cases sumInv r with
      | none => rfl
      | some s => dsimp only; rw [if_neg (by omega)]
    · rw [sumInv_inf ⟨v, hv, h64⟩]

/-- Linear counting never gives less than the number of occupied registers. -/
theorem lc_lower {v : Nat} (h0 : v ≠ 0) (h : v ≤ 256) : ((256 - v : Nat) : ℝ) ≤ linearCounting v := by
  have hv : (0 : ℝ) < v := by exact_mod_cast Nat.pos_of_ne_zero h0
  have := Real.one_sub_inv_le_log_of_pos (x := 256 / (v : ℝ)) (by positivity)
  rw [inv_div] at this
  rw [linearCounting, Nat.cast_sub h]
  push_cast
  have h2 : (256 : ℝ) * (1 - v / 256) ≤ 256 * Real.log (256 / v) := mul_le_mul_of_nonneg_left this (by norm_num)
  linarith

theorem lc_anti {v w : Nat} (h0 : v ≠ 0) (h : v ≤ w) : linearCounting w ≤ linearCounting v := by
  have hv : (0 : ℝ) < v := by exact_mod_cast Nat.pos_of_ne_zero h0
  have hw : (v : ℝ) ≤ w := by exact_mod_cast h
  unfold linearCounting
  refine mul_le_mul_of_nonneg_left (Real.log_le_log (by have := hv.trans_le hw; positivity) ?_) (by norm_num)
  exact div_le_div_of_nonneg_left (by norm_num) hv hw

theorem lc_one : 1419 ≤ linearCounting 1 ∧ linearCounting 1 < 1420 := by
  have e : linearCounting 1 = 2048 * Real.log 2 := by
    unfold linearCounting
    rw [Nat.cast_one, div_one, show (256 : ℝ) = 2 ^ 8 by norm_num, Real.log_pow]
    push_cast
    ring
  rw [e]
  have h1 := Real.log_two_gt_d9
  have h2 := Real.log_two_lt_d9
  constructor <;> linarith

theorem lc_fits {v : Nat} (h0 : v ≠ 0) : linearCounting v < 1420 := lt_of_le_of_lt (lc_anti one_ne_zero (Nat.pos_of_ne_zero h0)) lc_one.2

theorem lc_nonneg {v : Nat} (h0 : v ≠ 0) (h : v ≤ 256) : 0 ≤ linearCounting v := le_trans (Nat.cast_nonneg _) (lc_lower h0 h)

/-- Up to 21 registers linear counting is exact after truncation. -/
theorem lc_upper {v : Nat} (h1 : 235 ≤ v) (h : v ≤ 256) : linearCounting v < ((256 - v : Nat) : ℝ) + 1 := by
  obtain ⟨k, rfl, hk⟩ : ∃ k, v = 256 - k ∧ k ≤ 21 := ⟨256 - v, by omega, by omega⟩
  rw [show 256 - (256 - k) = k by omega]
  have hk' : (k : ℝ) ≤ 21 := by exact_mod_cast hk
  have hk0 : (0 : ℝ) ≤ k := Nat.cast_nonneg k
  have e : linearCounting (256 - k) = -256 * Real.log (1 - k / 256) := by
    unfold linearCounting
    rw [Nat.cast_sub (by omega)]
    push_cast
    rw [show (256 : ℝ) / (256 - (k : ℝ)) = (1 - (k : ℝ) / 256)⁻¹ by rw [one_sub_div (by norm_num), inv_div], Real.log_inv]
    ring
  have ht0 : (0 : ℝ) ≤ k / 256 := by positivity
  have ht1 : (k : ℝ) / 256 ≤ 21 / 256 := by linarith
  have habs : |(k : ℝ) / 256| = k / 256 := abs_of_nonneg ht0
  have h3 := Real.abs_log_sub_add_sum_range_le (x := (k : ℝ) / 256) (by rw [habs]; linarith) 3
  rw [habs] at h3
  have h4 := (abs_le.1 h3).1
  simp only [Finset.sum_range_succ, Finset.sum_range_zero] at h4
  norm_num at h4
  have hkt : (k : ℝ) = 256 * ((k : ℝ) / 256) := by ring
  suffices hg : -256 * Real.log (1 - (k : ℝ) / 256) < 256 * ((k : ℝ) / 256) + 1 by rw [e]; linarith
  generalize (k : ℝ) / 256 = t at ht0 ht1 h4 ⊢
  have h5 : t ^ 4 / (1 - t) ≤ (21 / 256) ^ 4 / (1 - 21 / 256) := div_le_div₀ (by norm_num) (pow_le_pow_left₀ ht0 ht1 4) (by norm_num) (by linarith)
  have h6 : t ^ 2 ≤ (21 / 256) ^ 2 := pow_le_pow_left₀ ht0 ht1 2
  have h7 : t ^ 3 ≤ (21 / 256) ^ 3 := pow_le_pow_left₀ ht0 ht1 3
  norm_num at h5 h6 h7
  linarith

theorem lc_220 {v : Nat} (h : 109 ≤ v) : linearCounting v ≤ 220 := by
  refine (lc_anti (v := 109) (by norm_num) h).trans ?_
  unfold linearCounting
  have h1 : Real.log (256 / ((109 : Nat) : ℝ)) ≤ 220 / 256 := by
    rw [Real.log_le_iff_le_exp (by norm_num)]
    have := Real.sum_le_exp_of_nonneg (x := 220 / 256) (by norm_num) 7
    refine le_trans ?_ this
    norm_num [Finset.sum_range_succ, Nat.factorial]
  linarith

theorem toU64_mono {wild : ℝ → Nat} {x y : ℝ} (hy : y < 2 ^ 64) (h : x ≤ y) : toU64 wild x ≤ toU64 wild y := by
  unfold toU64
  rw [if_pos hy, if_pos (h.trans_lt hy)]
  exact Nat.floor_le_floor h

theorem le_toU64 {wild : ℝ → Nat} {n : Nat} {x : ℝ} (hx : x < 2 ^ 64) (h : (n : ℝ) ≤ x) : n ≤ toU64 wild x := by
  unfold toU64
  rw [if_pos hx]
  exact Nat.le_floor h

theorem est_some {regs : List Nat} {s : ℝ} (h : sumInv regs = some s) : estimate regs = 0.7182725932495458 * 256 * 256 / s := by
  unfold estimate
  rw [h]

/-- The estimate of registers that no more than 55 leading zeros led to fits. -/
theorem est_fits {regs : List Nat} (hl : regs.length = 256) (hb : ∀ v ∈ regs, v ≤ 56) : estimate regs < 2 ^ 64 := by
  obtain ⟨s, e, hs⟩ := sumInv_small (n := 56) (by omega) hb
  rw [est_some e]
  rw [hl] at hs
  have h0 : (0 : ℝ) < s := lt_of_lt_of_le (by norm_num) hs
  rw [div_lt_iff₀ h0]
  norm_num at hs ⊢
  linarith

/-- With all registers occupied the estimate is more than 367. -/
theorem est_full {regs : List Nat} (hl : regs.length = 256) (hb : ∀ v ∈ regs, v ≤ 56) (h : countZeros regs = 0) : 367 ≤ estimate regs := by
  obtain ⟨s, e, hs⟩ := sumInv_small (n := 56) (by omega) hb
  have hh := sumInv_half (zeros_zero h) e
  rw [hl] at hs hh
  have h0 : (0 : ℝ) < s := lt_of_lt_of_le (by norm_num) hs
  rw [est_some e, le_div_iff₀ h0]
  norm_num at hh ⊢
  linarith

/-- The three ways `Count` can end. -/
theorem count_cases (wild : ℝ → Nat) (regs : List Nat) :
    (countZeros regs ≠ 0 ∧ (linearCounting (countZeros regs) ≤ 220 ∨ estimate regs ≤ 256 * 3) ∧ count wild regs = toU64 wild (linearCounting (countZeros regs))) ∨
    ((countZeros regs ≠ 0 → 220 < linearCounting (countZeros regs)) ∧ (256 * 3 < estimate regs ∨ countZeros regs = 0) ∧ count wild regs = toU64 wild (estimate regs)) := by
  unfold count
  by_cases h1 : countZeros regs ≠ 0 ∧ linearCounting (countZeros regs) ≤ 220
  · exact .inl ⟨h1.1, .inl h1.2, by simp only [if_pos h1]⟩
  · by_cases h2 : estimate regs ≤ 256 * 3 ∧ countZeros regs ≠ 0
    · exact .inl ⟨h2.2, .inr h2.1, by simp only [if_neg h1, if_pos h2]⟩
    · refine .inr ⟨fun h => lt_of_not_ge fun hc => h1 ⟨h, hc⟩, ?_, by simp only [if_neg h1, if_neg h2]⟩
      by_cases h3 : countZeros regs = 0
      · exact .inr h3
      · exact .inl (lt_of_not_ge fun hc => h2 ⟨hc, h3⟩)

theorem not_220 {regs : List Nat} (h : countZeros regs ≠ 0 → 220 < linearCounting (countZeros regs)) : countZeros regs < 109 := by
  by_contra hc
  have := lc_220 (v := countZeros regs) (by omega)
  exact absurd (h (by omega)) (by linarith)

/-! ## The theorems about registers -/

/-- No count is below the number of occupied registers. -/
theorem lower (wild : ℝ → Nat) (regs : List Nat) (hl : regs.length = 256) (hb : ∀ v ∈ regs, v ≤ 56) : 256 - countZeros regs ≤ count wild regs := by
  have hz := zeros_le regs
  rw [hl] at hz
  rcases count_cases wild regs with ⟨h1, -, e⟩ | ⟨-, h1, e⟩
  · rw [e]
    exact le_toU64 ((lc_fits h1).trans (by norm_num)) (lc_lower h1 hz)
  · rw [e]
    refine le_toU64 (est_fits hl hb) ?_
    have h2 : ((256 - countZeros regs : Nat) : ℝ) ≤ 256 := by
      have : 256 - countZeros regs ≤ 256 := Nat.sub_le _ _
      exact_mod_cast this
    rcases h1 with h1 | h1
    · linarith
    · have := est_full hl hb h1
      linarith

theorem exact_small (wild : ℝ → Nat) (regs : List Nat) (hl : regs.length = 256) (h : 235 ≤ countZeros regs) : count wild regs = 256 - countZeros regs := by
  have hz := zeros_le regs
  rw [hl] at hz
  have h1 := lc_lower (v := countZeros regs) (by omega) hz
  have h2 := lc_upper h hz
  unfold count
  simp only
  rw [if_pos ⟨by omega, lc_220 (by omega)⟩]
  unfold toU64
  rw [if_pos (lt_trans (lc_fits (v := countZeros regs) (by omega)) (by norm_num))]
  exact (Nat.floor_eq_iff (lc_nonneg (by omega) hz)).2 ⟨h1, h2⟩

theorem zeros_append (l : List Nat) (v : Nat) : countZeros (l ++ [v]) = countZeros l + if v = 0 then 1 else 0 := by
  induction l with
  | nil => simp [countZeros]
  | cons a r ih => simp only [List.cons_append, countZeros, ih]; omega

theorem zeros_card (l : List Nat) : countZeros l = ((Finset.range l.length).filter (fun j => l.getD j 0 = 0)).card := by
  induction l using List.reverseRecOn with
  | nil => rfl
  | append_singleton l v ih =>
    rw [zeros_append, ih, List.length_append, List.length_singleton, Finset.range_add_one, Finset.filter_insert]
    have e : (Finset.range l.length).filter (fun j => (l ++ [v]).getD j 0 = 0) = (Finset.range l.length).filter (fun j => l.getD j 0 = 0) := by
      refine Finset.filter_congr fun j hj => ?_
      rw [List.getD_eq_getElem?_getD, List.getD_eq_getElem?_getD, List.getElem?_append_left (Finset.mem_range.1 hj)]
    have e2 : (l ++ [v]).getD l.length 0 = v := by simp
    rw [e, e2]
    split
    · rw [Finset.card_insert_of_notMem (by simp)]
    · rfl

theorem occupied_card (l : List Nat) : l.length - countZeros l = ((Finset.range l.length).filter (fun j => l.getD j 0 ≠ 0)).card := by
  have h := Finset.card_filter_add_card_filter_not (s := Finset.range l.length) (fun j => l.getD j 0 = 0)
  rw [Finset.card_range, ← zeros_card] at h
  exact Nat.sub_eq_of_eq_add (by rw [Nat.add_comm]; exact h.symm)

theorem byteAt_key {off : Nat} (ho : off ≤ 24) {b : Bytes} (hb : b.length = 32) : ∃ rest, keyAt off b = b.getD off 0 :: rest ∧ rest.length = 7 := by
  obtain ⟨c, rest, hk, hr⟩ := keyAt_shape off b (by omega)
  refine ⟨rest, ?_, hr⟩
  rw [hk]
  congr 1
  have h1 : (keyAt off b)[0]? = some c := by rw [hk]; rfl
  rw [keyAt, List.getElem?_take_of_lt (by omega), List.getElem?_drop, Nat.add_zero] at h1
  rw [List.getD_eq_getElem?_getD, h1, Option.getD_some]

theorem rank_exists (rest : Bytes) (hr : rest.length = 7) : ∃ r, IsRank (beValue rest) r := by
  obtain ⟨r, h, -⟩ := addKey_spec ⟨0, List.replicate 256 0⟩ 0 rest hr List.length_replicate
  exact ⟨r, h⟩

theorem spread_eq {off : Nat} (ho : off ≤ 24) {pks : List Bytes} (hp : ∀ p ∈ pks, IsPubkey p) {regs : List Nat} (hm : MaxRanks (pks.map (fun p => keyAt off (bytesOf p))) regs) :
    256 - countZeros regs = spread off pks := by
  obtain ⟨hl, hm⟩ := hm
  have h := occupied_card regs
  rw [hl] at h
  rw [h, spread]
  congr 1
  ext j
  simp only [Finset.mem_filter, Finset.mem_range, List.mem_toFinset, List.mem_map]
  constructor
  · rintro ⟨hj, hne⟩
    have hj' : j < regs.length := by omega
    have hg := List.getElem?_eq_getElem hj'
    obtain ⟨-, h0 | ⟨k, hk, hkey⟩⟩ := hm j _ hg
    · rw [List.getD_eq_getElem?_getD, hg] at hne
      exact absurd h0 hne
    · obtain ⟨p, hpm, rfl⟩ := List.mem_map.1 hk
      obtain ⟨b, hb, rfl⟩ := hp p hpm
      have e : bytesOf (hexEnc b) = b := hexDecPartial_eq (hexDec_hexEnc b)
      obtain ⟨rest, hs, -⟩ := byteAt_key ho hb
      obtain ⟨c, rest', hk1, -, hk2, -⟩ := hkey
      rw [e, hs] at hk1
      refine ⟨_, hpm, ?_⟩
      rw [byteAt, e, hk2, (List.cons.inj hk1).1]
  · rintro ⟨p, hpm, rfl⟩
    obtain ⟨b, hb, rfl⟩ := hp p hpm
    have e : bytesOf (hexEnc b) = b := hexDecPartial_eq (hexDec_hexEnc b)
    obtain ⟨rest, hs, hr⟩ := byteAt_key ho hb
    obtain ⟨r, hrank⟩ := rank_exists rest hr
    have hlt : byteAt off (hexEnc b) < 256 := UInt8.toNat_lt _
    refine ⟨hlt, ?_⟩
    have hg := List.getElem?_eq_getElem (show byteAt off (hexEnc b) < regs.length by omega)
    have h1 := (hm _ _ hg).1 (keyAt off b) (List.mem_map.2 ⟨_, hpm, by rw [e]⟩) r ⟨_, rest, hs, hr, by rw [byteAt, e], hrank⟩
    rw [List.getD_eq_getElem?_getD, hg]
    have := hrank.1
    simp only [Option.getD_some]
    omega

/-! ## The theorems -/

/-- **C173 (small counts).** However public keys are added to a new sketch: as long as they fall into at most 21 different registers, the count is the number of these registers, so it is exact if
no two of the keys share the byte at the offset. -/
theorem C173_exact_small (wild : ℝ → Nat) (off : Nat) (ho : off ≤ 24) (pks : List Bytes) (hp : ∀ p ∈ pks, IsPubkey p) (h21 : spread off pks ≤ 21) :
    ∃ h h', new off = .val h ∧ addAll h pks = .val h' ∧ count wild h'.registers = spread off pks := by
  obtain ⟨h, r, hn, ha, hm⟩ := C62_registers_are_max_ranks off ho pks hp
  have hs := spread_eq ho hp hm
  refine ⟨h, _, hn, ha, ?_⟩
  rw [← hs]
  exact exact_small wild r hm.1 (by omega)

/-- The keys are pairwise different at the offset: the spread is their number. -/
theorem spread_nodup {off : Nat} {pks : List Bytes} (h : (pks.map (byteAt off)).Nodup) : spread off pks = pks.length := by
  rw [spread, List.toFinset_card_of_nodup h, List.length_map]

/-- **C173 (never too low by more than collisions).** The count is at least the number of registers the keys fall into, if none of them has seven zero bytes behind the one at the offset. -/
theorem C173_at_least (wild : ℝ → Nat) (off : Nat) (ho : off ≤ 24) (pks : List Bytes) (hp : ∀ p ∈ pks, IsPubkey p)
    (hz : ∀ p ∈ pks, beValue ((keyAt off (bytesOf p)).drop 1) ≠ 0) :
    ∃ h h', new off = .val h ∧ addAll h pks = .val h' ∧ spread off pks ≤ count wild h'.registers := by
  obtain ⟨h, r, hn, ha, hm⟩ := C62_registers_are_max_ranks off ho pks hp
  have hs := spread_eq ho hp hm
  refine ⟨h, _, hn, ha, ?_⟩
  rw [← hs]
  refine lower wild r hm.1 ?_
  intro v hv
  obtain ⟨j, hj, rfl⟩ := List.getElem_of_mem hv
  rcases (hm.2 j _ (List.getElem?_eq_getElem hj)).2 with h0 | ⟨k, hk, c, rest, e, -, -, hr⟩
  · omega
  · obtain ⟨p, hpm, rfl⟩ := List.mem_map.1 hk
    have h1 := hz p hpm
    rw [e, List.drop_one, List.tail_cons] at h1
    by_contra hc
    obtain ⟨-, h57, hlt, -⟩ := hr
    rw [show 57 - r[j] = 0 by omega] at hlt
    omega

/-- **C173 (growth).** More registers or larger ones never lower the count, if at least 109 registers are empty before or none is. -/
theorem C173_grows_partial (wild : ℝ → Nat) (a b : List Nat) (hl : a.length = 256) (hab : List.Forall₂ (· ≤ ·) a b) (hb : ∀ v ∈ b, v ≤ 56)
    (hz : 109 ≤ countZeros a ∨ countZeros a = 0) : count wild a ≤ count wild b := by
  have hl' : b.length = 256 := by rw [← hab.length_eq]; exact hl
  have hzz := zeros_anti hab
  have hbz := zeros_le b
  have ef := est_fits hl' hb
  obtain ⟨s, s', e, e', hss⟩ := sumInv_anti (n := 56) (by omega) hab hb
  have est : estimate a ≤ estimate b := by
    obtain ⟨t, e2, h2⟩ := sumInv_small (n := 56) (by omega) hb
    rw [e'] at e2
    cases e2
    have h0 : (0 : ℝ) < s' := lt_of_lt_of_le (by rw [hl']; norm_num) h2
    rw [est_some e, est_some e']
    exact div_le_div_of_nonneg_left (by norm_num) h0 hss
  rcases hz with hz | hz
  · have h1 : count wild a = toU64 wild (linearCounting (countZeros a)) := by
      unfold count
      simp only
      rw [if_pos ⟨by omega, lc_220 hz⟩]
    rw [h1]
    have h220 := lc_220 hz
    rcases count_cases wild b with ⟨h2, -, e2⟩ | ⟨-, h2, e2⟩
    · rw [e2]
      exact toU64_mono ((lc_fits h2).trans (by norm_num)) (lc_anti h2 hzz)
    · rw [e2]
      refine toU64_mono ef ?_
      rcases h2 with h2 | h2
      · linarith
      · have := est_full hl' hb h2
        linarith
  · have hz' : countZeros b = 0 := by omega
    have g : ∀ r, countZeros r = 0 → count wild r = toU64 wild (estimate r) := by
      intro r hr
      unfold count
      simp [hr]
    rw [g a hz, g b hz']
    exact toU64_mono ef est

theorem sumInv_ones : ∀ n : Nat, sumInv (List.replicate n 1) = some ((n : ℝ) / 2)
  | 0 => by simp [sumInv]
  | n + 1 => by
    rw [List.replicate_succ]
    simp only [sumInv, sumInv_ones n]
    rw [if_pos (by omega)]
    push_cast
    congr 1
    ring

theorem sumInv_ones_zero : ∀ n : Nat, sumInv (List.replicate n 1 ++ [0]) = some ((n : ℝ) / 2 + 1)
  | 0 => by simp [sumInv]
  | n + 1 => by
    rw [List.replicate_succ, List.cons_append]
    simp only [sumInv, sumInv_ones_zero n]
    rw [if_pos (by omega)]
    push_cast
    congr 1
    ring

/-- The public keys that fall into the first `n` registers, without leading zeros. -/
def spreadKeys (n : Nat) : List Bytes := (List.range n).map (fun i => hexEnc ([UInt8.ofNat i, 128] ++ List.replicate 30 1))

/-- **C173 (refuted: growth).** A new key can lower the count, from 1419 to 367: the count of 255 keys in as many registers is 1419, and with the one of the last register 367. -/
theorem C173_falls (wild : ℝ → Nat) : ∃ h h1 h2, new 0 = .val h ∧ addAll h (spreadKeys 255) = .val h1 ∧ addAll h (spreadKeys 256) = .val h2 ∧
    count wild h1.registers = 1419 ∧ count wild h2.registers = 367 := by
  refine ⟨⟨0, List.replicate 256 0⟩, ⟨0, List.replicate 255 1 ++ [0]⟩, ⟨0, List.replicate 256 1⟩, rfl, by decide +kernel, by decide +kernel, ?_, ?_⟩
  · have hz : countZeros (List.replicate 255 1 ++ [0]) = 1 := by decide +kernel
    have hs : sumInv (List.replicate 255 1 ++ [0]) = some (255 / 2 + 1) := by
      rw [sumInv_ones_zero 255]
      norm_num
    show count wild (List.replicate 255 1 ++ [0]) = 1419
    rcases count_cases wild (List.replicate 255 1 ++ [0]) with ⟨-, -, e⟩ | ⟨-, h, -⟩
    · rw [e, hz, toU64, if_pos (lc_one.2.trans (by norm_num))]
      exact (Nat.floor_eq_iff (le_trans (by norm_num) lc_one.1)).2 ⟨by exact_mod_cast lc_one.1, by have := lc_one.2; push_cast; linarith⟩
    · rw [hz, est_some hs] at h
      norm_num at h
  · show count wild (List.replicate 256 1) = 367
    have hz : countZeros (List.replicate 256 1) = 0 := by decide +kernel
    have he : estimate (List.replicate 256 1) = 0.7182725932495458 * 512 := by
      rw [est_some (sumInv_ones 256)]
      norm_num
    rcases count_cases wild (List.replicate 256 1) with ⟨h, -, -⟩ | ⟨-, -, e⟩
    · exact absurd hz h
    · rw [e, he, toU64, if_pos (by norm_num)]
      exact (Nat.floor_eq_iff (by norm_num)).2 ⟨by norm_num, by norm_num⟩

/-! ## What one relay can do -/

/-- The last line of `CountMany` (pool.go:727): `int(hll.Count())`. -/
def asInt (n : Nat) : Int := if n < 2 ^ 63 then n else n - 2 ^ 64

/-- **C173 (one relay decides).** `CountMany` merges 256 bytes of each relay. One relay that answers with bytes of 64 or more makes the count zero, whatever the others answer. -/
theorem C173_one_relay_zeroes (wild : ℝ → Nat) (h : Sketch) (hw : Wf h) (bad : List Nat) (hl : bad.length = 256) (hbad : ∀ v ∈ bad, 64 ≤ v) :
    ∃ h', mergeRegisters h bad = .val h' ∧ asInt (count wild h'.registers) = 0 := by
  obtain ⟨c, hc, -, hwc, hg⟩ := merge_pointwise h ⟨0, bad⟩ hw hl
  have big : ∀ v ∈ c.registers, 64 ≤ v := by
    intro v hv
    obtain ⟨j, hj, rfl⟩ := List.getElem_of_mem hv
    have hj' : j < 256 := by rw [← hwc]; exact hj
    have e := hg j hj'
    have jb : j < bad.length := by omega
    have hb := hbad _ (List.getElem_mem jb)
    simp only [List.getD_eq_getElem?_getD, List.getElem?_eq_getElem hj, List.getElem?_eq_getElem jb, Option.getD_some] at e
    omega
  refine ⟨c, hc, ?_⟩
  have hz : countZeros c.registers = 0 := zeros_of_pos (fun v hv => by have := big v hv; omega)
  have he : estimate c.registers = 0 := by
    unfold estimate
    have h0 : 0 < c.registers.length := by rw [hwc]; norm_num
    rw [sumInv_inf ⟨c.registers[0], List.getElem_mem h0, big _ (List.getElem_mem h0)⟩]
  have : count wild c.registers = 0 := by
    unfold count
    simp [hz, he, toU64]
  rw [this]
  rfl

theorem sumInv_const (k : Nat) (hk : k < 64) : ∀ n : Nat, sumInv (List.replicate n k) = some ((n : ℝ) / 2 ^ k)
  | 0 => by simp [sumInv]
  | n + 1 => by
    rw [List.replicate_succ]
    simp only [sumInv, sumInv_const k hk n]
    rw [if_pos hk]
    push_cast
    congr 1
    ring

/-- **C173 (negative counts).** A relay that answers with 256 times 56, alone, makes the count a negative 64-bit number: the one that agrees with the unsigned count modulo `2 ^ 64`. -/
theorem C173_negative (wild : ℝ → Nat) : ∃ h h', new 0 = .val h ∧ mergeRegisters h (List.replicate 256 56) = .val h' ∧ asInt (count wild h'.registers) < 0 ∧
    -2 ^ 63 ≤ asInt (count wild h'.registers) ∧ asInt (count wild h'.registers) % 2 ^ 64 = (count wild h'.registers : Int) % 2 ^ 64 := by
  refine ⟨⟨0, List.replicate 256 0⟩, ⟨0, List.replicate 256 56⟩, rfl, by decide +kernel, ?_⟩
  show asInt (count wild (List.replicate 256 56)) < 0 ∧ -2 ^ 63 ≤ asInt (count wild (List.replicate 256 56)) ∧
    asInt (count wild (List.replicate 256 56)) % 2 ^ 64 = (count wild (List.replicate 256 56) : Int) % 2 ^ 64
  have hz : countZeros (List.replicate 256 56) = 0 := by decide +kernel
  have he : estimate (List.replicate 256 56) = 0.7182725932495458 * 256 * 2 ^ 56 := by
    rw [est_some (sumInv_const 56 (by omega) 256)]
    norm_num
  rcases count_cases wild (List.replicate 256 56) with ⟨h, -, -⟩ | ⟨-, -, e⟩
  · exact absurd hz h
  · rw [e, he, toU64, if_pos (by norm_num)]
    have h1 : 2 ^ 63 ≤ ⌊(0.7182725932495458 * 256 * 2 ^ 56 : ℝ)⌋₊ := Nat.le_floor (by norm_num)
    have h2 : ⌊(0.7182725932495458 * 256 * 2 ^ 56 : ℝ)⌋₊ < 2 ^ 64 := (Nat.floor_lt (by norm_num)).2 (by norm_num)
    generalize ⌊(0.7182725932495458 * 256 * 2 ^ 56 : ℝ)⌋₊ = c at h1 h2 ⊢
    unfold asInt
    rw [if_neg (by omega)]
    omega

/-! ## Examples -/

example : spread 0 (spreadKeys 20) = 20 ∧ (∀ p ∈ spreadKeys 20, IsPubkey p) ∧ ∀ p ∈ spreadKeys 20, beValue ((keyAt 0 (bytesOf p)).drop 1) ≠ 0 := by
  refine ⟨by decide +kernel, ?_, by decide +kernel⟩
  intro p hp
  obtain ⟨i, -, rfl⟩ := List.mem_map.1 hp
  exact ⟨_, by simp, rfl⟩

example : List.Forall₂ (· ≤ ·) (List.replicate 256 0) (List.replicate 256 3) ∧ 109 ≤ countZeros (List.replicate 256 0) := by
  refine ⟨?_, by decide +kernel⟩
  generalize 256 = n
  induction n with
  | zero => exact .nil
  | succ n ih => exact .cons (by omega) ih

end

end GoNostr.HLL
