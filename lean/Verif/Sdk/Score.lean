import Verif.Sdk.Hints
import Mathlib.Analysis.SpecialFunctions.Pow.Real
import Mathlib.Data.List.Induction
/-!
# C172: what the ranking of an author's relays means (sdk/hints/keys.go, sdk/hints/memoryh/db.go `Sum`)

C73 proves that `TopN` ranks by score for any score; here is the score of the code, with real numbers for `float64` (rounding errors are not modelled) and the truncation of the code.
-/

set_option autoImplicit false

namespace GoNostr.Hints

noncomputable section

/-- `LastFetchAttempt`, `MostRecentEventFetched`, `LastInRelayList` and `LastInHint` (keys.go:9-14). -/
def attempt : Fin 4 := 0
/-- sdk/hints/keys.go:7-23 -/
def fetched : Fin 4 := 1
/-- sdk/hints/keys.go:7-23 -/
def inList : Fin 4 := 2
/-- sdk/hints/keys.go:7-23 -/
def inHint : Fin 4 := 3

/-- `KeyBasePoints` (keys.go:16-21). -/
def points : Fin 4 → Int := ![-500, 700, 350, 20]

/-- `max(now-ts, 1)`, where `now` is a day ahead of the clock (db.go:138, 145). -/
def age (now ts : Int) : Int := max (now + 24 * 60 * 60 - ts) 1

/-- The conversion of a float to `int64` (db.go:147): towards zero. -/
def trunc (x : ℝ) : Int := if 0 ≤ x then ⌊x⌋ else ⌈x⌉

/-- `value` (db.go:145), over the real numbers. -/
def value (p now ts : Int) : ℝ := (p : ℝ) * 10000000000 / (age now ts : ℝ) ^ (1.3 : ℝ)

/-- One round of the loop of `Sum` (db.go:140-148). -/
def part (p now ts : Int) : Int := if ts = 0 then 0 else trunc (value p now ts)

/-- `RelayEntry.Sum` (db.go:137-150). -/
def score (now : Int) (ts : Fin 4 → Int) : Int := part (points 0) now (ts 0) + part (points 1) now (ts 1) + part (points 2) now (ts 2) + part (points 3) now (ts 3)

/-! ## Specification -/

/-- Evidence of one kind only. -/
def only (k : Fin 4) (ts : Int) : Fin 4 → Int := setTs (fun _ => 0) k ts

/-- `b` speaks for a relay at least as well as `a`: everything that is good to know is as recent or more, and the last attempt is as old or older (zero: never). -/
structure Better (a b : Fin 4 → Int) : Prop where
  good : ∀ k, k ≠ attempt → 0 ≤ a k ∧ a k ≤ b k
  bad : 0 ≤ b attempt ∧ b attempt ≤ a attempt

/-- `u` is listed, and before `v` if `v` is listed at all. -/
def Before (urls : List Bytes) (u v : Bytes) : Prop := v ∈ urls → ∃ i j : Nat, i < j ∧ urls[i]? = some u ∧ urls[j]? = some v

/-! ## Proofs -/

theorem age_pos (now ts : Int) : (1 : ℝ) ≤ (age now ts : ℝ) := by
  have : 1 ≤ age now ts := le_max_right _ _
  exact_mod_cast this

theorem pow_pos (now ts : Int) : (0 : ℝ) < (age now ts : ℝ) ^ (1.3 : ℝ) := Real.rpow_pos_of_pos (lt_of_lt_of_le one_pos (age_pos now ts)) _

theorem one_le_pow (now ts : Int) : (1 : ℝ) ≤ (age now ts : ℝ) ^ (1.3 : ℝ) := Real.one_le_rpow (age_pos now ts) (by norm_num)

theorem trunc_mono {x y : ℝ} (h : x ≤ y) : trunc x ≤ trunc y := by
  unfold trunc
  split
  · rename_i hx
    rw [if_pos (hx.trans h)]
    exact Int.floor_mono h
  · rename_i hx
    split
    · rename_i hy
      have h1 : ⌈x⌉ ≤ 0 := Int.ceil_le.2 (by push_cast; linarith)
      have h2 : 0 ≤ ⌊y⌋ := Int.floor_nonneg.2 hy
      omega
    · exact Int.ceil_mono h

theorem trunc_neg (x : ℝ) : trunc (-x) = - trunc x := by
  unfold trunc
  rcases lt_trichotomy x 0 with h | h | h
  · rw [if_pos (by linarith), if_neg (by linarith), Int.floor_neg]
  · subst h; simp
  · rw [if_neg (by linarith), if_pos (by linarith), Int.ceil_neg]

theorem trunc_zero : trunc 0 = 0 := by simp [trunc]

theorem trunc_lt {x y : ℝ} (h0 : 0 ≤ x) (h : x + 1 ≤ y) : trunc x < trunc y := by
  unfold trunc
  rw [if_pos h0, if_pos (by linarith)]
  have : ⌊x⌋ + 1 ≤ ⌊y⌋ := by rw [← Int.floor_add_one]; exact Int.floor_mono h
  omega

theorem trunc_add {x y : ℝ} (hx : 0 ≤ x) (hy : 0 ≤ y) : trunc x + trunc y ≤ trunc (x + y) := by
  unfold trunc
  rw [if_pos hx, if_pos hy, if_pos (by linarith)]
  exact Int.le_floor_add x y

theorem value_neg (p now ts : Int) : value (-p) now ts = - value p now ts := by
  unfold value
  push_cast
  ring

theorem value_nonneg {p : Int} (hp : 0 ≤ p) (now ts : Int) : 0 ≤ value p now ts := by
  have : (0 : ℝ) ≤ (p : ℝ) := by exact_mod_cast hp
  unfold value
  have := pow_pos now ts
  positivity

/-- The value of evidence with the age in view. -/
theorem value_le {p q now ts now' ts' : Int} (h : (p : ℝ) * (age now' ts' : ℝ) ^ (1.3 : ℝ) ≤ q * (age now ts : ℝ) ^ (1.3 : ℝ)) : value p now ts ≤ value q now' ts' := by
  unfold value
  rw [div_le_div_iff₀ (pow_pos _ _) (pow_pos _ _)]
  linarith

theorem age_anti {now ts ts' : Int} (h : ts ≤ ts') : age now ts' ≤ age now ts := by unfold age; omega

theorem pow_mono {now ts now' ts' : Int} (h : age now ts ≤ age now' ts') : (age now ts : ℝ) ^ (1.3 : ℝ) ≤ (age now' ts' : ℝ) ^ (1.3 : ℝ) :=
  Real.rpow_le_rpow (zero_le_one.trans (age_pos _ _)) (by exact_mod_cast h) (by norm_num)

theorem value_mono {p : Int} (hp : 0 ≤ p) {now ts ts' : Int} (h : ts ≤ ts') : value p now ts ≤ value p now ts' := by
  have : (0 : ℝ) ≤ (p : ℝ) := by exact_mod_cast hp
  exact value_le (mul_le_mul_of_nonneg_left (pow_mono (age_anti h)) this)

theorem part_neg (p now ts : Int) : part (-p) now ts = - part p now ts := by
  unfold part
  split
  · rfl
  · rw [value_neg, trunc_neg]

theorem part_nonneg {p : Int} (hp : 0 ≤ p) (now ts : Int) : 0 ≤ part p now ts := by
  unfold part
  split
  · exact le_refl _
  · have := trunc_mono (value_nonneg hp now ts)
    rwa [trunc_zero] at this

theorem part_mono {p : Int} (hp : 0 ≤ p) {now ts ts' : Int} (h0 : 0 ≤ ts) (h : ts ≤ ts') : part p now ts ≤ part p now ts' := by
  rcases Int.lt_or_eq_of_le h0 with h0 | h0
  · unfold part
    rw [if_neg (by omega), if_neg (by omega)]
    exact trunc_mono (value_mono hp h)
  · subst h0
    have : part p now 0 = 0 := by unfold part; rw [if_pos rfl]
    rw [this]
    exact part_nonneg hp _ _

theorem value_bound {p : Int} (hp : 0 ≤ p) (now ts : Int) : value p now ts ≤ (p : ℝ) * 10000000000 := by
  have h : (0 : ℝ) ≤ (p : ℝ) := by exact_mod_cast hp
  unfold value
  exact div_le_self (by positivity) (one_le_pow _ _)

theorem part_bound {p : Int} (hp : 0 ≤ p) (now ts : Int) : part p now ts ≤ p * 10000000000 := by
  unfold part
  split
  · omega
  · have h := trunc_mono (value_bound hp now ts)
    have h2 : trunc ((p : ℝ) * 10000000000) = p * 10000000000 := by
      unfold trunc
      have : ((p : ℝ) * 10000000000) = ((p * 10000000000 : Int) : ℝ) := by push_cast; ring
      rw [this, Int.floor_intCast, Int.ceil_intCast, ite_self]
    omega

theorem score_eq (now : Int) (ts : Fin 4 → Int) : score now ts = - part 500 now (ts attempt) + part 700 now (ts fetched) + part 350 now (ts inList) + part 20 now (ts inHint) := by
  rw [← part_neg]
  rfl

theorem part_zero (p now : Int) : part p now 0 = 0 := by unfold part; rw [if_pos rfl]

theorem only_same (k : Fin 4) (ts : Int) : only k ts k = ts := by simp [only, setTs]
theorem only_other {k i : Fin 4} (h : i ≠ k) (ts : Int) : only k ts i = 0 := by simp [only, setTs, h]

theorem score_list (now ts : Int) : score now (only inList ts) = part 350 now ts := by
  rw [score_eq, only_same, only_other (by decide), only_other (by decide), only_other (by decide)]
  simp [part_zero]

theorem score_hint (now ts : Int) : score now (only inHint ts) = part 20 now ts := by
  rw [score_eq, only_same, only_other (by decide), only_other (by decide), only_other (by decide)]
  simp [part_zero]

/-- `c ^ 1.3` compared with `d`, by tenth powers. -/
theorem rpow_le_of {c d : ℝ} (hc : 0 ≤ c) (hd : 0 ≤ d) (h : c ^ 13 ≤ d ^ 10) : c ^ (1.3 : ℝ) ≤ d := by
  have h1 : (c ^ (1.3 : ℝ)) ^ (10 : ℕ) = c ^ (13 : ℕ) := by
    rw [← Real.rpow_natCast, ← Real.rpow_mul hc, ← Real.rpow_natCast]
    norm_num
  exact (pow_le_pow_iff_left₀ (Real.rpow_nonneg hc _) hd (n := 10) (by norm_num)).1 (by rw [h1]; exact h)

theorem le_rpow_of {c d : ℝ} (hc : 0 ≤ c) (hd : 0 ≤ d) (h : d ^ 10 ≤ c ^ 13) : d ≤ c ^ (1.3 : ℝ) := by
  have h1 : (c ^ (1.3 : ℝ)) ^ (10 : ℕ) = c ^ (13 : ℕ) := by
    rw [← Real.rpow_natCast, ← Real.rpow_mul hc, ← Real.rpow_natCast]
    norm_num
  exact (pow_le_pow_iff_left₀ hd (Real.rpow_nonneg hc _) (n := 10) (by norm_num)).1 (by rw [h1]; exact h)

/-- If one age is at most `c` times the other, so are the powers, with `d` for `c ^ 1.3`. -/
theorem pow_le_mul {now ts now' ts' : Int} {c d : ℝ} (hc : 0 ≤ c) (hd : 0 ≤ d) (h : c ^ 13 ≤ d ^ 10) (ha : (age now ts : ℝ) ≤ c * age now' ts') :
    (age now ts : ℝ) ^ (1.3 : ℝ) ≤ d * (age now' ts' : ℝ) ^ (1.3 : ℝ) := by
  have h0 : (0 : ℝ) ≤ age now' ts' := zero_le_one.trans (age_pos _ _)
  calc (age now ts : ℝ) ^ (1.3 : ℝ) ≤ (c * age now' ts') ^ (1.3 : ℝ) := Real.rpow_le_rpow (zero_le_one.trans (age_pos _ _)) ha (by norm_num)
    _ = c ^ (1.3 : ℝ) * (age now' ts' : ℝ) ^ (1.3 : ℝ) := Real.mul_rpow hc h0
    _ ≤ d * (age now' ts' : ℝ) ^ (1.3 : ℝ) := mul_le_mul_of_nonneg_right (rpow_le_of hc hd h) (pow_pos _ _).le

theorem mul_le_pow {now ts now' ts' : Int} {c d : ℝ} (hc : 0 ≤ c) (hd : 0 ≤ d) (h : d ^ 10 ≤ c ^ 13) (ha : c * age now' ts' ≤ (age now ts : ℝ)) :
    d * (age now' ts' : ℝ) ^ (1.3 : ℝ) ≤ (age now ts : ℝ) ^ (1.3 : ℝ) := by
  have h0 : (0 : ℝ) ≤ age now' ts' := zero_le_one.trans (age_pos _ _)
  calc d * (age now' ts' : ℝ) ^ (1.3 : ℝ) ≤ c ^ (1.3 : ℝ) * (age now' ts' : ℝ) ^ (1.3 : ℝ) := mul_le_mul_of_nonneg_right (le_rpow_of hc hd h) (pow_pos _ _).le
    _ = (c * age now' ts') ^ (1.3 : ℝ) := (Real.mul_rpow hc h0).symm
    _ ≤ (age now ts : ℝ) ^ (1.3 : ℝ) := Real.rpow_le_rpow (by positivity) ha (by norm_num)

/-- The power of an age of one day. -/
theorem day_pow {now ts : Int} (h : age now ts = 86400) : (age now ts : ℝ) ^ (1.3 : ℝ) ≤ 3000000 := by
  rw [h]
  exact rpow_le_of (by norm_num) (by norm_num) (by norm_num)

/-! ## The theorems -/

/-- **C172 (better evidence, better rank).** -/
theorem C172_better (now : Int) (a b : Fin 4 → Int) (h : Better a b) : score now a ≤ score now b := by
  rw [score_eq, score_eq]
  have h0 := part_mono (p := 500) (by omega) (now := now) h.bad.1 h.bad.2
  have h1 := part_mono (p := 700) (by omega) (now := now) (h.good fetched (by decide)).1 (h.good fetched (by decide)).2
  have h2 := part_mono (p := 350) (by omega) (now := now) (h.good inList (by decide)).1 (h.good inList (by decide)).2
  have h3 := part_mono (p := 20) (by omega) (now := now) (h.good inHint (by decide)).1 (h.good inHint (by decide)).2
  omega

/-- **C172 (no overflow).** The score, and so the difference of two scores the sort works with, is far inside an `int64`. -/
theorem C172_fits (now : Int) (ts : Fin 4 → Int) : -5000000000000 ≤ score now ts ∧ score now ts ≤ 10700000000000 := by
  rw [score_eq]
  have a0 := part_nonneg (p := 500) (by omega) now (ts attempt)
  have a1 := part_nonneg (p := 700) (by omega) now (ts fetched)
  have a2 := part_nonneg (p := 350) (by omega) now (ts inList)
  have a3 := part_nonneg (p := 20) (by omega) now (ts inHint)
  have b0 := part_bound (p := 500) (by omega) now (ts attempt)
  have b1 := part_bound (p := 700) (by omega) now (ts fetched)
  have b2 := part_bound (p := 350) (by omega) now (ts inList)
  have b3 := part_bound (p := 20) (by omega) now (ts inHint)
  omega

/-- **C172 (success cancels).** An event at least as recent as the last attempt makes up for the attempt: the relay ranks as well as if it had never been tried. -/
theorem C172_success_cancels (now : Int) (ts : Fin 4 → Int) (h0 : 0 ≤ ts attempt) (h : ts attempt ≤ ts fetched) : score now (setTs (setTs ts attempt 0) fetched 0) ≤ score now ts := by
  rw [score_eq, score_eq]
  have e0 : setTs (setTs ts attempt 0) fetched 0 attempt = 0 := by simp [setTs, attempt, fetched]
  have e1 : setTs (setTs ts attempt 0) fetched 0 fetched = 0 := by simp [setTs]
  have e2 : setTs (setTs ts attempt 0) fetched 0 inList = ts inList := by simp [setTs, attempt, fetched, inList]
  have e3 : setTs (setTs ts attempt 0) fetched 0 inHint = ts inHint := by simp [setTs, attempt, fetched, inHint]
  rw [e0, e1, e2, e3, part_zero, part_zero]
  have h1 := part_mono (p := 500) (by omega) (now := now) h0 h
  have h2 : part 500 now (ts fetched) ≤ part 700 now (ts fetched) := by
    unfold part
    split
    · exact le_refl _
    · refine trunc_mono (value_le ?_)
      have := pow_pos now (ts fetched)
      push_cast
      linarith
  omega

/-- **C172 (failures).** A relay that was only ever tried never ranks above one that is only known from a list, a hint or an event. -/
theorem C172_only_tried (now t : Int) (ts : Fin 4 → Int) (h : ts attempt = 0) : score now (only attempt t) ≤ 0 ∧ 0 ≤ score now ts := by
  rw [score_eq, score_eq, only_same, only_other (by decide), only_other (by decide), only_other (by decide), h]
  simp only [part_zero]
  have a0 := part_nonneg (p := 500) (by omega) now t
  have a1 := part_nonneg (p := 700) (by omega) now (ts fetched)
  have a2 := part_nonneg (p := 350) (by omega) now (ts inList)
  have a3 := part_nonneg (p := 20) (by omega) now (ts inHint)
  omega

/-- **C172 (lists before hints).** A relay in the author's list ranks no lower than one that is only hinted at, if the list is at most eight days old, or more generally if its age (plus one day)
is at most nine times that of the hint. -/
theorem C172_list_before_hint_partial (now tl th : Int) (hl : 0 < tl) (h : age now tl ≤ 9 * age now th) : score now (only inHint th) ≤ score now (only inList tl) := by
  rw [score_list, score_hint]
  by_cases hz : th = 0
  · rw [hz, part_zero]; exact part_nonneg (by omega) _ _
  · unfold part
    rw [if_neg hz, if_neg (by omega)]
    refine trunc_mono (value_le ?_)
    have := pow_le_mul (now := now) (ts := tl) (now' := now) (ts' := th) (c := 9) (d := 17.5) (by norm_num) (by norm_num) (by norm_num) (by exact_mod_cast h)
    push_cast
    linarith

theorem eight_days (now tl th : Int) (h : now - 8 * 86400 ≤ tl) (ht : th ≤ now) : age now tl ≤ 9 * age now th := by unfold age; omega

/-- **C172 (refuted: lists before hints).** A relay that a hint mentions now ranks strictly above the relay of a list that is nine days old or more. -/
theorem C172_old_list_loses (now tl : Int) (hl : 0 < tl) (h : tl ≤ now - 9 * 86400) : score now (only inList tl) < score now (only inHint now) := by
  rw [score_list, score_hint]
  unfold part
  rw [if_neg (by omega), if_neg (by omega)]
  have ha : age now now = 86400 := by unfold age; omega
  have hb : 10 * age now now ≤ age now tl := by rw [ha]; unfold age; omega
  have h1 := mul_le_pow (now := now) (ts := tl) (now' := now) (ts' := now) (c := 10) (d := 19.5) (by norm_num) (by norm_num) (by norm_num) (by exact_mod_cast hb)
  have h2 := day_pow ha
  have h3 := pow_pos now now
  have h4 := pow_pos now tl
  refine trunc_lt (value_nonneg (by omega) _ _) ?_
  have e1 : value 350 now tl ≤ 350 * 10000000000 / (19.5 * (age now now : ℝ) ^ (1.3 : ℝ)) := by
    unfold value
    push_cast
    exact div_le_div_of_nonneg_left (by norm_num) (by positivity) h1
  have e2 : value 20 now now = 20 * 10000000000 / (age now now : ℝ) ^ (1.3 : ℝ) := by unfold value; push_cast; ring
  have e3 : (350 : ℝ) * 10000000000 / (19.5 * (age now now : ℝ) ^ (1.3 : ℝ)) = (350 / 19.5 * 10000000000) / (age now now : ℝ) ^ (1.3 : ℝ) := by
    field_simp
  rw [e2]
  refine (add_le_add_left e1 1).trans ?_
  rw [e3, div_add_one h3.ne', div_le_div_iff_of_pos_right h3]
  norm_num
  linarith

/-- **C172 (refuted: success cancels).** The time that counts for a success is that of the event, not that of the fetch. So a relay that was just tried, for an author whose list, mentions and
newest event are a day old or more, is below zero, though it answered with all there is: below every relay that was never tried. -/
theorem C172_quiet_authors_sink (now : Int) (ts : Fin 4 → Int) (hn : 0 < now) (ha : ts attempt = now) (h : ∀ k, k ≠ attempt → ts k ≤ now - 86400) : score now ts < 0 := by
  rw [score_eq, ha]
  have hd : age now now = 86400 := by unfold age; omega
  have h2 := day_pow hd
  have h3 := pow_pos now now
  have key : ∀ p t : Int, 0 ≤ p → t ≤ now - 86400 → part p now t ≤ trunc ((p : ℝ) * 10000000000 / (2.4 * (age now now : ℝ) ^ (1.3 : ℝ))) := by
    intro p t hp ht
    have hp' : (0 : ℝ) ≤ (p : ℝ) := by exact_mod_cast hp
    unfold part
    split
    · have := trunc_mono (x := 0) (y := (p : ℝ) * 10000000000 / (2.4 * (age now now : ℝ) ^ (1.3 : ℝ))) (by positivity)
      rwa [trunc_zero] at this
    · refine trunc_mono ?_
      have hb : 2 * age now now ≤ age now t := by rw [hd]; unfold age; omega
      have h1 := mul_le_pow (now := now) (ts := t) (now' := now) (ts' := now) (c := 2) (d := 2.4) (by norm_num) (by norm_num) (by norm_num) (by exact_mod_cast hb)
      unfold value
      exact div_le_div_of_nonneg_left (by positivity) (by positivity) h1
  have k1 := key 700 _ (by omega) (h fetched (by decide))
  have k2 := key 350 _ (by omega) (h inList (by decide))
  have k3 := key 20 _ (by omega) (h inHint (by decide))
  have s1 := trunc_add (x := (700 : Int) * 10000000000 / (2.4 * (age now now : ℝ) ^ (1.3 : ℝ))) (y := (350 : Int) * 10000000000 / (2.4 * (age now now : ℝ) ^ (1.3 : ℝ))) (by positivity) (by positivity)
  have s2 := trunc_add (x := (700 : Int) * 10000000000 / (2.4 * (age now now : ℝ) ^ (1.3 : ℝ)) + (350 : Int) * 10000000000 / (2.4 * (age now now : ℝ) ^ (1.3 : ℝ)))
    (y := (20 : Int) * 10000000000 / (2.4 * (age now now : ℝ) ^ (1.3 : ℝ))) (by positivity) (by positivity)
  have s3 : trunc ((700 : Int) * 10000000000 / (2.4 * (age now now : ℝ) ^ (1.3 : ℝ)) + (350 : Int) * 10000000000 / (2.4 * (age now now : ℝ) ^ (1.3 : ℝ)) +
      (20 : Int) * 10000000000 / (2.4 * (age now now : ℝ) ^ (1.3 : ℝ))) < part 500 now now := by
    unfold part
    rw [if_neg (by omega)]
    refine trunc_lt (by positivity) ?_
    have e : ((700 : Int) : ℝ) * 10000000000 / (2.4 * (age now now : ℝ) ^ (1.3 : ℝ)) + (350 : Int) * 10000000000 / (2.4 * (age now now : ℝ) ^ (1.3 : ℝ)) +
      (20 : Int) * 10000000000 / (2.4 * (age now now : ℝ) ^ (1.3 : ℝ)) = (1070 / 2.4 * 10000000000) / (age now now : ℝ) ^ (1.3 : ℝ) := by
      push_cast
      field_simp
      norm_num
    rw [e]
    unfold value
    rw [div_add_one h3.ne', div_le_div_iff_of_pos_right h3]
    push_cast
    norm_num
    linarith
  omega

/-- **C172 (what is fetched from).** `TopN`, whatever the sort does with equal scores: a relay with a strictly better score comes first; with `n = 1` the other is not returned. -/
theorem C172_topn {h : List Saved} {db : DB} (hr : Reach h db) (now : Int) (pk : Bytes) {sorted : List Entry} (hs : IsSortOf (score now) (db.byPk pk) sorted) {n : Nat} (hn : 0 < n)
    (u v : Bytes) (tu tv : Fin 4 → Int) (hu : Stores db pk u tu) (hv : Stores db pk v tv) (hlt : score now tv < score now tu) :
    ∃ urls, topN db.relays sorted n = .val urls ∧ Before urls u v ∧ (n = 1 → v ∉ urls) := by
  obtain ⟨urls, h1, h2, h3, h4, h5, h6, h7⟩ := C73_topn_partial hr (score now) pk hs hn
  have hku : Known h pk u := (C73_newest_kept hr pk u).1.1 ⟨tu, hu⟩
  have hbefore : Before urls u v := by
    intro hmem
    have hum : u ∈ urls := by
      by_contra hc
      have := h7 v hmem u hku hc tu tv hu hv
      omega
    obtain ⟨i, hi⟩ := List.mem_iff_getElem?.1 hum
    obtain ⟨j, hj⟩ := List.mem_iff_getElem?.1 hmem
    refine ⟨i, j, ?_, hi, hj⟩
    rcases Nat.lt_trichotomy i j with hij | hij | hij
    · exact hij
    · subst hij
      obtain rfl : u = v := Option.some.inj (hi.symm.trans hj)
      rw [(C73_newest_kept hr pk u).2.1 tu tv hu hv] at hlt
      omega
    · obtain ⟨hi', ei⟩ := List.getElem?_eq_some_iff.1 hi
      obtain ⟨hj', ej⟩ := List.getElem?_eq_some_iff.1 hj
      have := (List.pairwise_iff_getElem.1 h6) j i hj' hi' hij
      rw [ei, ej] at this
      have := this tu tv hu hv
      omega
  refine ⟨urls, h1, hbefore, ?_⟩
  intro h0 hmem
  obtain ⟨i, j, hij, hi, hj⟩ := hbefore hmem
  obtain ⟨hj', -⟩ := List.getElem?_eq_some_iff.1 hj
  omega

/-- **C172 (a working relay is avoided).** After any history in which an author's relay `v` was tried just now while all that was ever saved about it (its events, the list, hints) is a day old
or more, and `u` was never tried but was saved once: `TopN` puts `u` before `v`, and `TopN(pubkey, 1)` is not `v`. -/
theorem C172_working_relay_avoided {h : List Saved} {db : DB} (hr : Reach h db) (now : Int) (hn : 0 < now) (pk u v : Bytes) (ku : Known h pk u)
    (hu : ∀ sv ∈ h, sv.pk = pk → sv.relay = u → sv.key ≠ attempt)
    (tried : ∃ sv ∈ h, sv.pk = pk ∧ sv.relay = v ∧ sv.key = attempt ∧ sv.ts = now ∧ sv.now = now) (hclock : ∀ sv ∈ h, sv.now ≤ now)
    (hold : ∀ sv ∈ h, sv.pk = pk → sv.relay = v → sv.key ≠ attempt → sv.ts ≤ now - 86400) (hday : 86400 ≤ now)
    {sorted : List Entry} (hs : IsSortOf (score now) (db.byPk pk) sorted) {n : Nat} (hn' : 0 < n) :
    ∃ urls, topN db.relays sorted n = .val urls ∧ Before urls u v ∧ (n = 1 → v ∉ urls) := by
  obtain ⟨sv, hm, rfl, rfl, e3, e4, e5⟩ := tried
  obtain ⟨tu, su⟩ := (C73_newest_kept hr sv.pk u).1.2 ku
  obtain ⟨tv, sv'⟩ := (C73_newest_kept hr sv.pk sv.relay).1.2 ⟨sv, hm, rfl, rfl⟩
  have nu := (C73_newest_kept hr sv.pk u).2.2 tu su
  have nv := (C73_newest_kept hr sv.pk sv.relay).2.2 tv sv'
  have au : tu attempt = 0 := by
    rcases (nu attempt).2 with h0 | ⟨x, hx, x1, x2, x3, -⟩
    · exact h0
    · exact absurd x3 (hu x hx x1 x2)
  have av : tv attempt = now := by
    have h1 := (nv attempt).1 sv hm rfl rfl e3
    rw [e4, e5, min_self] at h1
    rcases (nv attempt).2 with h0 | ⟨x, hx, x1, x2, x3, x4⟩
    · omega
    · have := hclock x hx; omega
  have others : ∀ k, k ≠ attempt → tv k ≤ now - 86400 := by
    intro k hk
    rcases (nv k).2 with h0 | ⟨x, hx, x1, x2, x3, x4⟩
    · omega
    · have := hold x hx x1 x2 (by rw [x3]; exact hk); omega
  refine C172_topn hr now sv.pk hs hn' u sv.relay tu tv su sv' ?_
  have h1 := C172_quiet_authors_sink now tv hn av others
  have h2 := (C172_only_tried now 0 tu au).2
  omega

/-! ## Examples -/

example : Better (only inHint 5) (setTs (only inHint 7) inList 3) := ⟨by decide, by decide⟩

/-- Every history leads somewhere. -/
theorem reach_all (h : List Saved) : ∃ db, Reach h db := by
  induction h using List.reverseRecOn with
  | nil => exact ⟨_, .new⟩
  | append_singleton h sv ih =>
    obtain ⟨db, hr⟩ := ih
    have : ∃ db', save db sv.pk sv.relay (sv.key.val : Int) sv.ts sv.now = .val db' := by
      unfold save
      rw [keyIndex_fin]
      exact ⟨_, rfl⟩
    obtain ⟨db', e⟩ := this
    exact ⟨db', .save sv hr e⟩

/-- A history as in `C172_working_relay_avoided`: the relay of the list, which delivered an event of two days ago when it was tried now, and a hint of a year ago. -/
example : ∃ h db, Reach h db ∧ Known h [1] (b! "B") ∧ (∀ sv ∈ h, sv.pk = [1] → sv.relay = b! "B" → sv.key ≠ attempt) ∧
    (∃ sv ∈ h, sv.pk = [1] ∧ sv.relay = b! "A" ∧ sv.key = attempt ∧ sv.ts = 1700000000 ∧ sv.now = 1700000000) ∧ (∀ sv ∈ h, sv.now ≤ 1700000000) ∧
    (∀ sv ∈ h, sv.pk = [1] → sv.relay = b! "A" → sv.key ≠ attempt → sv.ts ≤ 1700000000 - 86400) := by
  let h : List Saved := [⟨[1], b! "A", inList, 1690000000, 1700000000⟩, ⟨[1], b! "B", inHint, 1668000000, 1700000000⟩, ⟨[1], b! "A", attempt, 1700000000, 1700000000⟩,
    ⟨[1], b! "A", fetched, 1699800000, 1700000000⟩]
  obtain ⟨db, hr⟩ := reach_all h
  refine ⟨h, db, hr, ?_, ?_, ?_, ?_, ?_⟩
  · exact ⟨_, .tail _ (.head _), rfl, rfl⟩
  all_goals decide

end

end GoNostr.Hints
