import Mathlib.NumberTheory.LucasPrimality
import Mathlib.Tactic.NormNum.Prime
/-!
# The two primes of secp256k1

Certificates (after Pratt) for the order of the field and the order of the group: the kernel multiplies, Lucas' criterion (Mathlib) concludes.
-/

set_option autoImplicit false

namespace GoNostr.Curve

/-- `a ^ e mod m` by repeated squaring: `fuel` bounds the number of binary digits of `e`. -/
def powAux (m : Nat) : Nat → Nat → Nat → Nat → Nat
  | 0, _, _, acc => acc
  | f + 1, b, e, acc => if e = 0 then acc else powAux m f (b * b % m) (e / 2) (if e % 2 = 1 then acc * b % m else acc)

/-- `a ^ e mod m`, as the kernel computes it; models no code. -/
def powMod (a e m : Nat) : Nat := powAux m 300 (a % m) e (1 % m)

theorem powAux_eq (m : Nat) : ∀ (f b e acc : Nat), e < 2 ^ f → powAux m f b e acc % m = acc * b ^ e % m
  | 0, b, e, acc, h => by
    obtain rfl : e = 0 := by simpa using h
    simp [powAux]
  | f + 1, b, e, acc, h => by
    rw [powAux]
    by_cases he : e = 0
    · simp [he]
    · rw [if_neg he, powAux_eq m f _ _ _ (by rw [pow_succ] at h; omega)]
      have h2 : e = 2 * (e / 2) + e % 2 := (Nat.div_add_mod e 2).symm
      have hb : b ^ e = (b * b) ^ (e / 2) * b ^ (e % 2) := by
        conv_lhs => rw [h2]
        rw [pow_add, pow_mul, pow_two]
      rw [hb]
      by_cases ho : e % 2 = 1
      · rw [if_pos ho, ho, pow_one, Nat.mul_mod, ← Nat.pow_mod, Nat.mod_mod, ← Nat.mul_mod]
        congr 1
        ring
      · rw [if_neg ho, show e % 2 = 0 by omega, pow_zero, mul_one, Nat.mul_mod, ← Nat.pow_mod, ← Nat.mul_mod]

theorem powMod_eq (a e m : Nat) (h : e < 2 ^ 300) : powMod a e m % m = a ^ e % m := by
  unfold powMod
  rw [powAux_eq m _ _ _ _ h, Nat.mul_mod, ← Nat.pow_mod, Nat.mod_mod, ← Nat.mul_mod, one_mul]

/-- What the kernel checks about `p`, a generator `a` and the prime factors of `p - 1`. -/
def certified (p a : Nat) (fs : List Nat) : Bool :=
  decide (2 ≤ p) && decide (p < 2 ^ 300) && decide (fs.prod = p - 1) && decide (powMod a (p - 1) p % p = 1) && fs.all (fun q => decide (powMod a ((p - 1) / q) p % p ≠ 1))

theorem prime_of_certified {p a : Nat} {fs : List Nat} (h : certified p a fs = true) (hf : ∀ q ∈ fs, q.Prime) : p.Prime := by
  simp only [certified, Bool.and_eq_true, decide_eq_true_eq, List.all_eq_true] at h
  obtain ⟨⟨⟨⟨h2, h300⟩, hprod⟩, h1⟩, hq⟩ := h
  have key : ∀ e : Nat, ((a : ZMod p) ^ e = 1 ↔ a ^ e % p = 1) := by
    intro e
    rw [← Nat.cast_pow, ← Nat.cast_one, ZMod.natCast_eq_natCast_iff']
    rw [Nat.mod_eq_of_lt (by omega : 1 < p)]
  refine lucas_primality p a ?_ ?_
  · rw [key, ← powMod_eq _ _ _ (by omega)]
    exact h1
  · intro q hqp hqd
    rw [← hprod] at hqd
    obtain ⟨r, hr, hqr⟩ := (Prime.dvd_prod_iff hqp.prime).1 hqd
    have : q = r := (Nat.prime_dvd_prime_iff_eq hqp (hf r hr)).1 hqr
    subst this
    rw [Ne, key, ← powMod_eq _ _ _ (lt_of_le_of_lt (Nat.div_le_self _ _) (by omega))]
    exact hq q hr

theorem prime_107361793816595537 : Nat.Prime 107361793816595537 := by
  refine prime_of_certified (a := 3) (fs := [2, 2, 2, 2, 16699, 85831, 4681609]) (by decide +kernel) ?_
  simp only [List.mem_cons, List.not_mem_nil, or_false, forall_eq_or_imp, forall_eq]
  exact ⟨(by norm_num), (by norm_num), (by norm_num), (by norm_num), (by norm_num), (by norm_num), (by norm_num)⟩

theorem prime_44706919 : Nat.Prime 44706919 := by
  refine prime_of_certified (a := 6) (fs := [2, 3, 797, 9349]) (by decide +kernel) ?_
  simp only [List.mem_cons, List.not_mem_nil, or_false, forall_eq_or_imp, forall_eq]
  exact ⟨(by norm_num), (by norm_num), (by norm_num), (by norm_num)⟩

theorem prime_174723607534414371449 : Nat.Prime 174723607534414371449 := by
  refine prime_of_certified (a := 3) (fs := [2, 2, 2, 17, 59, 4051, 120233, 44706919]) (by decide +kernel) ?_
  simp only [List.mem_cons, List.not_mem_nil, or_false, forall_eq_or_imp, forall_eq]
  exact ⟨(by norm_num), (by norm_num), (by norm_num), (by norm_num), (by norm_num), (by norm_num), (by norm_num), prime_44706919⟩

theorem prime_545358713 : Nat.Prime 545358713 := by
  refine prime_of_certified (a := 5) (fs := [2, 2, 2, 41, 59, 28181]) (by decide +kernel) ?_
  simp only [List.mem_cons, List.not_mem_nil, or_false, forall_eq_or_imp, forall_eq]
  exact ⟨(by norm_num), (by norm_num), (by norm_num), (by norm_num), (by norm_num), (by norm_num)⟩

theorem prime_297159362677 : Nat.Prime 297159362677 := by
  refine prime_of_certified (a := 2) (fs := [2, 2, 3, 3, 11, 461, 1627771]) (by decide +kernel) ?_
  simp only [List.mem_cons, List.not_mem_nil, or_false, forall_eq_or_imp, forall_eq]
  exact ⟨(by norm_num), (by norm_num), (by norm_num), (by norm_num), (by norm_num), (by norm_num), (by norm_num)⟩

theorem prime_29047611873442575647497758179 : Nat.Prime 29047611873442575647497758179 := by
  refine prime_of_certified (a := 2) (fs := [2, 293, 305873, 545358713, 297159362677]) (by decide +kernel) ?_
  simp only [List.mem_cons, List.not_mem_nil, or_false, forall_eq_or_imp, forall_eq]
  exact ⟨(by norm_num), (by norm_num), (by norm_num), prime_545358713, prime_297159362677⟩

theorem prime_341948486974166000522343609283189 : Nat.Prime 341948486974166000522343609283189 := by
  refine prime_of_certified (a := 2) (fs := [2, 2, 3, 3, 3, 109, 29047611873442575647497758179]) (by decide +kernel) ?_
  simp only [List.mem_cons, List.not_mem_nil, or_false, forall_eq_or_imp, forall_eq]
  exact ⟨(by norm_num), (by norm_num), (by norm_num), (by norm_num), (by norm_num), (by norm_num), prime_29047611873442575647497758179⟩

/-- The number of points of the curve; nip44.go:159 has it in hexadecimal. -/
def groupN : Nat := 0xFFFFFFFFFFFFFFFFFFFFFFFFFFFFFFFEBAAEDCE6AF48A03BBFD25E8CD0364141

theorem prime_order : Nat.Prime groupN := by
  refine prime_of_certified (a := 7) (fs := [2, 2, 2, 2, 2, 2, 3, 149, 631, 107361793816595537, 174723607534414371449, 341948486974166000522343609283189]) (by decide +kernel) ?_
  simp only [List.mem_cons, List.not_mem_nil, or_false, forall_eq_or_imp, forall_eq]
  exact ⟨(by norm_num), (by norm_num), (by norm_num), (by norm_num), (by norm_num), (by norm_num), (by norm_num), (by norm_num), (by norm_num), prime_107361793816595537, prime_174723607534414371449, prime_341948486974166000522343609283189⟩

theorem prime_173378833005251801 : Nat.Prime 173378833005251801 := by
  refine prime_of_certified (a := 6) (fs := [2, 2, 2, 5, 5, 2621, 24809, 13331831]) (by decide +kernel) ?_
  simp only [List.mem_cons, List.not_mem_nil, or_false, forall_eq_or_imp, forall_eq]
  exact ⟨(by norm_num), (by norm_num), (by norm_num), (by norm_num), (by norm_num), (by norm_num), (by norm_num), (by norm_num)⟩

theorem prime_22149492674086928081353 : Nat.Prime 22149492674086928081353 := by
  refine prime_of_certified (a := 5) (fs := [2, 2, 2, 3, 5323, 173378833005251801]) (by decide +kernel) ?_
  simp only [List.mem_cons, List.not_mem_nil, or_false, forall_eq_or_imp, forall_eq]
  exact ⟨(by norm_num), (by norm_num), (by norm_num), (by norm_num), (by norm_num), prime_173378833005251801⟩

theorem prime_132896956044521568488119 : Nat.Prime 132896956044521568488119 := by
  refine prime_of_certified (a := 6) (fs := [2, 3, 22149492674086928081353]) (by decide +kernel) ?_
  simp only [List.mem_cons, List.not_mem_nil, or_false, forall_eq_or_imp, forall_eq]
  exact ⟨(by norm_num), (by norm_num), prime_22149492674086928081353⟩

theorem prime_107590001 : Nat.Prime 107590001 := by
  refine prime_of_certified (a := 3) (fs := [2, 2, 2, 2, 5, 5, 5, 5, 7, 29, 53]) (by decide +kernel) ?_
  simp only [List.mem_cons, List.not_mem_nil, or_false, forall_eq_or_imp, forall_eq]
  exact ⟨(by norm_num), (by norm_num), (by norm_num), (by norm_num), (by norm_num), (by norm_num), (by norm_num), (by norm_num), (by norm_num), (by norm_num), (by norm_num)⟩

theorem prime_255515944373312847190720520512484175977 : Nat.Prime 255515944373312847190720520512484175977 := by
  refine prime_of_certified (a := 3) (fs := [2, 2, 2, 7, 7, 11, 1627, 2657, 4423, 41201, 96557, 7240687, 107590001]) (by decide +kernel) ?_
  simp only [List.mem_cons, List.not_mem_nil, or_false, forall_eq_or_imp, forall_eq]
  exact ⟨(by norm_num), (by norm_num), (by norm_num), (by norm_num), (by norm_num), (by norm_num), (by norm_num), (by norm_num), (by norm_num), (by norm_num), (by norm_num), (by norm_num), prime_107590001⟩

theorem prime_205115282021455665897114700593932402728804164701536103180137503955397371 : Nat.Prime 205115282021455665897114700593932402728804164701536103180137503955397371 := by
  refine prime_of_certified (a := 10) (fs := [2, 3, 5, 29, 29, 31, 7723, 132896956044521568488119, 255515944373312847190720520512484175977]) (by decide +kernel) ?_
  simp only [List.mem_cons, List.not_mem_nil, or_false, forall_eq_or_imp, forall_eq]
  exact ⟨(by norm_num), (by norm_num), (by norm_num), (by norm_num), (by norm_num), (by norm_num), (by norm_num), prime_132896956044521568488119, prime_255515944373312847190720520512484175977⟩

/-- The number of elements of the field. -/
def fieldP : Nat := 2 ^ 256 - 2 ^ 32 - 977

theorem prime_field : Nat.Prime fieldP := by
  refine prime_of_certified (a := 3) (fs := [2, 3, 7, 13441, 205115282021455665897114700593932402728804164701536103180137503955397371]) (by decide +kernel) ?_
  simp only [List.mem_cons, List.not_mem_nil, or_false, forall_eq_or_imp, forall_eq]
  exact ⟨(by norm_num), (by norm_num), (by norm_num), (by norm_num), prime_205115282021455665897114700593932402728804164701536103180137503955397371⟩

end GoNostr.Curve
