import Verif.Lemmas.Float32

/-!
# Binary floating point with unbounded exponents, and its scaling by powers of two
-/

namespace Optax
namespace Format
open Classical

/-- `x` rounded to `p` binary digits, ties to even, whatever its exponent -/
noncomputable def digits (p : ℕ) (x : ℝ) : ℝ := toEven p (Int.log 2 |x| + 1 - p) x

theorem digits_eq_toEven {p : ℕ} {emin : ℤ} {x : ℝ} (h : emin ≤ Int.log 2 |x| + 1 - p) : digits p x = toEven p emin x := by
  unfold digits toEven
  have e1 : lastDigit p (Int.log 2 |x| + 1 - p) x = Int.log 2 |x| + 1 - p := max_self _
  have e2 : lastDigit p emin x = Int.log 2 |x| + 1 - p := max_eq_right h
  rw [e1, e2]

/-- in the normal range the format with bounded exponents rounds the same way -/
theorem binary_eq_digits {p : ℕ} {emin emax : ℤ} {hp he he'} {x : ℝ} (h : x = 0 ∨ 2 ^ (emin + p - 1) ≤ |x|) (hx : |x| < (2 ^ p - 1 / 2) * 2 ^ emax) :
    (binary p emin emax hp he he').rnd x = .fin (digits p x) := by
  obtain ⟨l1, l2⟩ := abs_lt.1 hx
  show (if _ ≤ x then XReal.pinf else if x ≤ _ then .ninf else .fin (nearEven p emin emax x)) = _
  rw [if_neg (by linarith), if_neg (by linarith)]
  congr 1
  unfold nearEven
  rw [if_pos hx]
  rcases h with rfl | h
  · unfold digits toEven
    simp [halfEven]
  · symm
    refine digits_eq_toEven ?_
    have hx0 : 0 < |x| := lt_of_lt_of_le (by positivity) h
    have h1 : |x| < (2 : ℝ) ^ (Int.log 2 |x| + 1) := by exact_mod_cast Int.lt_zpow_succ_log_self (b := 2) (by norm_num) |x|
    have := (zpow_lt_zpow_iff_right₀ (by norm_num : (1 : ℝ) < 2)).1 (lt_of_le_of_lt h h1)
    omega

/-- any two numbers are in the normal range of some binary format -/
theorem exists_binary (p : ℕ) (hp : 1 ≤ p) (x y : ℝ) : ∃ (emin emax : ℤ) (he : emin ≤ 0) (he' : 0 ≤ emax),
    (binary p emin emax hp he he').rnd x = .fin (digits p x) ∧ (binary p emin emax hp he he').rnd y = .fin (digits p y) := by
  have hhi : ∀ x : ℝ, ∃ n : ℕ, ∀ e : ℤ, n ≤ e → |x| < (2 ^ p - 1 / 2) * 2 ^ e := by
    intro x
    obtain ⟨n, hn⟩ := pow_unbounded_of_one_lt |x| (by norm_num : (1 : ℝ) < 2)
    refine ⟨n, fun e he => lt_of_lt_of_le hn ?_⟩
    have h1 : (2 : ℝ) ^ (n : ℤ) ≤ 2 ^ e := zpow_le_zpow_right₀ (by norm_num) he
    have h2 : (2 : ℝ) ≤ 2 ^ p := by
      calc (2 : ℝ) = 2 ^ 1 := by norm_num
        _ ≤ 2 ^ p := pow_le_pow_right₀ (by norm_num) hp
    rw [zpow_natCast] at h1
    have h3 : (0 : ℝ) < 2 ^ e := by positivity
    nlinarith
  have hlo : ∀ x : ℝ, ∃ n : ℕ, ∀ e : ℤ, e ≤ -n → x = 0 ∨ 2 ^ (e + p - 1) ≤ |x| := by
    intro x
    refine ⟨(max 0 (p - 1 - Int.log 2 |x|)).toNat, fun e he => ?_⟩
    by_cases hx : x = 0
    · exact .inl hx
    · right
      refine le_trans (zpow_le_zpow_right₀ (by norm_num) ?_) (by exact_mod_cast Int.zpow_log_le_self (b := 2) (by norm_num) (abs_pos.2 hx) : (2 : ℝ) ^ (Int.log 2 |x|) ≤ |x|)
      have := le_max_right 0 ((p : ℤ) - 1 - Int.log 2 |x|)
      omega
  obtain ⟨n1, h1⟩ := hhi x
  obtain ⟨n2, h2⟩ := hhi y
  obtain ⟨m1, l1⟩ := hlo x
  obtain ⟨m2, l2⟩ := hlo y
  refine ⟨-(max m1 m2 : ℕ), (max n1 n2 : ℕ), by omega, by omega, ?_, ?_⟩
  · exact binary_eq_digits (l1 _ (by omega)) (h1 _ (by omega))
  · exact binary_eq_digits (l2 _ (by omega)) (h2 _ (by omega))

theorem digits_idem (p : ℕ) (hp : 1 ≤ p) (x : ℝ) : digits p (digits p x) = digits p x := by
  obtain ⟨emin, emax, he, he', h1, h2⟩ := exists_binary p hp x (digits p x)
  have := (binary p emin emax hp he he').rnd_idem x _ h1
  rw [h2] at this
  exact XReal.fin.inj this

/-- Binary floating point of precision `p` without limits on the exponent: what IEEE arithmetic computes as long as nothing overflows or
underflows (`binary_eq_digits`). -/
noncomputable def unbounded (p : ℕ) (hp : 1 ≤ p) : Format where
  rnd x := .fin (digits p x)
  rnd_ne_nan x := by simp
  rnd_mono x y hxy := by
    obtain ⟨emin, emax, he, he', h1, h2⟩ := exists_binary p hp x y
    have := (binary p emin emax hp he he').rnd_mono x y hxy
    rwa [h1, h2] at this
  rnd_idem x r h := by
    cases h
    exact congrArg XReal.fin (digits_idem p hp x)
  rnd_zero := by
    obtain ⟨emin, emax, he, he', h1, h2⟩ := exists_binary p hp 0 0
    rw [← h1]; exact rnd_zero _
  rnd_one := by
    obtain ⟨emin, emax, he, he', h1, h2⟩ := exists_binary p hp 1 0
    rw [← h1]; exact rnd_one _
  rnd_neg r h := by
    obtain ⟨emin, emax, he, he', h1, h2⟩ := exists_binary p hp r (-r)
    rw [← h1] at h
    rw [← h2]
    exact rnd_neg _ r h
  exp := Real.exp
  exp_zero := Real.exp_zero
  exp_nonneg := fun x => (Real.exp_pos x).le
  exp_le_one := fun x hx => Real.exp_le_one_iff.2 hx
  log := Real.log
  log_nonneg := fun x hx => Real.log_nonneg hx
  rsqrt := fun x => 1 / Real.sqrt x
  rsqrt_nonneg := fun x _ => by positivity
  rsqrt_anti := fun x y hx hxy => one_div_le_one_div_of_le (Real.sqrt_pos.2 hx) (Real.sqrt_le_sqrt hxy)
  cos := Real.cos
  cos_zero := Real.cos_zero
  cos_le_one := Real.cos_le_one
  cos_ge_neg_one := Real.neg_one_le_cos
  pow := fun x y => x ^ y
  pow_nonneg := fun x y hx => Real.rpow_nonneg hx y
  pow_mono := fun x x' y hx hxx hy => Real.rpow_le_rpow hx hxx hy
  pow_one_base := fun y => Real.one_rpow y
  pow_zero_base := fun y hy => Real.zero_rpow hy.ne'

/-- rounding commutes with multiplication by a power of two -/
theorem digits_scale (p : ℕ) (k : ℤ) (x : ℝ) : digits p (2 ^ k * x) = 2 ^ k * digits p x := by
  by_cases hx : x = 0
  · subst hx
    unfold digits toEven
    simp [halfEven]
  · have hk : (0 : ℝ) < 2 ^ k := by positivity
    have hl : Int.log 2 |2 ^ k * x| = Int.log 2 |x| + k := by
      have h1 : (2 : ℝ) ^ (Int.log 2 |x|) ≤ |x| := by exact_mod_cast Int.zpow_log_le_self (b := 2) (by norm_num) (abs_pos.2 hx)
      have h2 : |x| < (2 : ℝ) ^ (Int.log 2 |x| + 1) := by exact_mod_cast Int.lt_zpow_succ_log_self (b := 2) (by norm_num) |x|
      have h3 : (2 : ℝ) ^ (Int.log 2 |2 ^ k * x|) ≤ |2 ^ k * x| := by exact_mod_cast Int.zpow_log_le_self (b := 2) (by norm_num) (abs_pos.2 (mul_ne_zero hk.ne' hx))
      have h4 : |2 ^ k * x| < (2 : ℝ) ^ (Int.log 2 |2 ^ k * x| + 1) := by exact_mod_cast Int.lt_zpow_succ_log_self (b := 2) (by norm_num) |2 ^ k * x|
      rw [abs_mul, abs_of_pos hk] at h3 h4 ⊢
      have a1 : (2 : ℝ) ^ (Int.log 2 (2 ^ k * |x|)) < 2 ^ (k + (Int.log 2 |x| + 1)) := by
        refine lt_of_le_of_lt h3 ?_
        rw [zpow_add₀ (by norm_num : (2 : ℝ) ≠ 0) k]
        exact mul_lt_mul_of_pos_left h2 hk
      have a2 : (2 : ℝ) ^ (k + Int.log 2 |x|) < 2 ^ (Int.log 2 (2 ^ k * |x|) + 1) := by
        refine lt_of_le_of_lt ?_ h4
        rw [zpow_add₀ (by norm_num : (2 : ℝ) ≠ 0) k]
        exact mul_le_mul_of_nonneg_left h1 hk.le
      have b1 := (zpow_lt_zpow_iff_right₀ (by norm_num : (1 : ℝ) < 2)).1 a1
      have b2 := (zpow_lt_zpow_iff_right₀ (by norm_num : (1 : ℝ) < 2)).1 a2
      omega
    unfold digits toEven
    have e1 : ∀ z : ℝ, lastDigit p (Int.log 2 |z| + 1 - p) z = Int.log 2 |z| + 1 - p := fun z => max_self _
    rw [e1, e1, hl, show Int.log 2 |x| + k + 1 - p = k + (Int.log 2 |x| + 1 - p) by ring, zpow_add₀ (by norm_num : (2 : ℝ) ≠ 0) k, mul_div_mul_left _ _ hk.ne']
    ring

end Format
end Optax
