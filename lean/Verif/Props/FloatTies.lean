import Verif.Props.FloatAccumulation

/-!
# C146: the rounding of the binary formats
-/

set_option linter.unusedSectionVars false

namespace Optax
namespace Format

theorem halfEven_tie (y : ℝ) (h : |y - halfEven y| = 1 / 2) : Even (halfEven y) := by
  have h1 := Int.fract_nonneg y
  have h2 := Int.fract_lt_one y
  have h3 : y = ⌊y⌋ + Int.fract y := (Int.floor_add_fract y).symm
  unfold halfEven at h ⊢
  split_ifs at h ⊢ with c1 c2 c3
  · have e : y - (⌊y⌋ : ℝ) = Int.fract y := by linarith
    rw [e, abs_of_nonneg h1] at h
    linarith
  · have e : y - ((⌊y⌋ + 1 : ℤ) : ℝ) = Int.fract y - 1 := by push_cast; linarith
    rw [e, abs_of_nonpos (by linarith)] at h
    linarith
  · exact c3
  · exact (Int.not_even_iff_odd.1 c3).add_one

/-- **C146 (rounding).** Results of the binary formats are rounded to the nearest number of the format; a result half a unit of the last digit away from `x` has an even significand;
results of magnitude from half a unit above the largest number on overflow. -/
theorem C146_rounding (p : ℕ) (emin emax : ℤ) (hp he he') (x : ℝ) :
    (|x| < (2 ^ p - 1 / 2) * 2 ^ emax → ∃ (r : ℝ) (m e : ℤ), (binary p emin emax hp he he').rnd x = .fin r ∧ r ∈ binarySet p emin emax ∧
      (∀ s ∈ binarySet p emin emax, |x - r| ≤ |x - s|) ∧ r = m * 2 ^ e ∧ |m| ≤ 2 ^ p ∧ (x = 0 ∨ e = emin ∨ (2 : ℝ) ^ (e + p - 1) ≤ |x|) ∧ (|x - r| = 2 ^ e / 2 → Even m)) ∧
    ((2 ^ p - 1 / 2) * 2 ^ emax ≤ x → (binary p emin emax hp he he').rnd x = .pinf) ∧
    (x ≤ -((2 ^ p - 1 / 2) * 2 ^ emax) → (binary p emin emax hp he he').rnd x = .ninf) := by
  have hT : (0 : ℝ) < (2 ^ p - 1 / 2) * 2 ^ emax := by
    have : (1 : ℝ) ≤ 2 ^ p := one_le_pow₀ (by norm_num)
    have h2 : (0 : ℝ) < 2 ^ emax := by positivity
    exact mul_pos (by linarith) h2
  refine ⟨fun hx => ?_, fun hx => ?_, fun hx => ?_⟩
  · obtain ⟨l1, l2⟩ := abs_lt.1 hx
    refine ⟨toEven p emin x, halfEven (x / 2 ^ lastDigit p emin x), lastDigit p emin x, ?_, toEven_mem p emin emax hp he he' x hx, fun s hs => toEven_le p emin emax hp x s hs, rfl, ?_, ?_, fun h => ?_⟩
    · show (if _ ≤ _ then XReal.pinf else if _ ≤ _ then .ninf else .fin (nearEven _ emin emax _)) = _
      rw [if_neg (not_le.2 l2), if_neg (not_le.2 l1)]
      unfold nearEven
      rw [if_pos hx]
    · have hpos : (0 : ℝ) < 2 ^ lastDigit p emin x := by positivity
      have hy : |x / 2 ^ lastDigit p emin x| < 2 ^ p := by
        rw [abs_div, abs_of_pos hpos, div_lt_iff₀ hpos, ← zpow_natCast, ← zpow_add₀ (by norm_num : (2 : ℝ) ≠ 0), add_comm]
        exact abs_lt_lastDigit p emin x
      have h1 := halfEven_half (x / 2 ^ lastDigit p emin x)
      by_contra hc
      have hc : (2 : ℤ) ^ p + 1 ≤ |halfEven (x / 2 ^ lastDigit p emin x)| := by omega
      have hc : (2 : ℝ) ^ p + 1 ≤ |(halfEven (x / 2 ^ lastDigit p emin x) : ℝ)| := by exact_mod_cast hc
      have h2 : |(halfEven (x / 2 ^ lastDigit p emin x) : ℝ)| ≤ |x / 2 ^ lastDigit p emin x| + |x / 2 ^ lastDigit p emin x - halfEven (x / 2 ^ lastDigit p emin x)| := by
        have := abs_sub_abs_le_abs_sub (halfEven (x / 2 ^ lastDigit p emin x) : ℝ) (x / 2 ^ lastDigit p emin x)
        rw [abs_sub_comm] at this
        linarith
      linarith
    · by_cases hx0 : x = 0 ∨ Int.log 2 |x| + 1 - p ≤ emin
      · rcases hx0 with h | h
        · exact Or.inl h
        · exact Or.inr (Or.inl (max_eq_left h))
      · push Not at hx0
        right
        right
        have e : lastDigit p emin x = Int.log 2 |x| + 1 - p := max_eq_right hx0.2.le
        rw [e, show Int.log 2 |x| + 1 - (p : ℤ) + p - 1 = Int.log 2 |x| by ring]
        exact_mod_cast Int.zpow_log_le_self (b := 2) (by norm_num) (abs_pos.2 hx0.1)
    · refine halfEven_tie _ ?_
      have hpos : (0 : ℝ) < 2 ^ lastDigit p emin x := by positivity
      have e : x - toEven p emin x = (x / 2 ^ lastDigit p emin x - halfEven (x / 2 ^ lastDigit p emin x)) * 2 ^ lastDigit p emin x := by
        unfold toEven
        rw [sub_mul, div_mul_cancel₀ _ hpos.ne']
      rw [e, abs_mul, abs_of_pos hpos] at h
      have h' : |x / 2 ^ lastDigit p emin x - halfEven (x / 2 ^ lastDigit p emin x)| * 2 ^ lastDigit p emin x = 1 / 2 * 2 ^ lastDigit p emin x := by rw [h]; ring
      exact mul_right_cancel₀ hpos.ne' h'
  · show (if _ ≤ _ then XReal.pinf else if _ ≤ _ then .ninf else .fin (nearEven _ emin emax _)) = _
    rw [if_pos hx]
  · show (if _ ≤ _ then XReal.pinf else if _ ≤ _ then .ninf else .fin (nearEven _ emin emax _)) = _
    rw [if_neg (by linarith), if_pos hx]

/-- in single precision `2^24 + 3`, halfway between two numbers, is rounded to `2^24 + 4` (even significand) -/
example : ∃ (r : ℝ) (m e : ℤ), float32.rnd (2 ^ 24 + 3) = .fin r ∧ r = m * 2 ^ e ∧ (|2 ^ 24 + 3 - r| = 2 ^ e / 2 → Even m) := by
  obtain ⟨r, m, e, h1, -, -, h2, -, -, h3⟩ := (C146_rounding 24 (-149) 104 (by norm_num) (by norm_num) (by norm_num) (2 ^ 24 + 3)).1 (by
    rw [abs_of_pos (by norm_num)]
    have : (2 : ℝ) ^ (1 : ℤ) ≤ 2 ^ (104 : ℤ) := zpow_le_zpow_right₀ (by norm_num) (by norm_num)
    have h2 : ((2 : ℝ) ^ 24 - 1 / 2) * 2 ^ (1 : ℤ) ≤ (2 ^ 24 - 1 / 2) * 2 ^ (104 : ℤ) := mul_le_mul_of_nonneg_left this (by norm_num)
    refine lt_of_lt_of_le ?_ h2
    norm_num)
  exact ⟨r, m, e, h1, h2, h3⟩

end Format
end Optax
