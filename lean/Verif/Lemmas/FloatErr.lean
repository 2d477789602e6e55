import Verif.Lemmas.Float32
import Mathlib.Data.Int.Log
import Mathlib.Algebra.Order.Round

/-!
# The rounding error of the IEEE formats
-/

namespace Optax
open FP Classical

/-- The standard model of floating point arithmetic with gradual underflow: results of absolute value at most `M` do not
overflow, and are rounded with relative error at most `u` and absolute error at most `η`. -/
def ErrModel (F : Format) (u η M : ℝ) : Prop :=
  ∀ x : ℝ, |x| ≤ M → ∃ r, F.rnd x = .fin r ∧ |r - x| ≤ u * |x| + η

namespace Format

/-- there is a number of the format near every real in range -/
theorem exists_near (p : ℕ) (emin emax : ℤ) (hp : 1 ≤ p) (he : emin ≤ 0) (he' : 0 ≤ emax) (x : ℝ)
    (hx : |x| ≤ (2 ^ p - 1) * 2 ^ emax) :
    ∃ s ∈ binarySet p emin emax, |x - s| ≤ 2 ^ (-(p : ℤ)) * |x| + 2 ^ (emin - 1) := by
  have two : (0 : ℝ) < 2 := by norm_num
  by_cases h0 : x = 0
  · refine ⟨0, mem_binarySet.2 ⟨0, 0, by simp, he, he', by simp⟩, ?_⟩
    rw [h0, abs_zero, MulZeroClass.mul_zero, _root_.sub_zero, abs_zero, _root_.zero_add]
    positivity
  have hpos : 0 < |x| := abs_pos.2 h0
  obtain ⟨k, hk⟩ : ∃ k, k = Int.log 2 |x| := ⟨_, rfl⟩
  have k1 : (2 : ℝ) ^ k ≤ |x| := by
    have := Int.zpow_log_le_self (b := 2) (by norm_num) hpos
    rw [hk]; exact_mod_cast this
  have k2 : |x| < (2 : ℝ) ^ (k + 1) := by
    have := Int.lt_zpow_succ_log_self (b := 2) (by norm_num) |x|
    rw [hk]; exact_mod_cast this
  obtain ⟨e, hE⟩ : ∃ e, e = max emin (k - p + 1) := ⟨_, rfl⟩
  have hEp : (0 : ℝ) < 2 ^ e := by positivity
  have e1 : emin ≤ e := hE ▸ le_max_left _ _
  have e1' : k - p + 1 ≤ e := hE ▸ le_max_right _ _
  have kmax : k - p + 1 ≤ emax := by
    have h : (2 : ℝ) ^ k < 2 ^ ((p : ℤ) + emax) := by
      rw [zpow_add₀ two.ne', zpow_natCast]
      have : (0 : ℝ) < 2 ^ emax := by positivity
      nlinarith
    have := (zpow_lt_zpow_iff_right₀ (by norm_num : (1 : ℝ) < 2)).1 h
    omega
  have e2 : e ≤ emax := by rw [hE]; exact max_le (by omega) kmax
  obtain ⟨m, hm⟩ : ∃ m : ℤ, m = _root_.round (x / 2 ^ e) := ⟨_, rfl⟩
  have herr : |x - m * 2 ^ e| ≤ 2 ^ e / 2 := by
    have h := abs_sub_round (x / 2 ^ e)
    rw [← hm] at h
    have : x - m * 2 ^ e = (x / 2 ^ e - m) * 2 ^ e := by field_simp
    rw [this, abs_mul, abs_of_pos hEp]
    nlinarith
  have hbound : |x - m * 2 ^ e| ≤ 2 ^ (-(p : ℤ)) * |x| + 2 ^ (emin - 1) := by
    have pe : (0 : ℝ) < 2 ^ (emin - 1) := by positivity
    have pp : (0 : ℝ) < 2 ^ (-(p : ℤ)) := by positivity
    rcases max_choice emin (k - p + 1) with h | h
    · rw [← hE] at h
      have : (2 : ℝ) ^ e / 2 = 2 ^ (emin - 1) := by rw [h, zpow_sub_one₀ two.ne']; ring
      have := mul_nonneg pp.le hpos.le
      linarith
    · rw [← hE] at h
      have : (2 : ℝ) ^ e / 2 = 2 ^ (-(p : ℤ)) * 2 ^ k := by
        rw [h, ← zpow_add₀ two.ne', zpow_add_one₀ two.ne', show -(p : ℤ) + k = k - p by ring]; ring
      have := mul_le_mul_of_nonneg_left k1 pp.le
      linarith
  have habs : |x / 2 ^ e| < 2 ^ p := by
    rw [abs_div, abs_of_pos hEp, div_lt_iff₀ hEp]
    refine lt_of_lt_of_le k2 ?_
    rw [← zpow_natCast, ← zpow_add₀ two.ne']
    exact zpow_le_zpow_right₀ (by norm_num) (by omega)
  have hround : ∀ (y : ℝ) (N : ℤ), |y| ≤ N → |_root_.round y| ≤ N := by
    intro y N hy
    rw [abs_le] at hy ⊢
    have mono : ∀ a b : ℝ, a ≤ b → _root_.round a ≤ _root_.round b := fun a b h => by
      rw [_root_.round_eq, _root_.round_eq]; exact Int.floor_mono (by linarith)
    have a := mono _ _ hy.2
    have b := mono _ _ hy.1
    rw [round_intCast] at a
    rw [show (-(N : ℝ)) = ((-N : ℤ) : ℝ) by push_cast; ring, round_intCast] at b
    exact ⟨b, a⟩
  have hle : |m| ≤ 2 ^ p := by
    rw [hm]
    exact hround _ _ (by push_cast; exact habs.le)
  rcases lt_or_eq_of_le hle with hlt | heq
  · exact ⟨_, mem_binarySet.2 ⟨m, e, hlt, e1, e2, rfl⟩, hbound⟩
  · have e3 : e < emax := by
      rcases lt_or_eq_of_le e2 with h | h
      · exact h
      · exfalso
        have : |m| ≤ 2 ^ p - 1 := by
          rw [hm]
          apply hround
          push_cast
          rw [abs_div, abs_of_pos hEp, div_le_iff₀ hEp, h]
          exact hx
        omega
    obtain ⟨q, hq⟩ : ∃ q, p = q + 1 := ⟨p - 1, by omega⟩
    have hs : m = 2 * (m.sign * 2 ^ q) := by
      have := Int.sign_mul_abs m
      rw [heq, hq, pow_succ] at this
      linarith
    refine ⟨_, mem_binarySet.2 ⟨m.sign * 2 ^ q, e + 1, ?_, by omega, by omega, rfl⟩, ?_⟩
    · have hm0 : m ≠ 0 := by
        rintro rfl
        rw [abs_zero] at heq
        have : (0 : ℤ) < 2 ^ p := by positivity
        omega
      rw [abs_mul, abs_of_nonneg (show (0 : ℤ) ≤ 2 ^ q by positivity)]
      have : |m.sign| = 1 := by
        rcases lt_trichotomy m 0 with h | h | h
        · rw [Int.sign_eq_neg_one_of_neg h]; rfl
        · exact absurd h hm0
        · rw [Int.sign_eq_one_of_pos h]; rfl
      rw [this, _root_.one_mul, hq, pow_succ]
      have : (0 : ℤ) < 2 ^ q := by positivity
      omega
    · have : ((m.sign * 2 ^ q : ℤ) : ℝ) * 2 ^ (e + 1) = m * 2 ^ e := by
        rw [zpow_add_one₀ two.ne']
        have : (m : ℝ) = 2 * ((m.sign * 2 ^ q : ℤ) : ℝ) := by exact_mod_cast hs
        rw [this]; ring
      rw [this]
      exact hbound

/-- Binary formats with rounding to nearest: unit roundoff `2^-p`, half the smallest number, the largest number. -/
theorem binary_err (p : ℕ) (emin emax : ℤ) (hp he he') :
    ErrModel (binary p emin emax hp he he') (2 ^ (-(p : ℤ))) (2 ^ (emin - 1)) ((2 ^ p - 1) * 2 ^ emax) := by
  intro x hx
  obtain ⟨s, hs, hb⟩ := exists_near p emin emax hp he he' x hx
  have hpos : (0 : ℝ) < 2 ^ emax := by positivity
  have hlt : |x| < (2 ^ p - 1 / 2) * 2 ^ emax := by nlinarith
  obtain ⟨l1, l2⟩ := abs_lt.1 hlt
  refine ⟨nearEven p emin emax x, ?_, ?_⟩
  · show (if _ ≤ x then XReal.pinf else if x ≤ _ then .ninf else .fin _) = _
    rw [if_neg (by linarith), if_neg (by linarith)]
  · rw [abs_sub_comm]
    exact _root_.le_trans (nearEven_le p emin emax hp x s hs) hb

theorem float32_err : ErrModel float32 (2 ^ (-24 : ℤ)) (2 ^ (-150 : ℤ)) ((2 ^ 24 - 1) * 2 ^ 104) := by
  have := binary_err 24 (-149) 104 (by norm_num) (by norm_num) (by norm_num)
  norm_num at this ⊢
  exact this

theorem bfloat16_err : ErrModel bfloat16 (2 ^ (-8 : ℤ)) (2 ^ (-134 : ℤ)) ((2 ^ 8 - 1) * 2 ^ 120) := by
  have := binary_err 8 (-133) 120 (by norm_num) (by norm_num) (by norm_num)
  norm_num at this ⊢
  exact this

end Format

end Optax
