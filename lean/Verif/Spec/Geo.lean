import Mathlib.Algebra.BigOperators.Field
import Mathlib.Algebra.BigOperators.Intervals
import Mathlib.Algebra.Order.BigOperators.Ring.Finset
import Mathlib.Algebra.Ring.GeomSum
import Mathlib.Analysis.SpecialFunctions.Pow.Real

/-! # Geometrically weighted sums of a history (specification) -/

namespace Optax
open Finset

/-- `geoSum d x n = x 0 * d^(n-1) + x 1 * d^(n-2) + ... + x (n-1)`: the geometrically weighted sum of the first `n` values
of `x`, the latest with weight 1. -/
noncomputable def geoSum (d : ℝ) (x : ℕ → ℝ) (n : ℕ) : ℝ := ∑ j ∈ range n, d ^ (n - 1 - j) * x j

@[simp] theorem geoSum_zero (d : ℝ) (x : ℕ → ℝ) : geoSum d x 0 = 0 := by simp [geoSum]

theorem geoSum_succ (d : ℝ) (x : ℕ → ℝ) (n : ℕ) :
    geoSum d x (n + 1) = x n + d * geoSum d x n := by
  unfold geoSum
  rw [Finset.sum_range_succ, Finset.mul_sum, add_comm]
  congr 1
  · simp
  · apply Finset.sum_congr rfl
    intro j hj
    have := Finset.mem_range.mp hj
    rw [← mul_assoc, ← pow_succ']
    congr 2; omega

theorem geoSum_one (d : ℝ) (x : ℕ → ℝ) : geoSum d x 1 = x 0 := by
  rw [geoSum_succ]; simp

/-- weights of a de-biased moving average -/
noncomputable def emaWeight (d : ℝ) (n j : ℕ) : ℝ := (1 - d) * d ^ (n - 1 - j) / (1 - d ^ n)

theorem geoSum_const_one (d : ℝ) (n : ℕ) : (1 - d) * geoSum d (fun _ => 1) n = 1 - d ^ n := by
  induction n with
  | zero => simp
  | succ n ih =>
    rw [geoSum_succ, mul_add, mul_left_comm, ih]
    ring

theorem one_sub_pow_pos {d : ℝ} (h0 : 0 ≤ d) (h1 : d < 1) {n : ℕ} (hn : n ≠ 0) : 0 < 1 - d ^ n := by
  have := pow_lt_one₀ h0 h1 hn
  linarith

theorem emaWeight_nonneg {d : ℝ} (h0 : 0 ≤ d) (h1 : d < 1) {n : ℕ} (hn : n ≠ 0) (j : ℕ) :
    0 ≤ emaWeight d n j := by
  unfold emaWeight
  have := one_sub_pow_pos h0 h1 hn
  have h2 : 0 ≤ 1 - d := by linarith
  positivity

theorem emaWeight_sum {d : ℝ} (h0 : 0 ≤ d) (h1 : d < 1) {n : ℕ} (hn : n ≠ 0) :
    ∑ j ∈ range n, emaWeight d n j = 1 := by
  have hp := one_sub_pow_pos h0 h1 hn
  unfold emaWeight
  rw [← Finset.sum_div, ← Finset.mul_sum]
  have := geoSum_const_one d n
  unfold geoSum at this
  simp only [mul_one] at this
  rw [this, div_self hp.ne']

theorem geoSum_emaWeight (d : ℝ) (x : ℕ → ℝ) (n : ℕ) :
    (1 - d) * geoSum d x n / (1 - d ^ n) = ∑ j ∈ range n, emaWeight d n j * x j := by
  unfold geoSum emaWeight
  rw [Finset.mul_sum, Finset.sum_div]
  apply Finset.sum_congr rfl
  intro j _
  ring

theorem geoSum_nonneg {d : ℝ} (h0 : 0 ≤ d) {x : ℕ → ℝ} (hx : ∀ j, 0 ≤ x j) (n : ℕ) :
    0 ≤ geoSum d x n := by
  unfold geoSum
  exact Finset.sum_nonneg (fun j _ => mul_nonneg (pow_nonneg h0 _) (hx j))

theorem geoSum_smul (d c : ℝ) (x : ℕ → ℝ) (n : ℕ) :
    geoSum d (fun j => c * x j) n = c * geoSum d x n := by
  unfold geoSum
  rw [Finset.mul_sum]
  exact Finset.sum_congr rfl (fun j _ => by ring)

theorem geoSum_add (d : ℝ) (x y : ℕ → ℝ) (n : ℕ) :
    geoSum d (fun j => x j + y j) n = geoSum d x n + geoSum d y n := by
  unfold geoSum
  rw [← Finset.sum_add_distrib]
  exact Finset.sum_congr rfl (fun j _ => by ring)

/-- convex combination lies between bounds -/
theorem convex_bounds {n : ℕ} (w x : ℕ → ℝ) (lo hi : ℝ) (hw : ∀ j, 0 ≤ w j)
    (hs : ∑ j ∈ range n, w j = 1) (hx : ∀ j < n, lo ≤ x j ∧ x j ≤ hi) :
    lo ≤ ∑ j ∈ range n, w j * x j ∧ ∑ j ∈ range n, w j * x j ≤ hi := by
  constructor
  · calc lo = ∑ j ∈ range n, w j * lo := by rw [← Finset.sum_mul, hs, one_mul]
      _ ≤ _ := Finset.sum_le_sum (fun j hj =>
        mul_le_mul_of_nonneg_left (hx j (Finset.mem_range.mp hj)).1 (hw j))
  · calc _ ≤ ∑ j ∈ range n, w j * hi := Finset.sum_le_sum (fun j hj =>
        mul_le_mul_of_nonneg_left (hx j (Finset.mem_range.mp hj)).2 (hw j))
      _ = hi := by rw [← Finset.sum_mul, hs, one_mul]

theorem abs_geoSum_le {d G : ℝ} (hd : |d| < 1) (hG : 0 ≤ G) {x : ℕ → ℝ} (n : ℕ)
    (hx : ∀ j < n, |x j| ≤ G) : |geoSum d x n| ≤ G / (1 - |d|) := by
  have h1 : 0 < 1 - |d| := by linarith
  induction n with
  | zero => simp; positivity
  | succ n ih =>
    rw [geoSum_succ]
    have h2 := ih (fun j hj => hx j (by omega))
    calc |x n + d * geoSum d x n| ≤ |x n| + |d * geoSum d x n| := abs_add_le _ _
      _ = |x n| + |d| * |geoSum d x n| := by rw [abs_mul]
      _ ≤ G + |d| * (G / (1 - |d|)) := by
        have := hx n (by omega)
        have := mul_le_mul_of_nonneg_left h2 (abs_nonneg d)
        linarith
      _ = G / (1 - |d|) := by field_simp; ring

/-- Cauchy-Schwarz for two geometric weightings: `(Σ b1^i x)² ≤ (Σ (b1²/b2)^i) (Σ b2^i x²)`. -/
theorem geoSum_cauchy {b1 b2 : ℝ} (h2 : 0 < b2) (x : ℕ → ℝ) (n : ℕ) :
    (geoSum b1 x n) ^ 2 ≤
      (∑ i ∈ range n, (b1 ^ 2 / b2) ^ i) * geoSum b2 (fun j => (x j) ^ 2) n := by
  have key := Finset.sum_mul_sq_le_sq_mul_sq (range n)
    (fun j => b1 ^ (n - 1 - j) / Real.sqrt (b2 ^ (n - 1 - j)))
    (fun j => Real.sqrt (b2 ^ (n - 1 - j)) * x j)
  have e1 : ∑ i ∈ range n, b1 ^ (n - 1 - i) / Real.sqrt (b2 ^ (n - 1 - i)) *
      (Real.sqrt (b2 ^ (n - 1 - i)) * x i) = geoSum b1 x n := by
    unfold geoSum
    apply Finset.sum_congr rfl
    intro j _
    have hp : Real.sqrt (b2 ^ (n - 1 - j)) ≠ 0 := (Real.sqrt_pos.mpr (pow_pos h2 _)).ne'
    rw [← mul_assoc, div_mul_cancel₀ _ hp]
  have e2 : ∑ i ∈ range n, (b1 ^ (n - 1 - i) / Real.sqrt (b2 ^ (n - 1 - i))) ^ 2 =
      ∑ i ∈ range n, (b1 ^ 2 / b2) ^ i := by
    rw [← Finset.sum_range_reflect]
    apply Finset.sum_congr rfl
    intro j hj
    have hj' := Finset.mem_range.mp hj
    have : n - 1 - (n - 1 - j) = j := by omega
    rw [this, div_pow, Real.sq_sqrt (pow_pos h2 _).le, div_pow, ← pow_mul, ← pow_mul, mul_comm]
  have e3 : ∑ i ∈ range n, (Real.sqrt (b2 ^ (n - 1 - i)) * x i) ^ 2 =
      geoSum b2 (fun j => (x j) ^ 2) n := by
    unfold geoSum
    apply Finset.sum_congr rfl
    intro j _
    rw [mul_pow, Real.sq_sqrt (pow_pos h2 _).le]
  rw [e1, e2, e3] at key
  exact key

end Optax
