import Verif.Props.Loss
import Mathlib.Analysis.SpecialFunctions.Log.Deriv
import Mathlib.Analysis.SpecialFunctions.ExpDeriv

/-!
# C78: the classification losses are convex in the logits, with gradient `probabilities - labels`
-/

set_option linter.unusedSectionVars false
set_option linter.unusedSimpArgs false

namespace Optax
open Finset

section
variable (K : ℕ) (hK : 0 < K)
include hK

theorem sumExp_pos (x : ℕ → ℝ) : 0 < ∑ l ∈ range K, Real.exp (x l) :=
  Finset.sum_pos (fun _ _ => Real.exp_pos _) ⟨0, Finset.mem_range.mpr hK⟩

theorem softmax_sum (x : ℕ → ℝ) : ∑ j ∈ range K, softmax K x j = 1 := by
  unfold softmax
  rw [← Finset.sum_div, div_self (sumExp_pos K hK x).ne']

theorem softmax_pos (x : ℕ → ℝ) (j : ℕ) : 0 < softmax K x j := div_pos (Real.exp_pos _) (sumExp_pos K hK x)

theorem log_softmax (x : ℕ → ℝ) (j : ℕ) :
    Real.log (softmax K x j) = x j - Real.log (∑ l ∈ range K, Real.exp (x l)) := by
  unfold softmax
  rw [Real.log_div (Real.exp_pos _).ne' (sumExp_pos K hK x).ne', Real.log_exp]

/-- cross entropy as `(Σ y) logsumexp(x) - Σ y x` -/
theorem ce_eq (x y : ℕ → ℝ) : -∑ j ∈ range K, y j * Real.log (softmax K x j) =
    (∑ j ∈ range K, y j) * Real.log (∑ l ∈ range K, Real.exp (x l)) - ∑ j ∈ range K, y j * x j := by
  simp only [log_softmax K hK, mul_sub, Finset.sum_sub_distrib, ← Finset.sum_mul]
  ring

/-- tangent inequality for logsumexp -/
theorem lse_tangent (x x' : ℕ → ℝ) : Real.log (∑ l ∈ range K, Real.exp (x l)) + ∑ j ∈ range K, softmax K x j * (x' j - x j) ≤
    Real.log (∑ l ∈ range K, Real.exp (x' l)) := by
  set m := ∑ j ∈ range K, softmax K x j * (x' j - x j) with hm
  have hS := sumExp_pos K hK x
  have h1 : Real.exp m * ∑ l ∈ range K, Real.exp (x l) ≤ ∑ l ∈ range K, Real.exp (x' l) := by
    have h2 : ∀ j ∈ range K, Real.exp (x' j) = (∑ l ∈ range K, Real.exp (x l)) * (Real.exp m *
        (softmax K x j * Real.exp (x' j - x j - m))) := by
      intro j _
      unfold softmax
      rw [Real.exp_sub, Real.exp_sub]
      have := (Real.exp_pos (x j)).ne'
      have := (Real.exp_pos m).ne'
      field_simp
    rw [Finset.sum_congr rfl h2, ← Finset.mul_sum, ← Finset.mul_sum, mul_comm]
    refine mul_le_mul_of_nonneg_left ?_ hS.le
    have h3 : ∑ j ∈ range K, softmax K x j * (x' j - x j - m + 1) ≤ ∑ j ∈ range K, softmax K x j * Real.exp (x' j - x j - m) :=
      Finset.sum_le_sum fun j _ => mul_le_mul_of_nonneg_left (Real.add_one_le_exp _) (softmax_pos K hK x j).le
    have h4 : ∑ j ∈ range K, softmax K x j * (x' j - x j - m + 1) = 1 := by
      have : ∀ j ∈ range K, softmax K x j * (x' j - x j - m + 1) = softmax K x j * (x' j - x j) + (1 - m) * softmax K x j :=
        fun j _ => by ring
      rw [Finset.sum_congr rfl this, Finset.sum_add_distrib, ← Finset.mul_sum, softmax_sum K hK, ← hm]; ring
    rw [h4] at h3
    nlinarith [Real.exp_pos m]
  have h5 := Real.log_le_log (by positivity) h1
  rw [Real.log_mul (Real.exp_pos m).ne' hS.ne', Real.log_exp] at h5
  linarith

/-- derivative of logsumexp along a direction -/
theorem lse_deriv (x v : ℕ → ℝ) : HasDerivAt (fun t : ℝ => Real.log (∑ l ∈ range K, Real.exp (x l + t * v l)))
    (∑ j ∈ range K, softmax K x j * v j) 0 := by
  have h1 : HasDerivAt (fun t : ℝ => ∑ l ∈ range K, Real.exp (x l + t * v l)) (∑ l ∈ range K, Real.exp (x l) * v l) 0 := by
    have := HasDerivAt.fun_sum (u := range K) (A := fun l (t : ℝ) => Real.exp (x l + t * v l))
      (A' := fun l => Real.exp (x l) * v l) (x := (0 : ℝ)) (fun l _ => by
        have h := ((((hasDerivAt_id (0 : ℝ)).mul_const (v l)).const_add (x l)).exp)
        simpa using h)
    exact this
  have h2 := h1.log (by simpa using (sumExp_pos K hK x).ne')
  refine h2.congr_deriv ?_
  simp only [zero_mul, add_zero]
  unfold softmax
  rw [Finset.sum_div]
  exact Finset.sum_congr rfl fun j _ => by ring

end

/-- **C78 (softmax cross entropy).** For every batch of labels: the loss of row `r` as a function of the logits has, in every
direction `v`, the derivative `Σ_j (s·softmax(x)_j - y_j) v_j`, `s = Σ_j y_j` (so the gradient is `softmax - labels` for labels
summing to 1, and its entries then sum to 0); for labels with `s ≥ 0` it is convex: it lies above all its tangents. Rows do
not influence each other. -/
theorem C78_softmax (b : List ℕ) (K : ℕ) (hK : 0 < K) (y : ℕ → ℕ → ℝ) :
    ∃ L : (ℕ → ℕ → ℝ) → ℕ → ℝ, (∀ x, softmaxCE (rowsT b K x) (rowsT b K y) = .ok (Tensor.tens b (L x))) ∧
      ∀ x r,
        (∀ v : ℕ → ℕ → ℝ, HasDerivAt (fun t : ℝ => L (fun r j => x r j + t * v r j) r)
          (∑ j ∈ range K, ((∑ l ∈ range K, y r l) * softmax K (x r) j - y r j) * v r j) 0) ∧
        (0 ≤ ∑ l ∈ range K, y r l → ∀ x', L x r +
          ∑ j ∈ range K, ((∑ l ∈ range K, y r l) * softmax K (x r) j - y r j) * (x' r j - x r j) ≤ L x' r) ∧
        ∑ j ∈ range K, ((∑ l ∈ range K, y r l) * softmax K (x r) j - y r j) = 0 := by
  refine ⟨fun x r => -∑ j ∈ range K, y r j * Real.log (softmax K (x r) j), fun x => C59_softmax_ce b K hK x y, ?_⟩
  intro x r
  simp only [ce_eq K hK]
  refine ⟨?_, ?_, ?_⟩
  · intro v
    have h1 := (lse_deriv K hK (x r) (v r)).const_mul (∑ l ∈ range K, y r l)
    have h2 : HasDerivAt (fun t : ℝ => ∑ j ∈ range K, y r j * (x r j + t * v r j)) (∑ j ∈ range K, y r j * v r j) 0 := by
      have := HasDerivAt.fun_sum (u := range K) (A := fun j (t : ℝ) => y r j * (x r j + t * v r j))
        (A' := fun j => y r j * v r j) (x := (0 : ℝ)) (fun j _ => by
          have h := (((hasDerivAt_id (0 : ℝ)).mul_const (v r j)).const_add (x r j)).const_mul (y r j)
          simpa using h)
      exact this
    refine (h1.sub h2).congr_deriv ?_
    rw [Finset.mul_sum, ← Finset.sum_sub_distrib]
    exact Finset.sum_congr rfl fun j _ => by ring
  · intro hs x'
    have h1 := mul_le_mul_of_nonneg_left (lse_tangent K hK (x r) (x' r)) hs
    have h2 : ∑ j ∈ range K, ((∑ l ∈ range K, y r l) * softmax K (x r) j - y r j) * (x' r j - x r j) =
        (∑ l ∈ range K, y r l) * ∑ j ∈ range K, softmax K (x r) j * (x' r j - x r j) -
          (∑ j ∈ range K, y r j * x' r j - ∑ j ∈ range K, y r j * x r j) := by
      rw [Finset.mul_sum, ← Finset.sum_sub_distrib, ← Finset.sum_sub_distrib]
      exact Finset.sum_congr rfl fun j _ => by ring
    rw [h2]
    linarith
  · rw [Finset.sum_sub_distrib, ← Finset.mul_sum, softmax_sum K hK]; ring

theorem sigmoid_eq_exp (z : ℝ) : sigmoid z = Real.exp z / (1 + Real.exp z) := by
  unfold sigmoid
  rw [Real.exp_neg]
  have := (Real.exp_pos z).ne'
  field_simp
  ring

/-- the sigmoid cross entropy is `log(1 + e^z) - y z` -/
theorem bce_eq (y z : ℝ) : bernoulliCE y (sigmoid z) = Real.log (1 + Real.exp z) - y * z := by
  unfold bernoulliCE
  rw [one_sub_sigmoid]
  have e1 : Real.log (sigmoid z) = z - Real.log (1 + Real.exp z) := by
    rw [sigmoid_eq_exp, Real.log_div (Real.exp_pos _).ne' (by positivity), Real.log_exp]
  have e2 : Real.log (sigmoid (-z)) = -Real.log (1 + Real.exp z) := by
    unfold sigmoid
    rw [neg_neg, one_div, Real.log_inv]
  rw [e1, e2]; ring

theorem bce_deriv (y z : ℝ) : HasDerivAt (fun z => bernoulliCE y (sigmoid z)) (sigmoid z - y) z := by
  rw [show (fun z => bernoulliCE y (sigmoid z)) = fun z => Real.log (1 + Real.exp z) - y * z from funext (bce_eq y)]
  have h1 := ((Real.hasDerivAt_exp z).const_add 1).log (by positivity)
  have h2 := (hasDerivAt_id z).const_mul y
  refine (h1.sub h2).congr_deriv ?_
  rw [sigmoid_eq_exp]; simp

/-- tangent inequality for the sigmoid cross entropy -/
theorem bce_tangent (y x x' : ℝ) :
    bernoulliCE y (sigmoid x) + (sigmoid x - y) * (x' - x) ≤ bernoulliCE y (sigmoid x') := by
  rw [bce_eq, bce_eq]
  have h := lse_tangent 2 (by norm_num) (fun j => if j = 0 then x else 0) (fun j => if j = 0 then x' else 0)
  have hs : ∀ z : ℝ, ∑ l ∈ range 2, Real.exp (if l = 0 then z else 0) = 1 + Real.exp z := by
    intro z; rw [Finset.sum_range_succ, Finset.sum_range_one]; simp; ring
  have hm : ∑ j ∈ range 2, softmax 2 (fun j => if j = 0 then x else 0) j * ((if j = 0 then x' else 0) - (if j = 0 then x else 0)) =
      sigmoid x * (x' - x) := by
    rw [Finset.sum_range_succ, Finset.sum_range_one]
    have : softmax 2 (fun j => if j = 0 then x else 0) 0 = sigmoid x := by
      unfold softmax sigmoid
      rw [hs, Real.exp_neg]
      simp only [if_true]
      have := (Real.exp_pos x).ne'
      field_simp
      ring
    rw [this]; simp
  simp only [hs] at h
  rw [hm] at h
  linarith

/-- **C78 (sigmoid cross entropy).** Entry `i` of the loss depends on logit `i` only, has derivative `sigmoid(logit) - label` and
is convex in the logit, for every label (in `[0,1]` or not). -/
theorem C78_sigmoid (s : List ℕ) (y : ℕ → ℝ) :
    ∃ L : ℕ → ℝ → ℝ, (∀ x : ℕ → ℝ, sigmoidBCE (Tensor.tens s x) (Tensor.tens s y) = .ok (Tensor.tens s (fun i => L i (x i)))) ∧
      ∀ i z, HasDerivAt (L i) (sigmoid z - y i) z ∧
        ∀ z', L i z + (sigmoid z - y i) * (z' - z) ≤ L i z' := by
  refine ⟨fun i z => bernoulliCE (y i) (sigmoid z), fun x => C58_sigmoid_bce s x y, fun i z => ⟨bce_deriv (y i) z, bce_tangent (y i) z⟩⟩

/-- **C78 (regression losses).** `l2_loss` and `huber_loss` are convex in the prediction, entry by entry: they lie above all
their tangents, of slope the error and the clipped error. -/
theorem C78_regression (s : List ℕ) (t : ℕ → ℝ) (d : ℝ) (hd : 0 < d) :
    ∃ L H : ℝ → ℝ,
      (∀ x : ℕ → ℝ, l2Loss (Tensor.tens s x) (some (Tensor.tens s t)) = .ok (Tensor.tens s (fun i => L (x i - t i)))) ∧
      (∀ x : ℕ → ℝ, huberLoss (Tensor.tens s x) (some (Tensor.tens s t)) d = .ok (Tensor.tens s (fun i => H (x i - t i)))) ∧
      (∀ e, HasDerivAt L e e ∧ HasDerivAt H (max (-d) (min e d)) e) ∧
      ∀ e e', L e + e * (e' - e) ≤ L e' ∧ H e + max (-d) (min e d) * (e' - e) ≤ H e' := by
  have hc : ∀ e, clipTo d e = max (-d) (min e d) := fun e => rfl
  have hl : (l2Entry : ℝ → ℝ) = fun e => 1 / 2 * e ^ 2 := by funext e; simp [l2Entry]
  refine ⟨fun e => 1 / 2 * e ^ 2, huber d, fun x => (C56_l2 s x t).1, fun x => (C56_huber s x t d).1, fun e => ?_, fun e e' => ?_⟩
  · obtain ⟨h1, h2⟩ := C56_derivative d e hd
    rw [show huberEntry d = huber d from funext (huberEntry_eq d), hc] at h1
    rw [hl] at h2
    exact ⟨h2, h1⟩
  · obtain ⟨-, -, -, h⟩ := C56_bounds d e hd
    have h2 := h e'
    rw [huberEntry_eq, huberEntry_eq, hc] at h2
    refine ⟨?_, h2⟩
    nlinarith [sq_nonneg (e' - e)]

/-- Non-vacuity: labels `(1/4, 3/4)` sum to 1. -/
example : ∑ l ∈ range 2, (if l = 0 then (1 / 4 : ℝ) else 3 / 4) = 1 := by
  rw [Finset.sum_range_succ, Finset.sum_range_one]; norm_num

end Optax
