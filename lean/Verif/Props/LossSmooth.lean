import Verif.Props.LossGrad
import Mathlib.Analysis.Calculus.Deriv.MeanValue

/-!
# C133: smoothness and Lipschitz constants of the losses
-/

set_option linter.unusedSectionVars false

namespace Optax
open Finset

/-- a function with second derivative at most `L` lies below its parabola of curvature `L` -/
theorem quad_upper {f g g' : ℝ → ℝ} {L : ℝ} (hf : ∀ t, HasDerivAt f (g t) t) (hg : ∀ t, HasDerivAt g (g' t) t) (hL : ∀ t, g' t ≤ L) :
    f 1 ≤ f 0 + g 0 + L / 2 := by
  have hψ : Monotone (fun t => g 0 + L * t - g t) := by
    refine monotone_of_hasDerivAt_nonneg (f' := fun t => L - g' t) (fun t => ?_) (fun t => sub_nonneg.2 (hL t))
    have := (((hasDerivAt_id t).const_mul L).const_add (g 0)).sub (hg t)
    exact this.congr_deriv (by simp)
  have hd : ∀ t, HasDerivAt (fun t => f 0 + g 0 * t + L / 2 * t ^ 2 - f t) (g 0 + L * t - g t) t := by
    intro t
    have := ((((hasDerivAt_id t).const_mul (g 0)).const_add (f 0)).add (((hasDerivAt_id t).pow 2).const_mul (L / 2))).sub (hf t)
    refine this.congr_deriv ?_
    simp
    ring
  have hφ : MonotoneOn (fun t => f 0 + g 0 * t + L / 2 * t ^ 2 - f t) (Set.Ici 0) := by
    refine monotoneOn_of_deriv_nonneg (convex_Ici 0) (fun t _ => (hd t).continuousAt.continuousWithinAt)
      (fun t _ => (hd t).differentiableAt.differentiableWithinAt) (fun t ht => ?_)
    rw [(hd t).deriv]
    rw [interior_Ici, Set.mem_Ioi] at ht
    have := hψ ht.le
    simpa using this
  have := hφ (Set.mem_Ici.2 le_rfl) (Set.mem_Ici.2 zero_le_one) zero_le_one
  simp only at this
  norm_num at this
  linarith

section
variable (K : ℕ) (hK : 0 < K)
include hK

/-- the variance of the values `v` under the weights `p` is at most half their sum of squares -/
theorem var_le {p v : ℕ → ℝ} (hp : ∀ j ∈ range K, 0 ≤ p j) (h1 : ∑ j ∈ range K, p j = 1) :
    ∑ j ∈ range K, p j * v j ^ 2 - (∑ j ∈ range K, p j * v j) ^ 2 ≤ 1 / 2 * ∑ j ∈ range K, v j ^ 2 := by
  have e : ∑ i ∈ range K, ∑ j ∈ range K, p i * p j * (v i + v j) ^ 2 =
      2 * ∑ j ∈ range K, p j * v j ^ 2 + 2 * (∑ j ∈ range K, p j * v j) ^ 2 := by
    have e1 : ∀ i ∈ range K, ∑ j ∈ range K, p i * p j * (v i + v j) ^ 2 =
        p i * v i ^ 2 * (∑ j ∈ range K, p j) + 2 * (p i * v i) * (∑ j ∈ range K, p j * v j) + p i * ∑ j ∈ range K, p j * v j ^ 2 := by
      intro i _
      rw [Finset.mul_sum, Finset.mul_sum, Finset.mul_sum, ← Finset.sum_add_distrib, ← Finset.sum_add_distrib]
      exact Finset.sum_congr rfl fun j _ => by ring
    rw [Finset.sum_congr rfl e1, Finset.sum_add_distrib, Finset.sum_add_distrib, ← Finset.sum_mul, ← Finset.sum_mul, ← Finset.sum_mul, h1, ← Finset.mul_sum]
    ring
  have hdiag : ∑ i ∈ range K, 4 * (p i ^ 2 * v i ^ 2) ≤ ∑ i ∈ range K, ∑ j ∈ range K, p i * p j * (v i + v j) ^ 2 := by
    refine Finset.sum_le_sum fun i hi => ?_
    have := Finset.single_le_sum (f := fun j => p i * p j * (v i + v j) ^ 2)
      (fun j hj => mul_nonneg (mul_nonneg (hp i hi) (hp j hj)) (sq_nonneg _)) hi
    refine le_trans (le_of_eq ?_) this
    ring
  have hq : ∑ j ∈ range K, p j * v j ^ 2 ≤ ∑ i ∈ range K, (p i ^ 2 * v i ^ 2 + 1 / 4 * v i ^ 2) := by
    refine Finset.sum_le_sum fun i hi => ?_
    nlinarith [mul_nonneg (sq_nonneg (p i - 1 / 2)) (sq_nonneg (v i))]
  rw [Finset.sum_add_distrib, ← Finset.mul_sum] at hq
  rw [← Finset.mul_sum] at hdiag
  linarith

/-- logsumexp lies below its parabolas of curvature 1/2 -/
theorem lse_upper (x x' : ℕ → ℝ) : Real.log (∑ l ∈ range K, Real.exp (x' l)) ≤ Real.log (∑ l ∈ range K, Real.exp (x l)) +
    ∑ j ∈ range K, softmax K x j * (x' j - x j) + 1 / 4 * ∑ j ∈ range K, (x' j - x j) ^ 2 := by
  set v : ℕ → ℝ := fun j => x' j - x j with hv
  have hZ : ∀ t : ℝ, HasDerivAt (fun t : ℝ => ∑ l ∈ range K, Real.exp (x l + t * v l)) (∑ l ∈ range K, Real.exp (x l + t * v l) * v l) t := by
    intro t
    refine HasDerivAt.fun_sum (u := range K) (A := fun l (t : ℝ) => Real.exp (x l + t * v l)) (A' := fun l => Real.exp (x l + t * v l) * v l) (fun l _ => ?_)
    have h := ((((hasDerivAt_id t).mul_const (v l)).const_add (x l)).exp)
    simpa using h
  have hN : ∀ t : ℝ, HasDerivAt (fun t : ℝ => ∑ l ∈ range K, Real.exp (x l + t * v l) * v l) (∑ l ∈ range K, Real.exp (x l + t * v l) * v l ^ 2) t := by
    intro t
    refine HasDerivAt.fun_sum (u := range K) (A := fun l (t : ℝ) => Real.exp (x l + t * v l) * v l) (A' := fun l => Real.exp (x l + t * v l) * v l ^ 2) (fun l _ => ?_)
    have h := ((((hasDerivAt_id t).mul_const (v l)).const_add (x l)).exp).mul_const (v l)
    refine h.congr_deriv ?_
    simp; ring
  have hZ0 : ∀ t : ℝ, 0 < ∑ l ∈ range K, Real.exp (x l + t * v l) := fun t => sumExp_pos K hK _
  have hf : ∀ t : ℝ, HasDerivAt (fun t : ℝ => Real.log (∑ l ∈ range K, Real.exp (x l + t * v l)))
      ((∑ l ∈ range K, Real.exp (x l + t * v l) * v l) / ∑ l ∈ range K, Real.exp (x l + t * v l)) t := fun t => (hZ t).log (hZ0 t).ne'
  have hg := fun t => (hN t).div (hZ t) (hZ0 t).ne'
  have hL : ∀ t : ℝ, ((∑ l ∈ range K, Real.exp (x l + t * v l) * v l ^ 2) * (∑ l ∈ range K, Real.exp (x l + t * v l)) -
      (∑ l ∈ range K, Real.exp (x l + t * v l) * v l) * (∑ l ∈ range K, Real.exp (x l + t * v l) * v l)) /
        (∑ l ∈ range K, Real.exp (x l + t * v l)) ^ 2 ≤ 1 / 2 * ∑ j ∈ range K, v j ^ 2 := by
    intro t
    have h := var_le K hK (p := softmax K (fun l => x l + t * v l)) (v := v) (fun j _ => (softmax_pos K hK _ j).le) (softmax_sum K hK _)
    refine le_trans (le_of_eq ?_) h
    have e : ∀ w : ℕ → ℝ, ∑ j ∈ range K, softmax K (fun l => x l + t * v l) j * w j = (∑ l ∈ range K, Real.exp (x l + t * v l) * w l) / ∑ l ∈ range K, Real.exp (x l + t * v l) := by
      intro w
      rw [Finset.sum_div]
      exact Finset.sum_congr rfl fun j _ => by unfold softmax; ring
    rw [e (fun j => v j ^ 2), e v]
    have := (hZ0 t).ne'
    field_simp
  have := quad_upper hf hg hL
  simp only [one_mul, zero_mul, add_zero] at this
  have e1 : (fun l => x l + v l) = x' := by funext l; simp [hv]
  have e2 : (∑ l ∈ range K, Real.exp (x l) * v l) / ∑ l ∈ range K, Real.exp (x l) = ∑ j ∈ range K, softmax K x j * v j := by
    rw [Finset.sum_div]
    exact Finset.sum_congr rfl fun j _ => by unfold softmax; ring
  rw [e2] at this
  have e3 : ∀ l, x l + v l = x' l := fun l => congrFun e1 l
  simp only [e3] at this
  linarith

end

/-- **C133 (softmax cross entropy).** The loss of a row of logits with labels of sum `s ≥ 0` is `s/2`-smooth: it lies below its tangent plus
`s/4 · ‖x' - x‖²`; for labels forming a distribution, moving every logit by at most `B` changes it by at most `2B`. -/
theorem C133_softmax (b : List ℕ) (K : ℕ) (hK : 0 < K) (y : ℕ → ℕ → ℝ) :
    ∃ L : (ℕ → ℕ → ℝ) → ℕ → ℝ, (∀ x, softmaxCE (rowsT b K x) (rowsT b K y) = .ok (Tensor.tens b (L x))) ∧
      ∀ x r x',
        (0 ≤ ∑ l ∈ range K, y r l → L x' r ≤ L x r +
          ∑ j ∈ range K, ((∑ l ∈ range K, y r l) * softmax K (x r) j - y r j) * (x' r j - x r j) +
            (∑ l ∈ range K, y r l) / 4 * ∑ j ∈ range K, (x' r j - x r j) ^ 2) ∧
        ((∀ j, 0 ≤ y r j) → ∑ l ∈ range K, y r l = 1 → ∀ B, (∀ j < K, |x' r j - x r j| ≤ B) → |L x' r - L x r| ≤ 2 * B) := by
  refine ⟨fun x r => -∑ j ∈ range K, y r j * Real.log (softmax K (x r) j), fun x => C59_softmax_ce b K hK x y, ?_⟩
  intro x r x'
  have split : ∀ x x' : ℕ → ℕ → ℝ, ∑ j ∈ range K, ((∑ l ∈ range K, y r l) * softmax K (x r) j - y r j) * (x' r j - x r j) =
      (∑ l ∈ range K, y r l) * ∑ j ∈ range K, softmax K (x r) j * (x' r j - x r j) -
        (∑ j ∈ range K, y r j * x' r j - ∑ j ∈ range K, y r j * x r j) := by
    intro x x'
    rw [Finset.mul_sum, ← Finset.sum_sub_distrib, ← Finset.sum_sub_distrib]
    exact Finset.sum_congr rfl fun j _ => by ring
  simp only [ce_eq K hK]
  constructor
  · intro hs
    have h1 := mul_le_mul_of_nonneg_left (lse_upper K hK (x r) (x' r)) hs
    rw [split]
    linarith
  · intro hy h1 B hB
    have one : ∀ x x' : ℕ → ℕ → ℝ, (∀ j < K, |x' r j - x r j| ≤ B) →
        (∑ l ∈ range K, y r l) * Real.log (∑ l ∈ range K, Real.exp (x r l)) - ∑ j ∈ range K, y r j * x r j -
        ((∑ l ∈ range K, y r l) * Real.log (∑ l ∈ range K, Real.exp (x' r l)) - ∑ j ∈ range K, y r j * x' r j) ≤ 2 * B := by
      intro x x' hB
      have h2 := lse_tangent K hK (x r) (x' r)
      have h3 := split x x'
      rw [h1] at h3 ⊢
      have h4 : |∑ j ∈ range K, (1 * softmax K (x r) j - y r j) * (x' r j - x r j)| ≤ 2 * B := by
        refine (Finset.abs_sum_le_sum_abs _ _).trans ?_
        calc ∑ j ∈ range K, |(1 * softmax K (x r) j - y r j) * (x' r j - x r j)| ≤ ∑ j ∈ range K, (softmax K (x r) j + y r j) * B := by
              refine Finset.sum_le_sum fun j hj => ?_
              rw [abs_mul]
              refine mul_le_mul ?_ (hB j (Finset.mem_range.1 hj)) (abs_nonneg _) (add_nonneg (softmax_pos K hK _ j).le (hy j))
              rw [one_mul, abs_le]
              have := softmax_pos K hK (x r) j
              have := hy j
              constructor <;> linarith
          _ = 2 * B := by rw [← Finset.sum_mul, Finset.sum_add_distrib, softmax_sum K hK, h1]; ring
      have h5 := (abs_le.1 h4).1
      linarith
    rw [abs_le]
    constructor
    · have := one x x' hB
      linarith
    · have := one x' x (fun j hj => by rw [abs_sub_comm]; exact hB j hj)
      linarith

/-- **C133 (sigmoid cross entropy).** Entry by entry, the loss is `1/4`-smooth in the logit for every label; for labels in `[0, 1]` it is 1-Lipschitz. -/
theorem C133_sigmoid (s : List ℕ) (y : ℕ → ℝ) :
    ∃ L : ℕ → ℝ → ℝ, (∀ x : ℕ → ℝ, sigmoidBCE (Tensor.tens s x) (Tensor.tens s y) = .ok (Tensor.tens s (fun i => L i (x i)))) ∧
      ∀ i z z', L i z' ≤ L i z + (sigmoid z - y i) * (z' - z) + 1 / 8 * (z' - z) ^ 2 ∧
        (0 ≤ y i → y i ≤ 1 → |L i z' - L i z| ≤ |z' - z|) := by
  refine ⟨fun i z => bernoulliCE (y i) (sigmoid z), fun x => C58_sigmoid_bce s x y, fun i z z' => ⟨?_, fun h0 h1 => ?_⟩⟩
  · have hσ : ∀ w : ℝ, HasDerivAt sigmoid (sigmoid w * (1 - sigmoid w)) w := by
      intro w
      have h : HasDerivAt (fun w : ℝ => Real.exp w / (1 + Real.exp w)) ((Real.exp w * (1 + Real.exp w) - Real.exp w * Real.exp w) / (1 + Real.exp w) ^ 2) w :=
        (Real.hasDerivAt_exp w).div ((Real.hasDerivAt_exp w).const_add 1) (by positivity)
      have e : sigmoid = fun w : ℝ => Real.exp w / (1 + Real.exp w) := funext sigmoid_eq_exp
      rw [e]
      refine h.congr_deriv ?_
      have : (1 + Real.exp w) ≠ 0 := by positivity
      field_simp
    have hlin : ∀ t : ℝ, HasDerivAt (fun t : ℝ => z + t * (z' - z)) (z' - z) t := fun t => by
      have := ((hasDerivAt_id t).mul_const (z' - z)).const_add z
      simpa using this
    have hf : ∀ t : ℝ, HasDerivAt (fun t : ℝ => bernoulliCE (y i) (sigmoid (z + t * (z' - z)))) ((sigmoid (z + t * (z' - z)) - y i) * (z' - z)) t :=
      fun t => (bce_deriv (y i) _).comp t (hlin t)
    have hg : ∀ t : ℝ, HasDerivAt (fun t : ℝ => (sigmoid (z + t * (z' - z)) - y i) * (z' - z))
        ((sigmoid (z + t * (z' - z)) * (1 - sigmoid (z + t * (z' - z))) * (z' - z)) * (z' - z)) t :=
      fun t => (((hσ _).comp t (hlin t)).sub_const (y i)).mul_const (z' - z)
    have := quad_upper hf hg (L := 1 / 4 * (z' - z) ^ 2) (fun t => by
      generalize sigmoid (z + t * (z' - z)) = q
      nlinarith [mul_nonneg (sq_nonneg (q - 1 / 2)) (sq_nonneg (z' - z))])
    simp only [one_mul, zero_mul, add_zero, add_sub_cancel] at this
    linarith
  · have ht := bce_tangent (y i) z z'
    have ht' := bce_tangent (y i) z' z
    have b : ∀ w d : ℝ, |(sigmoid w - y i) * d| ≤ |d| := fun w d => by
      rw [abs_mul]
      have : |sigmoid w - y i| ≤ 1 := by
        have := sigmoid_pos w
        have := sigmoid_lt_one w
        rw [abs_le]; constructor <;> linarith
      nlinarith [abs_nonneg d]
    have b1 := (abs_le.1 (b z (z' - z))).1
    have b2 := (abs_le.1 (b z' (z - z'))).1
    rw [abs_sub_comm z z'] at b2
    rw [abs_le]
    constructor <;> linarith

/-- **C133 (regression losses).** Entry by entry, `l2_loss` equals its parabola of curvature 1 and `huber_loss` lies below it (both are 1-smooth);
`huber_loss` is `delta`-Lipschitz. -/
theorem C133_regression (s : List ℕ) (t : ℕ → ℝ) (d : ℝ) (hd : 0 < d) :
    ∃ L H : ℝ → ℝ,
      (∀ x : ℕ → ℝ, l2Loss (Tensor.tens s x) (some (Tensor.tens s t)) = .ok (Tensor.tens s (fun i => L (x i - t i)))) ∧
      (∀ x : ℕ → ℝ, huberLoss (Tensor.tens s x) (some (Tensor.tens s t)) d = .ok (Tensor.tens s (fun i => H (x i - t i)))) ∧
      ∀ e e', L e' = L e + e * (e' - e) + 1 / 2 * (e' - e) ^ 2 ∧
        H e' ≤ H e + max (-d) (min e d) * (e' - e) + 1 / 2 * (e' - e) ^ 2 ∧ |H e' - H e| ≤ d * |e' - e| := by
  refine ⟨fun e => 1 / 2 * e ^ 2, huber d, fun x => (C56_l2 s x t).1, fun x => (C56_huber s x t d).1, fun e e' => ⟨by ring, ?_, ?_⟩⟩
  · have := (huber_tangent hd e e').2
    unfold clipTo at this
    linarith
  · have h1 := (huber_tangent hd e e').1
    have h2 := (huber_tangent hd e' e).1
    have hc : ∀ w z : ℝ, |clipTo d w * z| ≤ d * |z| := fun w z => by
      rw [abs_mul]
      refine mul_le_mul_of_nonneg_right ?_ (abs_nonneg _)
      unfold clipTo
      rw [abs_le]
      exact ⟨le_max_left _ _, max_le (by linarith) (min_le_right _ _)⟩
    have b1 := (abs_le.1 (hc e (e' - e))).1
    have b2 := (abs_le.1 (hc e' (e - e'))).1
    rw [abs_sub_comm e e'] at b2
    rw [abs_le]
    constructor <;> linarith

/-- Non-vacuity: one-hot labels form a distribution. -/
example : (∀ j : ℕ, (0 : ℝ) ≤ if j = 1 then 1 else 0) ∧ ∑ l ∈ range 3, (if l = 1 then (1 : ℝ) else 0) = 1 := by
  refine ⟨fun j => by split_ifs <;> norm_num, by norm_num [Finset.sum_range_succ]⟩

end Optax
