import Verif.Props.LossSmooth
import Verif.Props.Convergence
import Verif.Props.Examples

/-!
# C134: training linear models end to end
-/

set_option linter.unusedSectionVars false

namespace Optax
open Finset Examples

variable (σ : Spec)

/-- the logits of a model affine in its parameters: `offset + Σ feature · parameter`, one per example `r` and class `j` -/
noncomputable def logit (c : ℕ → ℕ → ℝ) (φ : ℕ → ℕ → ℕ → ℕ → ℝ) (p : ℕ → ℕ → ℝ) (r j : ℕ) : ℝ :=
  c r j + ∑ x ∈ idx σ, φ r j x.1 x.2 * p x.1 x.2

/-- `G` is the gradient of `loss` on parameter trees of layout `σ`: the derivative in every direction -/
def IsGradient (loss : Params ℝ → ℝ) (G : (ℕ → ℕ → ℝ) → ℕ → ℕ → ℝ) : Prop :=
  ∀ p v : ℕ → ℕ → ℝ, HasDerivAt (fun t : ℝ => loss (mk σ (fun k i => p k i + t * v k i))) (treeInner σ (G p) v) 0

/-- squeezed between its tangent and a parabola of curvature `C`, a function has that tangent as derivative -/
theorem deriv_of_sandwich {f : ℝ → ℝ} {a C : ℝ} (h1 : ∀ t, f 0 + a * t ≤ f t) (h2 : ∀ t, f t ≤ f 0 + a * t + C * t ^ 2) : HasDerivAt f a 0 := by
  rw [hasDerivAt_iff_isLittleO]
  have hb : (fun t : ℝ => f t - f 0 - (t - 0) • a) =O[nhds 0] (fun t : ℝ => t ^ 2) := by
    refine Asymptotics.IsBigO.of_bound |C| (Filter.Eventually.of_forall fun t => ?_)
    rw [Real.norm_eq_abs, Real.norm_eq_abs, smul_eq_mul, sub_zero, abs_of_nonneg (sq_nonneg t), abs_of_nonneg (by linarith [h1 t])]
    have := h2 t
    have := mul_le_mul_of_nonneg_right (le_abs_self C) (sq_nonneg t)
    linarith
  refine hb.trans_isLittleO ?_
  have := Asymptotics.isLittleO_pow_id (𝕜 := ℝ) (n := 2) (by norm_num)
  simpa using this

theorem logit_add (c : ℕ → ℕ → ℝ) (φ : ℕ → ℕ → ℕ → ℕ → ℝ) (p q : ℕ → ℕ → ℝ) (r j : ℕ) :
    logit σ c φ q r j - logit σ c φ p r j = ∑ x ∈ idx σ, φ r j x.1 x.2 * (q x.1 x.2 - p x.1 x.2) := by
  unfold logit
  simp only [mul_sub, Finset.sum_sub_distrib]
  ring

/-- the average of convex smooth losses of affine logits lies above its tangents and below their parabolas -/
theorem affine_sandwich (M K : ℕ) (ℓ : ℕ → (ℕ → ℝ) → ℝ) (d : ℕ → (ℕ → ℝ) → ℕ → ℝ) (β B : ℕ → ℝ) (hβ : ∀ r < M, 0 ≤ β r)
    (hc : ∀ r < M, ∀ z z', ℓ r z + ∑ j ∈ range K, d r z j * (z' j - z j) ≤ ℓ r z')
    (hs : ∀ r < M, ∀ z z', ℓ r z' ≤ ℓ r z + ∑ j ∈ range K, d r z j * (z' j - z j) + β r / 2 * ∑ j ∈ range K, (z' j - z j) ^ 2)
    (c : ℕ → ℕ → ℝ) (φ : ℕ → ℕ → ℕ → ℕ → ℝ)
    (hB : ∀ r < M, ∀ v : ℕ → ℕ → ℝ, ∑ j ∈ range K, (∑ x ∈ idx σ, φ r j x.1 x.2 * v x.1 x.2) ^ 2 ≤ B r * sqNorm σ v)
    (loss : Params ℝ → ℝ) (hloss : ∀ p, loss (mk σ p) = (∑ r ∈ range M, ℓ r (logit σ c φ p r)) / M)
    (G0 : (ℕ → ℕ → ℝ) → ℕ → ℕ → ℝ) (hG0 : ∀ p k i, G0 p k i = (∑ r ∈ range M, ∑ j ∈ range K, d r (logit σ c φ p r) j * φ r j k i) / M) :
    (∀ p q : ℕ → ℕ → ℝ, loss (mk σ p) + treeInner σ (G0 p) (fun k i => q k i - p k i) ≤ loss (mk σ q)) ∧
    (∀ p q : ℕ → ℕ → ℝ, loss (mk σ q) ≤ loss (mk σ p) + treeInner σ (G0 p) (fun k i => q k i - p k i) +
      (∑ r ∈ range M, β r * B r) / M / 2 * sqDist σ q p) := by
  have hM0 : (0 : ℝ) ≤ M := Nat.cast_nonneg M
  have inner0 : ∀ p v : ℕ → ℕ → ℝ, treeInner σ (G0 p) v =
      (∑ r ∈ range M, ∑ j ∈ range K, d r (logit σ c φ p r) j * ∑ x ∈ idx σ, φ r j x.1 x.2 * v x.1 x.2) / M := by
    intro p v
    unfold treeInner
    simp only [hG0, Finset.mul_sum, div_mul_eq_mul_div]
    rw [← Finset.sum_div]
    congr 1
    simp only [Finset.sum_mul]
    rw [Finset.sum_comm]
    refine Finset.sum_congr rfl fun r _ => ?_
    rw [Finset.sum_comm]
    refine Finset.sum_congr rfl fun j _ => Finset.sum_congr rfl fun x _ => by ring
  have conv0 : ∀ p q : ℕ → ℕ → ℝ, loss (mk σ p) + treeInner σ (G0 p) (fun k i => q k i - p k i) ≤ loss (mk σ q) := by
    intro p q
    rw [hloss, hloss, inner0, ← add_div, ← Finset.sum_add_distrib]
    refine div_le_div_of_nonneg_right (Finset.sum_le_sum fun r hr => ?_) hM0
    have := hc r (Finset.mem_range.1 hr) (logit σ c φ p r) (logit σ c φ q r)
    simpa only [logit_add] using this
  have smooth0 : ∀ p q : ℕ → ℕ → ℝ, loss (mk σ q) ≤ loss (mk σ p) + treeInner σ (G0 p) (fun k i => q k i - p k i) +
      (∑ r ∈ range M, β r * B r) / M / 2 * sqDist σ q p := by
    intro p q
    rw [hloss, hloss, inner0, ← add_div, ← Finset.sum_add_distrib, div_right_comm, div_mul_eq_mul_div, ← add_div]
    refine div_le_div_of_nonneg_right ?_ hM0
    rw [Finset.sum_div, Finset.sum_mul, ← Finset.sum_add_distrib]
    refine Finset.sum_le_sum fun r hr => ?_
    have h := hs r (Finset.mem_range.1 hr) (logit σ c φ p r) (logit σ c φ q r)
    have h2 := mul_le_mul_of_nonneg_left (hB r (Finset.mem_range.1 hr) (fun k i => q k i - p k i)) (div_nonneg (hβ r (Finset.mem_range.1 hr)) (by norm_num : (0 : ℝ) ≤ 2))
    simp only [logit_add] at h
    have e : sqNorm σ (fun k i => q k i - p k i) = sqDist σ q p := rfl
    rw [e] at h2
    refine h.trans ?_
    linarith
  exact ⟨conv0, smooth0⟩

/-- tangents squeezed this way are gradients -/
theorem isGradient_of_sandwich {C : ℝ} {loss : Params ℝ → ℝ} {G0 : (ℕ → ℕ → ℝ) → ℕ → ℕ → ℝ}
    (conv0 : ∀ p q : ℕ → ℕ → ℝ, loss (mk σ p) + treeInner σ (G0 p) (fun k i => q k i - p k i) ≤ loss (mk σ q))
    (smooth0 : ∀ p q : ℕ → ℕ → ℝ, loss (mk σ q) ≤ loss (mk σ p) + treeInner σ (G0 p) (fun k i => q k i - p k i) + C * sqDist σ q p) :
    IsGradient σ loss G0 := by
  intro p v
  have e : ∀ t : ℝ, treeInner σ (G0 p) (fun k i => (p k i + t * v k i) - p k i) = treeInner σ (G0 p) v * t := fun t => by
    unfold treeInner; rw [Finset.sum_mul]; exact Finset.sum_congr rfl fun x _ => by ring
  refine deriv_of_sandwich (C := C * sqNorm σ v) (fun t => ?_) (fun t => ?_)
  · have := conv0 p (fun k i => p k i + t * v k i)
    rw [e] at this
    simpa using this
  · have := smooth0 p (fun k i => p k i + t * v k i)
    have e2 : sqDist σ (fun k i => p k i + t * v k i) p = sqNorm σ v * t ^ 2 := by
      unfold sqDist sqNorm; rw [Finset.sum_mul]; exact Finset.sum_congr rfl fun x _ => by ring
    rw [e, e2] at this
    simp only [zero_mul, add_zero]
    rw [mul_assoc]
    exact this

/-- the average of convex smooth losses of affine logits is convex and smooth, with the gradient whatever computes it -/
theorem affine_model (M K : ℕ) (ℓ : ℕ → (ℕ → ℝ) → ℝ) (d : ℕ → (ℕ → ℝ) → ℕ → ℝ) (β B : ℕ → ℝ) (hβ : ∀ r < M, 0 ≤ β r)
    (hc : ∀ r < M, ∀ z z', ℓ r z + ∑ j ∈ range K, d r z j * (z' j - z j) ≤ ℓ r z')
    (hs : ∀ r < M, ∀ z z', ℓ r z' ≤ ℓ r z + ∑ j ∈ range K, d r z j * (z' j - z j) + β r / 2 * ∑ j ∈ range K, (z' j - z j) ^ 2)
    (c : ℕ → ℕ → ℝ) (φ : ℕ → ℕ → ℕ → ℕ → ℝ)
    (hB : ∀ r < M, ∀ v : ℕ → ℕ → ℝ, ∑ j ∈ range K, (∑ x ∈ idx σ, φ r j x.1 x.2 * v x.1 x.2) ^ 2 ≤ B r * sqNorm σ v)
    (loss : Params ℝ → ℝ) (hloss : ∀ p, loss (mk σ p) = (∑ r ∈ range M, ℓ r (logit σ c φ p r)) / M)
    (G : (ℕ → ℕ → ℝ) → ℕ → ℕ → ℝ) (hG : IsGradient σ loss G) :
    Smooth σ ((∑ r ∈ range M, β r * B r) / M) loss G ∧ StronglyConvex σ 0 loss G := by
  obtain ⟨conv0, smooth0⟩ := affine_sandwich σ M K ℓ d β B hβ hc hs c φ hB loss hloss
    (fun p k i => (∑ r ∈ range M, ∑ j ∈ range K, d r (logit σ c φ p r) j * φ r j k i) / M) (fun _ _ _ => rfl)
  have hG0 := isGradient_of_sandwich σ conv0 smooth0
  refine ⟨fun p q => ?_, fun p q => ?_⟩
  · rw [(hG p _).unique (hG0 p _)]; exact smooth0 p q
  · rw [(hG p _).unique (hG0 p _)]; have := conv0 p q; linarith

/-- `C76_convex` with one run for all comparators -/
theorem convex_train (η : ℝ) (nes : Bool) (L : ℝ) (hη : 0 < η) (hL : L * η ≤ 1) (loss : Params ℝ → ℝ)
    (grad : ℕ → Params ℝ → Params ℝ) (G : (ℕ → ℕ → ℝ) → ℕ → ℕ → ℝ) (hg : ∀ n p, grad n (mk σ p) = mk σ (G p))
    (hs : Smooth σ L loss G) (hc : StronglyConvex σ 0 loss G) (p0 : ℕ → ℕ → ℝ) :
    ∃ P, P 0 = p0 ∧ Visits (sgd (.scalar η) none nes) grad σ P ∧
      ∀ (q : ℕ → ℕ → ℝ) (n : ℕ), n ≠ 0 → loss (mk σ (P n)) - loss (mk σ q) ≤ sqDist σ p0 q / (2 * η * n) := by
  obtain ⟨P, hP0, hV, -⟩ := C76_convex σ η nes _ hη hL loss grad G hg hs hc p0 p0
  refine ⟨P, hP0, hV, fun q n hn => ?_⟩
  obtain ⟨P', hP0', hV', hb'⟩ := C76_convex σ η nes _ hη hL loss grad G hg hs hc p0 q
  have := hb' n hn
  obtain ⟨s, h1, h2⟩ := hV
  obtain ⟨s', h1', h2'⟩ := hV'
  rw [hP0] at h1 h2
  rw [hP0'] at h1' h2'
  rw [h1] at h1'
  cases h1'
  obtain ⟨_, h3⟩ := h2 n
  obtain ⟨_, h3'⟩ := h2' n
  rw [h3] at h3'
  have e : mk σ (P n) = mk σ (P' n) := congrArg Prod.fst (Except.ok.inj h3')
  rw [e]
  exact this

/-- logistic regression is smooth and convex -/
theorem logistic_convex (M : ℕ) (c : ℕ → ℝ) (φ : ℕ → ℕ → ℕ → ℝ) (y : ℕ → ℝ)
    (loss : Params ℝ → ℝ)
    (hloss : ∀ p, ∃ T, sigmoidBCE (Tensor.tens [M] (fun r => c r + ∑ x ∈ idx σ, φ r x.1 x.2 * p x.1 x.2)) (Tensor.tens [M] y) = .ok T ∧ loss (mk σ p) = meanAll T)
    (G : (ℕ → ℕ → ℝ) → ℕ → ℕ → ℝ) (hG : IsGradient σ loss G) :
    Smooth σ ((∑ r ∈ range M, 1 / 4 * sqNorm σ (φ r)) / M) loss G ∧ StronglyConvex σ 0 loss G := by
  have hloss' : ∀ p, loss (mk σ p) = (∑ r ∈ range M, bernoulliCE (y r) (sigmoid (logit σ (fun r _ => c r) (fun r _ => φ r) p r 0))) / M := by
    intro p
    obtain ⟨T, h1, h2⟩ := hloss p
    rw [C58_sigmoid_bce] at h1
    rw [h2, ← Except.ok.inj h1, meanAll_tens]
    rfl
  obtain ⟨L, hL1, hL2⟩ := C133_sigmoid [M] y
  have hLe : ∀ r < M, ∀ z, L r z = bernoulliCE (y r) (sigmoid z) := by
    intro r hr z
    have h := hL1 (fun _ => z)
    rw [C58_sigmoid_bce] at h
    have h := Except.ok.inj h
    unfold Tensor.tens at h
    simp only [Tensor.mk.injEq, true_and] at h
    exact ((List.map_inj_left.1 h) r (by simpa using hr)).symm
  exact affine_model σ M 1 (fun r z => bernoulliCE (y r) (sigmoid (z 0))) (fun r z _ => sigmoid (z 0) - y r) (fun _ => 1 / 4) (fun r => sqNorm σ (φ r))
    (fun _ _ => by norm_num)
    (fun r _ z z' => by simpa using bce_tangent (y r) (z 0) (z' 0))
    (fun r hr z z' => by
      have := (hL2 r (z 0) (z' 0)).1
      rw [hLe r hr, hLe r hr] at this
      simp only [Finset.sum_range_one]
      linarith)
    (fun r _ => c r) (fun r _ => φ r)
    (fun r _ v => by
      rw [Finset.sum_range_one]
      exact Finset.sum_mul_sq_le_sq_mul_sq _ _ _)
    loss hloss' G hG

/-- **C134 (logistic regression).** A model whose logits are affine in its parameters (weights times features plus bias; any layout of the parameters),
the loss being the mean of `sigmoid_binary_cross_entropy` over `M` examples with any labels, trained by `sgd` on its gradient with a learning rate at most
`4 / mean ‖φᵣ‖²` (`φᵣ` the features): after `n` steps the loss is within `‖p₀ - q‖² / (2ηn)` of the loss of every parameter vector `q`; and on
separable data (labels 0/1, some `q` with positive margin) the training loss tends to zero. -/
theorem C134_logistic (M : ℕ) (c : ℕ → ℝ) (φ : ℕ → ℕ → ℕ → ℝ) (y : ℕ → ℝ)
    (loss : Params ℝ → ℝ)
    (hloss : ∀ p, ∃ T, sigmoidBCE (Tensor.tens [M] (fun r => c r + ∑ x ∈ idx σ, φ r x.1 x.2 * p x.1 x.2)) (Tensor.tens [M] y) = .ok T ∧ loss (mk σ p) = meanAll T)
    (grad : ℕ → Params ℝ → Params ℝ) (G : (ℕ → ℕ → ℝ) → ℕ → ℕ → ℝ) (hgrad : ∀ n p, grad n (mk σ p) = mk σ (G p)) (hG : IsGradient σ loss G)
    (η : ℝ) (nes : Bool) (hη : 0 < η) (hL : η * (∑ r ∈ range M, sqNorm σ (φ r)) ≤ 4 * M) (hM : 0 < M) (p0 : ℕ → ℕ → ℝ) :
    ∃ P, P 0 = p0 ∧ Visits (sgd (.scalar η) none nes) grad σ P ∧
      (∀ (q : ℕ → ℕ → ℝ) (n : ℕ), n ≠ 0 → loss (mk σ (P n)) - loss (mk σ q) ≤ sqDist σ p0 q / (2 * η * n)) ∧
      ((∀ r < M, c r = 0 ∧ (y r = 0 ∨ y r = 1)) → (∃ (q : ℕ → ℕ → ℝ) (γ : ℝ), 0 < γ ∧ ∀ r < M, γ ≤ (2 * y r - 1) * ∑ x ∈ idx σ, φ r x.1 x.2 * q x.1 x.2) →
        Filter.Tendsto (fun n => loss (mk σ (P n))) Filter.atTop (nhds 0)) := by
  have hloss' : ∀ p, loss (mk σ p) = (∑ r ∈ range M, bernoulliCE (y r) (sigmoid (logit σ (fun r _ => c r) (fun r _ => φ r) p r 0))) / M := by
    intro p
    obtain ⟨T, h1, h2⟩ := hloss p
    rw [C58_sigmoid_bce] at h1
    rw [h2, ← Except.ok.inj h1, meanAll_tens]
    rfl
  obtain ⟨hS, hC⟩ := logistic_convex σ M c φ y loss hloss G hG
  have hM' : (0 : ℝ) < M := Nat.cast_pos.2 hM
  have hLη : (∑ r ∈ range M, 1 / 4 * sqNorm σ (φ r)) / M * η ≤ 1 := by
    rw [← Finset.mul_sum, div_mul_eq_mul_div, div_le_one hM']
    linarith
  obtain ⟨P, hP0, hV, hb⟩ := convex_train σ η nes _ hη hLη loss grad G hgrad hS hC p0
  refine ⟨P, hP0, hV, hb, ?_⟩
  rintro hy ⟨q, γ, hγ, hq⟩
  have hpos : ∀ p, 0 ≤ loss (mk σ p) := by
    intro p
    rw [hloss']
    refine div_nonneg (Finset.sum_nonneg fun r hr => ?_) hM'.le
    rw [bce_eq]
    rcases (hy r (Finset.mem_range.1 hr)).2 with h | h <;> rw [h]
    · have := Real.log_nonneg (x := 1 + Real.exp (logit σ (fun r _ => c r) (fun r _ => φ r) p r 0)) (by linarith [Real.exp_pos (logit σ (fun r _ => c r) (fun r _ => φ r) p r 0)])
      linarith
    · have := Real.log_le_log (Real.exp_pos (logit σ (fun r _ => c r) (fun r _ => φ r) p r 0)) (show _ ≤ 1 + Real.exp (logit σ (fun r _ => c r) (fun r _ => φ r) p r 0) by linarith)
      rw [Real.log_exp] at this
      linarith
  have hfar : ∀ s : ℝ, 0 ≤ s → loss (mk σ (fun k i => s * q k i)) ≤ Real.exp (-(s * γ)) := by
    intro s hs
    rw [hloss', div_le_iff₀ hM']
    calc _ ≤ ∑ r ∈ range M, Real.exp (-(s * γ)) := Finset.sum_le_sum fun r hr => ?_
      _ = Real.exp (-(s * γ)) * M := by rw [Finset.sum_const, Finset.card_range, nsmul_eq_mul, mul_comm]
    obtain ⟨h0, h01⟩ := hy r (Finset.mem_range.1 hr)
    have hm := mul_le_mul_of_nonneg_left (hq r (Finset.mem_range.1 hr)) hs
    have ez : logit σ (fun r _ => c r) (fun r _ => φ r) (fun k i => s * q k i) r 0 = s * ∑ x ∈ idx σ, φ r x.1 x.2 * q x.1 x.2 := by
      unfold logit
      simp only [h0, zero_add]
      rw [Finset.mul_sum]
      exact Finset.sum_congr rfl fun x _ => by ring
    rw [ez]
    generalize ∑ x ∈ idx σ, φ r x.1 x.2 * q x.1 x.2 = z at hm
    have hlog : ∀ w : ℝ, Real.log (1 + Real.exp w) ≤ Real.exp w := fun w => by
      have := Real.log_le_sub_one_of_pos (x := 1 + Real.exp w) (by positivity)
      linarith
    rw [bce_eq]
    rcases h01 with h | h <;> rw [h] at hm ⊢
    · refine le_trans (by linarith [hlog (s * z)]) (Real.exp_le_exp.2 (show s * z ≤ -(s * γ) by linarith))
    · have e : Real.log (1 + Real.exp (s * z)) - 1 * (s * z) = Real.log (1 + Real.exp (-(s * z))) := by
        have : 1 + Real.exp (s * z) = Real.exp (s * z) * (1 + Real.exp (-(s * z))) := by
          rw [mul_add, ← Real.exp_add]; simp; ring
        rw [this, Real.log_mul (Real.exp_pos _).ne' (by positivity), Real.log_exp]
        ring
      rw [e]
      refine le_trans (hlog _) (Real.exp_le_exp.2 (by linarith))
  rw [Metric.tendsto_atTop]
  intro ε hε
  obtain ⟨s, hs0, hs⟩ : ∃ s : ℝ, 0 ≤ s ∧ Real.exp (-(s * γ)) < ε / 2 := by
    refine ⟨max 0 ((1 - Real.log (ε / 2)) / γ), le_max_left _ _, ?_⟩
    rw [← Real.lt_log_iff_exp_lt (half_pos hε)]
    have := mul_le_mul_of_nonneg_right (le_max_right 0 ((1 - Real.log (ε / 2)) / γ)) hγ.le
    rw [div_mul_cancel₀ _ hγ.ne'] at this
    linarith
  set D := sqDist σ p0 (fun k i => s * q k i) with hD
  obtain ⟨N, hN⟩ := exists_nat_gt (D / (2 * η * (ε / 2)))
  refine ⟨N + 1, fun n hn => ?_⟩
  rw [Real.dist_eq, sub_zero, abs_of_nonneg (hpos _)]
  have h1 := hb (fun k i => s * q k i) n (by omega)
  have h2 := hfar s hs0
  have hn' : (0 : ℝ) < n := Nat.cast_pos.2 (by omega)
  have hNn : (N : ℝ) ≤ n := Nat.cast_le.2 (by omega)
  have h3 : D / (2 * η * n) < ε / 2 := by
    rw [div_lt_iff₀ (by positivity)]
    rw [div_lt_iff₀ (by positivity)] at hN
    have : (2 * η * (ε / 2)) * N ≤ (2 * η * (ε / 2)) * n := mul_le_mul_of_nonneg_left hNn (by positivity)
    linarith
  linarith

/-- softmax regression is smooth and convex -/
theorem softmax_convex (M K : ℕ) (hK : 0 < K) (c : ℕ → ℕ → ℝ) (φ : ℕ → ℕ → ℕ → ℕ → ℝ) (y : ℕ → ℕ → ℝ) (hy : ∀ r < M, 0 ≤ ∑ j ∈ range K, y r j)
    (B : ℕ → ℝ) (hB : ∀ r < M, ∀ v : ℕ → ℕ → ℝ, ∑ j ∈ range K, (∑ x ∈ idx σ, φ r j x.1 x.2 * v x.1 x.2) ^ 2 ≤ B r * sqNorm σ v)
    (loss : Params ℝ → ℝ)
    (hloss : ∀ p, ∃ T, softmaxCE (rowsT [M] K (fun r j => c r j + ∑ x ∈ idx σ, φ r j x.1 x.2 * p x.1 x.2)) (rowsT [M] K y) = .ok T ∧ loss (mk σ p) = meanAll T)
    (G : (ℕ → ℕ → ℝ) → ℕ → ℕ → ℝ) (hG : IsGradient σ loss G) :
    Smooth σ ((∑ r ∈ range M, (∑ j ∈ range K, y r j) / 2 * B r) / M) loss G ∧ StronglyConvex σ 0 loss G := by
  have hloss' : ∀ p, loss (mk σ p) = (∑ r ∈ range M, -∑ j ∈ range K, y r j * Real.log (softmax K (logit σ c φ p r) j)) / M := by
    intro p
    obtain ⟨T, h1, h2⟩ := hloss p
    rw [C59_softmax_ce [M] K hK] at h1
    rw [h2, ← Except.ok.inj h1, meanAll_tens]
    rfl
  exact affine_model σ M K (fun r z => -∑ j ∈ range K, y r j * Real.log (softmax K z j))
    (fun r z j => (∑ l ∈ range K, y r l) * softmax K z j - y r j) (fun r => (∑ j ∈ range K, y r j) / 2) B
    (fun r hr => div_nonneg (hy r hr) (by norm_num))
    (fun r hr z z' => by
      simp only [ce_eq K hK]
      have h := mul_le_mul_of_nonneg_left (lse_tangent K hK z z') (hy r hr)
      have e : ∑ j ∈ range K, ((∑ l ∈ range K, y r l) * softmax K z j - y r j) * (z' j - z j) =
          (∑ l ∈ range K, y r l) * ∑ j ∈ range K, softmax K z j * (z' j - z j) - (∑ j ∈ range K, y r j * z' j - ∑ j ∈ range K, y r j * z j) := by
        rw [Finset.mul_sum, ← Finset.sum_sub_distrib, ← Finset.sum_sub_distrib]
        exact Finset.sum_congr rfl fun j _ => by ring
      rw [e]
      linarith)
    (fun r hr z z' => by
      simp only [ce_eq K hK]
      have h := mul_le_mul_of_nonneg_left (lse_upper K hK z z') (hy r hr)
      have e : ∑ j ∈ range K, ((∑ l ∈ range K, y r l) * softmax K z j - y r j) * (z' j - z j) =
          (∑ l ∈ range K, y r l) * ∑ j ∈ range K, softmax K z j * (z' j - z j) - (∑ j ∈ range K, y r j * z' j - ∑ j ∈ range K, y r j * z j) := by
        rw [Finset.mul_sum, ← Finset.sum_sub_distrib, ← Finset.sum_sub_distrib]
        exact Finset.sum_congr rfl fun j _ => by ring
      rw [e]
      linarith)
    c φ hB loss hloss' G hG

/-- **C134 (softmax regression).** The same for the mean of `softmax_cross_entropy` over `K` classes, labels of non-negative sum per row; `B r` bounds the
squared operator norm of the map from parameters to the logits of example `r` (for weights times features it is `‖featuresᵣ‖²`, whatever `K`). -/
theorem C134_softmax (M K : ℕ) (hK : 0 < K) (c : ℕ → ℕ → ℝ) (φ : ℕ → ℕ → ℕ → ℕ → ℝ) (y : ℕ → ℕ → ℝ) (hy : ∀ r < M, 0 ≤ ∑ j ∈ range K, y r j)
    (B : ℕ → ℝ) (hB : ∀ r < M, ∀ v : ℕ → ℕ → ℝ, ∑ j ∈ range K, (∑ x ∈ idx σ, φ r j x.1 x.2 * v x.1 x.2) ^ 2 ≤ B r * sqNorm σ v)
    (loss : Params ℝ → ℝ)
    (hloss : ∀ p, ∃ T, softmaxCE (rowsT [M] K (fun r j => c r j + ∑ x ∈ idx σ, φ r j x.1 x.2 * p x.1 x.2)) (rowsT [M] K y) = .ok T ∧ loss (mk σ p) = meanAll T)
    (grad : ℕ → Params ℝ → Params ℝ) (G : (ℕ → ℕ → ℝ) → ℕ → ℕ → ℝ) (hgrad : ∀ n p, grad n (mk σ p) = mk σ (G p)) (hG : IsGradient σ loss G)
    (η : ℝ) (nes : Bool) (hη : 0 < η) (hL : η * (∑ r ∈ range M, (∑ j ∈ range K, y r j) * B r) ≤ 2 * M) (hM : 0 < M) (p0 : ℕ → ℕ → ℝ) :
    ∃ P, P 0 = p0 ∧ Visits (sgd (.scalar η) none nes) grad σ P ∧
      ∀ (q : ℕ → ℕ → ℝ) (n : ℕ), n ≠ 0 → loss (mk σ (P n)) - loss (mk σ q) ≤ sqDist σ p0 q / (2 * η * n) := by
  obtain ⟨hS, hC⟩ := softmax_convex σ M K hK c φ y hy B hB loss hloss G hG
  have hM' : (0 : ℝ) < M := Nat.cast_pos.2 hM
  refine convex_train σ η nes _ hη ?_ loss grad G hgrad hS hC p0
  have e : ∑ r ∈ range M, (∑ j ∈ range K, y r j) / 2 * B r = 1 / 2 * ∑ r ∈ range M, (∑ j ∈ range K, y r j) * B r := by
    rw [Finset.mul_sum]; exact Finset.sum_congr rfl fun r _ => by ring
  rw [e, div_mul_eq_mul_div, div_le_one hM']
  linarith

/-- linear regression is smooth and convex -/
theorem regression_convex (M : ℕ) (hub : Option ℝ) (hhub : ∀ d, hub = some d → 0 < d) (c : ℕ → ℝ) (φ : ℕ → ℕ → ℕ → ℝ) (t : ℕ → ℝ)
    (loss : Params ℝ → ℝ)
    (hloss : ∀ p, ∃ T, (match hub with
        | none => l2Loss (Tensor.tens [M] (fun r => c r + ∑ x ∈ idx σ, φ r x.1 x.2 * p x.1 x.2)) (some (Tensor.tens [M] t))
        | some d => huberLoss (Tensor.tens [M] (fun r => c r + ∑ x ∈ idx σ, φ r x.1 x.2 * p x.1 x.2)) (some (Tensor.tens [M] t)) d) = .ok T ∧
      loss (mk σ p) = meanAll T)
    (G : (ℕ → ℕ → ℝ) → ℕ → ℕ → ℝ) (hG : IsGradient σ loss G) :
    Smooth σ ((∑ r ∈ range M, 1 * sqNorm σ (φ r)) / M) loss G ∧ StronglyConvex σ 0 loss G := by
  have key : ∃ L D : ℝ → ℝ, (∀ p, loss (mk σ p) = (∑ r ∈ range M, L (logit σ (fun r _ => c r) (fun r _ => φ r) p r 0 - t r)) / M) ∧
      ∀ e e', L e + D e * (e' - e) ≤ L e' ∧ L e' ≤ L e + D e * (e' - e) + 1 / 2 * (e' - e) ^ 2 := by
    rcases hub with _ | d
    · refine ⟨fun e => 1 / 2 * e ^ 2, fun e => e, fun p => ?_, fun e e' => ⟨by nlinarith [sq_nonneg (e' - e)], le_of_eq (by ring)⟩⟩
      obtain ⟨T, h1, h2⟩ := hloss p
      simp only [(C56_l2 [M] _ t).1] at h1
      rw [h2, ← Except.ok.inj h1, meanAll_tens]
      rfl
    · refine ⟨huber d, fun e => clipTo d e, fun p => ?_, fun e e' => ?_⟩
      · obtain ⟨T, h1, h2⟩ := hloss p
        simp only [(C56_huber [M] _ t d).1] at h1
        rw [h2, ← Except.ok.inj h1, meanAll_tens]
        rfl
      · have h := huber_tangent (hhub d rfl) e e'
        exact ⟨by linarith [h.1], by linarith [h.2]⟩
  obtain ⟨L, D, hl, hLD⟩ := key
  exact affine_model σ M 1 (fun r z => L (z 0 - t r)) (fun r z _ => D (z 0 - t r)) (fun _ => 1) (fun r => sqNorm σ (φ r))
    (fun _ _ => by norm_num)
    (fun r _ z z' => by
      have := (hLD (z 0 - t r) (z' 0 - t r)).1
      rw [sub_sub_sub_cancel_right] at this
      simpa using this)
    (fun r _ z z' => by
      have := (hLD (z 0 - t r) (z' 0 - t r)).2
      rw [sub_sub_sub_cancel_right] at this
      simpa using this)
    (fun r _ => c r) (fun r _ => φ r)
    (fun r _ v => by
      rw [Finset.sum_range_one]
      exact Finset.sum_mul_sq_le_sq_mul_sq _ _ _)
    loss hl G hG

/-- **C134 (least squares and robust regression).** The same for the mean of `l2_loss` (`hub = none`) or `huber_loss` (`hub = some delta`). -/
theorem C134_regression (M : ℕ) (hub : Option ℝ) (hhub : ∀ d, hub = some d → 0 < d) (c : ℕ → ℝ) (φ : ℕ → ℕ → ℕ → ℝ) (t : ℕ → ℝ)
    (loss : Params ℝ → ℝ)
    (hloss : ∀ p, ∃ T, (match hub with
        | none => l2Loss (Tensor.tens [M] (fun r => c r + ∑ x ∈ idx σ, φ r x.1 x.2 * p x.1 x.2)) (some (Tensor.tens [M] t))
        | some d => huberLoss (Tensor.tens [M] (fun r => c r + ∑ x ∈ idx σ, φ r x.1 x.2 * p x.1 x.2)) (some (Tensor.tens [M] t)) d) = .ok T ∧
      loss (mk σ p) = meanAll T)
    (grad : ℕ → Params ℝ → Params ℝ) (G : (ℕ → ℕ → ℝ) → ℕ → ℕ → ℝ) (hgrad : ∀ n p, grad n (mk σ p) = mk σ (G p)) (hG : IsGradient σ loss G)
    (η : ℝ) (nes : Bool) (hη : 0 < η) (hL : η * (∑ r ∈ range M, sqNorm σ (φ r)) ≤ M) (hM : 0 < M) (p0 : ℕ → ℕ → ℝ) :
    ∃ P, P 0 = p0 ∧ Visits (sgd (.scalar η) none nes) grad σ P ∧
      ∀ (q : ℕ → ℕ → ℝ) (n : ℕ), n ≠ 0 → loss (mk σ (P n)) - loss (mk σ q) ≤ sqDist σ p0 q / (2 * η * n) := by
  obtain ⟨hS, hC⟩ := regression_convex σ M hub hhub c φ t loss hloss G hG
  have hM' : (0 : ℝ) < M := Nat.cast_pos.2 hM
  refine convex_train σ η nes _ hη ?_ loss grad G hgrad hS hC p0
  simp only [one_mul]
  rw [div_mul_eq_mul_div, div_le_one hM']
  linarith

/-- Non-vacuity: for every data set the logistic loss exists and has the gradient `1/M Σ (sigmoid(zᵣ) - yᵣ) φᵣ`. -/
theorem logistic_gradient (M : ℕ) (c : ℕ → ℝ) (φ : ℕ → ℕ → ℕ → ℝ) (y : ℕ → ℝ) :
    ∃ loss : Params ℝ → ℝ,
      (∀ p, ∃ T, sigmoidBCE (Tensor.tens [M] (fun r => c r + ∑ x ∈ idx σ, φ r x.1 x.2 * p x.1 x.2)) (Tensor.tens [M] y) = .ok T ∧ loss (mk σ p) = meanAll T) ∧
      IsGradient σ loss (fun p k i => (∑ r ∈ range M, (sigmoid (c r + ∑ x ∈ idx σ, φ r x.1 x.2 * p x.1 x.2) - y r) * φ r k i) / M) := by
  have hl : ∀ p : ℕ → ℕ → ℝ, ∀ r, logit σ (fun r _ => c r) (fun r _ => φ r) (coord (mk σ p)) r 0 = c r + ∑ x ∈ idx σ, φ r x.1 x.2 * p x.1 x.2 := by
    intro p r
    unfold logit
    congr 1
    refine Finset.sum_congr rfl fun x hx => ?_
    obtain ⟨s, h1, h2⟩ := mem_idx.1 hx
    rw [coord_mk _ _ _ _ s h1 h2]
  have hloss' : ∀ p : ℕ → ℕ → ℝ, (fun T => (∑ r ∈ range M, bernoulliCE (y r) (sigmoid (logit σ (fun r _ => c r) (fun r _ => φ r) (coord T) r 0))) / M) (mk σ p) =
      (∑ r ∈ range M, bernoulliCE (y r) (sigmoid (logit σ (fun r _ => c r) (fun r _ => φ r) p r 0))) / M := by
    intro p
    simp only [hl]
    rfl
  refine ⟨fun T => (∑ r ∈ range M, bernoulliCE (y r) (sigmoid (logit σ (fun r _ => c r) (fun r _ => φ r) (coord T) r 0))) / M, fun p => ?_, ?_⟩
  · refine ⟨_, C58_sigmoid_bce _ _ _, ?_⟩
    rw [meanAll_tens]
    simp only [hl]
  · obtain ⟨L, hL1, hL2⟩ := C133_sigmoid [M] y
    have hLe : ∀ r < M, ∀ z, L r z = bernoulliCE (y r) (sigmoid z) := by
      intro r hr z
      have h := hL1 (fun _ => z)
      rw [C58_sigmoid_bce] at h
      have h := Except.ok.inj h
      unfold Tensor.tens at h
      simp only [Tensor.mk.injEq, true_and] at h
      exact ((List.map_inj_left.1 h) r (by simpa using hr)).symm
    obtain ⟨h1, h2⟩ := affine_sandwich σ M 1 (fun r z => bernoulliCE (y r) (sigmoid (z 0))) (fun r z _ => sigmoid (z 0) - y r) (fun _ => 1 / 4) (fun r => sqNorm σ (φ r))
      (fun _ _ => by norm_num)
      (fun r _ z z' => by simpa using bce_tangent (y r) (z 0) (z' 0))
      (fun r hr z z' => by
        have := (hL2 r (z 0) (z' 0)).1
        rw [hLe r hr, hLe r hr] at this
        simp only [Finset.sum_range_one]
        linarith)
      (fun r _ => c r) (fun r _ => φ r)
      (fun r _ v => by
        rw [Finset.sum_range_one]
        exact Finset.sum_mul_sq_le_sq_mul_sq _ _ _)
      (fun T => (∑ r ∈ range M, bernoulliCE (y r) (sigmoid (logit σ (fun r _ => c r) (fun r _ => φ r) (coord T) r 0))) / M) hloss' (fun p k i => (∑ r ∈ range M, (sigmoid (c r + ∑ x ∈ idx σ, φ r x.1 x.2 * p x.1 x.2) - y r) * φ r k i) / M)
      (fun p k i => by simp [logit])
    exact isGradient_of_sandwich σ h1 h2

/-- Non-vacuity: two separable examples, features `1` and `-1`, labels 1 and 0, learning rate 1. -/
example : (1 : ℝ) * (∑ r ∈ range 2, sqNorm (.leaf []) (fun _ _ => if r = 0 then (1 : ℝ) else -1)) ≤ 4 * (2 : ℕ) ∧
    ∀ r < 2, (1 : ℝ) ≤ (2 * (if r = 0 then 1 else 0) - 1) * ∑ x ∈ idx (.leaf []), (fun _ _ => if r = 0 then (1 : ℝ) else -1) x.1 x.2 * (fun _ _ => (1 : ℝ)) x.1 x.2 := by
  have e : idx (.leaf []) = {(⟨0, 0⟩ : (_ : ℕ) × ℕ)} := by
    ext ⟨a, b⟩
    rw [mem_idx]
    simp [PyTree.leaves]
    constructor
    · rintro ⟨s, h1, h2⟩
      rcases a with _ | a
      · simp at h1; subst h1; simp at h2; exact ⟨rfl, h2⟩
      · simp at h1
    · rintro ⟨rfl, rfl⟩
      exact ⟨[], rfl, by simp⟩
  constructor
  · simp only [sqNorm, e]
    norm_num [Finset.sum_range_succ]
  · intro r hr
    rw [e]
    rcases r with _ | _ | r
    · norm_num
    · norm_num
    · omega

/-- Non-vacuity of the bound `B`: for a weight matrix `K × D` (one leaf) applied to the features `a`, `B = ‖a‖²`. -/
example (K D : ℕ) (a : ℕ → ℝ) (v : ℕ → ℕ → ℝ) :
    ∑ j ∈ range K, (∑ x ∈ idx (.leaf [K, D]), (if x.2 / D = j then a (x.2 % D) else 0) * v x.1 x.2) ^ 2 ≤ (∑ i ∈ range D, a i ^ 2) * sqNorm (.leaf [K, D]) v := by
  have hidx : ∀ f : ℕ → ℕ → ℝ, ∑ x ∈ idx (.leaf [K, D]), f x.1 x.2 = ∑ j ∈ range K, ∑ i ∈ range D, f 0 (j * D + i) := by
    intro f
    have e : idx (.leaf [K, D]) = (range (K * D)).map ⟨fun i => (⟨0, i⟩ : (_ : ℕ) × ℕ), fun a b h => by simpa using h⟩ := by
      ext ⟨k, b⟩
      rw [mem_idx]
      simp only [PyTree.leaves, Finset.mem_map, Finset.mem_range]
      constructor
      · rintro ⟨s, h1, h2⟩
        rcases k with _ | k
        · simp at h1; subst h1; exact ⟨b, by simpa using h2, rfl⟩
        · simp at h1
      · rintro ⟨c, h1, h2⟩
        cases h2
        exact ⟨[K, D], rfl, by simpa using h1⟩
    rw [e, Finset.sum_map]
    show ∑ b ∈ range (K * D), f 0 b = _
    clear e
    induction K with
    | zero => simp
    | succ K ih => rw [Finset.sum_range_succ, Nat.succ_mul, Finset.sum_range_add, ih]
  have h1 := fun j => hidx (fun k b => (if b / D = j then a (b % D) else 0) * v k b)
  have h2 := hidx (fun k b => v k b ^ 2)
  unfold sqNorm
  rw [h2, Finset.mul_sum]
  refine Finset.sum_le_sum fun j hj => ?_
  rw [h1 j]
  have h3 : ∑ j' ∈ range K, ∑ i ∈ range D, (if (j' * D + i) / D = j then a ((j' * D + i) % D) else 0) * v 0 (j' * D + i) = ∑ i ∈ range D, a i * v 0 (j * D + i) := by
    rw [Finset.sum_eq_single_of_mem j hj]
    · refine Finset.sum_congr rfl fun i hi => ?_
      have hi := Finset.mem_range.1 hi
      rw [if_pos (by rw [Nat.mul_comm, Nat.mul_add_div (by omega), Nat.div_eq_of_lt hi, add_zero]), Nat.mul_comm, Nat.mul_add_mod, Nat.mod_eq_of_lt hi]
    · intro j' _ hne
      refine Finset.sum_eq_zero fun i hi => ?_
      have hi := Finset.mem_range.1 hi
      rw [if_neg, zero_mul]
      rw [Nat.mul_comm, Nat.mul_add_div (by omega), Nat.div_eq_of_lt hi, add_zero]
      exact hne
  rw [h3]
  exact Finset.sum_mul_sq_le_sq_mul_sq _ _ _

end Optax
