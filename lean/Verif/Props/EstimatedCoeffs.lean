import Verif.Props.DeltaUnbiased
import Verif.Props.BaselineBias
import Mathlib.Probability.ProductMeasure
import Mathlib.Probability.Independence.InfinitePi

/-!
# C107: estimating the coefficient does not bias the estimate

`control_variates_jacobians(…, estimate_cv_coeffs=True)` estimates the coefficient of the control variate on fresh samples,
drawn with a key split from the caller's key. If the draws at the split key are independent of the draws at the key itself, the
expectation of the result is the gradient of the objective, end to end, for the score-function and the pathwise estimator
with the delta method.
-/

set_option linter.unusedSectionVars false
set_option linter.unusedSimpArgs false
set_option linter.unusedVariables false

namespace Optax
open MeasureTheory ProbabilityTheory

variable {G : Prng} {D N : ℕ} [MeasurableSpace G.Key]

/-! ## The coefficient is bounded by the jacobians of the function -/

theorem coeff_bound {M : ℕ} (eps : ℝ) (heps : 0 < eps) (h f : Fin M → Vec D) :
    |computeCoeff eps h f| ≤ ((M : ℝ) / 2 + 1 / (2 * eps)) * ∑ d, ∑ n, |f n d - meanOf (fun m => f m d)| := by
  unfold computeCoeff
  simp only
  set ft : Fin M → Vec D := fun n d => f n d - meanOf (fun m => f m d) with hft
  set ht : Fin M → Vec D := fun n d => h n d - meanOf (fun m => h m d) with hht
  set V : ℝ := ∑ d, meanOf (fun n => ht n d ^ 2) with hV
  have hpos : ∀ d, 0 ≤ meanOf (fun n => ht n d ^ 2) := fun d =>
    div_nonneg (Finset.sum_nonneg fun n _ => sq_nonneg _) (Nat.cast_nonneg _)
  have hV0 : 0 ≤ V := Finset.sum_nonneg fun d _ => hpos d
  have hbig : ∀ n d, |ht n d| ≤ ((M : ℝ) / 2 + 1 / (2 * eps)) * (V + eps) := by
    intro n d
    have hM : (1 : ℝ) ≤ M := by exact_mod_cast n.pos
    have h1 : ht n d ^ 2 ≤ M * V := by
      have a1 : ht n d ^ 2 ≤ ∑ m, ht m d ^ 2 :=
        Finset.single_le_sum (f := fun m => ht m d ^ 2) (fun m _ => sq_nonneg _) (Finset.mem_univ n)
      have a2 : meanOf (fun n => ht n d ^ 2) ≤ V :=
        Finset.single_le_sum (f := fun d => meanOf (fun n => ht n d ^ 2)) (fun d _ => hpos d) (Finset.mem_univ d)
      have a3 : ∑ m, ht m d ^ 2 = M * meanOf (fun n => ht n d ^ 2) := by
        unfold meanOf; field_simp
      rw [a3] at a1
      exact a1.trans (mul_le_mul_of_nonneg_left a2 (by linarith))
    have h2 : |ht n d| ≤ (1 + ht n d ^ 2) / 2 := by
      have := sq_nonneg (|ht n d| - 1)
      rw [← sq_abs (ht n d)]
      nlinarith
    have h3 : ((M : ℝ) / 2 + 1 / (2 * eps)) * (V + eps) = M * V / 2 + 1 / 2 + (M / 2 * eps + V / (2 * eps)) := by
      field_simp; ring
    have h4 : 0 ≤ M / 2 * eps + V / (2 * eps) := by positivity
    linarith
  have hden : 0 < V + eps := by linarith
  rw [abs_div, abs_of_pos hden, div_le_iff₀ hden]
  have step : ∀ d, |meanOf (fun n => ft n d * ht n d)| ≤
      ((M : ℝ) / 2 + 1 / (2 * eps)) * (V + eps) * ∑ n, |ft n d| := by
    intro d
    unfold meanOf
    have hC : 0 ≤ ((M : ℝ) / 2 + 1 / (2 * eps)) * (V + eps) := by positivity
    rcases Nat.eq_zero_or_pos M with h0 | h0
    · subst h0; simp
    have hM : (1 : ℝ) ≤ M := by exact_mod_cast h0
    rw [abs_div, abs_of_pos (by linarith : (0 : ℝ) < M)]
    calc |∑ n, ft n d * ht n d| / M ≤ |∑ n, ft n d * ht n d| := div_le_self (abs_nonneg _) hM
      _ ≤ ∑ n, |ft n d * ht n d| := Finset.abs_sum_le_sum_abs _ _
      _ ≤ ∑ n, ((M : ℝ) / 2 + 1 / (2 * eps)) * (V + eps) * |ft n d| := by
        refine Finset.sum_le_sum fun n _ => ?_
        rw [abs_mul, mul_comm]
        exact mul_le_mul_of_nonneg_right (hbig n d) (abs_nonneg _)
      _ = _ := by rw [Finset.mul_sum]
  calc |∑ d, meanOf (fun n => ft n d * ht n d)| ≤ ∑ d, |meanOf (fun n => ft n d * ht n d)| := Finset.abs_sum_le_sum_abs _ _
    _ ≤ ∑ d, ((M : ℝ) / 2 + 1 / (2 * eps)) * (V + eps) * ∑ n, |ft n d| := Finset.sum_le_sum fun d _ => step d
    _ = _ := by rw [← Finset.mul_sum]; ring

theorem computeCoeff_measurable {M : ℕ} {α : Type} [MeasurableSpace α] (eps : ℝ) (h f : α → Fin M → Vec D)
    (hh : ∀ n d, Measurable fun a => h a n d) (hf : ∀ n d, Measurable fun a => f a n d) :
    Measurable fun a => computeCoeff eps (h a) (f a) := by
  unfold computeCoeff meanOf
  simp only
  fun_prop

/-- the estimator `est`, for the function `g`, reads the key only through the normal draws at that key -/
def ReadsNormals (G : Prng) {D : ℕ} (est : GradEstimator G 2 D) (g : Vec D → ℝ) (params : Fin 2 → Vec D)
    (J : (N : ℕ) → (Fin N → Vec D) → Fin 2 → Fin N → Vec D) : Prop :=
  ∀ N rng, est g params (multiNormalB G) rng N = J N (G.normal rng N D)

/-- gradient of the mean control variate as a function of the normal draws -/
theorem paramGrad_reads (f : Vec D → ℝ) (hf : ContDiff ℝ 3 f) (params : Fin 2 → Vec D) (N : ℕ) (k : Fin 2) (d : Fin D) :
    ∃ H : (Fin N → Vec D) → ℝ, Measurable H ∧
      ∀ rng : G.Key, cvParamGrad f controlDeltaMethod params (multiNormalB G) rng N () k d = H (G.normal rng N D) := by
  fin_cases k
  · set m := params 0 with hm
    refine ⟨fun e => (∑ n : Fin N, ((∑ i, (hessVec f m i d - hessVec f m i d / 2 - hessVec f m d i / 2) *
        (Real.exp (params 1 i) * e n i)) + (∑ j, ∑ i, third f m i j d * ((Real.exp (params 1 i) * e n i) *
          (Real.exp (params 1 j) * e n j))) / 2)) / N, by fun_prop, fun rng => ?_⟩
    show cvParamGrad f controlDeltaMethod params (multiNormalB G) rng N () 0 d = _
    unfold cvParamGrad
    rw [pderiv_loc]
    unfold meanOf
    have h := HasDerivAt.fun_sum (u := Finset.univ) (fun (n : Fin N) _ =>
      stochastic_deriv f hf m ((multiNormalB G params).sample N rng n) (params 1) d)
    rw [(h.div_const (N : ℝ)).deriv]
    have hx : ∀ (n : Fin N) i, (multiNormalB G params).sample N rng n i - m i = Real.exp (params 1 i) * G.normal rng N D n i := by
      intro n i; simp only [multiNormalB, multiNormal, hm]; ring
    simp only [hx]
  · refine ⟨fun _ => 0, measurable_const, fun rng => ?_⟩
    show cvParamGrad f controlDeltaMethod params (multiNormalB G) rng N () 1 d = _
    unfold cvParamGrad
    rw [pderiv_scale]
    simp only [controlDeltaMethod, Matrix.cons_val_zero]
    exact deriv_const _ _

/-- The general form: an estimator that reads the normal draws of its key, is unbiased for the function and for the control
variate, and is integrable at the split key. -/
theorem estimated_unbiased (μ : Measure G.Key) (f : Vec D → ℝ) (hf : ContDiff ℝ 3 f) (est : GradEstimator G 2 D)
    (params : Fin 2 → Vec D) (hE : ∀ n : Fin N, LawOf G μ (fun rng => G.normal rng N D n) (stdNs D)) (k : Fin 2) (n : Fin N)
    (d : Fin D) (M : ℕ)
    (hest : UnbiasedFor G μ f params N k n d (fun rng => est f params (multiNormalB G) rng N k n d))
    (hcv : UnbiasedFor G μ (fun x => (controlDeltaMethod f).stochastic params x ()) params N k n d
      (fun rng => est (fun x => (controlDeltaMethod f).stochastic params x ()) params (multiNormalB G) rng N k n d))
    (Jf Jc : (N : ℕ) → (Fin N → Vec D) → Fin 2 → Fin N → Vec D)
    (rf : ReadsNormals G est f params Jf) (rc : ReadsNormals G est (fun x => (controlDeltaMethod f).stochastic params x ()) params Jc)
    (mf : ∀ N k n d, Measurable fun e => Jf N e k n d) (mc : ∀ N k n d, Measurable fun e => Jc N e k n d)
    (hmeas : Measurable fun rng => G.normal (G.split rng).1 M D)
    (hint : ∀ m d, Integrable (fun rng => est f params (multiNormalB G) (G.split rng).1 M k m d) μ)
    (hI : IndepFun (fun rng => G.normal (G.split rng).1 M D) (fun rng => G.normal rng N D) μ) :
    HasDerivAt (fun t => objective G μ f N n (setParam params k d t))
      (∫ rng, (controlVariatesJacobians f controlDeltaMethod est params (multiNormalB G) rng N () true M).1 k n d ∂μ)
      (params k d) := by
  refine (C65_delta_unbiased μ f hf est params hE k n d hest hcv M).2 ?_ ?_
  · have e : ∀ rng, estimateCoeffs f controlDeltaMethod est params (multiNormalB G) rng M () (1 / 1000) k =
        computeCoeff (1 / 1000) (Jc M (G.normal (G.split rng).1 M D) k) (Jf M (G.normal (G.split rng).1 M D) k) := by
      intro rng
      unfold estimateCoeffs
      rw [rf, rc]
    have hb : Integrable (fun rng => ((M : ℝ) / 2 + 1 / (2 * (1 / 1000))) * ∑ d, ∑ n : Fin M,
        |est f params (multiNormalB G) (G.split rng).1 M k n d -
          meanOf (fun m => est f params (multiNormalB G) (G.split rng).1 M k m d)|) μ := by
      apply Integrable.const_mul
      refine integrable_finsetSum _ fun d _ => integrable_finsetSum _ fun n _ => ?_
      apply Integrable.abs
      refine (hint n d).sub ?_
      unfold meanOf
      exact (integrable_finsetSum _ fun m _ => hint m d).div_const _
    refine hb.mono' ?_ (Filter.Eventually.of_forall fun rng => ?_)
    · exact ((computeCoeff_measurable (1 / 1000) (fun e => Jc M e k) (fun e => Jf M e k) (fun n d => mc M k n d)
        (fun n d => mf M k n d)).comp hmeas).aestronglyMeasurable.congr (Filter.Eventually.of_forall fun rng => (e rng).symm)
    · rw [Real.norm_eq_abs]
      exact coeff_bound (1 / 1000) (by norm_num) _ _
  · obtain ⟨H, mH, hH⟩ := paramGrad_reads (G := G) f hf params N k d
    have h := hI.comp (φ := fun e => computeCoeff (1 / 1000) (Jc M e k) (Jf M e k))
      (ψ := fun e => Jc N e k n d + H e - cvExpGrad f controlDeltaMethod params () k d)
      (computeCoeff_measurable (1 / 1000) (fun e => Jc M e k) (fun e => Jf M e k) (fun n d => mc M k n d) (fun n d => mf M k n d))
      (((mc N k n d).add mH).sub_const _)
    have e1 : (fun rng => estimateCoeffs f controlDeltaMethod est params (multiNormalB G) rng M () (1 / 1000) k) =
        (fun e => computeCoeff (1 / 1000) (Jc M e k) (Jf M e k)) ∘ fun rng => G.normal (G.split rng).1 M D := by
      funext rng
      unfold estimateCoeffs
      simp only [Function.comp]
      rw [rf, rc]
    have e2 : (fun rng => est (fun x => (controlDeltaMethod f).stochastic params x ()) params (multiNormalB G) rng N k n d
        + cvParamGrad f controlDeltaMethod params (multiNormalB G) rng N () k d - cvExpGrad f controlDeltaMethod params () k d) =
        (fun e => Jc N e k n d + H e - cvExpGrad f controlDeltaMethod params () k d) ∘ fun rng => G.normal rng N D := by
      funext rng
      simp only [Function.comp]
      rw [rc, hH]
    rw [e1, e2]
    exact h

/-! ## Score function -/

theorem score_reads (g : Vec D → ℝ) (params : Fin 2 → Vec D) :
    ReadsNormals G scoreFunctionJacobians g params (fun N e k n d => score params k d (e n d) * whiten g params (e n)) := by
  intro N rng
  funext k n d
  exact scoreJac_eq g params rng n k d

theorem score_reads_measurable (g : Vec D → ℝ) (hg : Measurable g) (params : Fin 2 → Vec D) (N : ℕ) (k : Fin 2) (n : Fin N) (d : Fin D) :
    Measurable fun e : Fin N → Vec D => score params k d (e n d) * whiten g params (e n) :=
  ((score_measurable params k d).comp ((measurable_pi_apply d).comp (measurable_pi_apply n))).mul
    ((whiten_measurable g hg params).comp (measurable_pi_apply n))

theorem score_unbiasedFor (μ : Measure G.Key) (g : Vec D → ℝ) (hg : Measurable g) (params : Fin 2 → Vec D) (n : Fin N)
    (hE : LawOf G μ (fun rng => G.normal rng N D n) (stdNs D))
    (h2 : MemLp (fun rng => g ((multiNormalB G params).sample N rng n)) 2 μ) (k : Fin 2) (d : Fin D) :
    UnbiasedFor G μ g params N k n d (fun rng => scoreFunctionJacobians g params (multiNormalB G) rng N k n d) :=
  ⟨integrable_scoreJac μ g params n hE (memLp_whiten μ g hg n params hE h2) k d, C79_score_function μ g hg params n hE h2 k d⟩

/-- **C107 (score function).** For every three times continuously differentiable function with a finite second moment, every
number of samples `N` and of coefficient samples `M > 0`: if the rows drawn at the key and at the split key are standard
Gaussian and the draws at the two keys are independent, the expected
`control_variates_jacobians(f, control_delta_method, score_function_jacobians, …, estimate_cv_coeffs=True)` is the gradient
of the objective. -/
theorem C107_score_function (μ : Measure G.Key) (f : Vec D → ℝ) (hf : ContDiff ℝ 3 f) (params : Fin 2 → Vec D) (M : ℕ) (hM : 0 < M)
    (hE : ∀ n : Fin N, LawOf G μ (fun rng => G.normal rng N D n) (stdNs D))
    (hS : ∀ m : Fin M, LawOf G μ (fun rng => G.normal (G.split rng).1 M D m) (stdNs D))
    (hI : IndepFun (fun rng => G.normal (G.split rng).1 M D) (fun rng => G.normal rng N D) μ)
    (k : Fin 2) (n : Fin N) (d : Fin D) (h2 : MemLp (fun rng => f ((multiNormalB G params).sample N rng n)) 2 μ) :
    HasDerivAt (fun t => objective G μ f N n (setParam params k d t))
      (∫ rng, (controlVariatesJacobians f controlDeltaMethod scoreFunctionJacobians params (multiNormalB G) rng N () true M).1 k n d
        ∂μ) (params k d) := by
  obtain ⟨a, b, Q, hq, -, -⟩ := delta_is_quad f params
  have mcv : Measurable (fun x => (controlDeltaMethod f).stochastic params x ()) := by
    rw [hq]; exact (quad_differentiable a b Q).continuous.measurable
  have lcv : MemLp (fun rng => (controlDeltaMethod f).stochastic params ((multiNormalB G params).sample N rng n) ()) 2 μ := by
    have := quad_memLp μ a b Q n (hE n) params
    refine this.ae_eq (Filter.Eventually.of_forall fun rng => ?_)
    exact (congrFun hq _).symm
  have hfm := hf.continuous.measurable
  refine estimated_unbiased μ f hf scoreFunctionJacobians params hE k n d M (score_unbiasedFor μ f hfm params n (hE n) h2 k d)
    (score_unbiasedFor μ _ mcv params n (hE n) lcv k d) _ _ (score_reads f params) (score_reads _ params)
    (fun N k n d => score_reads_measurable f hfm params N k n d) (fun N k n d => score_reads_measurable _ mcv params N k n d)
    (measurable_pi_iff.mpr fun m => (hS m).1) ?_ hI
  intro m d'
  have h := integrable_score f params (memLp_whiten μ f hfm n params (hE n) h2) d' (score params k d') (score_measurable params k d')
    ((Real.exp (params 1 d'))⁻¹ + 1) (by positivity) (score_bound params k d')
  rw [← (hS m).2] at h
  simp only [scoreJac_eq]
  exact h.comp_measurable (hS m).1

/-! ## Pathwise -/

/-- the pathwise jacobian as a function of the noise -/
noncomputable def pathJac (f : Vec D → ℝ) (params : Fin 2 → Vec D) (k : Fin 2) (d : Fin D) (e : Vec D) : ℝ :=
  partial1 f d (pt params e) * (if k = 0 then 1 else Real.exp (params 1 d) * e d)

theorem pathJac_eq (f : Vec D → ℝ) (hf : Differentiable ℝ f) (params : Fin 2 → Vec D) (rng : G.Key) (n : Fin N) (k : Fin 2) (d : Fin D) :
    pathwiseJacobians f params (multiNormalB G) rng N k n d = pathJac f params k d (G.normal rng N D n) := by
  obtain ⟨c0, c1⟩ := C71_pathwise f hf params rng n d
  have hs : gaussSample G (params 0) (params 1) rng N n = pt params (G.normal rng N D n) := rfl
  fin_cases k
  · refine Eq.trans c0 ?_
    rw [hs]; simp [pathJac]
  · refine Eq.trans c1 ?_
    rw [hs]; simp [pathJac]

theorem pt_measurable (q : Fin 2 → Vec D) : Measurable (pt q) := by
  rw [measurable_pi_iff]
  intro i
  exact ((measurable_pi_apply i).const_mul _).const_add _

theorem partial1_measurable (f : Vec D → ℝ) (hf : Differentiable ℝ f) (d : Fin D) : Measurable (partial1 f d) := by
  rw [show partial1 f d = fun x => fderiv ℝ f x (Pi.single d 1) from funext fun x => partial1_eq (hf x) d]
  exact measurable_fderiv_apply_const ℝ f _

theorem pathJac_measurable (f : Vec D → ℝ) (hf : Differentiable ℝ f) (params : Fin 2 → Vec D) (k : Fin 2) (d : Fin D) :
    Measurable (pathJac f params k d) := by
  unfold pathJac
  apply ((partial1_measurable f hf d).comp (pt_measurable params)).mul
  split <;> fun_prop

theorem pathJac_integrable (f : Vec D → ℝ) (hf : Differentiable ℝ f) (params : Fin 2 → Vec D) (k : Fin 2) (d : Fin D)
    (C c : ℝ) (hc : 0 ≤ c) (hg : ∀ x, |partial1 f d x| ≤ C * Real.exp (c * ∑ i, |x i|)) :
    Integrable (pathJac f params k d) (stdNs D) := by
  have hC : 0 ≤ C := by
    have := (abs_nonneg _).trans (hg 0)
    simpa using this
  have h := (integrable_exp_sum (fun i : Fin D => c * Real.exp (params 1 i + 1) + if i = d then 1 else 0)).const_mul
    (C * Real.exp (c * ∑ i, (|params 0 i| + 1)) * (Real.exp (params 1 d) + 1))
  refine h.mono' (pathJac_measurable f hf params k d).aestronglyMeasurable (Filter.Eventually.of_forall fun e => ?_)
  have b1 := hg (pt params e)
  have b2 := pt_bound params k d e (params k d) (by simp)
  have hset : setParam params k d (params k d) = params := by unfold setParam; simp
  rw [hset] at b2
  have b4 : Real.exp (c * ∑ i, |pt params e i|) ≤
      Real.exp (c * ∑ i, (|params 0 i| + 1)) * Real.exp (∑ i, c * Real.exp (params 1 i + 1) * |e i|) := by
    rw [← Real.exp_add]
    apply Real.exp_le_exp.mpr
    have := mul_le_mul_of_nonneg_left b2 hc
    rw [mul_add, Finset.mul_sum (s := Finset.univ) (f := fun i => Real.exp (params 1 i + 1) * |e i|)] at this
    simpa only [mul_assoc] using this
  have b5 : |if k = 0 then (1 : ℝ) else Real.exp (params 1 d) * e d| ≤ (Real.exp (params 1 d) + 1) * Real.exp |e d| := by
    have h1 : 1 ≤ Real.exp |e d| := Real.one_le_exp (abs_nonneg _)
    have h3 : |e d| ≤ Real.exp |e d| := by linarith [Real.add_one_le_exp |e d|]
    have h4 := Real.exp_pos (params 1 d)
    split
    · rw [abs_one]; nlinarith
    · rw [abs_mul, abs_of_pos h4]; nlinarith
  have e1 : ∑ i, (c * Real.exp (params 1 i + 1) + if i = d then 1 else 0) * |e i| =
      (∑ i, c * Real.exp (params 1 i + 1) * |e i|) + |e d| := by
    simp only [add_mul, Finset.sum_add_distrib, ite_mul, one_mul, zero_mul, Finset.sum_ite_eq', Finset.mem_univ, if_true]
  rw [e1, Real.exp_add (∑ i, c * Real.exp (params 1 i + 1) * |e i|), Real.norm_eq_abs]
  unfold pathJac
  rw [abs_mul]
  calc |partial1 f d (pt params e)| * |if k = 0 then (1 : ℝ) else Real.exp (params 1 d) * e d|
      ≤ (C * (Real.exp (c * ∑ i, (|params 0 i| + 1)) * Real.exp (∑ i, c * Real.exp (params 1 i + 1) * |e i|))) *
        ((Real.exp (params 1 d) + 1) * Real.exp |e d|) := by
        apply mul_le_mul (b1.trans (mul_le_mul_of_nonneg_left b4 hC)) b5 (abs_nonneg _) (by positivity)
    _ = _ := by ring

theorem quad_growth (a : ℝ) (b : Vec D) (Q : Fin D → Vec D) (d : Fin D) :
    ∃ C, ∀ x, |partial1 (quad a b Q) d x| ≤ C * Real.exp (1 * ∑ i, |x i|) := by
  refine ⟨|b d| + ∑ j, |Q d j + Q j d|, fun x => ?_⟩
  have e : partial1 (quad a b Q) d x = b d + ∑ j, (Q d j + Q j d) * x j := by
    rw [partial1_eq (quad_differentiable a b Q x)]
    exact gradVec_quad a b Q x d
  have hS : 0 ≤ ∑ i, |x i| := Finset.sum_nonneg fun i _ => abs_nonneg _
  have h1 : 1 ≤ Real.exp (1 * ∑ i, |x i|) := Real.one_le_exp (by linarith)
  have h3 : ∑ i, |x i| ≤ Real.exp (1 * ∑ i, |x i|) := by rw [one_mul]; linarith [Real.add_one_le_exp (∑ i, |x i|)]
  rw [e]
  calc |b d + ∑ j, (Q d j + Q j d) * x j| ≤ |b d| + ∑ j, |Q d j + Q j d| * |x j| := by
        refine (abs_add_le _ _).trans ?_
        gcongr
        refine (Finset.abs_sum_le_sum_abs _ _).trans (le_of_eq ?_)
        exact Finset.sum_congr rfl fun j _ => abs_mul _ _
    _ ≤ |b d| * Real.exp (1 * ∑ i, |x i|) + ∑ j, |Q d j + Q j d| * Real.exp (1 * ∑ i, |x i|) := by
        refine add_le_add (le_mul_of_one_le_right (abs_nonneg _) h1) (Finset.sum_le_sum fun j _ => ?_)
        refine mul_le_mul_of_nonneg_left (le_trans ?_ h3) (abs_nonneg _)
        exact Finset.single_le_sum (f := fun i => |x i|) (fun i _ => abs_nonneg _) (Finset.mem_univ j)
    _ = _ := by rw [← Finset.sum_mul]; ring

theorem path_unbiasedFor (μ : Measure G.Key) (g : Vec D → ℝ) (hg : Differentiable ℝ g) (params : Fin 2 → Vec D) (n : Fin N)
    (hE : LawOf G μ (fun rng => G.normal rng N D n) (stdNs D))
    (hi : Integrable (fun rng => g ((multiNormalB G params).sample N rng n)) μ) (k : Fin 2) (d : Fin D) (C c : ℝ) (hc : 0 ≤ c)
    (hb : ∀ x, |partial1 g d x| ≤ C * Real.exp (c * ∑ i, |x i|)) :
    UnbiasedFor G μ g params N k n d (fun rng => pathwiseJacobians g params (multiNormalB G) rng N k n d) := by
  refine ⟨?_, C79_pathwise μ g hg params n d hE hi C c hc hb k⟩
  have h := pathJac_integrable g hg params k d C c hc hb
  rw [← hE.2] at h
  simp only [pathJac_eq g hg]
  exact h.comp_measurable hE.1

/-- **C107 (pathwise).** The same for `pathwise_jacobians`, for every three times continuously differentiable function whose
partial derivatives grow at most exponentially (in particular every polynomial). -/
theorem C107_pathwise (μ : Measure G.Key) (f : Vec D → ℝ) (hf : ContDiff ℝ 3 f) (params : Fin 2 → Vec D) (M : ℕ) (hM : 0 < M)
    (hE : ∀ n : Fin N, LawOf G μ (fun rng => G.normal rng N D n) (stdNs D))
    (hS : ∀ m : Fin M, LawOf G μ (fun rng => G.normal (G.split rng).1 M D m) (stdNs D))
    (hI : IndepFun (fun rng => G.normal (G.split rng).1 M D) (fun rng => G.normal rng N D) μ)
    (k : Fin 2) (n : Fin N) (d : Fin D) (hi : Integrable (fun rng => f ((multiNormalB G params).sample N rng n)) μ)
    (C c : ℝ) (hc : 0 ≤ c) (hg : ∀ d x, |partial1 f d x| ≤ C * Real.exp (c * ∑ i, |x i|)) :
    HasDerivAt (fun t => objective G μ f N n (setParam params k d t))
      (∫ rng, (controlVariatesJacobians f controlDeltaMethod pathwiseJacobians params (multiNormalB G) rng N () true M).1 k n d
        ∂μ) (params k d) := by
  have hp := law_prob μ n (hE n)
  obtain ⟨a, b, Q, hq, -, -⟩ := delta_is_quad f params
  have hfd : Differentiable ℝ f := hf.differentiable (by norm_num)
  have dcv : Differentiable ℝ (fun x => (controlDeltaMethod f).stochastic params x ()) := by
    rw [hq]; exact quad_differentiable a b Q
  have lcv : Integrable (fun rng => (controlDeltaMethod f).stochastic params ((multiNormalB G params).sample N rng n) ()) μ := by
    have := (quad_memLp μ a b Q n (hE n) params).integrable (by norm_num)
    refine this.congr (Filter.Eventually.of_forall fun rng => ?_)
    exact (congrFun hq _).symm
  obtain ⟨C', hC'⟩ := quad_growth a b Q d
  have hC'' : ∀ x, |partial1 (fun x => (controlDeltaMethod f).stochastic params x ()) d x| ≤ C' * Real.exp (1 * ∑ i, |x i|) := by
    rw [hq]; exact hC'
  refine estimated_unbiased μ f hf pathwiseJacobians params hE k n d M (path_unbiasedFor μ f hfd params n (hE n) hi k d C c hc (hg d))
    (path_unbiasedFor μ _ dcv params n (hE n) lcv k d C' 1 zero_le_one hC'') (fun N e k n d => pathJac f params k d (e n))
    (fun N e k n d => pathJac (fun x => (controlDeltaMethod f).stochastic params x ()) params k d (e n))
    (fun N rng => by funext k n d; exact pathJac_eq f hfd params rng n k d)
    (fun N rng => by funext k n d; exact pathJac_eq _ dcv params rng n k d)
    (fun N k n d => (pathJac_measurable f hfd params k d).comp (measurable_pi_apply n))
    (fun N k n d => (pathJac_measurable _ dcv params k d).comp (measurable_pi_apply n))
    (measurable_pi_iff.mpr fun m => (hS m).1) ?_ hI
  intro m d'
  have h := pathJac_integrable f hfd params k d' C c hc (hg d')
  rw [← (hS m).2] at h
  simp only [pathJac_eq f hfd]
  exact h.comp_measurable (hS m).1

/-! ## The hypotheses are satisfiable: an ideal generator with a tree of keys -/

/-- a key is the record of all the normal draws that can be made from it and from the keys split from it, indexed by the path
of splits, row and column -/
def treePrng : Prng where
  Key := List Bool × ℕ × ℕ → ℝ
  split k := (fun x => k (false :: x.1, x.2), fun x => k (true :: x.1, x.2))
  normal k _ _ n i := k ([], n, i)
  weibull k _ _ n i := k ([], n, i)
  maxwell k _ _ n i := k ([], n, i)
  uniform k _ _ n i := k ([], n, i)

instance : MeasurableSpace treePrng.Key := inferInstanceAs (MeasurableSpace (List Bool × ℕ × ℕ → ℝ))

/-- the law of the root key: independent standard normal draws -/
noncomputable def treeLaw : Measure treePrng.Key := Measure.infinitePi fun _ : List Bool × ℕ × ℕ => stdN

instance : IsProbabilityMeasure treeLaw := inferInstanceAs (IsProbabilityMeasure (Measure.infinitePi fun _ : List Bool × ℕ × ℕ => stdN))

theorem tree_indep : iIndepFun (fun (y : List Bool × ℕ × ℕ) (k : treePrng.Key) => k y) treeLaw :=
  iIndepFun_infinitePi (P := fun _ : List Bool × ℕ × ℕ => stdN) (X := fun _ r => r) (fun _ => measurable_id)

/-- a row of draws anywhere in the tree is standard Gaussian -/
theorem tree_row (p : List Bool) (n : ℕ) : LawOf treePrng treeLaw (fun k (i : Fin D) => k (p, n, i.val)) (stdNs D) := by
  have hm : ∀ i : Fin D, Measurable (fun k : treePrng.Key => k (p, n, i.val)) := fun i => measurable_pi_apply _
  refine ⟨measurable_pi_iff.mpr hm, ?_⟩
  have h : iIndepFun (fun (i : Fin D) (k : treePrng.Key) => k (p, n, i.val)) treeLaw :=
    tree_indep.precomp (g := fun i : Fin D => (p, n, i.val)) (fun a b h => by simpa [Fin.ext_iff] using h)
  rw [(iIndepFun_iff_map_fun_eq_pi_map fun i => (hm i).aemeasurable).mp h]
  unfold stdNs
  congr 1
  funext i
  exact Measure.infinitePi_map_eval _ _

/-- disjoint blocks of draws are independent -/
theorem tree_blocks {α β : Type} [Fintype α] [Fintype β] (u : α → List Bool × ℕ × ℕ) (v : β → List Bool × ℕ × ℕ)
    (huv : ∀ a b, u a ≠ v b) : IndepFun (fun (k : treePrng.Key) a => k (u a)) (fun k b => k (v b)) treeLaw := by
  classical
  have h := tree_indep.indepFun_finset (Finset.univ.image u) (Finset.univ.image v)
    (by
      rw [Finset.disjoint_left]
      intro x hx hy
      obtain ⟨a, -, rfl⟩ := Finset.mem_image.mp hx
      obtain ⟨b, -, hb⟩ := Finset.mem_image.mp hy
      exact huv a b hb.symm) (fun i => measurable_pi_apply i)
  exact h.comp (φ := fun w a => w ⟨u a, Finset.mem_image_of_mem u (Finset.mem_univ a)⟩)
    (ψ := fun w b => w ⟨v b, Finset.mem_image_of_mem v (Finset.mem_univ b)⟩)
    (measurable_pi_iff.mpr fun a => measurable_pi_apply _) (measurable_pi_iff.mpr fun a => measurable_pi_apply _)

/-- the tree of keys meets all the hypotheses on draws, for every `N`, `M` and `D` -/
theorem tree_hyps (N M D : ℕ) :
    (∀ n : Fin N, LawOf treePrng treeLaw (fun rng => treePrng.normal rng N D n) (stdNs D)) ∧
    (∀ m : Fin M, LawOf treePrng treeLaw (fun rng => treePrng.normal (treePrng.split rng).1 M D m) (stdNs D)) ∧
    IndepFun (fun rng => treePrng.normal (treePrng.split rng).1 M D) (fun rng => treePrng.normal rng N D) treeLaw ∧
    (∀ m n : Fin N, m ≠ n →
      IndepFun (fun rng => treePrng.normal rng N D m) (fun rng => treePrng.normal rng N D n) treeLaw) := by
  refine ⟨fun n => tree_row [] n, fun m => tree_row [false] m, ?_, ?_⟩
  · have h := tree_blocks (fun x : Fin M × Fin D => ([false], x.1.val, x.2.val)) (fun x : Fin N × Fin D => ([], x.1.val, x.2.val))
      (fun a b h => by simp at h)
    exact h.comp (φ := fun w (m : Fin M) (i : Fin D) => w (m, i)) (ψ := fun w (m : Fin N) (i : Fin D) => w (m, i))
      (measurable_pi_iff.mpr fun a => measurable_pi_iff.mpr fun b => measurable_pi_apply _)
      (measurable_pi_iff.mpr fun a => measurable_pi_iff.mpr fun b => measurable_pi_apply _)
  · intro m n hmn
    exact tree_blocks (fun i : Fin D => (([] : List Bool), m.val, i.val)) (fun i : Fin D => ([], n.val, i.val))
      (fun a b h => hmn (Fin.ext (by simpa using (congrArg (fun x => x.2.1) h))))

/-- C107 applied: a cosine, three samples, five samples for the coefficient -/
example (params : Fin 2 → Vec 2) (k : Fin 2) (d : Fin 2) :
    HasDerivAt (fun t => objective treePrng treeLaw (fun x => Real.cos (x 0 * x 1)) 3 1 (setParam params k d t))
      (∫ rng, (controlVariatesJacobians (fun x : Vec 2 => Real.cos (x 0 * x 1)) controlDeltaMethod scoreFunctionJacobians params
        (multiNormalB treePrng) rng 3 () true 5).1 k 1 d ∂treeLaw) (params k d) := by
  have hc : ContDiff ℝ 3 (fun x : Vec 2 => Real.cos (x 0 * x 1)) := by fun_prop
  obtain ⟨h1, h2, h3, -⟩ := tree_hyps 3 5 2
  refine C107_score_function _ _ hc params 5 (by norm_num) h1 h2 h3 k 1 d ?_
  have hm := (whiten_measurable _ hc.continuous.measurable params).comp (h1 1).1
  refine MemLp.of_bound (C := 1) ?_ (Filter.Eventually.of_forall fun rng => by simpa using Real.abs_cos_le_one _)
  refine hm.aestronglyMeasurable.congr (Filter.Eventually.of_forall fun rng => ?_)
  exact (sample_eq_whiten (G := treePrng) (N := 3) (fun x : Vec 2 => Real.cos (x 0 * x 1)) params rng 1).symm

/-- C106 applied: for `f(x) = x` in one dimension the gradient in the mean is 1, but with the baseline at its default decay,
ten samples and an initial state the expected estimate is 9/10 -/
example (params : Fin 2 → Vec 1) : ∫ rng, (controlVariatesJacobians (fun x : Vec 1 => x 0) (movingAvgBaseline (99 / 100) true true)
    scoreFunctionJacobians params (multiNormalB treePrng) rng 10 (0, 0) false 0).1 0 3 0 ∂treeLaw = 9 / 10 := by
  obtain ⟨h1, -, -, h4⟩ := tree_hyps 10 0 1
  have hl : MemLp (fun rng => (fun x : Vec 1 => x 0) ((multiNormalB treePrng params).sample 10 rng 3)) 2 treeLaw := by
    have := quad_memLp treeLaw 0 (fun _ : Fin 1 => 1) (fun _ _ => 0) (3 : Fin 10) (h1 3) params
    refine this.ae_eq (Filter.Eventually.of_forall fun rng => ?_)
    simp [quad]
  obtain ⟨g, hg, he⟩ := C106_baseline_bias treeLaw (fun x : Vec 1 => x 0) (measurable_pi_apply 0) params (3 : Fin 10) h1
    (fun m hm => h4 m 3 hm) hl (99 / 100) true true 0 0 0 0 0
  have hq := objective_quad treeLaw 0 (fun _ : Fin 1 => 1) (fun _ _ => 0) (3 : Fin 10) (h1 3)
  have e : (fun t => objective treePrng treeLaw (fun x : Vec 1 => x 0) 10 3 (setParam params 0 0 t)) = fun t => t := by
    funext t
    have h := hq (setParam params 0 0 t)
    rw [C67_expected] at h
    have e : quad 0 (fun _ : Fin 1 => 1) (fun _ _ => 0) = fun x : Vec 1 => x 0 := by funext x; simp [quad]
    rw [e] at h
    rw [h]
    simp [setParam, quad]
  rw [e] at hg
  rw [he, hg.unique (hasDerivAt_id _), (C106_weight (99 / 100) (by norm_num) (by norm_num) true true 0 10 (by norm_num)).2.2.2.2]
  norm_num

end Optax
