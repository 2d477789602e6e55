import Verif.Props.Unbiased
import Mathlib.Probability.Independence.Basic
import Mathlib.Probability.Distributions.Gaussian.Real
import Mathlib.Analysis.Calculus.ContDiff.Basic

/-!
# C65: the delta method keeps the gradient estimators unbiased

For every three times continuously differentiable function (not only for quadratics, C67).
-/

set_option linter.unusedSectionVars false
set_option linter.unusedSimpArgs false

namespace Optax
open MeasureTheory ProbabilityTheory

variable {G : Prng} {D N : ℕ} [MeasurableSpace G.Key]

/-! ## moments of the draws -/

theorem stdNs_memLp (i : Fin D) : MemLp (fun e : Vec D => e i) 2 (stdNs D) := by
  apply memLp_of_le i (fun z => z) measurable_id 16
  intro z
  have h1 := poly_le z
  have h2 := abs_le_poly z
  have h3 : Real.exp (z ^ 2 / 16) ≤ Real.exp (z ^ 2 / 8) := Real.exp_le_exp.mpr (by nlinarith [sq_nonneg z])
  linarith

theorem stdNs_sq_memLp (i : Fin D) : MemLp (fun e : Vec D => e i ^ 2) 2 (stdNs D) := by
  apply memLp_of_le i (fun z => z ^ 2) (by fun_prop) 16
  intro z
  have h1 := poly_le z
  have h3 : Real.exp (z ^ 2 / 16) ≤ Real.exp (z ^ 2 / 8) := Real.exp_le_exp.mpr (by nlinarith [sq_nonneg z])
  rw [abs_of_nonneg (sq_nonneg z)]
  linarith

theorem stdNs_mul_memLp (i j : Fin D) : MemLp (fun e : Vec D => e i * e j) 2 (stdNs D) := by
  refine ((stdNs_sq_memLp i).add (stdNs_sq_memLp j)).of_le (by fun_prop) (Filter.Eventually.of_forall fun e => ?_)
  simp only [Pi.add_apply, Real.norm_eq_abs]
  rw [abs_mul, abs_of_nonneg (by positivity : 0 ≤ e i ^ 2 + e j ^ 2)]
  nlinarith [sq_abs (e i), sq_abs (e j), sq_nonneg (|e i| - |e j|), sq_nonneg (e i), sq_nonneg (e j)]

theorem stdNs_mean (i : Fin D) : ∫ e, e i ∂(stdNs D) = 0 := by
  have h := (measurePreserving_eval (fun _ : Fin D => stdN) i)
  have : ∫ z, z ∂stdN = 0 := integral_id_gaussianReal
  have hi := integral_map (μ := stdNs D) (φ := Function.eval i) h.measurable.aemeasurable (f := fun z : ℝ => z)
    measurable_id.aestronglyMeasurable
  rw [h.map_eq, this] at hi
  exact hi.symm

theorem stdNs_cov (i j : Fin D) : ∫ e, e i * e j ∂(stdNs D) = if i = j then 1 else 0 := by
  split
  · rename_i h
    subst h
    have h := (measurePreserving_eval (fun _ : Fin D => stdN) i)
    have hv : ∫ z : ℝ, z * z ∂stdN = 1 := by
      have h1 := variance_id_gaussianReal (μ := 0) (v := 1)
      rw [variance_eq_integral (by fun_prop)] at h1
      have h0 : ∫ z : ℝ, id z ∂(gaussianReal 0 1) = 0 := integral_id_gaussianReal
      rw [h0] at h1
      simpa [pow_two] using h1
    have hi := integral_map (μ := stdNs D) (φ := Function.eval i) h.measurable.aemeasurable (f := fun z : ℝ => z * z)
      (by fun_prop)
    rw [h.map_eq, hv] at hi
    exact hi.symm
  · rename_i hij
    have hi : iIndepFun (fun (i : Fin D) (e : Vec D) => e i) (stdNs D) :=
      iIndepFun_pi (μ := fun _ : Fin D => stdN) (X := fun _ x => x) (fun i => aemeasurable_id)
    have := (hi.indepFun hij).integral_mul_eq_mul_integral (measurable_pi_apply i).aestronglyMeasurable
      (measurable_pi_apply j).aestronglyMeasurable
    rw [stdNs_mean, zero_mul] at this
    exact this

/-- first and second moments of a normal row -/
theorem law_moments (μ : Measure G.Key) (n : Fin N) (hE : LawOf G μ (fun rng => G.normal rng N D n) (stdNs D)) :
    (∀ i, Integrable (fun rng => G.normal rng N D n i) μ) ∧
    (∀ i j, Integrable (fun rng => G.normal rng N D n i * G.normal rng N D n j) μ) ∧
    (∀ i, ∫ rng, G.normal rng N D n i ∂μ = 0) ∧
    (∀ i j, ∫ rng, G.normal rng N D n i * G.normal rng N D n j ∂μ = if i = j then 1 else 0) := by
  obtain ⟨hm, hl⟩ := hE
  have i1 : ∀ i, Integrable (fun e : Vec D => e i) (stdNs D) := fun i => (stdNs_memLp i).integrable (by norm_num)
  have i2 : ∀ i j, Integrable (fun e : Vec D => e i * e j) (stdNs D) := fun i j => (stdNs_mul_memLp i j).integrable (by norm_num)
  refine ⟨fun i => ?_, fun i j => ?_, fun i => ?_, fun i j => ?_⟩
  · have := i1 i; rw [← hl] at this; exact this.comp_measurable hm
  · have := i2 i j; rw [← hl] at this; exact this.comp_measurable hm
  · rw [← stdNs_mean i, ← hl, integral_map hm.aemeasurable (measurable_pi_apply i).aestronglyMeasurable]
  · rw [← stdNs_cov i j, ← hl, integral_map hm.aemeasurable (f := fun e : Vec D => e i * e j)
      ((measurable_pi_apply i).mul (measurable_pi_apply j)).aestronglyMeasurable]

theorem law_prob (μ : Measure G.Key) (n : Fin N) (hE : LawOf G μ (fun rng => G.normal rng N D n) (stdNs D)) :
    IsProbabilityMeasure μ := by
  constructor
  have : (μ.map (fun rng => G.normal rng N D n)) Set.univ = 1 := by rw [hE.2]; exact measure_univ
  rwa [Measure.map_apply hE.1 MeasurableSet.univ, Set.preimage_univ] at this

/-! ## the control variate at fixed parameters is a quadratic in the sample -/

theorem delta_is_quad (f : Vec D → ℝ) (params : Fin 2 → Vec D) :
    ∃ a b Q, (fun x => (controlDeltaMethod f).stochastic params x ()) = quad a b Q ∧
      (∀ d, b d + ∑ j, (Q d j + Q j d) * params 0 j = gradVec f (params 0) d) ∧
      (∀ d, 2 * Q d d = hessVec f (params 0) d d) := by
  set m := params 0 with hm
  set g := gradVec f m with hg
  set H := hessVec f m with hH
  refine ⟨f m - ∑ i, m i * g i + (∑ j, (∑ i, m i * H i j) * m j) / 2, fun i => g i - ∑ j, (H i j + H j i) / 2 * m j,
    fun i j => H i j / 2, ?_, ?_, ?_⟩
  · funext x
    simp only [controlDeltaMethod, quad]
    rw [← hm, ← hg, ← hH]
    have e1 : ∑ i, (x i - m i) * g i = ∑ i, x i * g i - ∑ i, m i * g i := by
      rw [← Finset.sum_sub_distrib]; exact Finset.sum_congr rfl fun i _ => by ring
    have e2 : (∑ j, (∑ i, (x i - m i) * H i j) * (x j - m j)) =
        (∑ j, (∑ i, x i * H i j) * x j) - (∑ j, (∑ i, x i * H i j) * m j) - (∑ j, (∑ i, m i * H i j) * x j)
          + (∑ j, (∑ i, m i * H i j) * m j) := by
      rw [← Finset.sum_sub_distrib, ← Finset.sum_sub_distrib, ← Finset.sum_add_distrib]
      refine Finset.sum_congr rfl fun j _ => ?_
      have : ∑ i, (x i - m i) * H i j = ∑ i, x i * H i j - ∑ i, m i * H i j := by
        rw [← Finset.sum_sub_distrib]; exact Finset.sum_congr rfl fun i _ => by ring
      rw [this]; ring
    have e3 : ∑ i, (g i - ∑ j, (H i j + H j i) / 2 * m j) * x i = ∑ i, x i * g i -
        ((∑ j, (∑ i, x i * H i j) * m j) + (∑ j, (∑ i, m i * H i j) * x j)) / 2 := by
      have c : ∑ j, (∑ i, x i * H i j) * m j = ∑ i, ∑ j, x i * H i j * m j := by
        simp only [Finset.sum_mul]; rw [Finset.sum_comm]
      rw [c, ← Finset.sum_add_distrib, Finset.sum_div, ← Finset.sum_sub_distrib]
      refine Finset.sum_congr rfl fun i _ => ?_
      rw [sub_mul, Finset.sum_mul, Finset.sum_mul, ← Finset.sum_add_distrib, Finset.sum_div, mul_comm]
      congr 1
      exact Finset.sum_congr rfl fun j _ => by ring
    have e4 : ∑ i, ∑ j, H i j / 2 * (x i * x j) = (∑ j, (∑ i, x i * H i j) * x j) / 2 := by
      simp only [Finset.sum_mul, Finset.sum_div]
      rw [Finset.sum_comm]
      exact Finset.sum_congr rfl fun j _ => Finset.sum_congr rfl fun i _ => by ring
    rw [e1, e2, e3, e4]; ring
  · intro d
    have : ∑ j, (H d j / 2 + H j d / 2) * m j = ∑ j, (H d j + H j d) / 2 * m j :=
      Finset.sum_congr rfl fun j _ => by ring
    simp only [this]; ring
  · intro d; ring

theorem objective_quad (μ : Measure G.Key) (a : ℝ) (b : Vec D) (Q : Fin D → Vec D) (n : Fin N)
    (hE : LawOf G μ (fun rng => G.normal rng N D n) (stdNs D)) (q : Fin 2 → Vec D) :
    objective G μ (quad a b Q) N n q = (controlDeltaMethod (quad a b Q)).expected q () := by
  have := law_prob μ n hE
  obtain ⟨i1, i2, h1, h2⟩ := law_moments μ n hE
  rw [← C67_true_expectation μ a b Q q n i1 i2 h1 h2]
  unfold objective
  congr 1
  funext rng
  exact sample_eq_whiten (quad a b Q) q rng n

theorem quad_memLp (μ : Measure G.Key) (a : ℝ) (b : Vec D) (Q : Fin D → Vec D) (n : Fin N)
    (hE : LawOf G μ (fun rng => G.normal rng N D n) (stdNs D)) (q : Fin 2 → Vec D) :
    MemLp (fun rng => quad a b Q ((multiNormalB G q).sample N rng n)) 2 μ := by
  have hp := law_prob μ n hE
  have h1 : ∀ i, MemLp (fun rng => G.normal rng N D n i) 2 μ := fun i =>
    (stdNs_memLp i).comp_measurePreserving ⟨hE.1, hE.2⟩
  have h2 : ∀ i j, MemLp (fun rng => G.normal rng N D n i * G.normal rng N D n j) 2 μ := fun i j =>
    (stdNs_mul_memLp i j).comp_measurePreserving ⟨hE.1, hE.2⟩
  have l : ∀ i, MemLp (fun rng => q 0 i + Real.exp (q 1 i) * G.normal rng N D n i) 2 μ := fun i =>
    (memLp_const (q 0 i)).add ((h1 i).const_mul _)
  have l2 : ∀ i j, MemLp (fun rng => (q 0 i + Real.exp (q 1 i) * G.normal rng N D n i) *
      (q 0 j + Real.exp (q 1 j) * G.normal rng N D n j)) 2 μ := by
    intro i j
    have e : (fun rng => (q 0 i + Real.exp (q 1 i) * G.normal rng N D n i) * (q 0 j + Real.exp (q 1 j) * G.normal rng N D n j)) =
        fun rng => q 0 i * q 0 j + q 0 i * Real.exp (q 1 j) * G.normal rng N D n j
          + Real.exp (q 1 i) * q 0 j * G.normal rng N D n i
          + Real.exp (q 1 i) * Real.exp (q 1 j) * (G.normal rng N D n i * G.normal rng N D n j) := by
      funext rng; ring
    rw [e]
    exact (((memLp_const (q 0 i * q 0 j)).add ((h1 j).const_mul _)).add ((h1 i).const_mul _)).add ((h2 i j).const_mul _)
  have s1 : MemLp (fun rng => ∑ i, b i * (q 0 i + Real.exp (q 1 i) * G.normal rng N D n i)) 2 μ :=
    memLp_finsetSum _ fun i _ => (l i).const_mul (b i)
  have s2 : MemLp (fun rng => ∑ i, ∑ j, Q i j * ((q 0 i + Real.exp (q 1 i) * G.normal rng N D n i) *
      (q 0 j + Real.exp (q 1 j) * G.normal rng N D n j))) 2 μ :=
    memLp_finsetSum _ fun i _ => memLp_finsetSum _ fun j _ => (l2 i j).const_mul (Q i j)
  have s3 := ((memLp_const a).add s1).add s2
  refine s3.ae_eq (Filter.Eventually.of_forall fun rng => ?_)
  exact (sample_eq_whiten (quad a b Q) q rng n).symm

/-! ## the three control-variate terms -/

theorem comp_update_hasDerivAt (φ : Vec D → ℝ) (m : Vec D) (d : Fin D) (h : DifferentiableAt ℝ φ m) :
    HasDerivAt (fun t => φ (Function.update m d t)) (fderiv ℝ φ m (Pi.single d 1)) (m d) := by
  have h1 : HasDerivAt (Function.update m d) (Pi.single d (1 : ℝ)) (m d) := hasDerivAt_update m d (m d)
  have h2 : HasFDerivAt φ (fderiv ℝ φ m) (Function.update m d (m d)) := by
    rw [Function.update_eq_self]; exact h.hasFDerivAt
  exact h2.comp_hasDerivAt (m d) h1

theorem coord_update_hasDerivAt (m : Vec D) (d i : Fin D) (x : ℝ) :
    HasDerivAt (fun t => x - Function.update m d t i) (-(if i = d then 1 else 0)) (m d) := by
  by_cases h : i = d
  · subst h; simpa using (hasDerivAt_id (m i)).const_sub x
  · simp [h, hasDerivAt_const]

/-- third derivatives -/
noncomputable def third (f : Vec D → ℝ) (m : Vec D) (i j d : Fin D) : ℝ :=
  fderiv ℝ (fun y => hessVec f y i j) m (Pi.single d 1)

theorem smooth_parts (f : Vec D → ℝ) (hf : ContDiff ℝ 3 f) :
    Differentiable ℝ f ∧ (∀ i, Differentiable ℝ (fun y => gradVec f y i)) ∧
      ∀ i j, Differentiable ℝ (fun y => hessVec f y i j) := by
  have h1 : ∀ i, ContDiff ℝ 2 (fun y => gradVec f y i) := fun i =>
    (hf.fderiv_right (m := 2) (by norm_num)).clm_apply contDiff_const
  have h2 : ∀ i j, ContDiff ℝ 1 (fun y => hessVec f y i j) := fun i j =>
    ((h1 i).fderiv_right (m := 1) (by norm_num)).clm_apply contDiff_const
  exact ⟨hf.differentiable (by norm_num), fun i => (h1 i).differentiable (by norm_num),
    fun i j => (h2 i j).differentiable (by norm_num)⟩

/-- derivative of the control variate in the mean, at a fixed sample -/
theorem stochastic_deriv (f : Vec D → ℝ) (hf : ContDiff ℝ 3 f) (m x : Vec D) (s : Vec D) (d : Fin D) :
    HasDerivAt (fun t => (controlDeltaMethod f).stochastic ![Function.update m d t, s] x ())
      ((∑ i, (hessVec f m i d - hessVec f m i d / 2 - hessVec f m d i / 2) * (x i - m i))
        + (∑ j, ∑ i, third f m i j d * ((x i - m i) * (x j - m j))) / 2) (m d) := by
  obtain ⟨d1, d2, d3⟩ := smooth_parts f hf
  simp only [controlDeltaMethod, Matrix.cons_val_zero, Matrix.cons_val_one]
  have a1 := comp_update_hasDerivAt f m d (d1 m)
  have a2 : ∀ i, HasDerivAt (fun t => gradVec f (Function.update m d t) i) (hessVec f m i d) (m d) := fun i =>
    comp_update_hasDerivAt (fun y => gradVec f y i) m d (d2 i m)
  have a3 : ∀ i j, HasDerivAt (fun t => hessVec f (Function.update m d t) i j) (third f m i j d) (m d) := fun i j =>
    comp_update_hasDerivAt (fun y => hessVec f y i j) m d (d3 i j m)
  have a4 := fun i => coord_update_hasDerivAt m d i (x i)
  have b1 : HasDerivAt (fun t => ∑ i, (x i - Function.update m d t i) * gradVec f (Function.update m d t) i)
      (∑ i, (-(if i = d then 1 else 0) * gradVec f m i + (x i - m i) * hessVec f m i d)) (m d) := by
    apply HasDerivAt.fun_sum
    intro i _
    refine ((a4 i).fun_mul (a2 i)).congr_deriv ?_
    simp
  have b2 : ∀ j, HasDerivAt (fun t => ∑ i, (x i - Function.update m d t i) * hessVec f (Function.update m d t) i j)
      (∑ i, (-(if i = d then 1 else 0) * hessVec f m i j + (x i - m i) * third f m i j d)) (m d) := by
    intro j
    apply HasDerivAt.fun_sum
    intro i _
    refine ((a4 i).fun_mul (a3 i j)).congr_deriv ?_
    simp
  have b3 : HasDerivAt (fun t => ∑ j, (∑ i, (x i - Function.update m d t i) * hessVec f (Function.update m d t) i j) *
        (x j - Function.update m d t j))
      (∑ j, ((∑ i, (-(if i = d then 1 else 0) * hessVec f m i j + (x i - m i) * third f m i j d)) * (x j - m j) +
        (∑ i, (x i - m i) * hessVec f m i j) * (-(if j = d then 1 else 0)))) (m d) := by
    apply HasDerivAt.fun_sum
    intro j _
    refine ((b2 j).fun_mul (a4 j)).congr_deriv ?_
    simp
  refine ((a1.add b1).add (b3.div_const 2)).congr_deriv ?_
  have e1 : ∑ i, (-(if i = d then 1 else 0) * gradVec f m i + (x i - m i) * hessVec f m i d) =
      -gradVec f m d + ∑ i, (x i - m i) * hessVec f m i d := by
    rw [Finset.sum_add_distrib]
    simp
  have e2 : ∀ j, ∑ i, (-(if i = d then 1 else 0) * hessVec f m i j + (x i - m i) * third f m i j d) =
      -hessVec f m d j + ∑ i, (x i - m i) * third f m i j d := by
    intro j
    rw [Finset.sum_add_distrib]
    simp
  have e3 : ∑ j, (∑ i, (x i - m i) * hessVec f m i j) * (-(if j = d then (1 : ℝ) else 0)) =
      -∑ i, (x i - m i) * hessVec f m i d := by simp
  rw [e1, Finset.sum_add_distrib, e3]
  simp only [e2]
  simp only [add_mul, Finset.sum_add_distrib, neg_mul, Finset.sum_neg_distrib]
  have e4 : ∑ j, (∑ i, (x i - m i) * third f m i j d) * (x j - m j) =
      ∑ j, ∑ i, third f m i j d * ((x i - m i) * (x j - m j)) := by
    simp only [Finset.sum_mul]
    exact Finset.sum_congr rfl fun j _ => Finset.sum_congr rfl fun i _ => by ring
  have e5 : ∑ i, (hessVec f m i d - hessVec f m i d / 2 - hessVec f m d i / 2) * (x i - m i) =
      (∑ i, (x i - m i) * hessVec f m i d) / 2 - (∑ i, hessVec f m d i * (x i - m i)) / 2 := by
    rw [Finset.sum_div, Finset.sum_div, ← Finset.sum_sub_distrib]
    exact Finset.sum_congr rfl fun j _ => by ring
  rw [e4, e5]
  unfold gradVec
  ring

/-- the expected gradient of the mean control variate in its parameters -/
theorem param_grad_expectation (μ : Measure G.Key) (f : Vec D → ℝ) (hf : ContDiff ℝ 3 f) (params : Fin 2 → Vec D) (hN : 0 < N)
    (hE : ∀ n : Fin N, LawOf G μ (fun rng => G.normal rng N D n) (stdNs D)) (k : Fin 2) (d : Fin D) :
    Integrable (fun rng => cvParamGrad f controlDeltaMethod params (multiNormalB G) rng N () k d) μ ∧
    ∫ rng, cvParamGrad f controlDeltaMethod params (multiNormalB G) rng N () k d ∂μ =
      if k = 0 then (∑ i, Real.exp (params 1 i) ^ 2 * third f (params 0) i i d) / 2 else 0 := by
  fin_cases k
  · simp only [Fin.zero_eta, Fin.isValue, if_true]
    set m := params 0 with hm
    set A : Vec D := fun i => hessVec f m i d - hessVec f m i d / 2 - hessVec f m d i / 2 with hA
    have e : (fun rng => cvParamGrad f controlDeltaMethod params (multiNormalB G) rng N () 0 d) = fun rng =>
        (∑ n : Fin N, ((∑ i, A i * Real.exp (params 1 i) * G.normal rng N D n i) +
          (∑ j, ∑ i, third f m i j d * (Real.exp (params 1 i) * Real.exp (params 1 j)) / 2 *
            (G.normal rng N D n i * G.normal rng N D n j)))) / N := by
      funext rng
      unfold cvParamGrad
      rw [pderiv_loc]
      unfold meanOf
      have h := HasDerivAt.fun_sum (u := Finset.univ) (fun (n : Fin N) _ =>
        stochastic_deriv f hf m ((multiNormalB G params).sample N rng n) (params 1) d)
      rw [(h.div_const (N : ℝ)).deriv]
      congr 1
      refine Finset.sum_congr rfl fun n _ => ?_
      have hx : ∀ i, (multiNormalB G params).sample N rng n i - m i = Real.exp (params 1 i) * G.normal rng N D n i := by
        intro i; simp only [multiNormalB, multiNormal, hm]; ring
      simp only [hx]
      congr 1
      · exact Finset.sum_congr rfl fun i _ => by rw [hA]; ring
      · simp only [Finset.sum_div]
        exact Finset.sum_congr rfl fun j _ => Finset.sum_congr rfl fun i _ => by ring
    rw [e]
    have i1 : ∀ n : Fin N, Integrable (fun rng => ∑ i, A i * Real.exp (params 1 i) * G.normal rng N D n i) μ := fun n =>
      integrable_finsetSum _ fun i _ => ((law_moments μ n (hE n)).1 i).const_mul _
    have i2' : ∀ (n : Fin N) (j : Fin D), Integrable (fun rng => ∑ i, third f m i j d * (Real.exp (params 1 i) *
        Real.exp (params 1 j)) / 2 * (G.normal rng N D n i * G.normal rng N D n j)) μ := fun n j =>
      integrable_finsetSum _ fun i _ => ((law_moments μ n (hE n)).2.1 i j).const_mul _
    have i2 : ∀ n : Fin N, Integrable (fun rng => ∑ j, ∑ i, third f m i j d * (Real.exp (params 1 i) *
        Real.exp (params 1 j)) / 2 * (G.normal rng N D n i * G.normal rng N D n j)) μ := fun n =>
      integrable_finsetSum _ fun j _ => i2' n j
    have i3 : ∀ n : Fin N, Integrable (fun rng => (∑ i, A i * Real.exp (params 1 i) * G.normal rng N D n i) +
          (∑ j, ∑ i, third f m i j d * (Real.exp (params 1 i) * Real.exp (params 1 j)) / 2 *
            (G.normal rng N D n i * G.normal rng N D n j))) μ := fun n => (i1 n).add (i2 n)
    refine ⟨(integrable_finsetSum _ fun n _ => i3 n).div_const _, ?_⟩
    rw [integral_div, integral_finsetSum _ fun n _ => i3 n]
    have v : ∀ n : Fin N, ∫ rng, ((∑ i, A i * Real.exp (params 1 i) * G.normal rng N D n i) +
          (∑ j, ∑ i, third f m i j d * (Real.exp (params 1 i) * Real.exp (params 1 j)) / 2 *
            (G.normal rng N D n i * G.normal rng N D n j))) ∂μ =
        (∑ i, Real.exp (params 1 i) ^ 2 * third f m i i d) / 2 := by
      intro n
      obtain ⟨j1, j2, m1, m2⟩ := law_moments μ n (hE n)
      rw [integral_add (i1 n) (i2 n), integral_finsetSum _ (fun i _ => (j1 i).const_mul _),
        integral_finsetSum _ (fun j _ => i2' n j)]
      have t1 : ∑ i, ∫ rng, A i * Real.exp (params 1 i) * G.normal rng N D n i ∂μ = 0 := by
        apply Finset.sum_eq_zero
        intro i _
        rw [integral_const_mul, m1, mul_zero]
      rw [t1, zero_add, Finset.sum_div]
      refine Finset.sum_congr rfl fun j _ => ?_
      rw [integral_finsetSum _ (fun i _ => (j2 i j).const_mul _)]
      simp only [integral_const_mul, m2]
      simp only [mul_ite, mul_one, mul_zero, Finset.sum_ite_eq', Finset.mem_univ, if_true]
      ring
    simp only [v, Finset.sum_const, Finset.card_univ, Fintype.card_fin, nsmul_eq_mul]
    have : (N : ℝ) ≠ 0 := by exact_mod_cast hN.ne'
    field_simp
  · have e : (fun rng => cvParamGrad f controlDeltaMethod params (multiNormalB G) rng N () 1 d) = fun _ => 0 := by
      funext rng
      unfold cvParamGrad
      rw [pderiv_scale]
      simp only [controlDeltaMethod, Matrix.cons_val_zero]
      exact deriv_const _ _
    simp only [Fin.mk_one, Fin.isValue, one_ne_zero, if_false]
    rw [e]
    simp

/-- the gradient of the closed-form expected value -/
theorem exp_grad (f : Vec D → ℝ) (hf : ContDiff ℝ 3 f) (params : Fin 2 → Vec D) (k : Fin 2) (d : Fin D) :
    cvExpGrad f controlDeltaMethod params () k d =
      if k = 0 then gradVec f (params 0) d + (∑ i, Real.exp (params 1 i) ^ 2 * third f (params 0) i i d) / 2
      else Real.exp (params 1 d) ^ 2 * hessVec f (params 0) d d := by
  obtain ⟨d1, d2, d3⟩ := smooth_parts f hf
  unfold cvExpGrad
  fin_cases k
  · simp only [Fin.zero_eta, Fin.isValue, if_true]
    rw [pderiv_loc]
    simp only [controlDeltaMethod, Matrix.cons_val_zero, Matrix.cons_val_one]
    have a1 := comp_update_hasDerivAt f (params 0) d (d1 (params 0))
    have a3 := HasDerivAt.fun_sum (u := Finset.univ) fun (i : Fin D) _ =>
      (comp_update_hasDerivAt (fun y => hessVec f y i i) (params 0) d (d3 i i _)).const_mul (Real.exp (params 1 i) ^ 2)
    rw [(a1.fun_add (a3.div_const 2)).deriv]
    rfl
  · simp only [Fin.mk_one, Fin.isValue, one_ne_zero, if_false]
    rw [pderiv_scale]
    simp only [controlDeltaMethod, Matrix.cons_val_zero, Matrix.cons_val_one]
    have a : HasDerivAt (fun t => f (params 0) + (∑ i, Real.exp (Function.update (params 1) d t i) ^ 2 * hessVec f (params 0) i i) / 2)
        ((∑ i, (if i = d then 2 * Real.exp (params 1 d) ^ 2 else 0) * hessVec f (params 0) i i) / 2) (params 1 d) := by
      apply HasDerivAt.const_add
      apply HasDerivAt.div_const
      apply HasDerivAt.fun_sum
      intro i _
      apply HasDerivAt.mul_const
      by_cases h : i = d
      · subst h
        simp only [Function.update_self, if_true]
        refine ((Real.hasDerivAt_exp (params 1 i)).pow 2).congr_deriv ?_
        push_cast
        ring
      · simp [h, hasDerivAt_const]
    rw [a.deriv]
    simp
    ring

/-! ## unbiasedness -/

/-- An estimator is unbiased for `f` (at entry `k, n, d`): its expectation exists and is the derivative of the objective. -/
def UnbiasedFor (G : Prng) [MeasurableSpace G.Key] {D : ℕ} (μ : Measure G.Key) (f : Vec D → ℝ) (params : Fin 2 → Vec D) (N : ℕ)
    (k : Fin 2) (n : Fin N) (d : Fin D) (est : G.Key → ℝ) : Prop :=
  Integrable est μ ∧ HasDerivAt (fun t => objective G μ f N n (setParam params k d t)) (∫ rng, est rng ∂μ) (params k d)

theorem objective_delta_deriv (μ : Measure G.Key) (f : Vec D → ℝ) (params : Fin 2 → Vec D) (n : Fin N)
    (hE : LawOf G μ (fun rng => G.normal rng N D n) (stdNs D)) (k : Fin 2) (d : Fin D) :
    HasDerivAt (fun t => objective G μ (fun x => (controlDeltaMethod f).stochastic params x ()) N n (setParam params k d t))
      (if k = 0 then gradVec f (params 0) d else Real.exp (params 1 d) ^ 2 * hessVec f (params 0) d d) (params k d) := by
  obtain ⟨a, b, Q, hq, hb, hQ⟩ := delta_is_quad f params
  rw [hq]
  simp only [objective_quad μ a b Q n hE, C67_expected]
  fin_cases k
  · simp only [Fin.zero_eta, Fin.isValue, if_true]
    have h := comp_update_hasDerivAt (quad a b Q) (params 0) d (quad_differentiable a b Q _)
    have h2 := h.add_const (1 / 2 * ∑ i, Real.exp (params 1 i) ^ 2 * (2 * Q i i))
    have e : fderiv ℝ (quad a b Q) (params 0) (Pi.single d 1) = gradVec f (params 0) d := by
      rw [← hb d]; exact gradVec_quad a b Q (params 0) d
    rw [e] at h2
    simpa [setParam] using h2
  · simp only [Fin.mk_one, Fin.isValue, one_ne_zero, if_false]
    have a : HasDerivAt (fun t => quad a b Q (params 0) + 1 / 2 * ∑ i, Real.exp (Function.update (params 1) d t i) ^ 2 * (2 * Q i i))
        (1 / 2 * ∑ i, (if i = d then 2 * Real.exp (params 1 d) ^ 2 else 0) * (2 * Q i i)) (params 1 d) := by
      apply HasDerivAt.const_add
      apply HasDerivAt.const_mul
      apply HasDerivAt.fun_sum
      intro i _
      apply HasDerivAt.mul_const
      by_cases h : i = d
      · subst h
        simp only [Function.update_self, if_true]
        refine ((Real.hasDerivAt_exp (params 1 i)).pow 2).congr_deriv ?_
        push_cast
        ring
      · simp [h, hasDerivAt_const]
    have e : 1 / 2 * ∑ i, (if i = d then 2 * Real.exp (params 1 d) ^ 2 else 0) * (2 * Q i i) =
        Real.exp (params 1 d) ^ 2 * hessVec f (params 0) d d := by
      rw [← hQ d]
      simp
      ring
    rw [e] at a
    simpa [setParam] using a

/-- **C65 (delta method, any estimator).** For every three times continuously differentiable function and every estimator
that is unbiased for this function and for the quadratic control variate, the jacobians of `control_variates_jacobians`
with `control_delta_method` are unbiased. With estimated coefficients, provided the coefficient (drawn with the split key) is
integrable and independent of the control-variate terms. -/
theorem C65_delta_unbiased (μ : Measure G.Key) (f : Vec D → ℝ) (hf : ContDiff ℝ 3 f) (est : GradEstimator G 2 D)
    (params : Fin 2 → Vec D) (hE : ∀ n : Fin N, LawOf G μ (fun rng => G.normal rng N D n) (stdNs D)) (k : Fin 2) (n : Fin N)
    (d : Fin D)
    (hest : UnbiasedFor G μ f params N k n d (fun rng => est f params (multiNormalB G) rng N k n d))
    (hcv : UnbiasedFor G μ (fun x => (controlDeltaMethod f).stochastic params x ()) params N k n d
      (fun rng => est (fun x => (controlDeltaMethod f).stochastic params x ()) params (multiNormalB G) rng N k n d)) (M : ℕ) :
    HasDerivAt (fun t => objective G μ f N n (setParam params k d t))
      (∫ rng, (controlVariatesJacobians f controlDeltaMethod est params (multiNormalB G) rng N () false M).1 k n d ∂μ)
      (params k d) ∧
    (Integrable (fun rng => estimateCoeffs f controlDeltaMethod est params (multiNormalB G) rng M () (1 / 1000) k) μ →
      IndepFun (fun rng => estimateCoeffs f controlDeltaMethod est params (multiNormalB G) rng M () (1 / 1000) k)
        (fun rng => est (fun x => (controlDeltaMethod f).stochastic params x ()) params (multiNormalB G) rng N k n d
          + cvParamGrad f controlDeltaMethod params (multiNormalB G) rng N () k d
          - cvExpGrad f controlDeltaMethod params () k d) μ →
      HasDerivAt (fun t => objective G μ f N n (setParam params k d t))
        (∫ rng, (controlVariatesJacobians f controlDeltaMethod est params (multiNormalB G) rng N () true M).1 k n d ∂μ)
        (params k d)) := by
  have hp := law_prob μ n (hE n)
  have hN : 0 < N := n.pos
  obtain ⟨ip, vp⟩ := param_grad_expectation μ f hf params hN hE k d
  have vj := hcv.2.unique (objective_delta_deriv μ f params n (hE n) k d)
  have hcancel : ∫ rng, est (fun x => (controlDeltaMethod f).stochastic params x ()) params (multiNormalB G) rng N k n d ∂μ
      + ∫ rng, cvParamGrad f controlDeltaMethod params (multiNormalB G) rng N () k d ∂μ
      = ∫ _, cvExpGrad f controlDeltaMethod params () k d ∂μ := by
    rw [vj, vp, exp_grad f hf]
    simp only [integral_const, probReal_univ, one_smul]
    split <;> ring
  obtain ⟨h1, h2⟩ := C65_unbiased μ f controlDeltaMethod est params (multiNormalB G) () k n d _ _ _ rfl rfl rfl hest.1 hcv.1 ip
    (integrable_const (cvExpGrad f controlDeltaMethod params () k d)) hcancel
  constructor
  · rw [h1 M]; exact hest.2
  · intro ic hi
    rw [h2 M ic hi]; exact hest.2

/-- **C65 (delta method, score function).** The end-to-end statement for the score-function estimator: for every three
times continuously differentiable function with a finite second moment, the expected output of
`control_variates_jacobians(f, control_delta_method, score_function_jacobians, …)` is the gradient of the objective. -/
theorem C65_delta_score_function (μ : Measure G.Key) (f : Vec D → ℝ) (hf : ContDiff ℝ 3 f)
    (params : Fin 2 → Vec D) (hE : ∀ n : Fin N, LawOf G μ (fun rng => G.normal rng N D n) (stdNs D)) (k : Fin 2) (n : Fin N)
    (d : Fin D) (h2 : MemLp (fun rng => f ((multiNormalB G params).sample N rng n)) 2 μ) (M : ℕ) :
    HasDerivAt (fun t => objective G μ f N n (setParam params k d t))
      (∫ rng, (controlVariatesJacobians f controlDeltaMethod scoreFunctionJacobians params (multiNormalB G) rng N () false M).1 k n d
        ∂μ) (params k d) := by
  have hs : ∀ g : Vec D → ℝ, Measurable g → MemLp (fun rng => g ((multiNormalB G params).sample N rng n)) 2 μ →
      UnbiasedFor G μ g params N k n d (fun rng => scoreFunctionJacobians g params (multiNormalB G) rng N k n d) := by
    intro g hg hg2
    refine ⟨?_, C79_score_function μ g hg params n (hE n) hg2 k d⟩
    have hw := memLp_whiten μ g hg n params (hE n) hg2
    have hi : Integrable (fun e : Vec D => score params k d (e d) * whiten g params e) (stdNs D) := by
      have hσ := Real.exp_pos (params 1 d)
      refine integrable_score g params hw d (score params k d) (by unfold score; split <;> fun_prop)
        (1 / Real.exp (params 1 d) + 1) (by positivity) ?_
      intro z
      unfold score
      have h0 : 0 ≤ 1 / Real.exp (params 1 d) := by positivity
      split
      · rw [abs_div, abs_of_pos hσ]
        have h1 := abs_le_poly z
        calc |z| / Real.exp (params 1 d) ≤ (1 + z ^ 2) / Real.exp (params 1 d) := by gcongr
          _ = 1 / Real.exp (params 1 d) * (1 + z ^ 2) := by ring
          _ ≤ _ := by gcongr; linarith
      · have : |z ^ 2 - 1| ≤ 1 + z ^ 2 := by rw [abs_le]; constructor <;> nlinarith [sq_nonneg z]
        nlinarith [sq_nonneg z, mul_nonneg h0 (by positivity : 0 ≤ 1 + z ^ 2)]
    rw [← (hE n).2] at hi
    have := hi.comp_measurable (hE n).1
    refine this.congr (Filter.Eventually.of_forall fun rng => ?_)
    obtain ⟨c0, c1⟩ := C70_score_function g params rng n d
    have hss : g (gaussSample G (params 0) (params 1) rng N n) = whiten g params (G.normal rng N D n) := rfl
    fin_cases k
    · refine Eq.trans ?_ c0.symm
      rw [hss]; simp [score]; ring
    · refine Eq.trans ?_ c1.symm
      rw [hss]; simp [score]; ring
  obtain ⟨a, b, Q, hq, -, -⟩ := delta_is_quad f params
  refine (C65_delta_unbiased μ f hf scoreFunctionJacobians params hE k n d (hs f hf.continuous.measurable h2) ?_ M).1
  refine hs _ ?_ ?_
  · rw [hq]; exact (quad_differentiable a b Q).continuous.measurable
  · have := quad_memLp μ a b Q n (hE n) params
    refine this.ae_eq (Filter.Eventually.of_forall fun rng => ?_)
    exact (congrFun hq _).symm

/-- a function that is not quadratic (a cosine) and the ideal generator meet the hypotheses -/
example (params : Fin 2 → Vec 2) (k : Fin 2) (d : Fin 2) :
    HasDerivAt (fun t => objective (idealPrng 2) (idealLaw 2) (fun x => Real.cos (x 0 * x 1)) 3 1 (setParam params k d t))
      (∫ rng, (controlVariatesJacobians (fun x : Vec 2 => Real.cos (x 0 * x 1)) controlDeltaMethod scoreFunctionJacobians params
        (multiNormalB (idealPrng 2)) rng 3 () false 0).1 k 1 d ∂(idealLaw 2)) (params k d) := by
  have hp : IsProbabilityMeasure (idealLaw 2) :=
    inferInstanceAs (IsProbabilityMeasure ((stdNs 2).prod (weibullLaw.prod (maxwellLaw.prod (uniformLaw.prod stdN)))))
  have hc : ContDiff ℝ 3 (fun x : Vec 2 => Real.cos (x 0 * x 1)) := by fun_prop
  refine C65_delta_score_function _ _ hc params (fun n => (ideal_laws (D := 2) (N := 3) n 0).1) k 1 d ?_ 0
  have hE := (ideal_laws (D := 2) (N := 3) 1 0).1
  have hm := (whiten_measurable _ hc.continuous.measurable params).comp hE.1
  refine MemLp.of_bound (C := 1) ?_ (Filter.Eventually.of_forall fun rng => by simpa using Real.abs_cos_le_one _)
  refine hm.aestronglyMeasurable.congr (Filter.Eventually.of_forall fun rng => ?_)
  exact (sample_eq_whiten (G := idealPrng 2) (N := 3) (fun x : Vec 2 => Real.cos (x 0 * x 1)) params rng 1).symm

end Optax
