import Mathlib.Probability.Distributions.Gaussian.Real
import Mathlib.MeasureTheory.Integral.Pi
import Mathlib.MeasureTheory.Measure.Prod
import Mathlib.MeasureTheory.Measure.WithDensity
import Mathlib.MeasureTheory.Function.L2Space
import Mathlib.Analysis.Calculus.ParametricIntegral
import Mathlib.Analysis.SpecialFunctions.Gaussian.GaussianIntegral
import Mathlib.Analysis.Complex.ExponentialBounds
import Mathlib.MeasureTheory.Integral.IntegralEqImproper
import Mathlib.MeasureTheory.Measure.Lebesgue.Basic

/-!
# Change of measure for vectors of independent standard normal draws

Used by `Props/Unbiased.lean`; nothing in here mentions the model.
-/

set_option linter.unusedSectionVars false

open MeasureTheory ProbabilityTheory Real
open scoped ENNReal NNReal

namespace Optax

/-- the standard normal law -/
noncomputable abbrev stdN : Measure ℝ := gaussianReal 0 1

/-- the law of `D` independent standard normal draws -/
noncomputable abbrev stdNs (D : ℕ) : Measure (Fin D → ℝ) := Measure.pi (fun _ : Fin D => stdN)

variable {D : ℕ}

theorem measurable_repl (d : Fin D) : Measurable (fun p : ℝ × (Fin D → ℝ) => Function.update p.2 d p.1) := by
  rw [measurable_pi_iff]
  intro i
  by_cases h : i = d
  · subst h; simpa using measurable_fst
  · simp only [Function.update_of_ne h]; exact (measurable_pi_apply i).comp measurable_snd

theorem repl_law (d : Fin D) :
    (stdN.prod (stdNs D)).map (fun p : ℝ × (Fin D → ℝ) => Function.update p.2 d p.1) = stdNs D := by
  symm
  apply Measure.pi_eq
  intro s hs
  rw [Measure.map_apply (measurable_repl d) (MeasurableSet.univ_pi hs)]
  have e : (fun p : ℝ × (Fin D → ℝ) => Function.update p.2 d p.1) ⁻¹' (Set.univ.pi s) =
      s d ×ˢ (Set.univ.pi (Function.update s d Set.univ)) := by
    ext p
    simp only [Set.mem_preimage, Set.mem_univ_pi, Set.mem_prod]
    constructor
    · intro h
      refine ⟨by simpa using h d, fun i => ?_⟩
      by_cases hi : i = d
      · subst hi; simp
      · have := h i; simpa [hi] using this
    · rintro ⟨h1, h2⟩ i
      by_cases hi : i = d
      · subst hi; simpa using h1
      · have := h2 i; simpa [hi] using this
  rw [e, Measure.prod_prod, Measure.pi_pi, ← Finset.mul_prod_erase _ _ (Finset.mem_univ d),
    ← Finset.mul_prod_erase Finset.univ (fun i => stdN (s i)) (Finset.mem_univ d)]
  simp only [Function.update_self, measure_univ, one_mul]
  congr 1
  apply Finset.prod_congr rfl
  intro i hi
  rw [Function.update_of_ne (Finset.ne_of_mem_erase hi)]

/-- replacing coordinate `d` by an independent variable of density `ρ` relative to the standard normal law -/
theorem repl_withDensity (d : Fin D) (ρ : ℝ → ℝ≥0∞) (hρ : Measurable ρ) [SFinite (stdN.withDensity ρ)] :
    ((stdN.withDensity ρ).prod (stdNs D)).map (fun p : ℝ × (Fin D → ℝ) => Function.update p.2 d p.1) =
      (stdNs D).withDensity (fun e => ρ (e d)) := by
  have hm : Measurable (fun e : Fin D → ℝ => ρ (e d)) := hρ.comp (measurable_pi_apply d)
  ext s hs
  rw [Measure.map_apply (measurable_repl d) hs, prod_withDensity_left hρ, withDensity_apply _ (measurable_repl d hs),
    withDensity_apply _ hs]
  conv_rhs => rw [← repl_law d]
  rw [setLIntegral_map hs hm (measurable_repl d)]
  simp

/-- transforming coordinate `d` -/
theorem update_withDensity (d : Fin D) (φ : ℝ → ℝ) (hφ : Measurable φ) (ρ : ℝ → ℝ≥0∞) (hρ : Measurable ρ)
    (h : stdN.map φ = stdN.withDensity ρ) :
    (stdNs D).map (fun e => Function.update e d (φ (e d))) = (stdNs D).withDensity (fun e => ρ (e d)) := by
  have hS : SFinite (stdN.withDensity ρ) := by rw [← h]; infer_instance
  rw [← repl_withDensity d ρ hρ, ← h]
  conv_lhs => rw [← repl_law d]
  have hu : Measurable (fun e : Fin D → ℝ => Function.update e d (φ (e d))) :=
    (measurable_repl d).comp ((hφ.comp (measurable_pi_apply d)).prodMk measurable_id)
  rw [Measure.map_map hu (measurable_repl d)]
  have e1 : (stdN.map φ).prod (stdNs D) = (stdN.prod (stdNs D)).map (Prod.map φ id) := by
    rw [← Measure.map_prod_map _ _ hφ measurable_id, Measure.map_id]
  rw [e1, Measure.map_map (measurable_repl d) (hφ.prodMap measurable_id)]
  congr 1
  funext p
  simp [Function.comp]

theorem stdN_eq : stdN = volume.withDensity (gaussianPDF 0 1) := gaussianReal_of_var_ne_zero 0 one_ne_zero

theorem stdN_withDensity (ρ : ℝ → ℝ≥0∞) (hρ : Measurable ρ) :
    stdN.withDensity ρ = volume.withDensity (fun z => gaussianPDF 0 1 z * ρ z) := by
  rw [stdN_eq, ← withDensity_mul _ (measurable_gaussianPDF 0 1) hρ]; rfl

/-- density of a shifted standard normal variable -/
theorem shift_density (s : ℝ) :
    stdN.map (fun z => z + s) = stdN.withDensity (fun z => ENNReal.ofReal (Real.exp (s * z - s ^ 2 / 2))) := by
  rw [show stdN.map (fun z => z + s) = gaussianReal (0 + s) 1 from gaussianReal_map_add_const s,
    stdN_withDensity _ (by fun_prop), gaussianReal_of_var_ne_zero _ one_ne_zero]
  congr 1
  funext z
  unfold gaussianPDF
  rw [← ENNReal.ofReal_mul (gaussianPDFReal_nonneg _ _ _)]
  congr 1
  unfold gaussianPDFReal
  simp only [NNReal.coe_one, mul_one, sub_zero, zero_add]
  rw [mul_assoc, ← Real.exp_add]
  congr 2
  ring

/-- density of a scaled standard normal variable -/
theorem scale_density (u : ℝ) :
    stdN.map (fun z => Real.exp u * z) =
      stdN.withDensity (fun z => ENNReal.ofReal (Real.exp (-u - z ^ 2 * (Real.exp (-2 * u) - 1) / 2))) := by
  rw [show stdN.map (fun z => Real.exp u * z) = gaussianReal (Real.exp u * 0) (.mk (Real.exp u ^ 2) (sq_nonneg _) * 1) from
      gaussianReal_map_const_mul (Real.exp u),
    stdN_withDensity _ (by fun_prop)]
  have hv : (NNReal.mk (Real.exp u ^ 2) (sq_nonneg _) * 1 : ℝ≥0) ≠ 0 := by
    rw [mul_one]; intro h
    have := congrArg NNReal.toReal h
    simp at this
  rw [gaussianReal_of_var_ne_zero _ hv]
  congr 1
  funext z
  unfold gaussianPDF
  rw [← ENNReal.ofReal_mul (gaussianPDFReal_nonneg _ _ _)]
  congr 1
  unfold gaussianPDFReal
  have hE : Real.exp u ^ 2 = Real.exp (2 * u) := by rw [← Real.exp_nat_mul]; norm_num
  have hs : √(2 * π * Real.exp (2 * u)) = √(2 * π) * Real.exp u := by
    rw [← hE, Real.sqrt_mul (by positivity), Real.sqrt_sq (Real.exp_pos _).le]
  simp only [NNReal.coe_one, mul_one, NNReal.coe_mk, mul_zero, sub_zero, hE]
  rw [hs]
  rw [mul_inv, mul_assoc, mul_assoc, ← Real.exp_neg, ← Real.exp_add, ← Real.exp_add]
  congr 2
  rw [show (-2 * u) = -(2 * u) by ring, Real.exp_neg]
  have := Real.exp_pos (2 * u)
  field_simp
  ring

/-- the law of `jax.random.weibull_min(scale=sqrt(2), concentration=2)`: density
`(c/λ) (x/λ)^(c-1) exp(-(x/λ)^c)` on the positive half line, `λ = sqrt 2`, `c = 2` -/
noncomputable def weibullLaw : Measure ℝ :=
  volume.withDensity (fun x => if 0 < x then ENNReal.ofReal (2 / √2 * (x / √2) * Real.exp (-(x / √2) ^ 2)) else 0)

/-- the law of `jax.random.double_sided_maxwell(loc=0, scale=1)`: density `x^2 exp(-x^2/2) / sqrt(2 pi)` -/
noncomputable def maxwellLaw : Measure ℝ :=
  volume.withDensity (fun x => ENNReal.ofReal (x ^ 2 * Real.exp (-x ^ 2 / 2) / √(2 * π)))

/-- the law of `jax.random.uniform` -/
noncomputable def uniformLaw : Measure ℝ := volume.restrict (Set.Ioo 0 1)

theorem weibull_density :
    weibullLaw = stdN.withDensity (fun z => ENNReal.ofReal (√(2 * π) * max z 0)) := by
  rw [stdN_withDensity _ (by fun_prop)]
  unfold weibullLaw
  congr 1
  funext z
  unfold gaussianPDF
  rw [← ENNReal.ofReal_mul (gaussianPDFReal_nonneg _ _ _)]
  have h2 : √2 * √2 = 2 := Real.mul_self_sqrt (by norm_num)
  have h2' : √2 ^ 2 = 2 := Real.sq_sqrt (by norm_num)
  have h3 : √(2 * π) ≠ 0 := (Real.sqrt_pos.mpr (by positivity)).ne'
  unfold gaussianPDFReal
  split
  · rename_i h
    congr 1
    simp only [NNReal.coe_one, mul_one, sub_zero, max_eq_left h.le]
    rw [div_mul_div_comm, h2, div_pow, h2']
    rw [show -(z ^ 2 / 2) = -z ^ 2 / 2 by ring]
    field_simp
  · rename_i h
    rw [max_eq_right (not_lt.mp h)]
    simp

theorem weibull_neg_density :
    weibullLaw.map (fun x => -x) = stdN.withDensity (fun z => ENNReal.ofReal (√(2 * π) * max (-z) 0)) := by
  have hm : Measurable (fun z : ℝ => ENNReal.ofReal (√(2 * π) * max (-z) 0)) := by fun_prop
  have hn : stdN.map (fun x => -x) = stdN := by
    have := gaussianReal_map_neg (μ := 0) (v := 1)
    simpa using this
  ext s hs
  rw [weibull_density, Measure.map_apply measurable_neg hs, withDensity_apply _ (measurable_neg hs), withDensity_apply _ hs]
  conv_rhs => rw [← hn]
  rw [setLIntegral_map hs hm measurable_neg]
  simp

theorem maxwell_density : maxwellLaw = stdN.withDensity (fun z => ENNReal.ofReal (z ^ 2)) := by
  rw [stdN_withDensity _ (by fun_prop)]
  unfold maxwellLaw
  congr 1
  funext z
  unfold gaussianPDF
  rw [← ENNReal.ofReal_mul (gaussianPDFReal_nonneg _ _ _)]
  congr 1
  unfold gaussianPDFReal
  simp only [NNReal.coe_one, mul_one, sub_zero]
  field_simp

/-- the expectation after transforming coordinate `d` -/
theorem integral_update (d : Fin D) (φ : ℝ → ℝ) (hφ : Measurable φ) (r : ℝ → ℝ) (hr : Measurable r) (h0 : ∀ z, 0 ≤ r z)
    (h : stdN.map φ = stdN.withDensity (fun z => ENNReal.ofReal (r z))) (F : (Fin D → ℝ) → ℝ) (hF : Measurable F) :
    ∫ e, F (Function.update e d (φ (e d))) ∂(stdNs D) = ∫ e, r (e d) * F e ∂(stdNs D) := by
  have hu : Measurable (fun e : Fin D → ℝ => Function.update e d (φ (e d))) :=
    (measurable_repl d).comp ((hφ.comp (measurable_pi_apply d)).prodMk measurable_id)
  have hρ : Measurable (fun z => ENNReal.ofReal (r z)) := hr.ennreal_ofReal
  have hρd : Measurable (fun e : Fin D → ℝ => ENNReal.ofReal (r (e d))) := hρ.comp (measurable_pi_apply d)
  rw [← integral_map (f := F) hu.aemeasurable hF.aestronglyMeasurable, update_withDensity d φ hφ _ hρ h,
    integral_withDensity_eq_integral_toReal_smul hρd (by simp)]
  simp [ENNReal.toReal_ofReal (h0 _)]

/-- the expectation after replacing coordinate `d` by an independent variable -/
theorem integral_repl (d : Fin D) (r : ℝ → ℝ) (hr : Measurable r) (h0 : ∀ z, 0 ≤ r z)
    (F : (Fin D → ℝ) → ℝ) (hF : Measurable F) :
    ∫ p, F (Function.update p.2 d p.1) ∂((stdN.withDensity (fun z => ENNReal.ofReal (r z))).prod (stdNs D)) =
      ∫ e, r (e d) * F e ∂(stdNs D) := by
  have hρ : Measurable (fun z => ENNReal.ofReal (r z)) := hr.ennreal_ofReal
  have hρd : Measurable (fun e : Fin D → ℝ => ENNReal.ofReal (r (e d))) := hρ.comp (measurable_pi_apply d)
  rw [← integral_map (f := F) (measurable_repl d).aemeasurable hF.aestronglyMeasurable, repl_withDensity d _ hρ,
    integral_withDensity_eq_integral_toReal_smul hρd (by simp)]
  simp [ENNReal.toReal_ofReal (h0 _)]

theorem integrable_repl (d : Fin D) (r : ℝ → ℝ) (hr : Measurable r) (h0 : ∀ z, 0 ≤ r z)
    (F : (Fin D → ℝ) → ℝ) (hi : Integrable (fun e => r (e d) * F e) (stdNs D)) :
    Integrable (fun p : ℝ × (Fin D → ℝ) => F (Function.update p.2 d p.1))
      ((stdN.withDensity (fun z => ENNReal.ofReal (r z))).prod (stdNs D)) := by
  have hρ : Measurable (fun z => ENNReal.ofReal (r z)) := hr.ennreal_ofReal
  have hρd : Measurable (fun e : Fin D → ℝ => ENNReal.ofReal (r (e d))) := hρ.comp (measurable_pi_apply d)
  have : Integrable F (((stdN.withDensity (fun z => ENNReal.ofReal (r z))).prod (stdNs D)).map
      (fun p : ℝ × (Fin D → ℝ) => Function.update p.2 d p.1)) := by
    rw [repl_withDensity d _ hρ, integrable_withDensity_iff_integrable_smul' hρd (by simp)]
    refine hi.congr (Filter.Eventually.of_forall fun e => ?_)
    simp [ENNReal.toReal_ofReal (h0 _)]
  exact this.comp_measurable (measurable_repl d)

theorem integrable_exp_sq : Integrable (fun z : ℝ => Real.exp (z ^ 2 / 4)) stdN := by
  rw [stdN_eq, integrable_withDensity_iff_integrable_smul' (measurable_gaussianPDF 0 1) (by simp [gaussianPDF])]
  have h : Integrable (fun z : ℝ => (√(2 * π))⁻¹ * Real.exp (-(1 / 4) * z ^ 2)) :=
    (integrable_exp_neg_mul_sq (by norm_num)).const_mul _
  refine h.congr (Filter.Eventually.of_forall fun z => ?_)
  simp only [toReal_gaussianPDF, smul_eq_mul, gaussianPDFReal, NNReal.coe_one, mul_one, sub_zero]
  rw [mul_assoc, ← Real.exp_add]
  congr 2
  ring

/-- any function of one coordinate that grows at most like `exp(z^2/8)` is square integrable -/
theorem memLp_of_le (d : Fin D) (r : ℝ → ℝ) (hr : Measurable r) (C : ℝ) (h : ∀ z, |r z| ≤ C * Real.exp (z ^ 2 / 8)) :
    MemLp (fun e : Fin D → ℝ => r (e d)) 2 (stdNs D) := by
  have h1 : MemLp (fun z : ℝ => C * Real.exp (z ^ 2 / 8)) 2 stdN := by
    apply MemLp.const_mul
    rw [memLp_two_iff_integrable_sq (by fun_prop)]
    refine integrable_exp_sq.congr (Filter.Eventually.of_forall fun z => ?_)
    simp only
    rw [← Real.exp_nat_mul]
    congr 1
    push_cast
    ring
  have h2 : MemLp r 2 stdN := by
    refine h1.of_le hr.aestronglyMeasurable (Filter.Eventually.of_forall fun z => ?_)
    rw [Real.norm_eq_abs, Real.norm_eq_abs]
    exact (h z).trans (le_abs_self _)
  exact h2.comp_measurePreserving (measurePreserving_eval (fun _ : Fin D => stdN) d)

theorem integrable_of_le (d : Fin D) (r : ℝ → ℝ) (hr : Measurable r) (C : ℝ) (h : ∀ z, |r z| ≤ C * Real.exp (z ^ 2 / 8))
    (F : (Fin D → ℝ) → ℝ) (hF : MemLp F 2 (stdNs D)) : Integrable (fun e => r (e d) * F e) (stdNs D) :=
  (memLp_of_le d r hr C h).integrable_mul hF

theorem poly_le (z : ℝ) : 1 + z ^ 2 ≤ 16 * Real.exp (z ^ 2 / 16) := by
  have := Real.add_one_le_exp (z ^ 2 / 16)
  linarith

theorem abs_le_poly (z : ℝ) : |z| ≤ 1 + z ^ 2 := by
  rw [← sq_abs]; nlinarith [sq_nonneg (|z| - 1), abs_nonneg z]

/-- derivative of the expectation in a shift of coordinate `d`: the score function `z` -/
theorem hasDerivAt_shift (d : Fin D) (F : (Fin D → ℝ) → ℝ) (hF : Measurable F) (h2 : MemLp F 2 (stdNs D)) :
    HasDerivAt (fun s : ℝ => ∫ e, F (Function.update e d (e d + s)) ∂(stdNs D)) (∫ e, e d * F e ∂(stdNs D)) 0 := by
  have e1 : (fun s : ℝ => ∫ e, F (Function.update e d (e d + s)) ∂(stdNs D)) =
      fun s => ∫ e, Real.exp (s * e d - s ^ 2 / 2) * F e ∂(stdNs D) := by
    funext s
    exact integral_update d (fun z => z + s) (by fun_prop) _ (by fun_prop) (fun z => (Real.exp_pos _).le) (shift_density s) F hF
  rw [e1]
  have hb : ∀ z s : ℝ, s ∈ Metric.ball (0 : ℝ) 1 →
      |(z - s) * Real.exp (s * z - s ^ 2 / 2)| ≤ 32 * Real.exp 4 * Real.exp (z ^ 2 / 8) := by
    intro z s hs
    have hs1 : |s| < 1 := by simpa using hs
    rw [abs_mul, abs_of_pos (Real.exp_pos _)]
    have a1 : |z - s| ≤ 2 * (1 + z ^ 2) := by
      have := abs_sub z s
      have := abs_le_poly z
      nlinarith [sq_nonneg z]
    have a2 : |z - s| ≤ 32 * Real.exp (z ^ 2 / 16) := by linarith [poly_le z]
    have a3 : Real.exp (s * z - s ^ 2 / 2) ≤ Real.exp (4 + z ^ 2 / 16) := by
      apply Real.exp_le_exp.mpr
      have b1 : s * z ≤ 4 * s ^ 2 + z ^ 2 / 16 := by nlinarith [sq_nonneg (2 * s - z / 4)]
      have b2 : s ^ 2 ≤ 1 := by rw [← sq_abs]; nlinarith [abs_nonneg s]
      nlinarith [sq_nonneg s]
    calc |z - s| * Real.exp (s * z - s ^ 2 / 2) ≤ (32 * Real.exp (z ^ 2 / 16)) * Real.exp (4 + z ^ 2 / 16) :=
          mul_le_mul a2 a3 (Real.exp_pos _).le (by positivity)
      _ = 32 * Real.exp 4 * Real.exp (z ^ 2 / 8) := by
          rw [mul_assoc, mul_assoc, ← Real.exp_add, ← Real.exp_add]; congr 2; ring
  have key := hasDerivAt_integral_of_dominated_loc_of_deriv_le (μ := stdNs D) (x₀ := (0 : ℝ)) (s := Metric.ball 0 1)
    (F := fun s e => Real.exp (s * e d - s ^ 2 / 2) * F e)
    (F' := fun s e => (e d - s) * Real.exp (s * e d - s ^ 2 / 2) * F e)
    (bound := fun e => 32 * Real.exp 4 * Real.exp (e d ^ 2 / 8) * |F e|)
    (Metric.ball_mem_nhds _ one_pos)
    (Filter.Eventually.of_forall fun s => by
      apply Measurable.aestronglyMeasurable
      exact (by fun_prop : Measurable fun e : Fin D → ℝ => Real.exp (s * e d - s ^ 2 / 2)).mul hF)
    (by simpa using h2.integrable (by norm_num))
    (by
      apply Measurable.aestronglyMeasurable
      exact (by fun_prop : Measurable fun e : Fin D → ℝ => (e d - 0) * Real.exp (0 * e d - 0 ^ 2 / 2)).mul hF)
    (Filter.Eventually.of_forall fun e s hs => by
      rw [Real.norm_eq_abs, abs_mul]
      exact mul_le_mul_of_nonneg_right (hb (e d) s hs) (abs_nonneg _))
    (by
      have := integrable_of_le d (fun z => 32 * Real.exp 4 * Real.exp (z ^ 2 / 8)) (by fun_prop) (32 * Real.exp 4)
        (fun z => by rw [abs_of_pos (by positivity)]) (fun e => |F e|) h2.abs
      exact this)
    (Filter.Eventually.of_forall fun e s _ => by
      have h1 : HasDerivAt (fun s : ℝ => s * e d - s ^ 2 / 2) (e d - s) s := by
        have := ((hasDerivAt_id s).mul_const (e d)).sub (((hasDerivAt_id s).pow 2).div_const 2)
        refine this.congr_deriv ?_
        simp
      refine (h1.exp.mul_const (F e)).congr_deriv ?_
      ring)
  refine key.2.congr_deriv ?_
  simp

/-- derivative of the expectation in a log scale of coordinate `d`: the score function `z^2 - 1` -/
theorem hasDerivAt_scale (d : Fin D) (F : (Fin D → ℝ) → ℝ) (hF : Measurable F) (h2 : MemLp F 2 (stdNs D)) :
    HasDerivAt (fun u : ℝ => ∫ e, F (Function.update e d (Real.exp u * e d)) ∂(stdNs D))
      (∫ e, (e d ^ 2 - 1) * F e ∂(stdNs D)) 0 := by
  have e1 : (fun u : ℝ => ∫ e, F (Function.update e d (Real.exp u * e d)) ∂(stdNs D)) =
      fun u => ∫ e, Real.exp (-u - e d ^ 2 * (Real.exp (-2 * u) - 1) / 2) * F e ∂(stdNs D) := by
    funext u
    exact integral_update d (fun z => Real.exp u * z) (by fun_prop) _ (by fun_prop) (fun z => (Real.exp_pos _).le)
      (scale_density u) F hF
  rw [e1]
  have hb : ∀ z u : ℝ, u ∈ Metric.ball (0 : ℝ) (1 / 16) →
      |(z ^ 2 * Real.exp (-2 * u) - 1) * Real.exp (-u - z ^ 2 * (Real.exp (-2 * u) - 1) / 2)| ≤
        48 * Real.exp 1 * Real.exp (z ^ 2 / 8) := by
    intro z u hs
    have hs1 : |u| < 1 / 16 := by simpa using hs
    obtain ⟨hu1, hu2⟩ := abs_lt.mp hs1
    have hE : Real.exp (-2 * u) ≤ 3 := by
      have h1 : Real.exp (-2 * u) ≤ Real.exp 1 := Real.exp_le_exp.mpr (by linarith)
      linarith [Real.exp_one_lt_d9]
    have hE2 : 1 - 1 / 8 ≤ Real.exp (-2 * u) := by
      have := Real.add_one_le_exp (-2 * u); linarith
    rw [abs_mul, abs_of_pos (Real.exp_pos _)]
    have hp := Real.exp_pos (-2 * u)
    have a2 : |z ^ 2 * Real.exp (-2 * u) - 1| ≤ 48 * Real.exp (z ^ 2 / 16) := by
      have := poly_le z
      rw [abs_le]
      constructor <;> nlinarith [sq_nonneg z]
    have a3 : Real.exp (-u - z ^ 2 * (Real.exp (-2 * u) - 1) / 2) ≤ Real.exp (1 + z ^ 2 / 16) := by
      apply Real.exp_le_exp.mpr
      nlinarith [sq_nonneg z]
    calc _ ≤ (48 * Real.exp (z ^ 2 / 16)) * Real.exp (1 + z ^ 2 / 16) :=
          mul_le_mul a2 a3 (Real.exp_pos _).le (by positivity)
      _ = _ := by
          rw [mul_assoc, mul_assoc, ← Real.exp_add, ← Real.exp_add]; congr 2; ring
  have key := hasDerivAt_integral_of_dominated_loc_of_deriv_le (μ := stdNs D) (x₀ := (0 : ℝ)) (s := Metric.ball 0 (1 / 16))
    (F := fun u e => Real.exp (-u - e d ^ 2 * (Real.exp (-2 * u) - 1) / 2) * F e)
    (F' := fun u e => (e d ^ 2 * Real.exp (-2 * u) - 1) * Real.exp (-u - e d ^ 2 * (Real.exp (-2 * u) - 1) / 2) * F e)
    (bound := fun e => 48 * Real.exp 1 * Real.exp (e d ^ 2 / 8) * |F e|)
    (Metric.ball_mem_nhds _ (by norm_num))
    (Filter.Eventually.of_forall fun u => by
      apply Measurable.aestronglyMeasurable
      exact (by fun_prop : Measurable fun e : Fin D → ℝ => Real.exp (-u - e d ^ 2 * (Real.exp (-2 * u) - 1) / 2)).mul hF)
    (by simpa using h2.integrable (by norm_num))
    (by
      apply Measurable.aestronglyMeasurable
      exact (by fun_prop : Measurable fun e : Fin D → ℝ => (e d ^ 2 * Real.exp (-2 * 0) - 1) *
        Real.exp (-0 - e d ^ 2 * (Real.exp (-2 * 0) - 1) / 2)).mul hF)
    (Filter.Eventually.of_forall fun e s hs => by
      rw [Real.norm_eq_abs, abs_mul]
      exact mul_le_mul_of_nonneg_right (hb (e d) s hs) (abs_nonneg _))
    (by
      have := integrable_of_le d (fun z => 48 * Real.exp 1 * Real.exp (z ^ 2 / 8)) (by fun_prop) (48 * Real.exp 1)
        (fun z => by rw [abs_of_pos (by positivity)]) (fun e => |F e|) h2.abs
      exact this)
    (Filter.Eventually.of_forall fun e u _ => by
      have h1 : HasDerivAt (fun u : ℝ => -u - e d ^ 2 * (Real.exp (-2 * u) - 1) / 2) (e d ^ 2 * Real.exp (-2 * u) - 1) u := by
        have h3 : HasDerivAt (fun u : ℝ => Real.exp (-2 * u)) (Real.exp (-2 * u) * (-2 * 1)) u :=
          ((hasDerivAt_id u).const_mul (-2)).exp
        have := (hasDerivAt_id u).neg.sub (((h3.sub_const 1).const_mul (e d ^ 2)).div_const 2)
        refine this.congr_deriv ?_
        ring
      refine (h1.exp.mul_const (F e)).congr_deriv ?_
      ring)
  refine key.2.congr_deriv ?_
  simp

/-- the tail integral of `m exp(-m^2/2)` -/
theorem tail_pos (t : ℝ) (ht : 0 ≤ t) :
    ∫⁻ m in Set.Ioi t, ENNReal.ofReal (|m| * Real.exp (-m ^ 2 / 2)) = ENNReal.ofReal (Real.exp (-t ^ 2 / 2)) := by
  have hd : ∀ x : ℝ, HasDerivAt (fun m : ℝ => -Real.exp (-m ^ 2 / 2)) (x * Real.exp (-x ^ 2 / 2)) x := by
    intro x
    have h1 : HasDerivAt (fun m : ℝ => -m ^ 2 / 2) (-x) x := by
      have := (((hasDerivAt_id x).pow 2).neg).div_const 2
      refine this.congr_deriv ?_
      simp; ring
    refine h1.exp.neg.congr_deriv ?_
    ring
  have hl : Filter.Tendsto (fun m : ℝ => -Real.exp (-m ^ 2 / 2)) Filter.atTop (nhds (-0)) := by
    apply Filter.Tendsto.neg
    apply Real.tendsto_exp_atBot.comp
    have : Filter.Tendsto (fun m : ℝ => m ^ 2 / 2) Filter.atTop Filter.atTop :=
      (Filter.tendsto_pow_atTop (by norm_num)).atTop_div_const (by norm_num)
    refine (Filter.tendsto_neg_atTop_atBot.comp this).congr (fun m => ?_)
    simp; ring
  have hn : ∀ x ∈ Set.Ioi t, 0 ≤ x * Real.exp (-x ^ 2 / 2) := fun x hx =>
    mul_nonneg (ht.trans (le_of_lt hx)) (Real.exp_pos _).le
  have hi := integrableOn_Ioi_deriv_of_nonneg' (a := t) (fun x _ => hd x) hn hl
  have hv := integral_Ioi_of_hasDerivAt_of_nonneg' (a := t) (fun x _ => hd x) hn hl
  have e : ∫⁻ m in Set.Ioi t, ENNReal.ofReal (|m| * Real.exp (-m ^ 2 / 2)) =
      ∫⁻ m in Set.Ioi t, ENNReal.ofReal (m * Real.exp (-m ^ 2 / 2)) := by
    apply setLIntegral_congr_fun measurableSet_Ioi
    intro m hm
    simp only
    rw [abs_of_nonneg (ht.trans (le_of_lt hm))]
  rw [e, ← ofReal_integral_eq_lintegral_ofReal hi ((ae_restrict_iff' measurableSet_Ioi).mpr (Filter.Eventually.of_forall hn)), hv]
  congr 1
  ring

theorem tail_neg (t : ℝ) (ht : t ≤ 0) :
    ∫⁻ m in Set.Iio t, ENNReal.ofReal (|m| * Real.exp (-m ^ 2 / 2)) = ENNReal.ofReal (Real.exp (-t ^ 2 / 2)) := by
  have h := tail_pos (-t) (by linarith)
  have hp := (Measure.measurePreserving_neg (volume : Measure ℝ)).setLIntegral_comp_preimage
    (s := Set.Ioi (-t)) measurableSet_Ioi (f := fun m => ENNReal.ofReal (|m| * Real.exp (-m ^ 2 / 2))) (by fun_prop)
  have hs : (Neg.neg : ℝ → ℝ) ⁻¹' Set.Ioi (-t) = Set.Iio t := by
    ext x; simp
  rw [hs, h] at hp
  simpa using hp

/-- substitution `t = u m` -/
theorem subst_mul (g : ℝ → ℝ≥0∞) (hg : Measurable g) (m : ℝ) (hm : m ≠ 0) :
    ENNReal.ofReal |m| * ∫⁻ u in Set.Ioo (0 : ℝ) 1, g (u * m) =
      ∫⁻ t, {t : ℝ | 0 < t / m ∧ t / m < 1}.indicator g t := by
  have h := Real.smul_map_volume_mul_right hm
  have hS : MeasurableSet {t : ℝ | 0 < t / m ∧ t / m < 1} := by
    have : Measurable fun t : ℝ => t / m := by fun_prop
    exact (measurableSet_Ioo (a := (0:ℝ)) (b := 1)).preimage this
  conv_rhs => rw [← h]
  rw [lintegral_smul_measure, lintegral_map (hg.indicator hS) (by fun_prop), ← lintegral_indicator measurableSet_Ioo]
  congr 1
  apply lintegral_congr
  intro u
  simp only [Set.indicator, Set.mem_Ioo, Set.mem_ofPred_eq, mul_div_cancel_right₀ _ hm]

/-- a uniform variable times an independent double sided Maxwell variable is standard normal -/
theorem uniform_mul_maxwell : (uniformLaw.prod maxwellLaw).map (fun p : ℝ × ℝ => p.1 * p.2) = stdN := by
  have hmul : Measurable (fun p : ℝ × ℝ => p.1 * p.2) := by fun_prop
  have hS1 : SFinite maxwellLaw := by unfold maxwellLaw; infer_instance
  have hS2 : SFinite uniformLaw := by unfold uniformLaw; infer_instance
  ext s hs
  have hgm : Measurable (s.indicator (1 : ℝ → ℝ≥0∞)) := measurable_one.indicator hs
  have key : ∫⁻ x, s.indicator 1 x ∂((uniformLaw.prod maxwellLaw).map (fun p : ℝ × ℝ => p.1 * p.2)) =
      ∫⁻ x, s.indicator 1 x ∂stdN := by
    generalize s.indicator (1 : ℝ → ℝ≥0∞) = g at hgm
    have hgc : AEMeasurable (fun p : ℝ × ℝ => g (p.1 * p.2)) (uniformLaw.prod maxwellLaw) := (hgm.comp hmul).aemeasurable
    rw [lintegral_map hgm hmul, lintegral_prod_symm _ hgc]
    have hinner : Measurable (fun m : ℝ => ∫⁻ u, g (u * m) ∂uniformLaw) :=
      Measurable.lintegral_prod_left' (f := fun p : ℝ × ℝ => g (p.1 * p.2)) (hgm.comp hmul)
    unfold maxwellLaw
    rw [lintegral_withDensity_eq_lintegral_mul _ (by fun_prop) hinner]
    have hSm : MeasurableSet {p : ℝ × ℝ | 0 < p.2 / p.1 ∧ p.2 / p.1 < 1} := by
      have : Measurable fun p : ℝ × ℝ => p.2 / p.1 := by fun_prop
      exact (measurableSet_Ioo (a := (0:ℝ)) (b := 1)).preimage this
    have e1 : ∀ m : ℝ, ((fun x : ℝ => ENNReal.ofReal (x ^ 2 * Real.exp (-x ^ 2 / 2) / √(2 * π))) *
        (fun m : ℝ => ∫⁻ u, g (u * m) ∂uniformLaw)) m =
        ∫⁻ t, {p : ℝ × ℝ | 0 < p.2 / p.1 ∧ p.2 / p.1 < 1}.indicator
          (fun p => ENNReal.ofReal (|p.1| * Real.exp (-p.1 ^ 2 / 2) / √(2 * π)) * g p.2) (m, t) := by
      intro m
      simp only [Pi.mul_apply]
      by_cases hm : m = 0
      · subst hm; simp
      have e2 : ENNReal.ofReal (m ^ 2 * Real.exp (-m ^ 2 / 2) / √(2 * π)) =
          ENNReal.ofReal (|m| * Real.exp (-m ^ 2 / 2) / √(2 * π)) * ENNReal.ofReal |m| := by
        rw [← ENNReal.ofReal_mul (by positivity)]
        congr 1
        rw [← sq_abs]; ring
      unfold uniformLaw
      rw [e2, mul_assoc, subst_mul g hgm m hm, ← lintegral_const_mul]
      · apply lintegral_congr
        intro t
        simp only [Set.indicator, Set.mem_ofPred_eq]
        split <;> simp
      · exact hgm.indicator ((measurableSet_Ioo (a := (0:ℝ)) (b := 1)).preimage (by fun_prop : Measurable fun t : ℝ => t / m))
    rw [lintegral_congr e1]
    have hM : Measurable ({p : ℝ × ℝ | 0 < p.2 / p.1 ∧ p.2 / p.1 < 1}.indicator
          (fun p : ℝ × ℝ => ENNReal.ofReal (|p.1| * Real.exp (-p.1 ^ 2 / 2) / √(2 * π)) * g p.2)) := by
      apply Measurable.indicator _ hSm
      exact (by fun_prop : Measurable fun p : ℝ × ℝ => ENNReal.ofReal (|p.1| * Real.exp (-p.1 ^ 2 / 2) / √(2 * π))).mul
        (hgm.comp measurable_snd)
    have hsw := lintegral_lintegral_swap (μ := (volume : Measure ℝ)) (ν := (volume : Measure ℝ))
      (f := fun m t => {p : ℝ × ℝ | 0 < p.2 / p.1 ∧ p.2 / p.1 < 1}.indicator
          (fun p : ℝ × ℝ => ENNReal.ofReal (|p.1| * Real.exp (-p.1 ^ 2 / 2) / √(2 * π)) * g p.2) (m, t)) hM.aemeasurable
    rw [hsw, stdN_eq, lintegral_withDensity_eq_lintegral_mul _ (measurable_gaussianPDF 0 1) hgm]
    apply lintegral_congr_ae
    have hne : ∀ᵐ t : ℝ, t ≠ 0 := by simp [ae_iff]
    filter_upwards [hne] with t ht
    have hc : (0 : ℝ) ≤ (√(2 * π))⁻¹ := by positivity
    have tail : ∫⁻ m, {m : ℝ | 0 < t / m ∧ t / m < 1}.indicator
        (fun m => ENNReal.ofReal (|m| * Real.exp (-m ^ 2 / 2))) m = ENNReal.ofReal (Real.exp (-t ^ 2 / 2)) := by
      have hms : MeasurableSet {m : ℝ | 0 < t / m ∧ t / m < 1} :=
        (measurableSet_Ioo (a := (0:ℝ)) (b := 1)).preimage (by fun_prop : Measurable fun m : ℝ => t / m)
      rw [lintegral_indicator hms]
      rcases lt_or_gt_of_ne ht with h | h
      · have : {m : ℝ | 0 < t / m ∧ t / m < 1} = Set.Iio t := by
          ext m
          simp only [Set.mem_ofPred_eq, Set.mem_Iio]
          constructor
          · rintro ⟨h1, h2⟩
            have hm : m < 0 := by
              rcases lt_trichotomy m 0 with h3 | h3 | h3
              · exact h3
              · subst h3; simp at h1
              · exact absurd (div_neg_of_neg_of_pos h h3) (by linarith)
            rw [div_lt_one_of_neg hm] at h2
            exact h2
          · intro hm
            have hm0 : m < 0 := hm.trans h
            exact ⟨div_pos_of_neg_of_neg h hm0, by rw [div_lt_one_of_neg hm0]; exact hm⟩
        rw [this, tail_neg t h.le]
      · have : {m : ℝ | 0 < t / m ∧ t / m < 1} = Set.Ioi t := by
          ext m
          simp only [Set.mem_ofPred_eq, Set.mem_Ioi]
          constructor
          · rintro ⟨h1, h2⟩
            have hm : 0 < m := by
              rcases lt_trichotomy m 0 with h3 | h3 | h3
              · exact absurd (div_neg_of_pos_of_neg h h3) (by linarith)
              · subst h3; simp at h1
              · exact h3
            rwa [div_lt_one hm] at h2
          · intro hm
            have hm0 : 0 < m := h.trans hm
            exact ⟨div_pos h hm0, by rwa [div_lt_one hm0]⟩
        rw [this, tail_pos t h.le]
    have e3 : ∀ m, {p : ℝ × ℝ | 0 < p.2 / p.1 ∧ p.2 / p.1 < 1}.indicator
          (fun p : ℝ × ℝ => ENNReal.ofReal (|p.1| * Real.exp (-p.1 ^ 2 / 2) / √(2 * π)) * g p.2) (m, t) =
        (ENNReal.ofReal (√(2 * π))⁻¹ * g t) * {m : ℝ | 0 < t / m ∧ t / m < 1}.indicator
          (fun m => ENNReal.ofReal (|m| * Real.exp (-m ^ 2 / 2))) m := by
      intro m
      simp only [Set.indicator, Set.mem_ofPred_eq]
      split
      · rw [div_eq_mul_inv, ENNReal.ofReal_mul (by positivity)]; ring
      · simp
    rw [lintegral_congr e3, lintegral_const_mul, tail]
    · simp only [Pi.mul_apply, gaussianPDF, gaussianPDFReal, NNReal.coe_one, mul_one, sub_zero]
      rw [ENNReal.ofReal_mul hc]; ring
    · exact Measurable.indicator (by fun_prop)
        ((measurableSet_Ioo (a := (0:ℝ)) (b := 1)).preimage (by fun_prop : Measurable fun m : ℝ => t / m))
  rwa [lintegral_indicator_one hs, lintegral_indicator_one hs] at key

end Optax
