import Verif.Props.ControlVariates
import Verif.Lemmas.Gauss

/-!
# C79: the gradient estimators are unbiased

The keys are random (a measure `μ` on keys) and the draws jax makes from a key have the laws jax documents. Then the
expectation of every estimator is the derivative, in every coordinate of every parameter, of the expectation of the
function under the Gaussian with those parameters.
-/

set_option linter.unusedSectionVars false
set_option linter.unusedSimpArgs false

namespace Optax
open MeasureTheory ProbabilityTheory

variable {G : Prng} {D N : ℕ} [MeasurableSpace G.Key]

/-- the objective: expectation of `f` at sample `n` of `multi_normal(*params)` over random keys -/
noncomputable def objective (G : Prng) [MeasurableSpace G.Key] {D : ℕ} (μ : Measure G.Key) (f : Vec D → ℝ) (N : ℕ) (n : Fin N)
    (params : Fin 2 → Vec D) : ℝ := ∫ rng, f ((multiNormalB G params).sample N rng n) ∂μ

/-- the parameters with coordinate `d` of parameter `k` set to `t` -/
def setParam (params : Fin 2 → Vec D) (k : Fin 2) (d : Fin D) (t : ℝ) : Fin 2 → Vec D :=
  Function.update params k (Function.update (params k) d t)

/-- the random vector `X` has the law `ν` -/
def LawOf {α : Type} [MeasurableSpace α] (G : Prng) [MeasurableSpace G.Key] (μ : Measure G.Key) (X : G.Key → α) (ν : Measure α) :
    Prop := Measurable X ∧ μ.map X = ν

/-- the function in terms of the standardised noise -/
noncomputable def whiten (f : Vec D → ℝ) (params : Fin 2 → Vec D) (e : Vec D) : ℝ :=
  f (fun i => params 0 i + Real.exp (params 1 i) * e i)

theorem whiten_measurable (f : Vec D → ℝ) (hf : Measurable f) (params : Fin 2 → Vec D) : Measurable (whiten f params) := by
  unfold whiten
  apply hf.comp
  rw [measurable_pi_iff]
  intro i
  exact ((measurable_pi_apply i).const_mul _).const_add _

theorem sample_eq_whiten (f : Vec D → ℝ) (params : Fin 2 → Vec D) (rng : G.Key) (n : Fin N) :
    f ((multiNormalB G params).sample N rng n) = whiten f params (G.normal rng N D n) := by
  unfold whiten multiNormalB multiNormal
  simp only
  congr 1
  funext i
  ring

theorem objective_eq (μ : Measure G.Key) (f : Vec D → ℝ) (hf : Measurable f) (n : Fin N) (params : Fin 2 → Vec D)
    (hE : LawOf G μ (fun rng => G.normal rng N D n) (stdNs D)) :
    objective G μ f N n params = ∫ e, whiten f params e ∂(stdNs D) := by
  unfold objective
  simp only [sample_eq_whiten]
  rw [← hE.2, integral_map hE.1.aemeasurable (whiten_measurable f hf params).aestronglyMeasurable]

theorem whiten_mean (f : Vec D → ℝ) (params : Fin 2 → Vec D) (d : Fin D) (t : ℝ) (e : Vec D) :
    whiten f (setParam params 0 d t) e = whiten f params (Function.update e d (e d + (t - params 0 d) / Real.exp (params 1 d))) := by
  unfold whiten setParam
  congr 1
  funext i
  have h := (Real.exp_pos (params 1 d)).ne'
  by_cases hi : i = d
  · subst hi; simp; field_simp; ring
  · simp [hi]

theorem whiten_scale (f : Vec D → ℝ) (params : Fin 2 → Vec D) (d : Fin D) (t : ℝ) (e : Vec D) :
    whiten f (setParam params 1 d t) e = whiten f params (Function.update e d (Real.exp (t - params 1 d) * e d)) := by
  unfold whiten setParam
  congr 1
  funext i
  by_cases hi : i = d
  · subst hi; simp [← mul_assoc, ← Real.exp_add]
  · simp [hi]

/-- the score function of a coordinate of a parameter, as a function of the noise -/
noncomputable def score (params : Fin 2 → Vec D) (k : Fin 2) (d : Fin D) (z : ℝ) : ℝ :=
  if k = 0 then z / Real.exp (params 1 d) else z ^ 2 - 1

theorem objective_deriv (μ : Measure G.Key) (f : Vec D → ℝ) (hf : Measurable f) (n : Fin N) (params : Fin 2 → Vec D)
    (hE : LawOf G μ (fun rng => G.normal rng N D n) (stdNs D))
    (h2 : MemLp (whiten f params) 2 (stdNs D)) (k : Fin 2) (d : Fin D) :
    HasDerivAt (fun t => objective G μ f N n (setParam params k d t)) (∫ e, score params k d (e d) * whiten f params e ∂(stdNs D))
      (params k d) := by
  simp only [objective_eq μ f hf n _ hE]
  have hm := whiten_measurable f hf params
  fin_cases k
  · simp only [Fin.zero_eta, Fin.isValue, whiten_mean]
    have h1 : HasDerivAt (fun t : ℝ => (t - params 0 d) / Real.exp (params 1 d)) (1 / Real.exp (params 1 d)) (params 0 d) :=
      ((hasDerivAt_id _).sub_const _).div_const _
    have h3 := hasDerivAt_shift d (whiten f params) hm h2
    have h4 : (params 0 d - params 0 d) / Real.exp (params 1 d) = 0 := by simp
    rw [← h4] at h3
    refine (h3.comp (params 0 d) h1).congr_deriv ?_
    rw [← integral_mul_const]
    congr 1
    funext e
    simp only [score, if_true]
    ring
  · simp only [Fin.mk_one, Fin.isValue, whiten_scale]
    have h1 : HasDerivAt (fun t : ℝ => t - params 1 d) 1 (params 1 d) := (hasDerivAt_id _).sub_const _
    have h3 := hasDerivAt_scale d (whiten f params) hm h2
    have h4 : params 1 d - params 1 d = 0 := by simp
    rw [← h4] at h3
    refine (HasDerivAt.comp (h₂ := fun u : ℝ => ∫ e, whiten f params (Function.update e d (Real.exp u * e d)) ∂(stdNs D))
      (h := fun t : ℝ => t - params 1 d) (params 1 d) h3 h1).congr_deriv ?_
    rw [mul_one]
    congr 1

theorem memLp_whiten (μ : Measure G.Key) (f : Vec D → ℝ) (hf : Measurable f) (n : Fin N) (params : Fin 2 → Vec D)
    (hE : LawOf G μ (fun rng => G.normal rng N D n) (stdNs D))
    (h2 : MemLp (fun rng => f ((multiNormalB G params).sample N rng n)) 2 μ) : MemLp (whiten f params) 2 (stdNs D) := by
  rw [← hE.2, memLp_map_measure_iff (whiten_measurable f hf params).aestronglyMeasurable hE.1.aemeasurable]
  refine h2.ae_eq (Filter.Eventually.of_forall fun rng => ?_)
  exact sample_eq_whiten f params rng n

/-- **C79 (score function).** For every measurable function whose value at the sample has a finite second moment, the
expected `score_function_jacobians` is the gradient of the objective, in every coordinate of the mean and of the log
scale. -/
theorem C79_score_function (μ : Measure G.Key) (f : Vec D → ℝ) (hf : Measurable f) (params : Fin 2 → Vec D) (n : Fin N)
    (hE : LawOf G μ (fun rng => G.normal rng N D n) (stdNs D))
    (h2 : MemLp (fun rng => f ((multiNormalB G params).sample N rng n)) 2 μ) (k : Fin 2) (d : Fin D) :
    HasDerivAt (fun t => objective G μ f N n (setParam params k d t))
      (∫ rng, scoreFunctionJacobians f params (multiNormalB G) rng N k n d ∂μ) (params k d) := by
  refine (objective_deriv μ f hf n params hE (memLp_whiten μ f hf n params hE h2) k d).congr_deriv ?_
  have hm : Measurable fun e : Vec D => score params k d (e d) * whiten f params e := by
    apply Measurable.mul _ (whiten_measurable f hf params)
    unfold score
    split <;> fun_prop
  rw [← hE.2, integral_map hE.1.aemeasurable hm.aestronglyMeasurable]
  congr 1
  funext rng
  have hs : f (gaussSample G (params 0) (params 1) rng N n) = whiten f params (G.normal rng N D n) := rfl
  obtain ⟨c0, c1⟩ := C70_score_function f params rng n d
  fin_cases k
  · refine Eq.trans ?_ c0.symm
    rw [hs]; simp [score]; ring
  · refine Eq.trans ?_ c1.symm
    rw [hs]; simp [score]; ring

theorem integrable_score (f : Vec D → ℝ) (params : Fin 2 → Vec D) (h2 : MemLp (whiten f params) 2 (stdNs D)) (d : Fin D)
    (r : ℝ → ℝ) (hr : Measurable r) (C : ℝ) (hC : 0 ≤ C) (h : ∀ z, |r z| ≤ C * (1 + z ^ 2)) :
    Integrable (fun e => r (e d) * whiten f params e) (stdNs D) := by
  apply integrable_of_le d r hr (C * 16) _ _ h2
  intro z
  have h1 := poly_le z
  have h3 : Real.exp (z ^ 2 / 16) ≤ Real.exp (z ^ 2 / 8) := Real.exp_le_exp.mpr (by nlinarith [sq_nonneg z])
  calc |r z| ≤ C * (1 + z ^ 2) := h z
    _ ≤ C * (16 * Real.exp (z ^ 2 / 8)) := by gcongr; linarith
    _ = C * 16 * Real.exp (z ^ 2 / 8) := by ring

/-- expectation of the function at the sample with coordinate `d` replaced by an independent variable -/
theorem replaced_expectation (μ : Measure G.Key) (f : Vec D → ℝ) (hf : Measurable f) (params : Fin 2 → Vec D) (n : Fin N)
    (h2 : MemLp (whiten f params) 2 (stdNs D)) (d : Fin D) (X : G.Key → ℝ) (r : ℝ → ℝ) (hr : Measurable r) (h0 : ∀ z, 0 ≤ r z)
    (C : ℝ) (hC : 0 ≤ C) (h : ∀ z, |r z| ≤ C * (1 + z ^ 2))
    (hX : LawOf G μ (fun rng => (X rng, G.normal rng N D n)) ((stdN.withDensity fun z => ENNReal.ofReal (r z)).prod (stdNs D))) :
    Integrable (fun rng => f (replaceCoord (gaussSample G (params 0) (params 1) rng N n) d
      (params 0 d + Real.exp (params 1 d) * X rng))) μ ∧
    ∫ rng, f (replaceCoord (gaussSample G (params 0) (params 1) rng N n) d (params 0 d + Real.exp (params 1 d) * X rng)) ∂μ =
      ∫ e, r (e d) * whiten f params e ∂(stdNs D) := by
  have hm := whiten_measurable f hf params
  have e1 : (fun rng => f (replaceCoord (gaussSample G (params 0) (params 1) rng N n) d
      (params 0 d + Real.exp (params 1 d) * X rng))) =
      fun rng => (fun p : ℝ × Vec D => whiten f params (Function.update p.2 d p.1)) (X rng, G.normal rng N D n) := by
    funext rng
    simp only [whiten, replaceCoord, gaussSample]
    congr 1
    funext i
    by_cases hi : i = d
    · subst hi; simp
    · simp [hi, gaussSample]
  have hmr : Measurable fun p : ℝ × Vec D => whiten f params (Function.update p.2 d p.1) := hm.comp (measurable_repl d)
  have hi := integrable_score f params h2 d r hr C hC h
  have hi2 := integrable_repl d r hr h0 (whiten f params) hi
  rw [e1]
  constructor
  · rw [← hX.2] at hi2
    exact hi2.comp_measurable hX.1
  · rw [← integral_repl d r hr h0 (whiten f params) hm, ← hX.2,
      integral_map hX.1.aemeasurable hmr.aestronglyMeasurable]

theorem LawOf.neg (μ : Measure G.Key) (X : G.Key → ℝ) (E : G.Key → Vec D)
    (h : LawOf G μ (fun rng => (X rng, E rng)) (weibullLaw.prod (stdNs D))) :
    LawOf G μ (fun rng => (-X rng, E rng))
      ((stdN.withDensity fun z => ENNReal.ofReal (√(2 * Real.pi) * max (-z) 0)).prod (stdNs D)) := by
  have hm : Measurable (Prod.map (fun x : ℝ => -x) (id : Vec D → Vec D)) := measurable_neg.prodMap measurable_id
  refine ⟨hm.comp h.1, ?_⟩
  have hS : SFinite weibullLaw := by unfold weibullLaw; infer_instance
  have e : μ.map (fun rng => (-X rng, E rng)) = (μ.map (fun rng => (X rng, E rng))).map (Prod.map (fun x : ℝ => -x) id) := by
    rw [Measure.map_map hm h.1]; rfl
  rw [e, h.2, ← Measure.map_prod_map _ _ measurable_neg measurable_id, Measure.map_id, weibull_neg_density]

/-- **C79 (measure-valued, mean).** If the Weibull variates are drawn from their law independently of the normal draws, the
expected `measure_valued_jacobians` is the gradient of the objective in the mean, with and without coupling. No
differentiability is assumed. -/
theorem C79_measure_valued_mean (μ : Measure G.Key) (f : Vec D → ℝ) (hf : Measurable f) (params : Fin 2 → Vec D) (n : Fin N)
    (d : Fin D) (coupling : Bool)
    (hE : LawOf G μ (fun rng => G.normal rng N D n) (stdNs D))
    (hW1 : LawOf G μ (fun rng => (G.weibull (G.split rng).1 N D n d, G.normal rng N D n)) (weibullLaw.prod (stdNs D)))
    (hW2 : LawOf G μ (fun rng => (G.weibull (G.split rng).2 N D n d, G.normal rng N D n)) (weibullLaw.prod (stdNs D)))
    (h2 : MemLp (fun rng => f ((multiNormalB G params).sample N rng n)) 2 μ) :
    HasDerivAt (fun t => objective G μ f N n (setParam params 0 d t))
      (∫ rng, measureValuedJacobians G f params rng N coupling 0 n d ∂μ) (params 0 d) := by
  have hw := memLp_whiten μ f hf n params hE h2
  refine (objective_deriv μ f hf n params hE hw 0 d).congr_deriv ?_
  have e1 : (fun rng => measureValuedJacobians G f params rng N coupling 0 n d) = fun rng =>
      (f (replaceCoord (gaussSample G (params 0) (params 1) rng N n) d
          (params 0 d + Real.exp (params 1 d) * G.weibull (G.split rng).1 N D n d))
        - f (replaceCoord (gaussSample G (params 0) (params 1) rng N n) d
          (params 0 d + Real.exp (params 1 d) * -G.weibull (if coupling then (G.split rng).1 else (G.split rng).2) N D n d)))
      / (Real.sqrt (2 * Real.pi) * Real.exp (params 1 d)) := by
    funext rng
    rw [(C69_jacobians f params rng coupling n d).1, C69_mean]
    simp only [mul_neg, sub_eq_add_neg]
  have hn : LawOf G μ (fun rng => (G.weibull (if coupling then (G.split rng).1 else (G.split rng).2) N D n d,
      G.normal rng N D n)) (weibullLaw.prod (stdNs D)) := by
    cases coupling
    · simpa using hW2
    · simpa using hW1
  have hp : LawOf G μ (fun rng => (G.weibull (G.split rng).1 N D n d, G.normal rng N D n))
      ((stdN.withDensity fun z => ENNReal.ofReal (√(2 * Real.pi) * max z 0)).prod (stdNs D)) := by
    rw [← weibull_density]; exact hW1
  have hC : ∀ z : ℝ, |√(2 * Real.pi) * max z 0| ≤ √(2 * Real.pi) * (1 + z ^ 2) := by
    intro z
    rw [abs_mul, abs_of_nonneg (Real.sqrt_nonneg _)]
    gcongr
    rw [abs_of_nonneg (le_max_right _ _)]
    exact max_le (le_trans (le_abs_self z) (abs_le_poly z)) (by positivity)
  obtain ⟨ip, vp⟩ := replaced_expectation μ f hf params n hw d _ (fun z => √(2 * Real.pi) * max z 0) (by fun_prop)
    (fun z => by positivity) (√(2 * Real.pi)) (by positivity) hC hp
  obtain ⟨ineg, vn⟩ := replaced_expectation μ f hf params n hw d _ (fun z => √(2 * Real.pi) * max (-z) 0) (by fun_prop)
    (fun z => by positivity) (√(2 * Real.pi)) (by positivity) (fun z => by simpa using hC (-z)) (LawOf.neg μ _ _ hn)
  rw [e1, integral_div, integral_sub ip ineg, vp, vn, ← integral_sub, ← integral_div]
  · congr 1
    funext e
    simp only [score, if_true]
    have h1 : √(2 * Real.pi) ≠ 0 := (Real.sqrt_pos.mpr (by positivity)).ne'
    have h3 := (Real.exp_pos (params 1 d)).ne'
    have h4 : max (e d) 0 - max (-e d) 0 = e d := by
      rcases le_total 0 (e d) with h | h
      · rw [max_eq_left h, max_eq_right (by linarith)]; ring
      · rw [max_eq_right h, max_eq_left (by linarith)]; ring
    field_simp
    rw [mul_comm]
    nth_rewrite 1 [← h4]
    ring
  · exact integrable_score f params hw d (fun z => √(2 * Real.pi) * max z 0) (by fun_prop) _ (by positivity) hC
  · exact integrable_score f params hw d (fun z => √(2 * Real.pi) * max (-z) 0) (by fun_prop) (√(2 * Real.pi)) (by positivity)
      (fun z => by simpa using hC (-z))

/-- **C79 (measure-valued, log scale).** If the Maxwell variate, and the uniform one (with coupling) or the second normal
one (without), are drawn from their laws independently of each other and of the sample, the expected
`measure_valued_jacobians` is the gradient of the objective in the log of the standard deviation. -/
theorem C79_measure_valued_scale (μ : Measure G.Key) (f : Vec D → ℝ) (hf : Measurable f) (params : Fin 2 → Vec D) (n : Fin N)
    (d : Fin D) (coupling : Bool)
    (hE : LawOf G μ (fun rng => G.normal rng N D n) (stdNs D))
    (hM : LawOf G μ (fun rng => (G.maxwell (G.split rng).1 N D n d, G.normal rng N D n)) (maxwellLaw.prod (stdNs D)))
    (hU : coupling = true → LawOf G μ (fun rng => ((G.uniform (G.split rng).2 N D n d, G.maxwell (G.split rng).1 N D n d),
      G.normal rng N D n)) ((uniformLaw.prod maxwellLaw).prod (stdNs D)))
    (hN : coupling = false → LawOf G μ (fun rng => (G.normal (G.split rng).2 N D n d, G.normal rng N D n))
      (stdN.prod (stdNs D)))
    (h2 : MemLp (fun rng => f ((multiNormalB G params).sample N rng n)) 2 μ) :
    HasDerivAt (fun t => objective G μ f N n (setParam params 1 d t))
      (∫ rng, measureValuedJacobians G f params rng N coupling 1 n d ∂μ) (params 1 d) := by
  have hw := memLp_whiten μ f hf n params hE h2
  refine (objective_deriv μ f hf n params hE hw 1 d).congr_deriv ?_
  have e1 : (fun rng => measureValuedJacobians G f params rng N coupling 1 n d) = fun rng =>
      f (replaceCoord (gaussSample G (params 0) (params 1) rng N n) d
          (params 0 d + Real.exp (params 1 d) * G.maxwell (G.split rng).1 N D n d))
        - f (replaceCoord (gaussSample G (params 0) (params 1) rng N n) d
          (params 0 d + Real.exp (params 1 d) * (if coupling then G.uniform (G.split rng).2 N D n d * G.maxwell (G.split rng).1 N D n d
              else G.normal (G.split rng).2 N D n d))) := by
    funext rng
    rw [(C69_jacobians f params rng coupling n d).2, C69_std]
    field_simp
  have h1d : stdN.withDensity (fun _ => ENNReal.ofReal 1) = stdN := by simp
  have hneg : LawOf G μ (fun rng => ((if coupling then G.uniform (G.split rng).2 N D n d * G.maxwell (G.split rng).1 N D n d
              else G.normal (G.split rng).2 N D n d), G.normal rng N D n))
      ((stdN.withDensity fun _ => ENNReal.ofReal 1).prod (stdNs D)) := by
    rw [h1d]
    cases coupling
    · simpa using hN rfl
    · have h := hU rfl
      have hS1 : SFinite maxwellLaw := by unfold maxwellLaw; infer_instance
      have hS2 : SFinite uniformLaw := by unfold uniformLaw; infer_instance
      have hm : Measurable (Prod.map (fun p : ℝ × ℝ => p.1 * p.2) (id : Vec D → Vec D)) :=
        (by fun_prop : Measurable fun p : ℝ × ℝ => p.1 * p.2).prodMap measurable_id
      refine ⟨hm.comp h.1, ?_⟩
      rw [show (fun rng => ((if true = true then G.uniform (G.split rng).2 N D n d * G.maxwell (G.split rng).1 N D n d
              else G.normal (G.split rng).2 N D n d), G.normal rng N D n)) =
          Prod.map (fun p : ℝ × ℝ => p.1 * p.2) (id : Vec D → Vec D) ∘
            (fun rng => ((G.uniform (G.split rng).2 N D n d, G.maxwell (G.split rng).1 N D n d), G.normal rng N D n)) by
            funext rng; simp,
        ← Measure.map_map hm h.1, h.2, ← Measure.map_prod_map _ _ (by fun_prop) measurable_id, Measure.map_id,
        uniform_mul_maxwell]
  have hp : LawOf G μ (fun rng => (G.maxwell (G.split rng).1 N D n d, G.normal rng N D n))
      ((stdN.withDensity fun z => ENNReal.ofReal (z ^ 2)).prod (stdNs D)) := by
    rw [← maxwell_density]; exact hM
  have hC : ∀ z : ℝ, |z ^ 2| ≤ 1 * (1 + z ^ 2) := by
    intro z; rw [abs_of_nonneg (sq_nonneg z)]; linarith
  have hC1 : ∀ z : ℝ, |(1 : ℝ)| ≤ 1 * (1 + z ^ 2) := by
    intro z; rw [abs_one]; nlinarith [sq_nonneg z]
  obtain ⟨ip, vp⟩ := replaced_expectation μ f hf params n hw d _ (fun z => z ^ 2) (by fun_prop)
    (fun z => by positivity) 1 (by positivity) hC hp
  obtain ⟨ineg, vn⟩ := replaced_expectation μ f hf params n hw d _ (fun _ => 1) (by fun_prop)
    (fun z => by positivity) 1 (by positivity) hC1 hneg
  rw [e1, integral_sub ip ineg, vp, vn, ← integral_sub]
  · congr 1
    funext e
    simp [score]
    ring
  · exact integrable_score f params hw d (fun z => z ^ 2) (by fun_prop) _ (by positivity) hC
  · exact integrable_score f params hw d (fun _ => 1) (by fun_prop) _ (by positivity) hC1

/-! ## The pathwise estimator -/

theorem integrable_exp_abs (a : ℝ) : Integrable (fun z : ℝ => Real.exp (a * |z|)) stdN := by
  have h : Integrable (fun z : ℝ => Real.exp (a * z) + Real.exp (-a * z)) stdN :=
    (integrable_exp_mul_gaussianReal a).add (integrable_exp_mul_gaussianReal (-a))
  refine h.mono' (by fun_prop) (Filter.Eventually.of_forall fun z => ?_)
  rw [Real.norm_eq_abs, abs_of_pos (Real.exp_pos _)]
  rcases abs_choice z with h | h <;> rw [h]
  · linarith [Real.exp_pos (-a * z)]
  · rw [show a * -z = -a * z by ring]; linarith [Real.exp_pos (a * z)]

theorem integrable_exp_sum (a : Vec D) : Integrable (fun e : Vec D => Real.exp (∑ i, a i * |e i|)) (stdNs D) := by
  have h := Integrable.fintype_prod_dep (μ := fun _ : Fin D => stdN) (f := fun i (z : ℝ) => Real.exp (a i * |z|))
    (fun i => integrable_exp_abs (a i))
  refine h.congr (Filter.Eventually.of_forall fun e => ?_)
  simp only [Real.exp_sum]

/-- the sample as a function of the parameters and the noise -/
noncomputable def pt (params : Fin 2 → Vec D) (e : Vec D) : Vec D := fun i => params 0 i + Real.exp (params 1 i) * e i

theorem pt_deriv (params : Fin 2 → Vec D) (k : Fin 2) (d : Fin D) (e : Vec D) (t : ℝ) :
    HasDerivAt (fun t => pt (setParam params k d t) e) (Pi.single d (if k = 0 then 1 else Real.exp t * e d)) t := by
  rw [hasDerivAt_pi]
  intro i
  unfold pt setParam
  fin_cases k
  · by_cases hi : i = d
    · subst hi
      simp only [Fin.zero_eta, Fin.isValue, Function.update_self, if_true, Pi.single_eq_same, Function.update_of_ne,
        ne_eq, one_ne_zero, not_false_eq_true]
      exact (hasDerivAt_id t).add_const _
    · simp [hi, hasDerivAt_const]
  · by_cases hi : i = d
    · subst hi
      simp only [Fin.mk_one, Fin.isValue, Function.update_self, if_false, Pi.single_eq_same, Function.update_of_ne,
        ne_eq, one_ne_zero, zero_ne_one, not_false_eq_true]
      exact ((Real.hasDerivAt_exp t).mul_const _).const_add _
    · simp [hi, hasDerivAt_const]

theorem pt_bound (params : Fin 2 → Vec D) (k : Fin 2) (d : Fin D) (e : Vec D) (t : ℝ) (ht : |t - params k d| < 1) :
    ∑ i, |pt (setParam params k d t) e i| ≤ (∑ i, (|params 0 i| + 1)) + ∑ i, Real.exp (params 1 i + 1) * |e i| := by
  rw [← Finset.sum_add_distrib]
  apply Finset.sum_le_sum
  intro i _
  have h1 : |(setParam params k d t) 0 i| ≤ |params 0 i| + 1 := by
    unfold setParam
    fin_cases k
    · by_cases hi : i = d
      · subst hi
        simp only [Fin.zero_eta, Fin.isValue, Function.update_self]
        have := abs_sub_abs_le_abs_sub t (params 0 i)
        simp at ht
        linarith
      · simp [hi]
    · simp
  have h2 : (setParam params k d t) 1 i ≤ params 1 i + 1 := by
    unfold setParam
    fin_cases k
    · simp
    · by_cases hi : i = d
      · subst hi
        simp only [Fin.mk_one, Fin.isValue, Function.update_self]
        have := (abs_lt.mp ht).2
        simp at this
        linarith
      · simp [hi]
  unfold pt
  calc |(setParam params k d t) 0 i + Real.exp ((setParam params k d t) 1 i) * e i|
      ≤ |(setParam params k d t) 0 i| + |Real.exp ((setParam params k d t) 1 i) * e i| := abs_add_le _ _
    _ ≤ (|params 0 i| + 1) + Real.exp (params 1 i + 1) * |e i| := by
        rw [abs_mul, abs_of_pos (Real.exp_pos _)]
        gcongr

/-- **C79 (pathwise).** For every differentiable function whose `d`-th partial derivative grows at most exponentially (in
particular every polynomial), the expected `pathwise_jacobians` is the gradient of the objective. -/
theorem C79_pathwise (μ : Measure G.Key) (f : Vec D → ℝ) (hf : Differentiable ℝ f) (params : Fin 2 → Vec D) (n : Fin N)
    (d : Fin D) (hE : LawOf G μ (fun rng => G.normal rng N D n) (stdNs D))
    (hi : Integrable (fun rng => f ((multiNormalB G params).sample N rng n)) μ) (C c : ℝ) (hc : 0 ≤ c)
    (hg : ∀ x, |partial1 f d x| ≤ C * Real.exp (c * ∑ i, |x i|)) (k : Fin 2) :
    HasDerivAt (fun t => objective G μ f N n (setParam params k d t))
      (∫ rng, pathwiseJacobians f params (multiNormalB G) rng N k n d ∂μ) (params k d) := by
  have hfm : Measurable f := hf.continuous.measurable
  have hC : 0 ≤ C := by
    have := (abs_nonneg _).trans (hg 0)
    simpa using this
  simp only [objective_eq μ f hfm n _ hE]
  have hpm : ∀ q : Fin 2 → Vec D, Measurable (pt q) := by
    intro q
    rw [measurable_pi_iff]
    intro i
    exact ((measurable_pi_apply i).const_mul _).const_add _
  have hw : ∀ q e, whiten f q e = f (pt q e) := fun _ _ => rfl
  have hset : setParam params k d (params k d) = params := by unfold setParam; simp
  have hpartial : ∀ x, partial1 f d x = fderiv ℝ f x (Pi.single d 1) := fun x => partial1_eq (hf x) d
  have hpm1 : Measurable (partial1 f d) := by
    rw [show partial1 f d = fun x => fderiv ℝ f x (Pi.single d 1) from funext hpartial]
    exact measurable_fderiv_apply_const ℝ f _
  let w : ℝ → Vec D → ℝ := fun t e => if k = 0 then 1 else Real.exp t * e d
  have hwb : ∀ t e, |t - params k d| < 1 → |w t e| ≤ Real.exp (params 1 d + 1) * Real.exp |e d| + 1 := by
    intro t e ht
    show |if k = 0 then (1 : ℝ) else Real.exp t * e d| ≤ _
    split
    · rw [abs_one]; linarith [mul_pos (Real.exp_pos (params 1 d + 1)) (Real.exp_pos |e d|)]
    · rename_i hk
      have hk1 : k = 1 := by omega
      subst hk1
      have h1 : t ≤ params 1 d + 1 := by have := (abs_lt.mp ht).2; linarith
      have h3 : |e d| ≤ Real.exp |e d| := by linarith [Real.add_one_le_exp |e d|]
      rw [abs_mul, abs_of_pos (Real.exp_pos _)]
      have : Real.exp t * |e d| ≤ Real.exp (params 1 d + 1) * Real.exp |e d| := by gcongr
      linarith
  let K : ℝ := ∑ i, (|params 0 i| + 1)
  have key := hasDerivAt_integral_of_dominated_loc_of_deriv_le (μ := stdNs D) (x₀ := params k d)
    (s := Metric.ball (params k d) 1)
    (F := fun t e => whiten f (setParam params k d t) e)
    (F' := fun t e => partial1 f d (pt (setParam params k d t) e) * w t e)
    (bound := fun e => C * Real.exp (c * K) * (Real.exp (params 1 d + 1) + 1) *
      Real.exp (∑ i, (c * Real.exp (params 1 i + 1) + if i = d then 1 else 0) * |e i|))
    (Metric.ball_mem_nhds _ one_pos)
    (Filter.Eventually.of_forall fun t => (whiten_measurable f hfm _).aestronglyMeasurable)
    (by
      simp only [hset]
      rw [← hE.2, integrable_map_measure (whiten_measurable f hfm params).aestronglyMeasurable hE.1.aemeasurable]
      refine hi.congr (Filter.Eventually.of_forall fun rng => ?_)
      exact sample_eq_whiten f params rng n)
    (by
      apply Measurable.aestronglyMeasurable
      apply (hpm1.comp (hpm _)).mul
      show Measurable fun e : Vec D => if k = 0 then (1 : ℝ) else Real.exp (params k d) * e d
      split <;> fun_prop)
    (Filter.Eventually.of_forall fun e t ht => by
      have ht1 : |t - params k d| < 1 := by simpa [Real.dist_eq] using ht
      have b1 := hg (pt (setParam params k d t) e)
      have b2 := pt_bound params k d e t ht1
      have b3 := hwb t e ht1
      rw [Real.norm_eq_abs, abs_mul]
      have b4 : Real.exp (c * ∑ i, |pt (setParam params k d t) e i|) ≤
          Real.exp (c * K) * Real.exp (∑ i, c * Real.exp (params 1 i + 1) * |e i|) := by
        rw [← Real.exp_add]
        apply Real.exp_le_exp.mpr
        have := mul_le_mul_of_nonneg_left b2 hc
        rw [mul_add, Finset.mul_sum (s := Finset.univ) (f := fun i => Real.exp (params 1 i + 1) * |e i|)] at this
        simpa only [mul_assoc] using this
      have b5 : |w t e| ≤ (Real.exp (params 1 d + 1) + 1) * Real.exp |e d| := by
        have : 1 ≤ Real.exp |e d| := Real.one_le_exp (abs_nonneg _)
        nlinarith
      have e1 : ∑ i, (c * Real.exp (params 1 i + 1) + if i = d then 1 else 0) * |e i| =
          (∑ i, c * Real.exp (params 1 i + 1) * |e i|) + |e d| := by
        simp only [add_mul, Finset.sum_add_distrib, ite_mul, one_mul, zero_mul, Finset.sum_ite_eq', Finset.mem_univ, if_true]
      rw [e1, Real.exp_add (∑ i, c * Real.exp (params 1 i + 1) * |e i|)]
      calc |partial1 f d (pt (setParam params k d t) e)| * |w t e|
          ≤ (C * (Real.exp (c * K) * Real.exp (∑ i, c * Real.exp (params 1 i + 1) * |e i|))) *
            ((Real.exp (params 1 d + 1) + 1) * Real.exp |e d|) := by
            apply mul_le_mul (b1.trans (mul_le_mul_of_nonneg_left b4 hC)) b5 (abs_nonneg _) (by positivity)
        _ = _ := by ring)
    ((integrable_exp_sum _).const_mul _)
    (Filter.Eventually.of_forall fun e t _ => by
      have h1 := pt_deriv params k d e t
      have h2 := (hf (pt (setParam params k d t) e)).hasFDerivAt.comp_hasDerivAt t h1
      refine h2.congr_deriv ?_
      rw [hpartial]
      have : (Pi.single d (if k = 0 then 1 else Real.exp t * e d) : Vec D) = w t e • Pi.single d (1 : ℝ) := by
        rw [← Pi.single_smul, smul_eq_mul, mul_one]
      rw [this, map_smul, smul_eq_mul, mul_comm])
  refine key.2.congr_deriv ?_
  have hm : Measurable fun e : Vec D => partial1 f d (pt (setParam params k d (params k d)) e) * w (params k d) e := by
    apply (hpm1.comp (hpm _)).mul
    show Measurable fun e : Vec D => if k = 0 then (1 : ℝ) else Real.exp (params k d) * e d
    split <;> fun_prop
  rw [← hE.2, integral_map hE.1.aemeasurable hm.aestronglyMeasurable]
  congr 1
  funext rng
  rw [hset]
  obtain ⟨c0, c1⟩ := C71_pathwise f hf params rng n d
  have hs : gaussSample G (params 0) (params 1) rng N n = pt params (G.normal rng N D n) := rfl
  fin_cases k
  · refine Eq.trans ?_ c0.symm
    rw [hs]; simp [w]
  · refine Eq.trans ?_ c1.symm
    rw [hs]; simp [w]

/-! ## The hypotheses are satisfiable -/

/-- a generator whose key is a record of independent draws: a normal row, and a Weibull, a Maxwell, a uniform and a second
normal variable -/
def idealPrng (D : ℕ) : Prng where
  Key := (Fin D → ℝ) × (ℝ × ℝ × ℝ × ℝ)
  split k := (k, (fun _ => k.2.2.2.2, k.2))
  normal k _ _ _ i := if h : i.val < D then k.1 ⟨i.val, h⟩ else 0
  weibull k _ _ _ _ := k.2.1
  maxwell k _ _ _ _ := k.2.2.1
  uniform k _ _ _ _ := k.2.2.2.1

instance : MeasurableSpace (idealPrng D).Key :=
  inferInstanceAs (MeasurableSpace ((Fin D → ℝ) × (ℝ × ℝ × ℝ × ℝ)))

instance : IsProbabilityMeasure weibullLaw := by
  constructor
  have h := tail_pos 0 le_rfl
  unfold weibullLaw
  rw [withDensity_apply _ MeasurableSet.univ, Measure.restrict_univ]
  have h2 : √2 * √2 = 2 := Real.mul_self_sqrt (by norm_num)
  have h2' : √2 ^ 2 = 2 := Real.sq_sqrt (by norm_num)
  have e : ∀ x : ℝ, (if 0 < x then ENNReal.ofReal (2 / √2 * (x / √2) * Real.exp (-(x / √2) ^ 2)) else 0) =
      (Set.Ioi 0).indicator (fun m : ℝ => ENNReal.ofReal (|m| * Real.exp (-m ^ 2 / 2))) x := by
    intro x
    simp only [Set.indicator, Set.mem_Ioi]
    split
    · rename_i hx
      congr 1
      rw [div_mul_div_comm, h2, div_pow, h2', abs_of_pos hx, show -(x ^ 2 / 2) = -x ^ 2 / 2 by ring]
      ring
    · rfl
  rw [lintegral_congr e, lintegral_indicator measurableSet_Ioi, h]
  simp

instance : IsProbabilityMeasure uniformLaw := by
  constructor
  simp [uniformLaw]

instance : IsProbabilityMeasure maxwellLaw := by
  constructor
  have hS : SFinite maxwellLaw := by unfold maxwellLaw; infer_instance
  have h := congrArg (fun m : Measure ℝ => m Set.univ) uniform_mul_maxwell
  simp only [measure_univ] at h
  rw [Measure.map_apply (by fun_prop) MeasurableSet.univ, Set.preimage_univ, ← Set.univ_prod_univ, Measure.prod_prod,
    measure_univ, one_mul] at h
  exact h

/-- the law of the ideal key -/
noncomputable def idealLaw (D : ℕ) : Measure (idealPrng D).Key :=
  (stdNs D).prod (weibullLaw.prod (maxwellLaw.prod (uniformLaw.prod stdN)))

theorem ideal_normal (rng : (idealPrng D).Key) (n : Fin N) : (idealPrng D).normal rng N D n = rng.1 := by
  funext i
  simp [idealPrng]

/-- the ideal generator meets every hypothesis on the draws, for every number of samples and dimensions -/
theorem ideal_laws (n : Fin N) (d : Fin D) :
    LawOf (idealPrng D) (idealLaw D) (fun rng => (idealPrng D).normal rng N D n) (stdNs D) ∧
    LawOf (idealPrng D) (idealLaw D) (fun rng => ((idealPrng D).weibull ((idealPrng D).split rng).1 N D n d,
      (idealPrng D).normal rng N D n)) (weibullLaw.prod (stdNs D)) ∧
    LawOf (idealPrng D) (idealLaw D) (fun rng => ((idealPrng D).weibull ((idealPrng D).split rng).2 N D n d,
      (idealPrng D).normal rng N D n)) (weibullLaw.prod (stdNs D)) ∧
    LawOf (idealPrng D) (idealLaw D) (fun rng => ((idealPrng D).maxwell ((idealPrng D).split rng).1 N D n d,
      (idealPrng D).normal rng N D n)) (maxwellLaw.prod (stdNs D)) ∧
    LawOf (idealPrng D) (idealLaw D) (fun rng => (((idealPrng D).uniform ((idealPrng D).split rng).2 N D n d,
      (idealPrng D).maxwell ((idealPrng D).split rng).1 N D n d),
      (idealPrng D).normal rng N D n)) ((uniformLaw.prod maxwellLaw).prod (stdNs D)) ∧
    LawOf (idealPrng D) (idealLaw D) (fun rng => ((idealPrng D).normal ((idealPrng D).split rng).2 N D n d,
      (idealPrng D).normal rng N D n)) (stdN.prod (stdNs D)) := by
  simp only [ideal_normal]
  have m1 : MeasurePreserving (fun k : (Fin D → ℝ) × (ℝ × ℝ × ℝ × ℝ) => k.1) (idealLaw D) (stdNs D) := measurePreserving_fst
  have pw : MeasurePreserving (fun k : ℝ × ℝ × ℝ × ℝ => k.1)
      (weibullLaw.prod (maxwellLaw.prod (uniformLaw.prod stdN))) weibullLaw := measurePreserving_fst
  have p2 : MeasurePreserving (fun k : ℝ × ℝ × ℝ × ℝ => k.2)
      (weibullLaw.prod (maxwellLaw.prod (uniformLaw.prod stdN))) (maxwellLaw.prod (uniformLaw.prod stdN)) :=
    measurePreserving_snd
  have pm : MeasurePreserving (fun k : ℝ × ℝ × ℝ => k.1) (maxwellLaw.prod (uniformLaw.prod stdN)) maxwellLaw :=
    measurePreserving_fst
  have pn : MeasurePreserving (fun k : ℝ × ℝ × ℝ => k.2.2) (maxwellLaw.prod (uniformLaw.prod stdN)) stdN :=
    (measurePreserving_snd (μ := uniformLaw) (ν := stdN)).comp (measurePreserving_snd (μ := maxwellLaw) (ν := uniformLaw.prod stdN))
  have pu : MeasurePreserving (fun k : ℝ × ℝ × ℝ => (k.2.1, k.1)) (maxwellLaw.prod (uniformLaw.prod stdN))
      (uniformLaw.prod maxwellLaw) :=
    (Measure.measurePreserving_swap (μ := maxwellLaw) (ν := uniformLaw)).comp
      ((MeasurePreserving.id maxwellLaw).prod (measurePreserving_fst (μ := uniformLaw) (ν := stdN)))
  have tr : ∀ {β : Type} [MeasurableSpace β] (ν : Measure β) [SFinite ν] (q : ℝ × ℝ × ℝ × ℝ → β),
      MeasurePreserving q (weibullLaw.prod (maxwellLaw.prod (uniformLaw.prod stdN))) ν →
      LawOf (idealPrng D) (idealLaw D) (fun k => (q k.2, k.1)) (ν.prod (stdNs D)) := by
    intro β _ ν _ q hq
    have h := (Measure.measurePreserving_swap (μ := stdNs D) (ν := ν)).comp ((MeasurePreserving.id (stdNs D)).prod hq)
    exact ⟨h.measurable, h.map_eq⟩
  refine ⟨⟨m1.measurable, m1.map_eq⟩, tr _ _ pw, tr _ _ pw, tr _ _ (pm.comp p2), tr _ _ (pu.comp p2), ?_⟩
  exact tr _ _ (pn.comp p2)

/-- a function that is not differentiable (a step) and the ideal generator meet the hypotheses of the score-function and
measure-valued theorems in every dimension -/
example (params : Fin 2 → Vec 2) : MemLp (fun rng => (fun x : Vec 2 => if x 0 < x 1 then (1 : ℝ) else 0)
    ((multiNormalB (idealPrng 2) params).sample 3 rng 1)) 2 (idealLaw 2) := by
  have hp : IsProbabilityMeasure (idealLaw 2) :=
    inferInstanceAs (IsProbabilityMeasure ((stdNs 2).prod (weibullLaw.prod (maxwellLaw.prod (uniformLaw.prod stdN)))))
  have hE := (ideal_laws (D := 2) (N := 3) 1 0).1
  have hf : Measurable (fun x : Vec 2 => if x 0 < x 1 then (1 : ℝ) else 0) :=
    Measurable.ite (measurableSet_lt (measurable_pi_apply 0) (measurable_pi_apply 1)) measurable_const measurable_const
  have hm : Measurable (fun rng : (idealPrng 2).Key => (fun x : Vec 2 => if x 0 < x 1 then (1 : ℝ) else 0)
      ((multiNormalB (idealPrng 2) params).sample 3 rng 1)) := by
    have := (whiten_measurable _ hf params).comp hE.1
    have e : (fun rng : (idealPrng 2).Key => (fun x : Vec 2 => if x 0 < x 1 then (1 : ℝ) else 0)
        ((multiNormalB (idealPrng 2) params).sample 3 rng 1)) = whiten (fun x : Vec 2 => if x 0 < x 1 then (1 : ℝ) else 0) params ∘
        fun rng => (idealPrng 2).normal rng 3 2 1 := funext fun rng =>
        sample_eq_whiten (G := idealPrng 2) (N := 3) (fun x : Vec 2 => if x 0 < x 1 then (1 : ℝ) else 0) params rng 1
    rw [e]; exact this
  apply MemLp.of_bound hm.aestronglyMeasurable 1
  refine Filter.Eventually.of_forall fun rng => ?_
  simp only
  split <;> simp

/-- the square of a coordinate meets the growth hypothesis of the pathwise theorem -/
example (d : Fin D) (x : Vec D) : |partial1 (fun x : Vec D => x d ^ 2) d x| ≤ 2 * Real.exp (1 * ∑ i, |x i|) := by
  have e : partial1 (fun x : Vec D => x d ^ 2) d x = 2 * x d := by
    unfold partial1
    simp
  rw [e, abs_mul, abs_of_pos (by norm_num : (0 : ℝ) < 2), one_mul]
  have h1 : |x d| ≤ ∑ i, |x i| := Finset.single_le_sum (f := fun i => |x i|) (fun i _ => abs_nonneg _) (Finset.mem_univ d)
  have h2 := Real.add_one_le_exp (∑ i, |x i|)
  linarith

end Optax
