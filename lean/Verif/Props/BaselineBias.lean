import Verif.Props.Unbiased

/-!
# C106: the exact bias of the moving-average baseline

`control_variates_jacobians` updates the baseline with the very samples of the estimate before subtracting it. With
independent samples, the expected score-function estimate is therefore not the gradient but the gradient times
`1 - w / N`, where `w` is the weight the new batch mean has in the updated baseline: the factor is the same for every
function, parameter and coordinate, whatever the value stored in the state.
-/

set_option linter.unusedSectionVars false
set_option linter.unusedSimpArgs false

namespace Optax
open MeasureTheory ProbabilityTheory

variable {G : Prng} {D N : ℕ} [MeasurableSpace G.Key]

/-- the decay of update number `i` (0-based): `decay`, or its minimum with `(1 + i) / (10 + i)` -/
noncomputable def decayAt (decay : ℝ) (heuristic : Bool) (i : ℕ) : ℝ :=
  if heuristic then min decay ((1 + i) / (10 + i)) else decay

/-- the weight of the mean of the new batch in the baseline after update number `i` (0-based) -/
noncomputable def batchWeight (decay : ℝ) (zeroDebias heuristic : Bool) (i : ℕ) : ℝ :=
  if zeroDebias then (1 - decayAt decay heuristic i) / (1 - decayAt decay heuristic i ^ (i + 1))
  else 1 - decayAt decay heuristic i

theorem score_measurable (params : Fin 2 → Vec D) (k : Fin 2) (d : Fin D) : Measurable (score params k d) := by
  unfold score
  split <;> fun_prop

theorem score_bound (params : Fin 2 → Vec D) (k : Fin 2) (d : Fin D) (z : ℝ) :
    |score params k d z| ≤ ((Real.exp (params 1 d))⁻¹ + 1) * (1 + z ^ 2) := by
  have he : 0 < (Real.exp (params 1 d))⁻¹ := by positivity
  have h0 : |z| ≤ 1 + z ^ 2 := by
    rcases abs_cases z with ⟨h, _⟩ | ⟨h, _⟩ <;> rw [h] <;> nlinarith [sq_nonneg (z - 1), sq_nonneg (z + 1)]
  unfold score
  split
  · rw [abs_div, abs_of_pos (Real.exp_pos _), div_eq_mul_inv, mul_comm]
    have := sq_nonneg z
    nlinarith
  · have h1 : |z ^ 2 - 1| ≤ 1 + z ^ 2 := by
      rw [abs_le]; constructor <;> nlinarith [sq_nonneg z]
    nlinarith [sq_nonneg z]

theorem scoreJac_eq (f : Vec D → ℝ) (params : Fin 2 → Vec D) (rng : G.Key) (n : Fin N) (k : Fin 2) (d : Fin D) :
    scoreFunctionJacobians f params (multiNormalB G) rng N k n d =
      score params k d (G.normal rng N D n d) * whiten f params (G.normal rng N D n) := by
  have hs : f (gaussSample G (params 0) (params 1) rng N n) = whiten f params (G.normal rng N D n) := rfl
  obtain ⟨c0, c1⟩ := C70_score_function f params rng n d
  fin_cases k
  · refine Eq.trans c0 ?_
    rw [hs]; simp [score]; ring
  · refine Eq.trans c1 ?_
    rw [hs]; simp [score]; ring

theorem integrable_scoreJac (μ : Measure G.Key) (f : Vec D → ℝ) (params : Fin 2 → Vec D) (n : Fin N)
    (hE : LawOf G μ (fun rng => G.normal rng N D n) (stdNs D))
    (h2 : MemLp (whiten f params) 2 (stdNs D)) (k : Fin 2) (d : Fin D) :
    Integrable (fun rng => scoreFunctionJacobians f params (multiNormalB G) rng N k n d) μ := by
  simp only [scoreJac_eq]
  have h := integrable_score f params h2 d (score params k d) (score_measurable params k d)
    ((Real.exp (params 1 d))⁻¹ + 1) (by positivity) (score_bound params k d)
  rw [← hE.2] at h
  exact h.comp_measurable hE.1

theorem score_mean_zero (μ : Measure G.Key) [IsProbabilityMeasure μ] (params : Fin 2 → Vec D) (n : Fin N)
    (hE : LawOf G μ (fun rng => G.normal rng N D n) (stdNs D)) (k : Fin 2) (d : Fin D) :
    Integrable (fun rng => score params k d (G.normal rng N D n d)) μ ∧
    ∫ rng, score params k d (G.normal rng N D n d) ∂μ = 0 := by
  have h1 : MemLp (whiten (fun _ : Vec D => (1 : ℝ)) params) 2 (stdNs D) := memLp_const 1
  have e : ∀ rng, score params k d (G.normal rng N D n d) =
      scoreFunctionJacobians (fun _ => 1) params (multiNormalB G) rng N k n d := by
    intro rng; rw [scoreJac_eq]; simp [whiten]
  refine ⟨by simpa only [e] using integrable_scoreJac μ _ params n hE h1 k d, ?_⟩
  have hd := C79_score_function μ (fun _ : Vec D => (1 : ℝ)) measurable_const params n hE (memLp_const 1) k d
  have hc : (fun t => objective G μ (fun _ : Vec D => (1 : ℝ)) N n (setParam params k d t)) = fun _ => 1 := by
    funext t; simp [objective]
  rw [hc] at hd
  simp only [e]
  exact hd.unique (hasDerivAt_const _ _)

/-- **C106.** For every function, state `(value, i)`, decay and flags: if the rows of the draws are standard Gaussian and
row `n` is independent of each other row, then the expected score-function estimate of sample `n` with the
moving-average baseline is the gradient of the objective times `1 - w / N`, in every coordinate of mean and log scale. -/
theorem C106_baseline_bias (μ : Measure G.Key) [IsProbabilityMeasure μ] (f : Vec D → ℝ) (hf : Measurable f)
    (params : Fin 2 → Vec D) (n : Fin N)
    (hE : ∀ m, LawOf G μ (fun rng => G.normal rng N D m) (stdNs D))
    (hI : ∀ m, m ≠ n → IndepFun (fun rng => G.normal rng N D m) (fun rng => G.normal rng N D n) μ)
    (h2 : MemLp (fun rng => f ((multiNormalB G params).sample N rng n)) 2 μ)
    (decay : ℝ) (zeroDebias heuristic : Bool) (value : ℝ) (i M : ℕ) (k : Fin 2) (d : Fin D) :
    ∃ g, HasDerivAt (fun t => objective G μ f N n (setParam params k d t)) g (params k d) ∧
      ∫ rng, (controlVariatesJacobians f (movingAvgBaseline decay zeroDebias heuristic) scoreFunctionJacobians params
        (multiNormalB G) rng N (value, i) false M).1 k n d ∂μ = (1 - batchWeight decay zeroDebias heuristic i / N) * g := by
  refine ⟨_, C79_score_function μ f hf params n (hE n) h2 k d, ?_⟩
  have hw := memLp_whiten μ f hf n params (hE n) h2
  have hwm := whiten_measurable f hf params
  set Z : G.Key → ℝ := fun rng => score params k d (G.normal rng N D n d) with hZ
  set W : Fin N → G.Key → ℝ := fun m rng => whiten f params (G.normal rng N D m) with hW
  obtain ⟨iZ, eZ⟩ := score_mean_zero μ params n (hE n) k d
  have iW : ∀ m, Integrable (W m) μ := by
    intro m
    have h : Integrable (whiten f params) (stdNs D) := hw.integrable (by norm_num)
    rw [← (hE m).2] at h
    exact h.comp_measurable (hE m).1
  have iZW : Integrable (fun rng => Z rng * W n rng) μ := by
    have := integrable_scoreJac μ f params n (hE n) hw k d
    simpa only [scoreJac_eq] using this
  have hind : ∀ m, m ≠ n → IndepFun (W m) Z μ := by
    intro m hm
    exact (hI m hm).comp hwm ((score_measurable params k d).comp (measurable_pi_apply d))
  have iWZ : ∀ m, Integrable (fun rng => W m rng * Z rng) μ := by
    intro m
    by_cases hm : m = n
    · subst hm; simpa only [mul_comm] using iZW
    · exact (hind m hm).integrable_mul (iW m) iZ
  have eWZ : ∀ m, ∫ rng, W m rng * Z rng ∂μ = if m = n then ∫ rng, Z rng * W n rng ∂μ else 0 := by
    intro m
    by_cases hm : m = n
    · subst hm; simp only [if_true, mul_comm]
    · rw [if_neg hm]
      have := (hind m hm).integral_mul_eq_mul_integral (iW m).aestronglyMeasurable iZ.aestronglyMeasurable
      rw [eZ, mul_zero] at this
      exact this
  obtain ⟨β, hβ⟩ : ∃ β, ∀ mean, baselineValue decay zeroDebias heuristic value i mean =
      β + batchWeight decay zeroDebias heuristic i * mean := by
    cases zeroDebias
    · refine ⟨iterationDecay decay heuristic i * value, fun mean => ?_⟩
      simp [baselineValue, batchWeight, decayAt, iterationDecay]
    · refine ⟨iterationDecay decay heuristic i * value / (1 - iterationDecay decay heuristic i ^ (i + 1)), fun mean => ?_⟩
      simp only [baselineValue, batchWeight, decayAt, iterationDecay, if_true]
      ring
  have hout : (fun rng => (controlVariatesJacobians f (movingAvgBaseline decay zeroDebias heuristic) scoreFunctionJacobians
      params (multiNormalB G) rng N (value, i) false M).1 k n d) =
      fun rng => Z rng * W n rng - (β * Z rng + batchWeight decay zeroDebias heuristic i / N * ∑ m, W m rng * Z rng) := by
    funext rng
    obtain ⟨b, hb, h⟩ := C65_baseline_terms f decay zeroDebias heuristic scoreFunctionJacobians params (multiNormalB G) rng
      (value, i) M k n d
    have hb' : b = β + batchWeight decay zeroDebias heuristic i * meanOf (fun m => W m rng) := by
      rw [← hb, ← hβ]
      have : (fun m => W m rng) = fun m => f ((multiNormalB G params).sample N rng m) := by
        funext m; exact (sample_eq_whiten f params rng m).symm
      rw [this]
      rfl
    rw [h, scoreJac_eq, scoreJac_eq, hb', ← Finset.sum_mul]
    simp only [whiten, meanOf, hZ, hW]
    ring
  have i1 : Integrable (fun rng => β * Z rng) μ := iZ.const_mul β
  have i2 : Integrable (fun rng => batchWeight decay zeroDebias heuristic i / N * ∑ m, W m rng * Z rng) μ :=
    (integrable_finsetSum _ fun m _ => iWZ m).const_mul _
  have i3 : Integrable (fun rng => β * Z rng + batchWeight decay zeroDebias heuristic i / N * ∑ m, W m rng * Z rng) μ := i1.add i2
  rw [hout, integral_sub iZW i3, integral_add i1 i2, integral_const_mul, integral_const_mul, eZ,
    integral_finsetSum _ fun m _ => iWZ m]
  simp only [eWZ, Finset.sum_ite_eq', Finset.mem_univ, if_true, mul_zero, zero_add, scoreJac_eq]
  show _ = _ * ∫ rng, Z rng * W n rng ∂μ
  ring

/-- **C106 (size of the factor).** For a decay in `[0, 1)` the weight is in `(0, 1]`, so the factor `1 - w / N` is in `[0, 1)`:
the estimate points in the right direction on average but is always too short; at the first update with debiasing, `w = 1`. -/
theorem C106_weight (decay : ℝ) (h0 : 0 ≤ decay) (h1 : decay < 1) (zeroDebias heuristic : Bool) (i N : ℕ) (hN : 0 < N) :
    0 < batchWeight decay zeroDebias heuristic i ∧ batchWeight decay zeroDebias heuristic i ≤ 1 ∧
    0 ≤ 1 - batchWeight decay zeroDebias heuristic i / N ∧ 1 - batchWeight decay zeroDebias heuristic i / N < 1 ∧
    batchWeight decay true heuristic 0 = 1 := by
  have hd : ∀ i, 0 ≤ decayAt decay heuristic i ∧ decayAt decay heuristic i < 1 := by
    intro i
    unfold decayAt
    split
    · exact ⟨le_min h0 (by positivity), lt_of_le_of_lt (min_le_left _ _) h1⟩
    · exact ⟨h0, h1⟩
  have key : 0 < batchWeight decay zeroDebias heuristic i ∧ batchWeight decay zeroDebias heuristic i ≤ 1 := by
    obtain ⟨a, b⟩ := hd i
    have hp : decayAt decay heuristic i ^ (i + 1) ≤ decayAt decay heuristic i := pow_le_of_le_one a b.le (by omega)
    unfold batchWeight
    split
    · exact ⟨div_pos (by linarith) (by linarith), (div_le_one (by linarith)).mpr (by linarith)⟩
    · exact ⟨by linarith, by linarith⟩
  have hNr : (1 : ℝ) ≤ N := by exact_mod_cast hN
  refine ⟨key.1, key.2, ?_, ?_, ?_⟩
  · have : batchWeight decay zeroDebias heuristic i / N ≤ 1 := (div_le_one (by linarith)).mpr (by linarith [key.2])
    linarith
  · have : 0 < batchWeight decay zeroDebias heuristic i / N := div_pos key.1 (by linarith)
    linarith
  · have := hd 0
    unfold batchWeight
    rw [if_pos rfl, zero_add, pow_one, div_self (by linarith)]

/-- **C106 (unbiasedness fails).** Hence with a decay in `[0, 1)` the expected estimate equals the gradient only where the
gradient is zero. -/
theorem C106_unbiased_iff (μ : Measure G.Key) [IsProbabilityMeasure μ] (f : Vec D → ℝ) (hf : Measurable f)
    (params : Fin 2 → Vec D) (n : Fin N)
    (hE : ∀ m, LawOf G μ (fun rng => G.normal rng N D m) (stdNs D))
    (hI : ∀ m, m ≠ n → IndepFun (fun rng => G.normal rng N D m) (fun rng => G.normal rng N D n) μ)
    (h2 : MemLp (fun rng => f ((multiNormalB G params).sample N rng n)) 2 μ)
    (decay : ℝ) (h0 : 0 ≤ decay) (h1 : decay < 1) (zeroDebias heuristic : Bool) (value : ℝ) (i M : ℕ) (k : Fin 2) (d : Fin D) :
    ∫ rng, (controlVariatesJacobians f (movingAvgBaseline decay zeroDebias heuristic) scoreFunctionJacobians params
        (multiNormalB G) rng N (value, i) false M).1 k n d ∂μ =
      deriv (fun t => objective G μ f N n (setParam params k d t)) (params k d) ↔
    deriv (fun t => objective G μ f N n (setParam params k d t)) (params k d) = 0 := by
  obtain ⟨g, hg, he⟩ := C106_baseline_bias μ f hf params n hE hI h2 decay zeroDebias heuristic value i M k d
  rw [he, hg.deriv]
  have := (C106_weight decay h0 h1 zeroDebias heuristic i N n.pos).2.2.2.1
  constructor
  · intro h
    by_contra hne
    have : 1 - batchWeight decay zeroDebias heuristic i / N = 1 := by
      have h3 : (1 - batchWeight decay zeroDebias heuristic i / N) * g = 1 * g := by rw [one_mul]; exact h
      exact mul_right_cancel₀ hne h3
    linarith
  · intro h; rw [h, mul_zero]

end Optax
