import Verif.Props.SecondOrder
import Verif.Props.MeasureValued
import Mathlib.Analysis.Calculus.LineDeriv.Basic
import Mathlib.Analysis.SpecialFunctions.ExpDeriv
import Mathlib.Analysis.SpecialFunctions.Log.Deriv
import Mathlib.Probability.Independence.Integration
import Mathlib.Analysis.SpecificLimits.Basic

/-!
# C65–C68: control variates
-/

set_option linter.unusedSectionVars false
set_option linter.unusedSimpArgs false

namespace Optax
open MeasureTheory ProbabilityTheory

variable {G : Prng} {P D N : ℕ} {S : Type}

/-! ## C66: the coefficient -/

/-- population variance of a list of numbers -/
noncomputable def popVar (x : Fin N → ℝ) : ℝ := meanOf (fun n => (x n - meanOf x) ^ 2)

/-- total variance, summed over the dimensions, of the per-sample jacobians `F - c C` -/
noncomputable def totalVar (F C : Fin N → Vec D) (c : ℝ) : ℝ := ∑ d, popVar (fun n => F n d - c * C n d)

/-- total covariance -/
noncomputable def totalCov (F C : Fin N → Vec D) : ℝ :=
  ∑ d, meanOf (fun n => (F n d - meanOf (fun n => F n d)) * (C n d - meanOf (fun n => C n d)))

theorem meanOf_sub_mul (x y : Fin N → ℝ) (c : ℝ) : meanOf (fun n => x n - c * y n) = meanOf x - c * meanOf y := by
  unfold meanOf
  rw [Finset.sum_sub_distrib, ← Finset.mul_sum]; ring

theorem popVar_sub_mul (x y : Fin N → ℝ) (c : ℝ) :
    popVar (fun n => x n - c * y n) =
      popVar x - 2 * c * meanOf (fun n => (x n - meanOf x) * (y n - meanOf y)) + c ^ 2 * popVar y := by
  unfold popVar
  rw [meanOf_sub_mul]
  generalize meanOf x = mx
  generalize meanOf y = my
  unfold meanOf
  have e : ∀ n, (x n - c * y n - (mx - c * my)) ^ 2 =
      (x n - mx) ^ 2 - 2 * c * ((x n - mx) * (y n - my)) + c ^ 2 * (y n - my) ^ 2 := fun n => by ring
  simp only [e]
  rw [Finset.sum_add_distrib, Finset.sum_sub_distrib, ← Finset.mul_sum, ← Finset.mul_sum]
  ring

theorem totalVar_eq (F C : Fin N → Vec D) (c : ℝ) :
    totalVar F C c = totalVar F C 0 - 2 * c * totalCov F C + c ^ 2 * ∑ d, popVar (fun n => C n d) := by
  unfold totalVar totalCov
  simp only [popVar_sub_mul]
  rw [Finset.sum_add_distrib, Finset.sum_sub_distrib, ← Finset.mul_sum, ← Finset.mul_sum]
  simp

/-- **C66.** For the jacobians `F` of the function and `C` of the control variate that the estimator produces from the
(fresh) key, the returned coefficient minimises `total variance of (F - c C) + eps c^2` over all real `c`, and is
the only minimiser, whenever `Σ var C + eps > 0`. -/
theorem C66_optimal (f : Vec D → ℝ) (cvFrom : (Vec D → ℝ) → ControlVariate P D S) (est : GradEstimator G P D)
    (params : Fin P → Vec D) (db : (Fin P → Vec D) → Dist G D) (rng : G.Key) (_hN : 0 < N) (state : S) (eps : ℝ) (k : Fin P)
    (F C : Fin N → Vec D) (hF : F = est f params db (G.split rng).1 N k)
    (hC : C = est (fun x => (cvFrom f).stochastic params x state) params db (G.split rng).1 N k)
    (hpos : 0 < (∑ d, popVar (fun n => C n d)) + eps) (c : ℝ) :
    let c0 := estimateCoeffs f cvFrom est params db rng N state eps k
    totalVar F C c0 + eps * c0 ^ 2 ≤ totalVar F C c + eps * c ^ 2 ∧
    (totalVar F C c0 + eps * c0 ^ 2 = totalVar F C c + eps * c ^ 2 → c = c0) := by
  intro c0
  have hc0 : c0 = totalCov F C / ((∑ d, popVar (fun n => C n d)) + eps) := by
    rw [hF, hC]; rfl
  generalize hV : (∑ d, popVar (fun n => C n d)) = V at *
  have hmul : c0 * (V + eps) = totalCov F C := by rw [hc0, div_mul_cancel₀ _ hpos.ne']
  have key : totalVar F C c + eps * c ^ 2 - (totalVar F C c0 + eps * c0 ^ 2) = (V + eps) * (c - c0) ^ 2 := by
    rw [totalVar_eq F C c, totalVar_eq F C c0, hV, ← hmul]; ring
  constructor
  · have := mul_nonneg hpos.le (sq_nonneg (c - c0))
    linarith
  · intro h
    have h0 : (V + eps) * (c - c0) ^ 2 = 0 := by linarith
    rcases mul_eq_zero.mp h0 with h1 | h1
    · exact absurd h1 hpos.ne'
    · have := pow_eq_zero_iff (two_ne_zero) |>.mp h1
      linarith

/-- **C66 (`eps = 0`).** With non-degenerate control variate jacobians the coefficient minimises the total sample
variance itself. -/
theorem C66_minimises_variance (f : Vec D → ℝ) (cvFrom : (Vec D → ℝ) → ControlVariate P D S) (est : GradEstimator G P D)
    (params : Fin P → Vec D) (db : (Fin P → Vec D) → Dist G D) (rng : G.Key) (hN : 0 < N) (state : S) (k : Fin P)
    (F C : Fin N → Vec D) (hF : F = est f params db (G.split rng).1 N k)
    (hC : C = est (fun x => (cvFrom f).stochastic params x state) params db (G.split rng).1 N k)
    (hpos : 0 < ∑ d, popVar (fun n => C n d)) (c : ℝ) :
    totalVar F C (estimateCoeffs f cvFrom est params db rng N state 0 k) ≤ totalVar F C c := by
  have := (C66_optimal f cvFrom est params db rng hN state 0 k F C hF hC (by simpa using hpos) c).1
  simpa using this

/-- e.g. two samples with different control variate jacobians: the variance is positive -/
example : 0 < ∑ d : Fin 1, popVar (fun n : Fin 2 => (fun n _ => (n : ℝ) : Fin 2 → Vec 1) n d) := by
  simp [popVar, meanOf, Fin.sum_univ_two]; norm_num

/-! ## C65: unbiasedness -/

/-- the state after the (single) update -/
def cvState' (f : Vec D → ℝ) (cvFrom : (Vec D → ℝ) → ControlVariate P D S) (params : Fin P → Vec D)
    (db : (Fin P → Vec D) → Dist G D) (rng : G.Key) (N : ℕ) (state : S) : S :=
  (cvFrom f).update params ((db params).sample N rng) state

/-- an entry of `E_p ∇_θ h`, estimated on the samples: the gradient of the mean control variate in the parameters -/
noncomputable def cvParamGrad (f : Vec D → ℝ) (cvFrom : (Vec D → ℝ) → ControlVariate P D S) (params : Fin P → Vec D)
    (db : (Fin P → Vec D) → Dist G D) (rng : G.Key) (N : ℕ) (state' : S) (k : Fin P) (d : Fin D) : ℝ :=
  pderiv (fun q => meanOf (fun n => (cvFrom f).stochastic q ((db params).sample N rng n) state')) params k d

/-- an entry of the gradient of the closed-form expected value -/
noncomputable def cvExpGrad (f : Vec D → ℝ) (cvFrom : (Vec D → ℝ) → ControlVariate P D S) (params : Fin P → Vec D)
    (state' : S) (k : Fin P) (d : Fin D) : ℝ := pderiv (fun q => (cvFrom f).expected q state') params k d

/-- **C65 (decomposition).** The output is the plain estimate minus the coefficient times the three control-variate terms,
computed on the same samples and with the updated state, which is returned. -/
theorem C65_decomposition (f : Vec D → ℝ) (cvFrom : (Vec D → ℝ) → ControlVariate P D S) (est : GradEstimator G P D)
    (params : Fin P → Vec D) (db : (Fin P → Vec D) → Dist G D) (rng : G.Key) (state : S) (estimate : Bool) (M : ℕ) :
    (controlVariatesJacobians f cvFrom est params db rng N state estimate M).2 = cvState' f cvFrom params db rng N state ∧
    ∀ k n d, (controlVariatesJacobians f cvFrom est params db rng N state estimate M).1 k n d =
      est f params db rng N k n d - (if estimate then estimateCoeffs f cvFrom est params db rng M state (1 / 1000) k else 1) *
        (est (fun x => (cvFrom f).stochastic params x (cvState' f cvFrom params db rng N state)) params db rng N k n d
          + cvParamGrad f cvFrom params db rng N (cvState' f cvFrom params db rng N state) k d
          - cvExpGrad f cvFrom params (cvState' f cvFrom params db rng N state) k d) := by
  refine ⟨rfl, fun k n d => ?_⟩
  unfold controlVariatesJacobians cvCoeffs cvParamGrad cvExpGrad cvState'
  cases estimate
  · simp only [Bool.false_eq_true, if_false]; ring
  · simp only [if_true]; ring

/-- **C65 (unbiased).** Over random keys: if the expectations of the control-variate terms cancel, i.e.
`E[cv_jacobians] + E[cv_param_grads] = E[expected_value_grads]`, the expected output is the expected plain estimate.
With an estimated coefficient this needs the coefficient (drawn from the other key) to be independent of the terms. -/
theorem C65_unbiased [MeasurableSpace G.Key] (μ : Measure G.Key) (f : Vec D → ℝ)
    (cvFrom : (Vec D → ℝ) → ControlVariate P D S) (est : GradEstimator G P D) (params : Fin P → Vec D)
    (db : (Fin P → Vec D) → Dist G D) (state : S) (k : Fin P) (n : Fin N) (d : Fin D)
    (cvj cvp evg : G.Key → ℝ)
    (hcvj : cvj = fun rng => est (fun x => (cvFrom f).stochastic params x (cvState' f cvFrom params db rng N state))
      params db rng N k n d)
    (hcvp : cvp = fun rng => cvParamGrad f cvFrom params db rng N (cvState' f cvFrom params db rng N state) k d)
    (hevg : evg = fun rng => cvExpGrad f cvFrom params (cvState' f cvFrom params db rng N state) k d)
    (if_ : Integrable (fun rng => est f params db rng N k n d) μ) (ij : Integrable cvj μ) (ip : Integrable cvp μ)
    (ie : Integrable evg μ) (hcancel : ∫ r, cvj r ∂μ + ∫ r, cvp r ∂μ = ∫ r, evg r ∂μ) :
    (∀ M, ∫ rng, (controlVariatesJacobians f cvFrom est params db rng N state false M).1 k n d ∂μ =
      ∫ rng, est f params db rng N k n d ∂μ) ∧
    (∀ M, Integrable (fun rng => estimateCoeffs f cvFrom est params db rng M state (1 / 1000) k) μ →
      IndepFun (fun rng => estimateCoeffs f cvFrom est params db rng M state (1 / 1000) k) (fun r => cvj r + cvp r - evg r) μ →
      ∫ rng, (controlVariatesJacobians f cvFrom est params db rng N state true M).1 k n d ∂μ =
        ∫ rng, est f params db rng N k n d ∂μ) := by
  have hgap : ∫ r, (cvj r + cvp r - evg r) ∂μ = 0 := by
    have i1 : Integrable (fun r => cvj r + cvp r) μ := ij.add ip
    rw [integral_sub i1 ie, integral_add ij ip, hcancel, sub_self]
  have igap : Integrable (fun r => cvj r + cvp r - evg r) μ := (ij.add ip).sub ie
  constructor
  · intro M
    have e : (fun rng => (controlVariatesJacobians f cvFrom est params db rng N state false M).1 k n d) =
        fun rng => est f params db rng N k n d - (cvj rng + cvp rng - evg rng) := by
      funext rng
      rw [(C65_decomposition f cvFrom est params db rng state false M).2, hcvj, hcvp, hevg]
      simp
    rw [e, integral_sub if_ igap, hgap, sub_zero]
  · intro M ic hindep
    have e : (fun rng => (controlVariatesJacobians f cvFrom est params db rng N state true M).1 k n d) =
        fun rng => est f params db rng N k n d -
          estimateCoeffs f cvFrom est params db rng M state (1 / 1000) k * (cvj rng + cvp rng - evg rng) := by
      funext rng
      rw [(C65_decomposition f cvFrom est params db rng state true M).2, hcvj, hcvp, hevg]
      simp
    have iprod : Integrable (fun rng => estimateCoeffs f cvFrom est params db rng M state (1 / 1000) k *
        (cvj rng + cvp rng - evg rng)) μ := hindep.integrable_mul ic igap
    have hprod := hindep.integral_mul_eq_mul_integral ic.aestronglyMeasurable igap.aestronglyMeasurable
    rw [hgap, mul_zero] at hprod
    rw [e, integral_sub if_ iprod]
    have : ∫ rng, estimateCoeffs f cvFrom est params db rng M state (1 / 1000) k * (cvj rng + cvp rng - evg rng) ∂μ = 0 := hprod
    rw [this, sub_zero]

/-- **C65 (baseline).** With the moving-average baseline the last two terms vanish: the output is the plain estimate minus
the coefficient times the estimate for the constant function `baseline`. -/
theorem C65_baseline_terms (f : Vec D → ℝ) (decay : ℝ) (zd heur : Bool) (est : GradEstimator G P D) (params : Fin P → Vec D)
    (db : (Fin P → Vec D) → Dist G D) (rng : G.Key) (state : ℝ × ℕ) (M : ℕ) (k : Fin P) (n : Fin N) (d : Fin D) :
    ∃ b, (controlVariatesJacobians f (movingAvgBaseline decay zd heur) est params db rng N state false M).2.1 = b ∧
      (controlVariatesJacobians f (movingAvgBaseline decay zd heur) est params db rng N state false M).1 k n d =
        est f params db rng N k n d - est (fun _ => b) params db rng N k n d := by
  refine ⟨_, rfl, ?_⟩
  obtain ⟨h1, h2⟩ := C65_decomposition (N := N) f (movingAvgBaseline decay zd heur) est params db rng state false M
  rw [h2, h1]
  have e1 : ∀ s, cvParamGrad f (movingAvgBaseline decay zd heur) params db rng N s k d = 0 := by
    intro s
    unfold cvParamGrad pderiv
    simp only [movingAvgBaseline]
    exact deriv_const _ _
  have e2 : ∀ s, cvExpGrad f (movingAvgBaseline decay zd heur) params s k d = 0 := by
    intro s
    unfold cvExpGrad pderiv
    simp only [movingAvgBaseline]
    exact deriv_const _ _
  rw [e1, e2]
  simp only [movingAvgBaseline, Bool.false_eq_true, if_false]
  ring

/-- **C65 (baseline has no effect on the pathwise and measure-valued estimators)**, whatever state and coefficient. -/
theorem C65_baseline_no_effect (f : Vec D → ℝ) (decay : ℝ) (zd heur : Bool) (params : Fin 2 → Vec D) (rng : G.Key)
    (state : ℝ × ℕ) (estimate coupling : Bool) (M : ℕ) (k : Fin 2) (n : Fin N) (d : Fin D)
    (db : (Fin 2 → Vec D) → Dist G D) :
    (controlVariatesJacobians f (movingAvgBaseline decay zd heur) pathwiseJacobians params db rng N state estimate M).1 k n d =
      pathwiseJacobians f params db rng N k n d ∧
    (controlVariatesJacobians f (movingAvgBaseline decay zd heur)
      (fun f params _ rng N => measureValuedJacobians G f params rng N coupling) params db rng N state estimate M).1 k n d =
      measureValuedJacobians G f params rng N coupling k n d := by
  have e1 : ∀ s, cvParamGrad f (movingAvgBaseline decay zd heur) params db rng N s k d = 0 := by
    intro s
    unfold cvParamGrad pderiv
    simp only [movingAvgBaseline]
    exact deriv_const _ _
  have e2 : ∀ s, cvExpGrad f (movingAvgBaseline decay zd heur) params s k d = 0 := by
    intro s
    unfold cvExpGrad pderiv
    simp only [movingAvgBaseline]
    exact deriv_const _ _
  constructor
  · rw [(C65_decomposition f _ _ params db rng state estimate M).2, e1, e2]
    have : pathwiseJacobians (fun x => (movingAvgBaseline decay zd heur f).stochastic params x
        (cvState' f (movingAvgBaseline decay zd heur) params db rng N state)) params db rng N k n d = 0 := by
      unfold pathwiseJacobians pderiv
      simp only [movingAvgBaseline]
      exact deriv_const _ _
    rw [this]; ring
  · rw [(C65_decomposition f _ _ params db rng state estimate M).2, e1, e2]
    have : measureValuedJacobians G (fun x => (movingAvgBaseline decay zd heur f).stochastic params x
        (cvState' f (movingAvgBaseline decay zd heur) params db rng N state)) params rng N coupling k n d = 0 :=
      C69_independent _ d (fun x t => rfl) params rng coupling k n
    rw [this]; ring

/-- **C65 (zero variance).** If the control variate equals the function at the current parameters and state, the
jacobians (coefficient 1) are the same for every sample: their variance is 0. -/
theorem C65_zero_variance (f : Vec D → ℝ) (cvFrom : (Vec D → ℝ) → ControlVariate P D S) (est : GradEstimator G P D)
    (params : Fin P → Vec D) (db : (Fin P → Vec D) → Dist G D) (rng : G.Key) (state : S) (M : ℕ)
    (h : ∀ x, (cvFrom f).stochastic params x (cvState' f cvFrom params db rng N state) = f x) (k : Fin P) (n : Fin N) (d : Fin D) :
    (controlVariatesJacobians f cvFrom est params db rng N state false M).1 k n d =
      cvExpGrad f cvFrom params (cvState' f cvFrom params db rng N state) k d -
        cvParamGrad f cvFrom params db rng N (cvState' f cvFrom params db rng N state) k d := by
  rw [(C65_decomposition f cvFrom est params db rng state false M).2]
  have : (fun x => (cvFrom f).stochastic params x (cvState' f cvFrom params db rng N state)) = f := funext h
  rw [this]
  simp only [Bool.false_eq_true, if_false]
  ring

/-- **C65 (bias of the baseline).** The hypothesis of `C65_unbiased` is not met by the moving-average baseline as the code
uses it, because the state is updated with the very samples of the estimate before the baseline is subtracted: on the
first call with one sample (zero-debiased, state `(0, 0)`, decay below 1) the output is exactly 0 for *every*
function, parameter, key and estimator that is linear in the constant, such as the score function one. -/
theorem C65_baseline_bias (f : Vec D → ℝ) (decay : ℝ) (hd : decay < 1) (heur : Bool) (params : Fin P → Vec D)
    (db : (Fin P → Vec D) → Dist G D) (rng : G.Key) (M : ℕ) (k : Fin P) (n : Fin 1) (d : Fin D) :
    (controlVariatesJacobians f (movingAvgBaseline decay true heur) scoreFunctionJacobians params db rng 1 (0, 0) false M).1
      k n d = 0 := by
  obtain ⟨b, hb, h⟩ := C65_baseline_terms f decay true heur scoreFunctionJacobians params db rng (0, 0) M k n d
  rw [h]
  have hb' : b = f ((db params).sample 1 rng n) := by
    rw [← hb]
    have hn : n = 0 := Subsingleton.elim _ _
    subst hn
    show baselineValue decay true heur 0 0 (meanOf fun n => f ((db params).sample 1 rng n)) = _
    have hlt : iterationDecay decay heur 0 < 1 := by
      unfold iterationDecay
      split
      · exact lt_of_le_of_lt (min_le_left _ _) hd
      · exact hd
    unfold baselineValue meanOf
    simp only [if_true, Fin.sum_univ_one, Nat.cast_one, div_one, mul_zero, zero_add, pow_one]
    have : 1 - iterationDecay decay heur 0 ≠ 0 := by linarith
    field_simp
  unfold scoreFunctionJacobians
  simp only
  rw [hb', sub_self]

/-! ## Score function and pathwise estimators of a Gaussian -/

theorem pderiv_loc (F : (Fin 2 → Vec D) → ℝ) (params : Fin 2 → Vec D) (d : Fin D) :
    pderiv F params 0 d = deriv (fun t => F ![Function.update (params 0) d t, params 1]) (params 0 d) := by
  unfold pderiv
  congr 1
  funext t
  congr 1
  funext k
  fin_cases k <;> simp

theorem pderiv_scale (F : (Fin 2 → Vec D) → ℝ) (params : Fin 2 → Vec D) (d : Fin D) :
    pderiv F params 1 d = deriv (fun t => F ![params 0, Function.update (params 1) d t]) (params 1 d) := by
  unfold pderiv
  congr 1
  funext t
  congr 1
  funext k
  fin_cases k <;> simp

/-- **C70.** For a Gaussian with parameters `(mean, log_scale)` and normal draws `e`, the score function estimator is
`f(x_n) e_nd / std_d` for the mean and `f(x_n) (e_nd^2 - 1)` for the log of the standard deviation. No assumption on `f`. -/
theorem C70_score_function (f : Vec D → ℝ) (params : Fin 2 → Vec D) (rng : G.Key) (n : Fin N) (d : Fin D) :
    scoreFunctionJacobians f params (multiNormalB G) rng N 0 n d =
      f (gaussSample G (params 0) (params 1) rng N n) * (G.normal rng N D n d / Real.exp (params 1 d)) ∧
    scoreFunctionJacobians f params (multiNormalB G) rng N 1 n d =
      f (gaussSample G (params 0) (params 1) rng N n) * (G.normal rng N D n d ^ 2 - 1) := by
  have hs : (multiNormalB G params).sample N rng n = gaussSample G (params 0) (params 1) rng N n := by
    funext i; unfold multiNormalB multiNormal gaussSample; simp only; ring
  have hx : gaussSample G (params 0) (params 1) rng N n d - params 0 d = Real.exp (params 1 d) * G.normal rng N D n d := by
    unfold gaussSample; ring
  have hE : Real.exp (params 1 d) ≠ 0 := (Real.exp_pos _).ne'
  constructor
  · unfold scoreFunctionJacobians
    simp only
    rw [hs, pderiv_loc]
    generalize gaussSample G (params 0) (params 1) rng N n = x at *
    simp only [multiNormalB, multiNormal, Matrix.cons_val_zero, Matrix.cons_val_one]
    have hsum : ∀ t, ∑ i, normLogpdf (x i) (Function.update (params 0) d t i) (Real.exp (params 1 i)) =
        normLogpdf (x d) t (Real.exp (params 1 d)) +
          ∑ i ∈ Finset.univ.erase d, normLogpdf (x i) (params 0 i) (Real.exp (params 1 i)) := by
      intro t
      rw [← Finset.add_sum_erase _ _ (Finset.mem_univ d)]
      congr 1
      · simp
      · apply Finset.sum_congr rfl
        intro i hi
        rw [Function.update_of_ne (Finset.ne_of_mem_erase hi)]
    simp only [hsum]
    have h1 : HasDerivAt (fun t => normLogpdf (x d) t (Real.exp (params 1 d)))
        (G.normal rng N D n d / Real.exp (params 1 d)) (params 0 d) := by
      unfold normLogpdf
      have h2 : HasDerivAt (fun t => (x d - t) / Real.exp (params 1 d)) (-1 / Real.exp (params 1 d)) (params 0 d) :=
        ((hasDerivAt_id (params 0 d)).const_sub (x d)).div_const _
      have h3 := ((h2.pow 2).const_mul (-(1 / 2))).sub_const (Real.log (Real.exp (params 1 d) * Real.sqrt (2 * Real.pi)))
      refine h3.congr_deriv ?_
      rw [hx]
      field_simp
      simp
    exact ((h1.add_const _).const_mul _).deriv
  · unfold scoreFunctionJacobians
    simp only
    rw [hs, pderiv_scale]
    generalize gaussSample G (params 0) (params 1) rng N n = x at *
    simp only [multiNormalB, multiNormal, Matrix.cons_val_zero, Matrix.cons_val_one]
    have hsum : ∀ t, ∑ i, normLogpdf (x i) (params 0 i) (Real.exp (Function.update (params 1) d t i)) =
        normLogpdf (x d) (params 0 d) (Real.exp t) +
          ∑ i ∈ Finset.univ.erase d, normLogpdf (x i) (params 0 i) (Real.exp (params 1 i)) := by
      intro t
      rw [← Finset.add_sum_erase _ _ (Finset.mem_univ d)]
      congr 1
      · simp
      · apply Finset.sum_congr rfl
        intro i hi
        rw [Function.update_of_ne (Finset.ne_of_mem_erase hi)]
    simp only [hsum]
    have h1 : HasDerivAt (fun t => normLogpdf (x d) (params 0 d) (Real.exp t))
        (G.normal rng N D n d ^ 2 - 1) (params 1 d) := by
      have e : (fun t => normLogpdf (x d) (params 0 d) (Real.exp t)) =
          fun t => -(1 / 2) * ((x d - params 0 d) * Real.exp (-t)) ^ 2 - (t + Real.log (Real.sqrt (2 * Real.pi))) := by
        funext t
        unfold normLogpdf
        rw [Real.log_mul (Real.exp_pos _).ne' (Real.sqrt_pos.mpr (by positivity)).ne', Real.log_exp, Real.exp_neg]
        rfl
      rw [e]
      have h2 : HasDerivAt (fun t : ℝ => Real.exp (-t)) (-Real.exp (-(params 1 d))) (params 1 d) := by
        simpa using (hasDerivAt_neg (params 1 d)).exp
      have h3 := (((h2.const_mul (x d - params 0 d)).pow 2).const_mul (-(1 / 2))).sub
        ((hasDerivAt_id (params 1 d)).add_const (Real.log (Real.sqrt (2 * Real.pi))))
      refine h3.congr_deriv ?_
      rw [hx, Real.exp_neg]
      field_simp
      simp
      ring
    exact ((h1.add_const _).const_mul _).deriv

/-- **C70 (constants).** If the normal draws have mean 0 and second moment 1 over the keys, the expected score-function
estimate of a constant is 0: a baseline that does not depend on the samples introduces no bias. -/
theorem C70_constant_unbiased [MeasurableSpace G.Key] (μ : Measure G.Key) [IsProbabilityMeasure μ] (b : ℝ)
    (params : Fin 2 → Vec D) (n : Fin N) (d : Fin D)
    (i2 : Integrable (fun rng => G.normal rng N D n d ^ 2) μ)
    (h1 : ∫ rng, G.normal rng N D n d ∂μ = 0) (h2 : ∫ rng, G.normal rng N D n d ^ 2 ∂μ = 1) (k : Fin 2) :
    ∫ rng, scoreFunctionJacobians (fun _ => b) params (multiNormalB G) rng N k n d ∂μ = 0 := by
  fin_cases k
  · have e : (fun rng => scoreFunctionJacobians (fun _ => b) params (multiNormalB G) rng N 0 n d) =
        fun rng => (b / Real.exp (params 1 d)) * G.normal rng N D n d := by
      funext rng; rw [(C70_score_function (fun _ => b) params rng n d).1]; ring
    show ∫ rng, scoreFunctionJacobians (fun _ => b) params (multiNormalB G) rng N 0 n d ∂μ = 0
    rw [e, integral_const_mul, h1, mul_zero]
  · have e : (fun rng => scoreFunctionJacobians (fun _ => b) params (multiNormalB G) rng N 1 n d) =
        fun rng => b * (G.normal rng N D n d ^ 2 - 1) := by
      funext rng; rw [(C70_score_function (fun _ => b) params rng n d).2]
    show ∫ rng, scoreFunctionJacobians (fun _ => b) params (multiNormalB G) rng N 1 n d ∂μ = 0
    rw [e, integral_const_mul, integral_sub i2 (integrable_const _), h2]
    simp

/-- **C71.** For a Gaussian and a differentiable `f` the pathwise estimator is `∂_d f(x_n)` for the mean and
`∂_d f(x_n) std_d e_nd` for the log of the standard deviation. -/
theorem C71_pathwise (f : Vec D → ℝ) (hf : Differentiable ℝ f) (params : Fin 2 → Vec D) (rng : G.Key) (n : Fin N) (d : Fin D) :
    pathwiseJacobians f params (multiNormalB G) rng N 0 n d =
      partial1 f d (gaussSample G (params 0) (params 1) rng N n) ∧
    pathwiseJacobians f params (multiNormalB G) rng N 1 n d =
      partial1 f d (gaussSample G (params 0) (params 1) rng N n) * (Real.exp (params 1 d) * G.normal rng N D n d) := by
  constructor
  · unfold pathwiseJacobians
    rw [pderiv_loc]
    have e : (fun t => f ((multiNormalB G ![Function.update (params 0) d t, params 1]).sample N rng n)) =
        fun t => f (Function.update (gaussSample G (params 0) (params 1) rng N n) d
          (t + Real.exp (params 1 d) * G.normal rng N D n d)) := by
      funext t
      congr 1
      funext i
      unfold multiNormalB multiNormal gaussSample
      by_cases h : i = d
      · subst h; simp; ring
      · simp [h]; ring
    rw [e, partial1_eq (hf _)]
    have h1 : HasDerivAt (fun t : ℝ => t + Real.exp (params 1 d) * G.normal rng N D n d) 1 (params 0 d) :=
      (hasDerivAt_id _).add_const _
    have h2 := hasDerivAt_update (gaussSample G (params 0) (params 1) rng N n) d
      (params 0 d + Real.exp (params 1 d) * G.normal rng N D n d)
    have h3 := h2.scomp (params 0 d) h1
    have h4 : Function.update (gaussSample G (params 0) (params 1) rng N n) d
        (params 0 d + Real.exp (params 1 d) * G.normal rng N D n d) = gaussSample G (params 0) (params 1) rng N n :=
      Function.update_eq_self d _
    have h5 : HasFDerivAt f (fderiv ℝ f (gaussSample G (params 0) (params 1) rng N n))
        (Function.update (gaussSample G (params 0) (params 1) rng N n) d
          (params 0 d + Real.exp (params 1 d) * G.normal rng N D n d)) := by
      rw [h4]; exact (hf _).hasFDerivAt
    have h6 := (h5.comp_hasDerivAt (params 0 d) h3).deriv
    rw [one_smul] at h6
    exact h6
  · unfold pathwiseJacobians
    rw [pderiv_scale]
    have e : (fun t => f ((multiNormalB G ![params 0, Function.update (params 1) d t]).sample N rng n)) =
        fun t => f (Function.update (gaussSample G (params 0) (params 1) rng N n) d
          (params 0 d + Real.exp t * G.normal rng N D n d)) := by
      funext t
      congr 1
      funext i
      unfold multiNormalB multiNormal gaussSample
      by_cases h : i = d
      · subst h; simp; ring
      · simp [h]; ring
    rw [e, partial1_eq (hf _)]
    have h1 : HasDerivAt (fun t : ℝ => params 0 d + Real.exp t * G.normal rng N D n d)
        (Real.exp (params 1 d) * G.normal rng N D n d) (params 1 d) :=
      ((Real.hasDerivAt_exp _).mul_const _).const_add _
    have h2 := hasDerivAt_update (gaussSample G (params 0) (params 1) rng N n) d
      (params 0 d + Real.exp (params 1 d) * G.normal rng N D n d)
    have h3 := h2.scomp (params 1 d) h1
    have h4 : Function.update (gaussSample G (params 0) (params 1) rng N n) d
        (params 0 d + Real.exp (params 1 d) * G.normal rng N D n d) = gaussSample G (params 0) (params 1) rng N n :=
      Function.update_eq_self d _
    have h5 : HasFDerivAt f (fderiv ℝ f (gaussSample G (params 0) (params 1) rng N n))
        (Function.update (gaussSample G (params 0) (params 1) rng N n) d
          (params 0 d + Real.exp (params 1 d) * G.normal rng N D n d)) := by
      rw [h4]; exact (hf _).hasFDerivAt
    have h6 := (h5.comp_hasDerivAt (params 1 d) h3).deriv
    rw [map_smul, smul_eq_mul, mul_comm] at h6
    exact h6

/-! ## C67: the delta method on quadratics -/

/-- the general quadratic function -/
def quad (a : ℝ) (b : Vec D) (Q : Fin D → Vec D) (x : Vec D) : ℝ := a + (∑ i, b i * x i) + ∑ i, ∑ j, Q i j * (x i * x j)

theorem quad_differentiable (a : ℝ) (b : Vec D) (Q : Fin D → Vec D) : Differentiable ℝ (quad a b Q) := by
  unfold quad; fun_prop

theorem quad_line (a : ℝ) (b : Vec D) (Q : Fin D → Vec D) (m v : Vec D) (t : ℝ) :
    quad a b Q (m + t • v) = quad a b Q m + t * ((∑ i, b i * v i) + ∑ i, ∑ j, Q i j * (m i * v j + v i * m j))
      + t ^ 2 * ∑ i, ∑ j, Q i j * (v i * v j) := by
  unfold quad
  simp only [Pi.add_apply, Pi.smul_apply, smul_eq_mul]
  have e1 : ∑ i, b i * (m i + t * v i) = (∑ i, b i * m i) + t * ∑ i, b i * v i := by
    rw [Finset.mul_sum, ← Finset.sum_add_distrib]; apply Finset.sum_congr rfl; intro i _; ring
  have e2 : ∑ i, ∑ j, Q i j * ((m i + t * v i) * (m j + t * v j)) = (∑ i, ∑ j, Q i j * (m i * m j))
      + t * (∑ i, ∑ j, Q i j * (m i * v j + v i * m j)) + t ^ 2 * ∑ i, ∑ j, Q i j * (v i * v j) := by
    rw [Finset.mul_sum, Finset.mul_sum, ← Finset.sum_add_distrib, ← Finset.sum_add_distrib]
    apply Finset.sum_congr rfl
    intro i _
    rw [Finset.mul_sum, Finset.mul_sum, ← Finset.sum_add_distrib, ← Finset.sum_add_distrib]
    apply Finset.sum_congr rfl
    intro j _
    ring
  rw [e1, e2]; ring

theorem fderiv_quad (a : ℝ) (b : Vec D) (Q : Fin D → Vec D) (m v : Vec D) :
    fderiv ℝ (quad a b Q) m v = (∑ i, b i * v i) + ∑ i, ∑ j, Q i j * (m i * v j + v i * m j) := by
  rw [← (quad_differentiable a b Q m).lineDeriv_eq_fderiv]
  unfold lineDeriv
  simp only [quad_line]
  generalize (∑ i, b i * v i) + ∑ i, ∑ j, Q i j * (m i * v j + v i * m j) = A
  generalize ∑ i, ∑ j, Q i j * (v i * v j) = B
  have h : HasDerivAt (fun t : ℝ => quad a b Q m + t * A + t ^ 2 * B) (0 + 1 * A + (2 * 0 ^ (2 - 1) * 1) * B) 0 := by
    have h1 := ((hasDerivAt_id (0 : ℝ)).mul_const A).const_add (quad a b Q m)
    have h2 := ((hasDerivAt_id (0 : ℝ)).pow 2).mul_const B
    have h3 := h1.add h2
    refine (h3.congr_deriv ?_)
    simp
  rw [h.deriv]; simp

theorem gradVec_quad (a : ℝ) (b : Vec D) (Q : Fin D → Vec D) (m : Vec D) (i : Fin D) :
    gradVec (quad a b Q) m i = b i + ∑ j, (Q i j + Q j i) * m j := by
  unfold gradVec
  rw [fderiv_quad]
  simp only [Pi.single_apply, mul_ite, mul_one, mul_zero, ite_mul, one_mul, zero_mul, mul_add]
  simp only [Finset.sum_add_distrib, Finset.sum_ite_eq', Finset.mem_univ, if_true, add_mul]
  have e2 : ∑ x, ∑ y, (if x = i then Q x y * m y else 0) = ∑ y, Q i y * m y := by
    rw [Finset.sum_eq_single i]
    · simp
    · intro x _ hx; simp [hx]
    · simp
  rw [e2]
  ring

theorem hessVec_quad (a : ℝ) (b : Vec D) (Q : Fin D → Vec D) (m : Vec D) (i j : Fin D) :
    hessVec (quad a b Q) m i j = Q i j + Q j i := by
  unfold hessVec
  simp only [gradVec_quad]
  have e : (fun y : Vec D => b i + ∑ j, (Q i j + Q j i) * y j) = quad (b i) (fun j => Q i j + Q j i) (fun _ _ => 0) := by
    funext y; unfold quad; simp
  rw [e, fderiv_quad]
  simp [Pi.single_apply]

/-- **C67.** On a quadratic function the delta control variate equals the function, at every sample and whatever the
mean and scale. -/
theorem C67_exact (a : ℝ) (b : Vec D) (Q : Fin D → Vec D) (params : Fin 2 → Vec D) (x : Vec D) :
    (controlDeltaMethod (quad a b Q)).stochastic params x () = quad a b Q x := by
  simp only [controlDeltaMethod, gradVec_quad, hessVec_quad]
  have h := quad_line a b Q (params 0) (fun i => x i - params 0 i) 1
  have hx : params 0 + (1 : ℝ) • (fun i => x i - params 0 i) = x := by funext i; simp
  rw [hx] at h
  rw [h]
  generalize params 0 = m
  have e1 : ∑ i, (x i - m i) * (b i + ∑ j, (Q i j + Q j i) * m j) =
      (∑ i, b i * (x i - m i)) + ∑ i, ∑ j, Q i j * (m i * (x j - m j) + (x i - m i) * m j) := by
    simp only [mul_add, Finset.sum_add_distrib, add_mul, Finset.mul_sum]
    have s : ∑ i, ∑ j, (x i - m i) * (Q j i * m j) = ∑ i, ∑ j, Q i j * (m i * (x j - m j)) := by
      rw [Finset.sum_comm]
      apply Finset.sum_congr rfl; intro i _; apply Finset.sum_congr rfl; intro j _; ring
    rw [s]
    have s2 : ∑ i, ∑ j, (x i - m i) * (Q i j * m j) = ∑ i, ∑ j, Q i j * ((x i - m i) * m j) := by
      apply Finset.sum_congr rfl; intro i _; apply Finset.sum_congr rfl; intro j _; ring
    rw [s2]
    have s3 : ∑ i, (x i - m i) * b i = ∑ i, b i * (x i - m i) := by
      apply Finset.sum_congr rfl; intro i _; ring
    rw [s3]; ring
  have e2 : (∑ j, (∑ i, (x i - m i) * (Q i j + Q j i)) * (x j - m j)) / 2 = ∑ i, ∑ j, Q i j * ((x i - m i) * (x j - m j)) := by
    simp only [Finset.sum_mul, mul_add, add_mul, Finset.sum_add_distrib]
    have s1 : ∑ j, ∑ i, (x i - m i) * Q i j * (x j - m j) = ∑ i, ∑ j, Q i j * ((x i - m i) * (x j - m j)) := by
      rw [Finset.sum_comm]
      apply Finset.sum_congr rfl; intro i _; apply Finset.sum_congr rfl; intro j _; ring
    have s2 : ∑ j, ∑ i, (x i - m i) * Q j i * (x j - m j) = ∑ i, ∑ j, Q i j * ((x i - m i) * (x j - m j)) := by
      apply Finset.sum_congr rfl; intro i _; apply Finset.sum_congr rfl; intro j _; ring
    rw [s1, s2]; ring
  rw [e1, e2]; ring

/-- **C67.** Its expected value is `f(mean) + 1/2 Σ var_i H_ii`, with the Hessian entries `H_ii = 2 Q_ii`. -/
theorem C67_expected (a : ℝ) (b : Vec D) (Q : Fin D → Vec D) (params : Fin 2 → Vec D) :
    (controlDeltaMethod (quad a b Q)).expected params () =
      quad a b Q (params 0) + 1 / 2 * ∑ i, Real.exp (params 1 i) ^ 2 * (2 * Q i i) := by
  simp only [controlDeltaMethod, hessVec_quad]
  have : ∀ i, Q i i + Q i i = 2 * Q i i := fun i => by ring
  simp only [this]
  ring

/-- **C67.** That expected value is the true expectation of the function under the samples, if the draws have the moments
of independent standard normals (`E e_i = 0`, `E e_i e_j = 1` if `i = j`, else 0). -/
theorem C67_true_expectation [MeasurableSpace G.Key] (μ : Measure G.Key) [IsProbabilityMeasure μ] (a : ℝ) (b : Vec D)
    (Q : Fin D → Vec D) (params : Fin 2 → Vec D) (n : Fin N)
    (i1 : ∀ i, Integrable (fun rng => G.normal rng N D n i) μ)
    (i2 : ∀ i j, Integrable (fun rng => G.normal rng N D n i * G.normal rng N D n j) μ)
    (h1 : ∀ i, ∫ rng, G.normal rng N D n i ∂μ = 0)
    (h2 : ∀ i j, ∫ rng, G.normal rng N D n i * G.normal rng N D n j ∂μ = if i = j then 1 else 0) :
    ∫ rng, quad a b Q (gaussSample G (params 0) (params 1) rng N n) ∂μ =
      (controlDeltaMethod (quad a b Q)).expected params () := by
  rw [C67_expected]
  have e : ∀ rng, quad a b Q (gaussSample G (params 0) (params 1) rng N n) = quad a b Q (params 0) +
      ∑ i, (b i * Real.exp (params 1 i) + ∑ j, (Q i j + Q j i) * params 0 j * Real.exp (params 1 i)) * G.normal rng N D n i
      + ∑ i, ∑ j, Q i j * (Real.exp (params 1 i) * Real.exp (params 1 j)) * (G.normal rng N D n i * G.normal rng N D n j) := by
    intro rng
    have h := quad_line a b Q (params 0) (fun i => Real.exp (params 1 i) * G.normal rng N D n i) 1
    have hx : params 0 + (1 : ℝ) • (fun i => Real.exp (params 1 i) * G.normal rng N D n i) =
        gaussSample G (params 0) (params 1) rng N n := by funext i; simp [gaussSample]
    rw [hx] at h
    rw [h]
    generalize params 0 = m
    generalize (fun i => Real.exp (params 1 i)) = sd
    have s : ∑ i, ∑ j, Q i j * (m i * (Real.exp (params 1 j) * G.normal rng N D n j) + Real.exp (params 1 i) * G.normal rng N D n i * m j) =
        ∑ i, (∑ j, (Q i j + Q j i) * m j * Real.exp (params 1 i)) * G.normal rng N D n i := by
      simp only [mul_add, Finset.sum_add_distrib, add_mul, Finset.sum_mul]
      have s1 : ∑ i, ∑ j, Q i j * (m i * (Real.exp (params 1 j) * G.normal rng N D n j)) =
          ∑ i, ∑ j, Q j i * m j * Real.exp (params 1 i) * G.normal rng N D n i := by
        rw [Finset.sum_comm]
        apply Finset.sum_congr rfl; intro i _; apply Finset.sum_congr rfl; intro j _; ring
      have s2 : ∑ i, ∑ j, Q i j * (Real.exp (params 1 i) * G.normal rng N D n i * m j) =
          ∑ i, ∑ j, Q i j * m j * Real.exp (params 1 i) * G.normal rng N D n i := by
        apply Finset.sum_congr rfl; intro i _; apply Finset.sum_congr rfl; intro j _; ring
      rw [s1, s2, add_comm]
    rw [s]
    have s3 : ∑ i, b i * (Real.exp (params 1 i) * G.normal rng N D n i) = ∑ i, b i * Real.exp (params 1 i) * G.normal rng N D n i := by
      apply Finset.sum_congr rfl; intro i _; ring
    have s4 : ∑ i, ∑ j, Q i j * (Real.exp (params 1 i) * G.normal rng N D n i * (Real.exp (params 1 j) * G.normal rng N D n j)) =
        ∑ i, ∑ j, Q i j * (Real.exp (params 1 i) * Real.exp (params 1 j)) * (G.normal rng N D n i * G.normal rng N D n j) := by
      apply Finset.sum_congr rfl; intro i _; apply Finset.sum_congr rfl; intro j _; ring
    rw [s3, s4]
    simp only [add_mul, Finset.sum_add_distrib]
    ring
  simp only [e]
  have j1 : Integrable (fun rng => ∑ i, (b i * Real.exp (params 1 i) +
      ∑ j, (Q i j + Q j i) * params 0 j * Real.exp (params 1 i)) * G.normal rng N D n i) μ :=
    integrable_finsetSum _ (fun i _ => (i1 i).const_mul _)
  have j2 : Integrable (fun rng => ∑ i, ∑ j, Q i j * (Real.exp (params 1 i) * Real.exp (params 1 j)) *
      (G.normal rng N D n i * G.normal rng N D n j)) μ :=
    integrable_finsetSum _ (fun i _ => integrable_finsetSum _ (fun j _ => (i2 i j).const_mul _))
  have j0 : Integrable (fun _ : G.Key => quad a b Q (params 0)) μ := integrable_const _
  have j01 : Integrable (fun rng => quad a b Q (params 0) + ∑ i, (b i * Real.exp (params 1 i) +
      ∑ j, (Q i j + Q j i) * params 0 j * Real.exp (params 1 i)) * G.normal rng N D n i) μ := j0.add j1
  rw [integral_add j01 j2, integral_add j0 j1,
    integral_finsetSum _ (fun i _ => (i1 i).const_mul _),
    integral_finsetSum _ (fun i _ => integrable_finsetSum _ (fun j _ => (i2 i j).const_mul _))]
  have z1 : ∀ i, ∫ rng, (b i * Real.exp (params 1 i) +
      ∑ j, (Q i j + Q j i) * params 0 j * Real.exp (params 1 i)) * G.normal rng N D n i ∂μ = 0 := by
    intro i; rw [integral_const_mul, h1, mul_zero]
  have z2 : ∀ i, ∫ rng, ∑ j, Q i j * (Real.exp (params 1 i) * Real.exp (params 1 j)) *
      (G.normal rng N D n i * G.normal rng N D n j) ∂μ = Real.exp (params 1 i) ^ 2 * Q i i := by
    intro i
    rw [integral_finsetSum _ (fun j _ => (i2 i j).const_mul _)]
    simp only [integral_const_mul, h2]
    simp
    ring
  simp only [z1, z2]
  simp only [integral_const, probReal_univ, one_smul, Finset.sum_const_zero, add_zero]
  congr 1
  rw [Finset.mul_sum]
  apply Finset.sum_congr rfl
  intro i _; ring

/-- **C67 (exact gradients).** With the delta control variate on a quadratic, *every* sample's jacobian, for *every*
estimator and distribution builder, is the exact gradient of the expectation `f(mean) + Σ std_i^2 Q_ii`:
`∂_d f(mean)` for the mean and `2 std_d^2 Q_dd` for the log of the standard deviation. -/
theorem C67_exact_gradient (a : ℝ) (b : Vec D) (Q : Fin D → Vec D) (est : GradEstimator G 2 D) (params : Fin 2 → Vec D)
    (db : (Fin 2 → Vec D) → Dist G D) (rng : G.Key) (M : ℕ) (n : Fin N) (d : Fin D) :
    (controlVariatesJacobians (quad a b Q) controlDeltaMethod est params db rng N () false M).1 0 n d =
      b d + ∑ j, (Q d j + Q j d) * params 0 j ∧
    (controlVariatesJacobians (quad a b Q) controlDeltaMethod est params db rng N () false M).1 1 n d =
      2 * Real.exp (params 1 d) ^ 2 * Q d d := by
  have hz : ∀ k, cvParamGrad (quad a b Q) controlDeltaMethod params db rng N () k d = 0 := by
    intro k
    unfold cvParamGrad pderiv
    simp only [C67_exact]
    exact deriv_const _ _
  have hv := fun k => C65_zero_variance (N := N) (quad a b Q) controlDeltaMethod est params db rng () M
    (fun x => C67_exact a b Q params x) k n d
  constructor
  · rw [hv 0]
    show cvExpGrad (quad a b Q) controlDeltaMethod params () 0 d -
      cvParamGrad (quad a b Q) controlDeltaMethod params db rng N () 0 d = _
    rw [hz 0, sub_zero]
    unfold cvExpGrad
    rw [pderiv_loc]
    simp only [C67_expected, Matrix.cons_val_zero, Matrix.cons_val_one]
    rw [deriv_add_const]
    have := partial1_eq (quad_differentiable a b Q (params 0)) d
    unfold partial1 at this
    rw [this]
    exact gradVec_quad a b Q (params 0) d
  · rw [hv 1]
    show cvExpGrad (quad a b Q) controlDeltaMethod params () 1 d -
      cvParamGrad (quad a b Q) controlDeltaMethod params db rng N () 1 d = _
    rw [hz 1, sub_zero]
    unfold cvExpGrad
    rw [pderiv_scale]
    simp only [C67_expected, Matrix.cons_val_zero, Matrix.cons_val_one]
    have hsum : ∀ t, ∑ i, Real.exp (Function.update (params 1) d t i) ^ 2 * (2 * Q i i) =
        Real.exp t ^ 2 * (2 * Q d d) + ∑ i ∈ Finset.univ.erase d, Real.exp (params 1 i) ^ 2 * (2 * Q i i) := by
      intro t
      rw [← Finset.add_sum_erase _ _ (Finset.mem_univ d)]
      congr 1
      · simp
      · apply Finset.sum_congr rfl
        intro i hi
        rw [Function.update_of_ne (Finset.ne_of_mem_erase hi)]
    simp only [hsum]
    have h1 : HasDerivAt (fun t : ℝ => Real.exp t ^ 2 * (2 * Q d d)) (2 * Real.exp (params 1 d) ^ 2 * (2 * Q d d)) (params 1 d) := by
      have := ((Real.hasDerivAt_exp (params 1 d)).pow 2).mul_const (2 * Q d d)
      refine this.congr_deriv ?_
      push_cast
      ring
    have h2 := (((h1.add_const (∑ i ∈ Finset.univ.erase d, Real.exp (params 1 i) ^ 2 * (2 * Q i i))).const_mul (1 / 2)).const_add
      (quad a b Q (params 0))).deriv
    refine h2.trans ?_
    ring

end Optax
