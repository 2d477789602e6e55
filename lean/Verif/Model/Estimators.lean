import Verif.Model.SecondOrder
import Mathlib.Analysis.SpecialFunctions.Log.Basic
import Mathlib.Analysis.SpecialFunctions.Pow.Real
import Mathlib.Analysis.SpecialFunctions.Trigonometric.Basic
import Mathlib.Analysis.Calculus.Deriv.Basic

/-!
# `stochastic_gradient_estimators.py`, `control_variates.py`, `utils.py`

Real arithmetic; vectors of dimension `D` are `Fin D → ℝ`, arrays `N x D` are `Fin N → Fin D → ℝ`. The parameters are a
tuple of `P` vectors of dimension `D` (the code asserts that shape, `control_variates.py:319-322`). Derivatives taken by
jax are exact derivatives. Random numbers: a `Prng` gives for every key the numbers jax would draw; nothing is assumed
about it.
-/

namespace Optax

/-- vectors -/
abbrev Vec (D : ℕ) := Fin D → ℝ

/-- `jax.random` (not part of the repository): keys, `split`, and the draws of an `N x D` array from the four
distributions used -/
structure Prng where
  Key : Type
  split : Key → Key × Key
  normal : Key → (N D : ℕ) → Fin N → Vec D
  /-- `weibull_min(scale=sqrt(2), concentration=2)` -/
  weibull : Key → (N D : ℕ) → Fin N → Vec D
  /-- `double_sided_maxwell(loc=0, scale=1)` -/
  maxwell : Key → (N D : ℕ) → Fin N → Vec D
  uniform : Key → (N D : ℕ) → Fin N → Vec D

variable {G : Prng} {P D : ℕ}

/-- a distribution with the two methods the code uses -/
structure Dist (G : Prng) (D : ℕ) where
  sample : (N : ℕ) → G.Key → Fin N → Vec D
  logProb : Vec D → ℝ

/-- `jax.scipy.stats.norm.logpdf(x, loc, scale)` (jax, not part of the repository) -/
noncomputable def normLogpdf (x loc scale : ℝ) : ℝ :=
  -(1 / 2) * ((x - loc) / scale) ^ 2 - Real.log (scale * Real.sqrt (2 * Real.pi))

/-- `multi_normal`, `MultiNormalDiagFromLogScale` (`utils.py:69-100`), for a location and a log scale of the same shape -/
noncomputable def multiNormal (G : Prng) {D : ℕ} (loc logScale : Vec D) : Dist G D where
  sample N seed n i := G.normal seed N D n i * Real.exp (logScale i) + loc i
  logProb x := ∑ i, normLogpdf (x i) (loc i) (Real.exp (logScale i))

/-- `dist_builder = utils.multi_normal` applied to the parameter tuple `(loc, log_scale)` -/
noncomputable def multiNormalB (G : Prng) {D : ℕ} (params : Fin 2 → Vec D) : Dist G D := multiNormal G (params 0) (params 1)

/-- derivative of `F` at `params` with respect to coordinate `d` of parameter `k` (an entry of `jax.grad(F)(params)`) -/
noncomputable def pderiv (F : (Fin P → Vec D) → ℝ) (params : Fin P → Vec D) (k : Fin P) (d : Fin D) : ℝ :=
  deriv (fun t => F (Function.update params k (Function.update (params k) d t))) (params k d)

/-- gradient estimators: jacobians indexed by parameter, sample, coordinate -/
abbrev GradEstimator (G : Prng) (P D : ℕ) :=
  (Vec D → ℝ) → (Fin P → Vec D) → ((Fin P → Vec D) → Dist G D) → G.Key → (N : ℕ) → Fin P → Fin N → Vec D

/-- `score_function_jacobians` (`stochastic_gradient_estimators.py:42-86`): the samples are constants of the
differentiation (`stop_gradient`). -/
noncomputable def scoreFunctionJacobians : GradEstimator G P D := fun function params distBuilder rng N k n d =>
  let samples := (distBuilder params).sample N rng
  pderiv (fun q => function (samples n) * (distBuilder q).logProb (samples n)) params k d

/-- `pathwise_jacobians` (`stochastic_gradient_estimators.py:89-133`) -/
noncomputable def pathwiseJacobians : GradEstimator G P D := fun function params distBuilder rng N k n d =>
  pderiv (fun q => function ((distBuilder q).sample N rng n)) params k d

/-- `tile_second_to_last_dim` (`utils.py:25-28`): `ones[n, None, j] * a[n, i, None]` -/
def tileSecondToLast {N : ℕ} (a : Fin N → Vec D) : Fin N → Fin D → Vec D := fun n i _ => 1 * a n i

/-- `a.at[i1, i2, i3].set(v)` for one index triple -/
def setAt {N : ℕ} (a : Fin N → Fin D → Vec D) (i1 : Fin N) (i2 i3 : Fin D) (v : ℝ) : Fin N → Fin D → Vec D :=
  fun n i j => if n = i1 ∧ i = i2 ∧ j = i3 then v else a n i j

/-- `jnp.repeat(x, d)` -/
def jnpRepeat {β : Type} (x : List β) (d : ℕ) : List β := x.flatMap (List.replicate d)

/-- `jnp.tile(x, n)` -/
def jnpTile {β : Type} (x : List β) (n : ℕ) : List β := (List.replicate n x).flatten

/-- `set_diags` (`utils.py:46-66`): scatter of `new_diags.flatten()` at the three index arrays, one index after the other -/
def setDiags {N : ℕ} (a : Fin N → Fin D → Vec D) (newDiags : Fin N → Vec D) : Fin N → Fin D → Vec D :=
  let indices1 := jnpRepeat (List.finRange N) D
  let indices2 := jnpTile (List.finRange D) N
  let indices3 := indices2
  let values := (List.finRange N).flatMap (fun n => (List.finRange D).map (newDiags n))
  ((indices1.zip indices2).zip (indices3.zip values)).foldl (fun a x => setAt a x.1.1 x.1.2 x.2.1 x.2.2) a

/-- `jax.vmap(jax.vmap(function, 1, 0))(x)`: `function` of the columns of every matrix -/
def vmapCols {N : ℕ} (function : Vec D → ℝ) (x : Fin N → Fin D → Vec D) : Fin N → Vec D :=
  fun n j => function (fun i => x n i j)

/-- `measure_valued_estimation_mean` (`stochastic_gradient_estimators.py:187-250`) for
`dist = multi_normal(mean, log_std)` -/
noncomputable def measureValuedMean (G : Prng) {D : ℕ} (function : Vec D → ℝ) (mean logStd : Vec D) (rng : G.Key) (N : ℕ)
    (coupling : Bool) : Fin N → Vec D :=
  let std : Vec D := fun i => Real.exp (logStd i)
  let distSamples := (multiNormal G mean logStd).sample N rng
  let posRng := (G.split rng).1
  let negRng := (G.split rng).2
  let posSample := G.weibull posRng N D
  let negSample := if coupling then posSample else G.weibull negRng N D
  let positiveDiag : Fin N → Vec D := fun n i => mean i + std i * posSample n i
  let negativeDiag : Fin N → Vec D := fun n i => mean i - std i * negSample n i
  let base := tileSecondToLast distSamples
  let positive := setDiags base positiveDiag
  let negative := setDiags base negativeDiag
  let c : Vec D := fun i => Real.sqrt (2 * Real.pi) * std i
  fun n d => (vmapCols function positive n d - vmapCols function negative n d) / c d

/-- `measure_valued_estimation_std` (`stochastic_gradient_estimators.py:253-316`) for `dist = multi_normal(mean, log_std)` -/
noncomputable def measureValuedStd (G : Prng) {D : ℕ} (function : Vec D → ℝ) (mean logStd : Vec D) (rng : G.Key) (N : ℕ)
    (coupling : Bool) : Fin N → Vec D :=
  let std : Vec D := fun i => Real.exp (logStd i)
  let distSamples := (multiNormal G mean logStd).sample N rng
  let posRng := (G.split rng).1
  let negRng := (G.split rng).2
  let posSample := G.maxwell posRng N D
  let negSample := if coupling then (fun n i => G.uniform negRng N D n i * posSample n i) else G.normal negRng N D
  let positiveDiag : Fin N → Vec D := fun n i => mean i + std i * posSample n i
  let negativeDiag : Fin N → Vec D := fun n i => mean i + std i * negSample n i
  let base := tileSecondToLast distSamples
  let positive := setDiags base positiveDiag
  let negative := setDiags base negativeDiag
  let c : Vec D := std
  fun n d => (vmapCols function positive n d - vmapCols function negative n d) / c d

/-- `measure_valued_jacobians` (`stochastic_gradient_estimators.py:136-184`) for `dist_builder = utils.multi_normal` (any
other builder raises ValueError) -/
noncomputable def measureValuedJacobians (G : Prng) {D : ℕ} (function : Vec D → ℝ) (params : Fin 2 → Vec D) (rng : G.Key)
    (N : ℕ) (coupling : Bool) : Fin 2 → Fin N → Vec D :=
  ![measureValuedMean G function (params 0) (params 1) rng N coupling,
    fun n d => Real.exp (params 1 d) * measureValuedStd G function (params 0) (params 1) rng N coupling n d]

/-- a control variate (`control_variates.py:26-69`): value, expected value, state update -/
structure ControlVariate (P D : ℕ) (S : Type) where
  stochastic : (Fin P → Vec D) → Vec D → S → ℝ
  expected : (Fin P → Vec D) → S → ℝ
  update : (Fin P → Vec D) → {N : ℕ} → (Fin N → Vec D) → S → S

/-- `jax.grad(function)(m)` -/
noncomputable def gradVec (f : Vec D → ℝ) (m : Vec D) : Vec D := fun i => fderiv ℝ f m (Pi.single i 1)

/-- `jax.hessian(function)(m)` -/
noncomputable def hessVec (f : Vec D → ℝ) (m : Vec D) : Fin D → Vec D :=
  fun i j => fderiv ℝ (fun y => gradVec f y i) m (Pi.single j 1)

/-- `control_delta_method` (`control_variates.py:72-140`); it keeps no state. -/
noncomputable def controlDeltaMethod (function : Vec D → ℝ) : ControlVariate 2 D Unit where
  stochastic params sample _ :=
    let mean := params 0
    let centered : Vec D := fun i => sample i - mean i
    let grads := gradVec function mean
    let hessians := hessVec function mean
    function mean + (∑ i, centered i * grads i) + (∑ j, (∑ i, centered i * hessians i j) * centered j) / 2
  expected params _ :=
    let mean := params 0
    let var : Vec D := fun i => Real.exp (params 1 i) ^ 2
    let hessians := hessVec function mean
    function mean + (∑ i, var i * hessians i i) / 2
  update _ _ _ s := s

/-- `jnp.mean` of a vector -/
noncomputable def meanOf {N : ℕ} (x : Fin N → ℝ) : ℝ := (∑ n, x n) / N

/-- `iteration_decay` (`control_variates.py:190-193`) -/
noncomputable def iterationDecay (decay : ℝ) (heuristic : Bool) (i : ℕ) : ℝ :=
  if heuristic then min decay ((1 + i) / (10 + i)) else decay

/-- `updated_value` (`control_variates.py:195-200`) -/
noncomputable def baselineValue (decay : ℝ) (zeroDebias heuristic : Bool) (value : ℝ) (i : ℕ) (mean : ℝ) : ℝ :=
  let d := iterationDecay decay heuristic i
  let updated := d * value + (1 - d) * mean
  if zeroDebias then updated / (1 - d ^ (i + 1)) else updated

/-- `moving_avg_baseline` (`control_variates.py:143-204`); the state is the value and the number of updates. -/
noncomputable def movingAvgBaseline (decay : ℝ) (zeroDebias heuristic : Bool) (function : Vec D → ℝ) :
    ControlVariate P D (ℝ × ℕ) where
  stochastic _ _ state := state.1
  expected _ state := state.1
  update _ _ samples state :=
    (baselineValue decay zeroDebias heuristic state.1 state.2 (meanOf (fun n => function (samples n))), state.2 + 1)

/-- `compute_coeff` (`control_variates.py:400-416`) -/
noncomputable def computeCoeff {N : ℕ} (eps : ℝ) (cvJacs fJacs : Fin N → Vec D) : ℝ :=
  let meanF : Vec D := fun d => meanOf (fun n => fJacs n d)
  let meanCv : Vec D := fun d => meanOf (fun n => cvJacs n d)
  let cov : Vec D := fun d => meanOf (fun n => (fJacs n d - meanF d) * (cvJacs n d - meanCv d))
  let var : Vec D := fun d => meanOf (fun n => (cvJacs n d - meanCv d) ^ 2)
  (∑ d, cov d) / ((∑ d, var d) + eps)

variable {S : Type}

/-- `estimate_control_variate_coefficients` (`control_variates.py:339-419`) -/
noncomputable def estimateCoeffs (function : Vec D → ℝ) (cvFrom : (Vec D → ℝ) → ControlVariate P D S)
    (est : GradEstimator G P D) (params : Fin P → Vec D) (distBuilder : (Fin P → Vec D) → Dist G D) (rng : G.Key) (N : ℕ)
    (state : S) (eps : ℝ) : Fin P → ℝ :=
  let cvRng := (G.split rng).1
  let cv := cvFrom function
  let cvJacobians := est (fun x => cv.stochastic params x state) params distBuilder cvRng N
  let functionJacobians := est function params distBuilder cvRng N
  fun k => computeCoeff eps (cvJacobians k) (functionJacobians k)

/-- `cv_coeffs` (`control_variates.py:275-281`) -/
noncomputable def cvCoeffs (function : Vec D → ℝ) (cvFrom : (Vec D → ℝ) → ControlVariate P D S) (est : GradEstimator G P D)
    (params : Fin P → Vec D) (distBuilder : (Fin P → Vec D) → Dist G D) (rng : G.Key) (state : S) (estimate : Bool)
    (estimateN : ℕ) : Fin P → ℝ :=
  if estimate then estimateCoeffs function cvFrom est params distBuilder rng estimateN state (1 / 1000) else fun _ => 1

/-- `control_variates_jacobians` (`control_variates.py:211-336`) -/
noncomputable def controlVariatesJacobians (function : Vec D → ℝ) (cvFrom : (Vec D → ℝ) → ControlVariate P D S)
    (est : GradEstimator G P D) (params : Fin P → Vec D) (distBuilder : (Fin P → Vec D) → Dist G D) (rng : G.Key) (N : ℕ)
    (state : S) (estimate : Bool) (estimateN : ℕ) : (Fin P → Fin N → Vec D) × S :=
  let cv := cvFrom function
  let coeffs := cvCoeffs function cvFrom est params distBuilder rng state estimate estimateN
  let functionJacobians := est function params distBuilder rng N
  let samples := (distBuilder params).sample N rng
  let state' := cv.update params samples state
  let cvJacobians := est (fun x => cv.stochastic params x state') params distBuilder rng N
  let cvParamGrads := pderiv (fun q => meanOf (fun n => cv.stochastic q (samples n) state')) params
  let expectedValueGrads := pderiv (fun q => cv.expected q state') params
  (fun k n d => functionJacobians k n d - coeffs k * cvJacobians k n d - coeffs k * cvParamGrads k d
    + coeffs k * expectedValueGrads k d, state')

end Optax
