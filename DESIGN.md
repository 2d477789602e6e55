# A formal model of optax in Lean 4

Source: `/repo/optax/_src/*.py` (pinned commit).  Model, specifications and proofs:
`lean/Verif/`.  Properties: `properties.jsonl`.  Status: `MANIFEST.json`.  Mutation log:
`seeded/LOG.jsonl`.  (`DESIGN.md`, `properties.jsonl` and `MANIFEST.json` are generated by `tools/`.)

## 1. Layout

| directory | contents |
|---|---|
| `Verif/Num.lean` | numeric layer: class `JOps`, integer powers; instances `ℝ`, `XReal` (`FP F`, floating point, is in `Model/Float.lean`) |
| `Verif/Tree.lean` | errors, pytrees, tensors, `tree_map`/`tree_multimap` with jax's structure checks, broadcasting |
| `Verif/Model/*.lean` | the model, one file per python file (split where large); every definition cites `/repo` lines |
| `Verif/Spec/*.lean` | small specifications that do not use the model's helpers (histories, geometric sums, sub-histories) |
| `Verif/Lemmas/*.lean` | helper lemmas |
| `Verif/Props/*.lean` | the property theorems (`Cxx_…`), with non-vacuity `example`s next to them |

## 2. Modelling decisions

* **Arithmetic.**  Model functions are polymorphic in the number type `α` with the
  operations of jax.numpy they use (`JOps`).  Structural properties (tree structure, error
  behaviour, which gradients reach which inner optimiser, counters, keys) are proved for
  *every* `α`, so they hold for float32, bfloat16 and anything else.  Algebraic properties
  are proved at `α = ℝ` (exact arithmetic; rounding is treated in C84–C90 and C113), with explicit guards
  wherever a denominator or radicand could be bad (Lean's `x/0 = 0` is never relied upon).  Properties
  about NaN and infinity are proved at `XReal = ℝ ∪ {+∞, −∞, NaN}` with IEEE rules for
  special values.  C84–C90 and C113 are proved at `FP F`, the numbers of a floating point format `F` (every operation rounded, with
  overflow; `Model/Float.lean`), for every `F`.
* **Pytrees** are finite trees of containers (tag = tuple, list, dict with its sorted keys, namedtuple
  name, None) over leaves; **tensors** are a shape and row-major data.  `tree_multimap` checks
  structure like jax and raises; binary operations broadcast like numpy and raise on
  incompatible shapes.
* **Errors** are values (`Except Err`).
* **int32 counters** are `BitVec 32`, with two's complement `+` and signed comparison.
* **`lax.cond`** traces both branches: an error in either branch is an error of the
  `cond`, and the two result trees must have equal structure and shapes.
* **`lax.while_loop`** is recursion with fuel equal to the loop's own iteration bound.
* **PRNG keys** are free terms: `split k n` gives the n distinct terms `child k n i`;
  a draw is an uninterpreted function of key and shape.  Where probability matters (C65–C71, C79)
  a key is a point ω of a probability space and the law of the draw is a hypothesis
  (e.g. "the draw is i.i.d. standard normal"); C79's `idealPrng` shows the hypotheses are satisfiable.
* **Differentiation** (`jax.grad`, `jvp`, `hessian`, `jacfwd`) is read as Mathlib's derivative; in C32 the
  derivative rules jax applies, NaNs included, are modelled with dual numbers (`Dual`) over `XReal`.
* **dtypes** are not tracked in tensors; `Model/Dtype.lean` is a separate dtype-level model of the same lines (C81–C83).  A cast (`accumulator_dtype`) is a parameter
  `cast : α → α`.
* **`jit`, device placement, aliasing, performance** are outside the model.

## 3. Plan per property: what is modelled and how it is proved

| id | model | proof |
|---|---|---|
| C01 | `safe_int32_increment`; the counters of ema, adam, belief, yogi, radam, schedule, add_noise, inject_hyperparams on `BitVec 32` | induction over the history: counter = min(n, 2^31-1), for every number type and every gradient |
| C02 | `chain` over arbitrary (heterogeneous, dependently typed) lists of transformations | refinement of the fold to "component i runs alone on the stream produced by component i-1"; induction on list and history |
| C03 | `chain`, `identity` | equality of output streams for nested / flat chains |
| C04 | `chain`'s length check, on arbitrary state tuples | case analysis; reachable states always have the right arity |
| C05 | every transformation and alias over arbitrary number type α | `update (mk σ x)` is `mk σ y` with the same specification σ (structure and shapes); lifted to runs |
| C06 | `apply_updates` | tree lemma, sequences of updates = one update with the sum |
| C07 | `incremental_update` | closed form by induction, range |
| C08 | `periodic_update` (`lax.cond`) | `Nat.mod`; loop invariant |
| C09 | `keep_params_nonnegative`, training loop | induction over training; version over any arithmetic with monotone rounding |
| C10 | `zero_nans` | at `XReal`; report tree equals the NaN positions |
| C11–C12 | `clip`, `clip_by_global_norm`, `global_norm` | ℝ for norm facts, `XReal` for the NaN finding |
| C13 | `unitwise_norm`, `adaptive_grad_clip` | axes lemmas (sums over all but the last axes), per unit bound |
| C14 | `apply_if_finite` | refinement to "inner optimiser run on the filtered history" for any inner transformation |
| C15 | `MultiSteps` (class methods, `should_update`, schedules for k) | refinement to "inner run on the means of groups" for any inner transformation |
| C16 | `masked`, `masked_init/update` | explicit list of selected subtrees; two-run non-interference |
| C17 | `maybe_update` | refinement to the sub-history |
| C18 | `flatten` | ravel / unravel inverse; entrywise transformations are unaffected; counter-examples for others |
| C19–C20 | `lookahead`, `lookahead_update`, `LookaheadParams` | refinement to nested loops; state reset lemma |
| C21–C30 | the accumulators of `transform.py` | scalar machine per coordinate, geometric sums by induction at ℝ |
| C31–C32 | `scale_by_trust_ratio`, `safe_norm` | norm algebra; forward and reverse derivatives with dual numbers (`Dual`) |
| C33 | `apply_every` | grouping by `Nat` division |
| C34 | `centralize` | sums over all but the first axis; idempotence, norm decrease |
| C35 | `scale_by_sm3` | axes lemmas, domination by induction |
| C36 | `add_noise` | key terms are free, so distinctness is injectivity |
| C37 | every transformation | which constructor is returned, for every α |
| C38–C47 | `schedule.py` | real analysis at ℝ; lists of boundaries by induction; `XReal` for the NaN findings |
| C48 | `inject_hyperparams` | refinement to an abstract hyperparameter log |
| C49–C50 | `differentially_private_aggregate` | triangle inequality on `global_norm`; free keys |
| C51–C55 | `alias.py` | composition of `C02` with the component theorems |
| C56–C60 | `loss.py` | real analysis (`HasDerivAt`, Jensen / Gibbs, Cauchy–Schwarz) |
| C61 | `global_norm` | norm axioms over flattened trees |
| C62 | `power_iteration` (`lax.while_loop` with fuel = num_iters) | Cauchy–Schwarz, Rayleigh monotonicity, spectral convergence |
| C63 | `matrix_inverse_pth_root`, `mat_power` | commuting loop invariant |
| C64 | `second_order.py` | `jax.grad/jvp/linear_util` read as Mathlib derivatives |
| C65–C68 | `control_variates.py` | measure theory / finite sums; completing the square |
| C69 | `measure_valued_*`, `utils.set_diags` | list-level indexing of the tiled arrays |
| C70–C71 | `score_function_jacobians`, `pathwise_jacobians` | derivative of the log density |
| C72 | run / checkpoint / resume of any transformation and of the training loop | `run_append` |
| C73 | entrywise transformations and aliases | simulation by one scalar machine per coordinate, so relayout and locality follow |
| C74 | scaling of the gradients by c>0 | the update is a fixed function of scale-invariant ratios (eps=0) or tends to it |
| C75 | `clip`, `clip_by_global_norm`, non-negativity projection | convex-projection inequalities |
| C76 | training loop with `sgd` | descent lemma, regret telescoping, linear rate |
| C77 | training loop with `adagrad` | the AdaGrad regret bound coordinate by coordinate |
| C78 | `loss.py` | convexity and gradients along lines |
| C79 | `stochastic_gradient_estimators.py` under Gaussian laws | changes of variable, differentiation under the integral, Stein-type identities for Weibull / Maxwell / uniform densities |
| C80 | `matrix_inverse_pth_root` on symmetric positive definite matrices | diagonalisation; scalar Newton convergence; counter-example to the stopping rule |
| C81–C83 | dtype-level reading of every transformation, wrapper and alias (`Model/Dtype.lean`) over jax's promotion lattice | case analysis on leaf dtypes, fixed points, induction over steps |
| C84–C90 | the same model functions at `FP F` (`Model/Float.lean`): any rounding function that is monotone and idempotent, with overflow, infinities and NaN; `float32` and `bfloat16` are instances | order lemmas for rounded arithmetic (`Lemmas/Float.lean`), induction over steps; the hypotheses are shown to hold in float32 with concrete hyper-parameters |
| C91 | training loops of `differentially_private_aggregate` + measurable post-processing, with the draws of `jax.random.normal` a random function of key and entry | discrete Girsanov theorem for adapted shifts of Gaussians (`Lemmas/Girsanov.lean`), Rényi/zCDP tail bound, sensitivity from C49, distinct keys from C50 |
| C92 | The same model instantiated at dual numbers (Model/Dual.lean: a value and a tangent, both extended reals with NaN, with jax's jvp rules for + - * / sqrt rsqrt pow max min and comparisons) against the model over the reals; forward mode only. | `Tracks s0 f d`: d holds f(s0) and the HasDerivAt derivative of f at s0; a transformation is ADCorrect when its states and updates stay tracked; one lemma per transformation, closure under chain, induction over steps; two counterexamples at the guards |
| C93 | every transformation, wrapper and optimiser over any number type and arbitrary (also ill-formed) trees | inversion of each update equation (a successful `zipM` forces equal structures), an invariant `Guard` that the state keeps the structure of params, composition for chains |
| C94 | `Tensor.bop` (`bshape`, `bproj`) against numpy's rule stated on axes from the right and row-major positions | induction on reversed shapes, ravel/unravel inverse, leaves of a successful `zipM` |
| C95 | the training loop of `sgd` with momentum (`trace`, heavy ball and Nesterov) with the gradient of a convex smooth loss | Lyapunov functions: p - a m for heavy ball, estimate sequence z = p + m/(L theta) for Nesterov; induction over steps |
| C96 | the training loops of `adagrad` and `rmsprop` with the gradient of a smooth loss bounded below | per-entry descent lemma, telescoping bounds on the accumulators (sum g^2/acc <= log), self-bounding inequality |
| C97 | the training loop of `sgd` with gradients computed from i.i.d. samples of any law on any probability space | independence of the current params (measurable in the past samples) and the next sample, Fubini, the descent inequalities of C76 in expectation; variance of means for minibatches |
| C98 | `Model/Examples.lean`: the example programs (data set pipeline, accuracy, training loop), the network, its gradient and the shuffle being parameters | induction over batches and epochs, C19 for the lookahead loop |
| C99 | `find_internal_python_modules` on any finite attribute graph | loop invariant; lexicographic termination measure (unvisited modules, visited modules on the stack) |
| C100 | `chain`, the wrappers and the training loop, over any number type; `SameOn I A`: equal outcomes on every history of calls in `A` | equality on histories gives a bisimulation (states reached by the same history with the same futures), which every context preserves |
| C101 | the transformations at their neutral arguments over ℝ, the aliases containing them, the wrappers that become transparent | each is bisimilar to `identity()` on pytrees of given shapes; removal from chains by C100 and C03 |
| C102 | `adam` with `trainLoop` over ℝ on the stream of gradients of a finite data set | closed form of the updates, a per-entry drift bound over one pass (rare large gradient, frequent small ones), summed over all passes |
| C103 | the linear transformations over ℝ | linear closed forms (`geoSum`, window sums, slice means); induction over the chain; induction over the workers |
| C104 | all transformations, wrappers and aliases over any number type | a logical relation "same leaves, structures S and S'" preserved by tree_map, tree_multimap, unflatten, lax.cond; a simulation per transformation, closed under chain and wrappers; equivalent to the specification |
| C105 | the same without noise, flatten, masked | the logical relation "leaves permuted by π"; sums of squares over ℝ are invariant |
| C106 | `controlVariatesJacobians`, `movingAvgBaseline`, `scoreFunctionJacobians` | decompose the baseline into a constant and the batch mean; independence of rows kills the cross terms, E[score]=0 the constant |
| C107 | `estimateCoeffs`, `controlVariatesJacobians`, `controlDeltaMethod`, both reparametrised estimators | the coefficient is a measurable function of the draws at the split key, bounded by the jacobians of f (integrable); the control-variate terms are a function of the draws at the key; conditional form C65_delta_unbiased |
| C108 | `Model/Bind.lean`: `bindArgs` (python's binding for parameters that can be given by position or by name), `injectCall`, the signature of `adam` | induction over the signature against the declarative `LegalCall` / `argValue` |
| C109 | `injectHyperparams`, `lrFactory`, `scaleBySchedule` | bisimulation: same counter, same state of the body |
| C110 | the aliases called with the literal defaults of their signatures (`Model/Defaults.lean`) | instances of C23, C24, C27, C30, C35 with numeric bounds; for adabelief and centered rmsprop closed forms for constant gradients and a numeric estimate |
| C111 | the training loop of `adam` with the gradient of a smooth loss bounded below | closed form of the step (C26), the lag of the first moment bounded by the Lipschitz constant, denominators bounded above and below, descent lemma telescoped |
| C112 | hand-transposed reverse mode of `clip_by_global_norm` and `scale_by_trust_ratio` (`Model/Reverse.lean`) over IEEE special values, from the transpose rules of the primitives | closed form of the cotangents, compared with the real derivative along every line; NaN at the zero points by evaluation |
| C113 | `sgd` over the floating point numbers (`Model/Float.lean`), the generic training loop, an arbitrary inexact gradient evaluator | the error model is proved of the binary formats (nearest number within half a unit in the last place); one-step error recurrence `D' ≤ ρD + E` on l2 norms, induction with the no-overflow invariant |
| C114 | `lookahead` wrapped around `sgd`, generic training loop (C19's one-step lemma) | induction over periods and steps in a period, triangle inequality for the slow step |
| C115 | `noisy_sgd` with an ideal generator (`IdealNormal`), generic training loop | the parameters before step n are measurable in the draws of earlier keys, which are independent of the draws of step n (distinct keys, C36); cross term vanishes; recurrence summed |
| C116 | `sm3` with momentum 0, generic training loop, the recursion `SM3Leaf` of C35 | accumulators grow by at least the squared gradient (axis maxima dominate, minimum of them is at least the last accumulator); AdaGrad's telescoping argument for any such accumulator; slice bound by induction over steps |
| C117 | `multiSteps` around any optimiser, generic training loop on both sides | strong induction over micro-steps with C15: zero updates keep the parameters within a group, so the accumulated gradients are those of the group function at the group's parameters; C76 for the rate |
| C118 | `dpsgd` without momentum, stacked per-example gradients, ideal generator, generic training loop | clipping is the identity below the clip norm (C49); parameters before step n are independent of its draws, so the noise adds exactly its variance (machinery of C115); online gradient descent telescoping in expectation |
| C119 | adamw, chain with add_decayed_weights, training loop | per-entry recursion x := (1-lr wd)x - lr u with  | u |  <= C, induction; Cauchy-Schwarz bound for adam also after counter saturation |
| C120 | chain(clip_by_global_norm, sgd), training loop | the clipped step is a gradient step with learning rate lr*min(1,c/ | g | ); descent and convexity inequalities of C76 |
| C121 | transformations as in C103 plus clip_by_global_norm, add_decayed_weights, trust ratio | closed formulas for the outputs commute with a norm-preserving matrix; chains by composition; training by strong induction on the step |
| C122 | the losses of Loss.lean run on dual numbers (Dual.lean) with jax's derivative rules; logaddexp and the maximum inside log_softmax are differentiated through their definitions (jax has a custom rule for the first and stops the gradient of the second; the values agree, because the result is the true derivative either way) | rules for exp, log, max, min, abs; log_softmax is shift invariant, so the tangent of the maximum cancels; safe_norm is locally constant or smooth off the threshold |
| C123 | sgd with a schedule (Alias.lean), the schedules of Schedule.lean | potential argument as in C76 with step dependent rates; the cosine sum by reflection, geometric sum for the exponential schedule, triangle inequality for the travel bound |
| C124 | Model/PyFloat.lean: `_update_moment`, `_bias_correction` and `scale_by_adam` with python-float hyper-parameters rounded where they meet an array; formats of Float.lean | one-step error bound, then induction with the geometric fixed point; agreement with the exact model; the nearest bfloat16 number to 0.999 is 1, then monotonicity of rounded addition |
| C125 | `global_norm`, `clip_by_global_norm` at the floating point instance, summed in the order of the list | induction over the sum for the relative error, square root, then a case split on the computed and the exact comparison; distance to the exact model |
| C126 | trace, scale_by_adam, scale_by_rss run from arbitrary states; incremental_update | closed forms of the accumulators from an arbitrary start by induction; Lipschitz bound of the quotient with the square root's modulus of continuity; contraction for the target copy |
| C127 | the training loop of sgd (C51) with gradients averaged over batches of a data set; linear regression with huber_loss as instance | co-coercivity of the gradient (Baillon-Haddad) makes each step non-expansive, induction over steps; for the expectation, resampling one coordinate of the product measure |
| C128 | the model of the transformations over the reals, trees of any shape | a relation between the states of the two runs preserved by every update (first moments negated, second moments equal), closed under chain; for yogi an explicit run |
| C129 | incremental_update iterated beside the training loop of sgd (C51, C76, C97) | induction over steps for the closed form, Jensen's inequality from the subgradient inequality at the average, regret bounds C76/C97; an explicit oscillating run for the contrast |
| C130 | dpAggregate on stacked batches, MultiSteps, apply_every, scale_by_rss, trace over the reals | closed forms C49, C15, C33, C23 and invariance of finite sums under bijections of the index set; run congruence for chains |
| C131 | scale_by_adam with python-float hyper-parameters (Model/PyFloat.lean) over the float model, against scale_by_adam over the reals | induction on the accumulators with errors relative to the accumulators of absolute values; error rules for division and square root; instance for float32 |
| C132 | the while loop of power_iteration (Model/LinAlg.lean) over the reals, start vector an argument | moments of the start vector in an eigenbasis, Cauchy-Schwarz for successive moments, residual bound; explicit 2x2 counterexample |
| C133 | the losses of Model/Loss.lean over the reals | a second-derivative bound (variance of the logit change under the softmax at most half its squared norm; p(1-p) at most 1/4) integrated along the segment |
| C134 | sgd driven by any function computing the gradient of the mean loss of an affine model, all over the reals; the loss value is that returned by the modelled loss functions | C133 gives convexity and smoothness of the composite; the gradient is pinned by the squeeze between tangent and parabola; then C76 |
| C135 | the schedules of Model/Schedule.lean over the reals | Bernoulli's inequality, subadditivity of x^p, cosine and exp are 1-Lipschitz on the ranges used, clamps are non-expansive |
| C136 | the transformations over floating point numbers with p significant digits, round to nearest even, and no limit on the exponent (`Format.unbounded`); `C136_float32`: in float32's normal range rounding is the same | rounding commutes with 2^k (`digits_scale`), hence every operation is graded (`Graded`); simulation of the scaled run through each transformation and `chain` |
| C137 | trainLoop over the entrywise transformations of C18/C73 on `stackSpec M τ` (row-major stacking `interleaved`); negative example for clip_by_global_norm | the member is a relayout of the stacked tree, so every member's run is related step by step to the stacked run (`Reindexable`); closed loop by induction on the steps |
| C138 | loops over `incrementalUpdate` and `periodicUpdate` on trees of reals (`polyak`, `copyEvery`) | recurrence of the lag, geometric sums; closed form of C08 |
| C139 | training loops with `chain [addDecayedWeights w, t]`; sgd on reals | induction on steps; strong convexity of the regularised loss, Cauchy iterates, smoothness of the losses (C133, C134) |
| C140 | all stages on reals; `Downhill` on histories (`GT.outs`) | positive factor per entry as an invariant, closed under `chain`; derivative of the loss along the update; counterexamples for momentum |
| C141 | `masked` and `chain` over any arithmetic | C16 for each stage, complement of the mask, induction on the history; a tree below a mask is determined by its two parts |
| C142 | the stages over `FP F` for an arbitrary `Format` | sign invariant per stage closed under `chain`; monotonicity of rounding; single precision underflow as counterexample to the strict form |
| C143 | `trainLoop` with `applyIfFinite` over any arithmetic with x + 0 = x; sgd over `XReal` | induction on steps with the length of the current failure run as invariant; `Nat.count`/`Nat.nth` of the finite steps; contraction of sgd |
| C144 | `trainLoop` with `lamb`, `fromage`, `adaptiveGradClip` over the reals | C53, C54 and C13 for one step, triangle inequality, induction on steps |
| C145 | `applyIfFinite` and `multiSteps` over the extended reals and any absorbing arithmetic | C15 in any arithmetic, C14, subsequences by `Nat.nth`/`Nat.count` |
| C146 | `multiSteps` and `applyEvery` over `FP F` | C15 in any arithmetic, forward error analysis of recursive summation, ties-to-even at 2^p+1 |
| C147 | `masked` and `chain` over labelled trees, any arithmetic | C16, induction over the list of labels and the history; a tree is determined by its groups |
| C148 | `sgd` with and without momentum through `trainLoop` on quadratic losses | projection on eigenvectors (spectral theorem); a quadratic Lyapunov function inside the edge, an excited real root of modulus >= 1 outside |
| C149 | aliases through `trainLoop`, schedules | step bounds C110 summed; chain associativity; closed form of trace after the learning rate |
| C150 | `sgd` with momentum through `trainLoop` | induction on the step: the weights of the past gradients move on by one |
| C151 | `sgd`, `adagrad`, `scale_by_rms` on lists of calls | entrywise state machine whose step on a zero gradient is the identity; induction on the history; counterexamples from closed forms |
| C152 | the transformations and aliases on any arithmetic in which NaN propagates; the extended reals and all formats are instances | stepwise invariant (the accumulator entry is NaN) closed under chain; induction on the history and on the training step |
| C153 | sgd(eta, momentum, nesterov) trained on a quadratic | exact decay of the energy of the second-order recurrence per eigendirection; orthonormal eigenbasis (spectral theorem) and Parseval; explicit eigenvector start for the lower bound |
| C154 | sgd, adam, adamw, rmsprop, adagrad in a training loop, over the reals and over floating point with unbounded exponents | simulation between the two training runs, closed under chain, from the graded structure of C136; uniqueness of gradients and the chain rule for the units; Euler's identity for scale-invariant losses |
| C155 | chain(add_decayed_weights, sgd) in a training loop over the reals | orthogonality of gradient and parameters from scale invariance; AM-GM for the lower bound; contraction of y -> cy + d/y around its fixed point beyond 2 sqrt(cd) |
| C156 | sgd with any schedule, with and without momentum, in a training loop over the reals; the flow as a differentiable curve | mean value inequality for one step, discrete Gronwall for many; contraction of the step for convex losses; the exact momentum sum of C150 |
| C157 | sgd with any schedule, with and without momentum, in a training loop over the reals | contraction of one step towards the current minimiser plus the triangle inequality; second-order linear recursion of the lag and the Schur criterion of C148 |
| C158 | lookahead around sgd in a training loop over the reals (C19's step) | exact fast and slow parameters by induction on the step; strict monotonicity of odd powers; eigenbasis of a symmetric matrix |
| C159 | trace, ema, apply_every and MultiSteps run on every outcome's gradient history, over the reals (C21, C22, C33, C15) | the outputs are weighted sums of the gradients; variance of a sum of pairwise independent variables; geometric sums |
| C160 | sgd in a training loop with random gradients, over the reals (C51, C76) | the component after n steps is the noise free one minus a weighted sum of the noises (induction); variance of sums of pairwise independent variables (C159); geometric series |
| C161 | sgd with momentum in a training loop with random gradients, over the reals (C51, C95) | the component is the noise free one plus the impulse response summed over the noises (induction); its energy from an exact quadratic invariant of the second order recurrence (C148) |
| C162 | lookahead around sgd in a training loop with random gradients, over the reals (C19's step) | slow parameters as a weighted sum of all noises, by induction on the period and the step inside it; variance of independent sums (C159); geometric series |
| C163 | sgd and incremental_update in a training loop with random gradients, over the reals (C51, C138) | parameters and averages as weighted sums of the noises (induction); energy of the impulse response of a stable second order recurrence from an exact quadratic invariant |
| C164 | sgd in a training loop with random gradients on a quadratic loss, over the reals (C138) | spectral theorem: an orthonormal eigenbasis splits the error into components, each with C138's law; Parseval adds them up |
| C165 | sgd with Nesterov momentum in a training loop with random gradients, over the reals (C161) | parameters and velocity as weighted sums of the noises (induction); energy of a stable second order recurrence from arbitrary first values by an exact quadratic invariant; the comparison is a factorisation |
| C166 | sgd with momentum in a training loop with random gradients on a quadratic loss, over the reals (C161, C164, C165) | orthonormal eigenbasis and Parseval as in C164, generic in the trajectory; second moment of filtered noise from C161's and C165's impulse responses |
| C167 | MultiSteps around sgd in a training loop with random gradients, over the reals (C117) | C117's simulation by steps on the groups' gradients; the error as a weighted sum of all micro-batch noises (regrouping by induction); variance of independent sums |
| C168 | chain of add_decayed_weights and sgd in a training loop with random gradients, over the reals (C160) | decay as a change of curvature and centre; C160's weighted sums of noise; factorisation and continuity at w = 0 for the gain |
| C169 | sgd with and without momentum in a training loop, over the reals; scale_by_adam's first update (C26) | induction: parameters minus start and velocity stay combinations of the features; orthogonality passes to the limit; Pythagoras |
| C170 | sgd and add_decayed_weights in a training loop, over the reals (C51, C155) | exact one step identity for the weighted square sum; induction with a geometric bound |
| C171 | every entrywise transformation (C73) in a training loop over the reals | strong induction on the step; C73's scalar view of an entry: equal scalar histories give equal updates |

## 4. Theorems per property

* **C01** (proved) Step counters saturate, never wrap: `C01_adam`, `C01_add_noise`, `C01_belief`, `C01_ema`, `C01_increment`, `C01_increment_mono`, `C01_inject_hyperparams`, `C01_nonneg_mono`, `C01_radam`, `C01_schedule`, `C01_schedule_total`, `C01_yogi`
* **C02** (proved) chain is sequential composition with private states: `C02_chain_sequential`, `C02_chain_step`
* **C03** (proved) chain is associative and identity is neutral: `C03_chain_assoc`, `C03_chain_identity`, `C03_chain_singleton`
* **C04** (proved) chain rejects a state of the wrong arity: `C04_chain_no_args`, `C04_chain_reachable_arity`, `C04_chain_right_arity`, `C04_chain_wrong_arity`
* **C05** (proved) Updates keep the tree structure and shapes of the gradients: `C05_adam`, `C05_adaptive_grad_clip`, `C05_add_decayed_weights`, `C05_add_noise`, `C05_aliases`, `C05_aliases_with_params`, `C05_apply_every`, `C05_belief`, `C05_centralize`, `C05_clip`, `C05_clip_by_global_norm`, `C05_dpsgd`, `C05_ema`, `C05_identity`, `C05_keep_params_nonnegative`, `C05_radam`, `C05_rms`, `C05_rss`, `C05_scale`, `C05_schedule`, `C05_sm3`, `C05_stddev`, `C05_trace`, `C05_trust_ratio`, `C05_yogi`, `C05_zero_nans`
* **C06** (proved) apply_updates adds leaf by leaf and preserves structure and shape: `C06_apply_updates`, `C06_apply_updates_seq`, `C06_rejects_structure_mismatch`, `C06_trees`
* **C07** (proved) incremental_update tracks an exponential moving average: `C07_bounds`, `C07_closed_form`, `C07_special`
* **C08** (proved) periodic_update copies exactly on multiples of the period: `C08_periodic_loop`, `C08_periodic_update`, `C08_rejects`
* **C09** (proved) keep_params_nonnegative keeps every parameter >= 0: `C09_any_rounding`, `C09_requires_params`, `C09_step`, `C09_training`
* **C10** (proved) zero_nans removes every NaN, reports exactly where, and touches nothing else: `C10_init`, `C10_xreal`, `C10_zero_nans`
* **C11** (proved) clip bounds every entry and is the identity inside the bound: `C11_clip`, `C11_idempotent`, `C11_monotone`
* **C12** (proved) clip_by_global_norm bounds the global norm and preserves direction: `C12_clip_by_global_norm`, `C12_finite`, `C12_idempotent`, `C12_zero_max_norm_nan`
* **C13** (proved) adaptive_grad_clip bounds each unit's gradient norm by clipping*max(param norm, eps): `C13_adaptive_grad_clip`, `C13_missing_params`, `C13_unsupported_shape`
* **C14** (proved) apply_if_finite never lets a rejected gradient reach the inner optimiser: `C14_all_finite`, `C14_apply_if_finite`, `C14_preserves`, `C14_shape_change`
* **C15** (proved) MultiSteps equals running the inner optimiser on accumulated gradients: `C15_any_arithmetic`, `C15_drops_params`, `C15_multi_steps`, `C15_preserves`, `C15_preserves_any`
* **C16** (proved) masked transforms exactly the selected leaves and passes the rest through: `C16_decay_at_zero`, `C16_init`, `C16_noninterference`, `C16_not_prefix`, `C16_run`, `C16_scalar_params`, `C16_single_array_params`, `C16_structure`, `C16_update`, `C16_update_error`
* **C17** (proved) maybe_update calls the inner transformation exactly at the selected steps: `C17_maybe_update`, `C17_preserves`, `C17_shape_change`
* **C18** (proved) flatten is a faithful re-packing: `C18_calls_inner`, `C18_clip_by_global_norm`, `C18_empty`, `C18_entrywise`, `C18_not_array`, `C18_not_trust_ratio`, `C18_round_trip`, `C18_wrong_length`
* **C19** (proved) lookahead implements the two nested loops of the paper: `C19_init`, `C19_needs_lookahead_params`, `C19_nested_loops`, `C19_params_mismatch`, `C19_rejects`, `C19_slow_constant`, `C19_step`, `C19_synced`
* **C20** (proved) lookahead resets the fast state exactly at synchronisation when asked: `C20_adam_layout`, `C20_counter`, `C20_nan_survives`, `C20_no_reset`, `C20_reset`, `C20_reset_step`
* **C21** (proved) trace is the geometric sum of past gradients: `C21_bounded`, `C21_linear`, `C21_trace`, `C21_zero_decay`
* **C22** (partial) ema is a (de-biased) exponential moving average: `C22_between`, `C22_constant`, `C22_ema_partial`, `C22_no_debias_false`, `C22_weights`
* **C23** (proved) Adagrad scaling: accumulators only grow and updates are bounded by one: `C23_bounds`, `C23_rss`
* **C24** (proved) RMSProp scaling is bounded: `C24_bounds`, `C24_finite`, `C24_rms`
* **C25** (proved) Centered RMSProp never takes the root of a negative number: `C25_finite`, `C25_stddev`
* **C26** (proved) Adam moments are de-biased weighted averages of the past gradients: `C26_adam`, `C26_constant`, `C26_finite`, `C26_numerator`, `C26_saturated`, `C26_weights`
* **C27** (proved) Adam's step is bounded independently of gradient scale: `C27_bounded`, `C27_bounded_forever`, `C27_scale_invariant`, `C27_travel`
* **C28** (proved) AdaBelief tracks squared prediction errors: `C28_belief`, `C28_nonneg`, `C28_saturated`
* **C29** (partial) Yogi's second moment moves towards g^2 by at most (1-b2) g^2 per step: `C29_false`, `C29_yogi_nonneg_partial`, `C29_yogi_step_partial`
* **C30** (partial) RAdam's rectification is well defined and never amplifies: `C30_r_unit`, `C30_radam_partial`, `C30_ro_lt`, `C30_ro_wraps`
* **C31** (proved) Trust ratio rescales each layer's update to the norm of its parameters: `C31_finite`, `C31_min_norm`, `C31_norm`, `C31_requires_params`, `C31_trust_ratio`
* **C32** (proved) safe_norm computes max(norm, min_norm): `C32_forward_derivative`, `C32_ge`, `C32_naive_nan`, `C32_reverse_derivative`, `C32_safe_norm`
* **C33** (proved) apply_every emits the sum of the last k gradients every k-th step and zero otherwise: `C33_apply_every`, `C33_inf_leaks`, `C33_one`, `C33_total`
* **C34** (proved) centralize removes the mean over all but the first axis and is idempotent: `C34_centralize`, `C34_idempotent`, `C34_norm`
* **C35** (proved) SM3 accumulators dominate Adagrad's and never decrease: `C35_dominates`, `C35_empty_axis`, `C35_rank_zero`, `C35_recursion`, `C35_vs_adagrad`
* **C36** (proved) add_noise never reuses a random key and anneals the noise: `C36_keys_distinct`, `C36_noise`, `C36_run`
* **C37** (proved) Transformations that need params fail loudly without them: `C37_aliases_ignored`, `C37_aliases_required`, `C37_aliases_value_error`, `C37_chain_ignored`, `C37_chain_required`, `C37_ignored`, `C37_required`
* **C38** (proved) scale_by_schedule evaluates the schedule at 0,1,2,...: `C38_learning_rate_schedule`, `C38_scale_by_schedule`
* **C39** (proved) Polynomial/linear schedules: boundary values, range and monotonicity: `C39_closed_form`, `C39_degenerate`, `C39_linear`, `C39_polynomial`
* **C40** (proved) piecewise_constant_schedule multiplies the factors of the boundaries passed: `C40_at_boundary`, `C40_negative_rejected`, `C40_order`, `C40_piecewise_constant`
* **C41** (proved) exponential_decay: closed form, start plateau, staircase and end bound: `C41_closed_form`, `C41_degenerate`, `C41_end_value`, `C41_monotone`, `C41_monotone_all`
* **C42** (proved) cosine_decay_schedule: endpoints, range, monotone: `C42_cosine_decay`, `C42_rejects`
* **C43** (proved) piecewise_interpolate_schedule hits its knots and stays between them: `C43_cosine`, `C43_linear`, `C43_order`, `C43_rejects`
* **C44** (partial) One-cycle schedules reach peak and final values, and never exceed the peak: `C44_collision`, `C44_cosine_partial`, `C44_linear_partial`, `C44_rejects`, `C44_short_transition_nan`, `C44_zero_boundary_nan`
* **C45** (proved) join_schedules switches at the boundaries and restarts counts: `C45_empty`, `C45_join`
* **C46** (proved) Warm-up schedules are continuous at the junction and bounded by the peak: `C46_cosine`, `C46_exponential`, `C46_rejects`
* **C47** (proved) sgdr_schedule concatenates the cycles: `C47_errors`, `C47_sgdr`
* **C48** (proved) inject_hyperparams uses current hyperparameters at every step: `C48_constant`, `C48_inject_hyperparams`, `C48_override_scheduled_no_effect`, `C48_state_keys`, `C48_stored_values`
* **C49** (proved) differentially_private_aggregate has bounded sensitivity: `C49_add_remove_one`, `C49_contribution`, `C49_mean`, `C49_replace_one`, `C49_update`
* **C50** (proved) differentially_private_aggregate draws fresh noise per leaf and step, independent of data, and rejects unbatched input: `C50_accepts_only_batched`, `C50_keys_distinct`, `C50_rejects`, `C50_run`
* **C51** (proved) sgd follows the textbook (Nesterov) momentum recurrences: `C51_sgd_momentum`, `C51_sgd_plain`
* **C52** (proved) adamw's weight decay is decoupled: `C52_adamw`, `C52_moments`, `C52_no_decay`
* **C53** (proved) lamb moves each layer by exactly lr times its parameter norm: `C53_lamb`
* **C54** (proved) fromage keeps parameter norms from exploding: `C54_fromage`, `C54_fromage_min_norm`, `C54_fromage_step`
* **C55** (proved) Aliases compose their documented parts in the documented order: `C55_adabelief`, `C55_adagrad`, `C55_adam`, `C55_adamw`, `C55_dpsgd`, `C55_dpsgd_plain`, `C55_lamb`, `C55_noisy_sgd`, `C55_radam`, `C55_rmsprop`, `C55_rmsprop_momentum`, `C55_sgd_momentum`, `C55_sgd_plain`, `C55_sm3`, `C55_yogi`
* **C56** (proved) huber_loss is the piecewise function and its gradient is the clipped L2 gradient: `C56_bounds`, `C56_derivative`, `C56_huber`, `C56_l2`
* **C57** (proved) smooth_labels maps distributions to distributions: `C57_distribution`, `C57_rejects`, `C57_smooth_labels`
* **C58** (proved) sigmoid_binary_cross_entropy is the (non-negative) Bernoulli cross entropy: `C58_accepts`, `C58_properties`, `C58_rejects`, `C58_sigmoid_bce`
* **C59** (proved) softmax_cross_entropy is shift invariant, non-negative and bounded below by the label entropy: `C59_bounds`, `C59_shift`, `C59_softmax_ce`
* **C60** (proved) cosine_similarity lies in [-1,1] and ignores scale: `C60_range`, `C60_scale`, `C60_value`
* **C61** (proved) global_norm is a norm of the flattened tree: `C61_concat`, `C61_eq_zero`, `C61_nonneg`, `C61_regroup`, `C61_smul`, `C61_triangle`
* **C62** (proved) power_iteration terminates, returns a unit vector and never overestimates: `C62_converges`, `C62_eigenvector`, `C62_monotone`, `C62_no_iterations`, `C62_rayleigh`, `C62_terminates`, `C62_unit`, `C62_value`
* **C63** (partial) matrix_inverse_pth_root maintains the coupled-Newton invariant: `C63_fails`, `C63_inverse_root_partial`, `C63_size_one`, `C63_terminates`
* **C64** (proved) hessian_diag returns the diagonal of the Hessian: `C64_fisher_diag`, `C64_hessian_diag`, `C64_hvp`, `C64_hvp_linear`
* **C65** (proved) Control variates do not bias the gradient estimate: `C65_baseline_bias`, `C65_baseline_no_effect`, `C65_baseline_terms`, `C65_decomposition`, `C65_delta_score_function`, `C65_delta_unbiased`, `C65_unbiased`, `C65_zero_variance`
* **C66** (proved) The estimated control-variate coefficient minimises the sample variance: `C66_minimises_variance`, `C66_optimal`
* **C67** (proved) control_delta_method is exact on quadratics: `C67_exact`, `C67_exact_gradient`, `C67_expected`, `C67_true_expectation`
* **C68** (partial) moving_avg_baseline is a moving average of the function values: `C68_converges_partial`, `C68_ema`, `C68_fails`, `C68_first_step`, `C68_overestimates_partial`, `C68_range_partial`, `C68_state`
* **C69** (proved) Measure-valued estimators perturb exactly one coordinate: `C69_independent`, `C69_jacobians`, `C69_linear`, `C69_linear_unbiased`, `C69_mean`, `C69_quadratic_std`, `C69_quadratic_std_unbiased`, `C69_std`
* **C70** (proved) The score-function estimator is the function value times the score: `C70_constant_unbiased`, `C70_score_function`
* **C71** (proved) The pathwise estimator differentiates through the sample: `C71_pathwise`
* **C72** (proved) Checkpointing the optimiser state and resuming is invisible: `C72_prefix_error`, `C72_resume`, `C72_training`
* **C73** (proved) Entrywise optimisers treat every coordinate independently: `C73_aliases`, `C73_local`, `C73_relayout`, `C73_scalar`
* **C74** (proved) Adaptive optimisers are invariant to the scale of the loss: `C74_adam`, `C74_adam_diagonal`, `C74_belief`, `C74_rms`, `C74_rss`, `C74_stddev`, `C74_trust_ratio`
* **C75** (proved) The clipping transformations are nearest-point projections: `C75_clip`, `C75_global_norm_direction`, `C75_global_norm_nonexpansive`, `C75_global_norm_projection`, `C75_nonnegative`
* **C76** (proved) Training with sgd converges at the textbook rates: `C76_convex`, `C76_descent`, `C76_regret`, `C76_regret_constant`, `C76_strongly_convex`
* **C77** (proved) Training with adagrad has sublinear regret: `C77_regret`, `C77_sublinear`
* **C78** (proved) Training losses are convex with gradient probabilities minus labels: `C78_regression`, `C78_sigmoid`, `C78_softmax`
* **C79** (proved) The stochastic gradient estimators are unbiased: `C79_measure_valued_mean`, `C79_measure_valued_scale`, `C79_pathwise`, `C79_score_function`
* **C80** (proved) matrix_inverse_pth_root converges on positive definite matrices: `C80_converges`, `C80_gives_up`, `C80_inverse`
* **C81** (proved) Updates and state keep their dtypes: `C81_global_norm`, `C81_global_norm_mixed`, `C81_promotion`, `C81_sm3`, `C81_sm3_unstable`, `C81_stable`
* **C82** (proved) State dtypes settle after the first update: `C82_accumulator_dtype`, `C82_aliases`, `C82_integer_gradients`, `C82_keeps`, `C82_settles`
* **C83** (proved) Training keeps the parameters' dtypes and is a valid loop carry: `C83_aliases`, `C83_carry`, `C83_flatten`, `C83_inject`, `C83_mixed`, `C83_params`, `C83_sm3`, `C83_wrappers`, `C83_wrappers_reject`
* **C84** (proved) Exact guarantees survive floating point rounding: `C84_clip`, `C84_nonnegative`, `C84_safe_norm`
* **C85** (proved) Adaptive optimisers never create NaN from finite gradients: `C85_adam`, `C85_belief`, `C85_rms`, `C85_rss`
* **C86** (proved) Effect of overflow in the squared gradient: `C86_adam`, `C86_clip_by_global_norm`, `C86_rms`, `C86_rss`
* **C87** (proved) AdaGrad's step sizes never increase, rounding included: `C87_adagrad`
* **C88** (proved) Schedules keep their end points, range and monotonicity under rounding: `C88_cosine`, `C88_exponential`, `C88_linear`, `C88_piecewise_constant`, `C88_polynomial`, `C88_start_lost`
* **C89** (proved) Zero gradients leave parameters bit for bit unchanged: `C89_incremental_update`, `C89_optimisers`, `C89_rms_without_eps`, `C89_training`
* **C90** (proved) Losses are never negative in floating point: `C90_huber`, `C90_l2`, `C90_log_sigmoid`, `C90_log_softmax`, `C90_sigmoid_bce`, `C90_softmax_ce`
* **C91** (proved) Training with dpsgd is differentially private: `C91_dpsgd`, `C91_same_seed`, `C91_training`
* **C92** (proved) Differentiating through training gives the true derivative: `C92_adagrad_zero`, `C92_adam_nan`, `C92_optimisers`, `C92_training`
* **C93** (proved) Gradients of the wrong structure are never silently accepted: `C93_apply_updates`, `C93_flatten_hides`, `C93_optimisers`, `C93_strict`, `C93_training_step`, `C93_updates_follow_gradients`, `C93_wrappers`, `C93_wrong_length`
* **C94** (proved) apply_updates broadcasts exactly as numpy does: `C94_apply_updates`, `C94_params_shape`, `C94_shape_change`
* **C95** (proved) Momentum converges, and Nesterov momentum accelerates: `C95_heavy_ball`, `C95_nesterov`
* **C96** (proved) Adaptive methods find stationary points of non-convex losses: `C96_adagrad`, `C96_heavy_ball`, `C96_rmsprop`
* **C97** (proved) Training with random minibatches converges in expectation: `C97_convex`, `C97_convex_smooth`, `C97_dataset`, `C97_minibatch`, `C97_nonconvex`, `C97_strongly_convex`
* **C98** (proved) The example programs compute what they report: `C98_accuracy`, `C98_crossentropy`, `C98_dataset`, `C98_haiku`, `C98_lookahead_mnist`, `C98_model_accuracy`
* **C99** (proved) The module finder visits exactly the public modules: `C99_find_modules`
* **C100** (proved) Interchangeable components stay interchangeable: `C100_chain`, `C100_chain_shaped`, `C100_conditional`, `C100_training`, `C100_training_shaped`, `C100_wrappers`
* **C101** (proved) Neutral hyper-parameters switch a component off: `C101_alias`, `C101_alias_training`, `C101_chain`, `C101_constant_schedule`, `C101_lookahead_one`, `C101_lookahead_zero`, `C101_neutral`, `C101_wrappers`
* **C102** (proved) Adam can run away from the minimiser of a convex problem: `C102_adam_diverges`, `C102_problem`
* **C103** (proved) Linear optimizers obey superposition; averaging the workers' updates equals updating with the average gradient: `C103_adam_not`, `C103_chain`, `C103_data_parallel`, `C103_linear`, `C103_sgd`
* **C104** (proved) How parameters are grouped into containers does not matter: `C104_aliases`, `C104_closed`, `C104_components`, `C104_lookahead`, `C104_masked`, `C104_masked_not`, `C104_training`
* **C105** (proved) Renaming parameters does not change training, except for the noise: `C105_add_noise_not`, `C105_aliases`, `C105_clip_by_global_norm`, `C105_closed`, `C105_components`, `C105_training`
* **C106** (proved) Exact bias of the moving-average baseline: `C106_baseline_bias`, `C106_unbiased_iff`, `C106_weight`
* **C107** (proved) Estimated coefficients keep the estimate unbiased: `C107_pathwise`, `C107_score_function`
* **C108** (proved) Calling a factory wrapped by inject_hyperparams: `C108_adam`, `C108_bind`, `C108_call_style`, `C108_missing_learning_rate`, `C108_outcome`
* **C109** (proved) An injected schedule runs one step ahead: `C109_adam`, `C109_differs`, `C109_injected_schedule`
* **C110** (proved) Default hyper-parameters bound the step: `C110_adabelief_form`, `C110_adabelief_unbounded`, `C110_adagrad_form`, `C110_adam_form`, `C110_adamw_form`, `C110_bounded`, `C110_centered_unbounded`, `C110_fallback`, `C110_fromage_form`, `C110_lamb_form`, `C110_radam`, `C110_radam_form`, `C110_rmsprop_form`, `C110_sgd_form`, `C110_sm3`, `C110_sm3_form`, `C110_yogi_drifts`, `C110_yogi_first`
* **C111** (proved) Full-batch adam finds stationary points of non-convex losses: `C111_adam`, `C111_any_accuracy`
* **C112** (proved) Back-propagating through clipping and the trust ratio: `C112_clip_correct`, `C112_clip_nan`, `C112_clip_value`, `C112_trust_correct`, `C112_trust_nan`, `C112_trust_value`
* **C113** (proved) Gradient descent in floating point converges to a rounding floor and never overflows: `C113_float32`, `C113_formats`, `C113_sgd`, `C113_stagnation`
* **C114** (proved) Lookahead over sgd converges linearly: `C114_lookahead_sgd`, `C114_rate`
* **C115** (proved) noisy_sgd with annealed noise converges in mean square to a floor set by the counter: `C115_bound`, `C115_limit`, `C115_recurrence`
* **C116** (proved) sm3 has sublinear regret on convex losses: `C116_regret`, `C116_slices`, `C116_sublinear`
* **C117** (proved) Gradient accumulation is large-batch training: `C117_accumulation`, `C117_optimisers`, `C117_rate`
* **C118** (proved) The price of privacy: expected regret of dpsgd: `C118_tuned`, `C118_utility`
* **C119** (proved) Weight decay keeps adamw's parameters in a box: `C119_adam_unbounded`, `C119_adamw`, `C119_adamw_defaults`, `C119_weight_decay`
* **C120** (proved) Clipped gradient descent is robust and converges: `C120_convergence`, `C120_step_bound`
* **C121** (proved) sgd does not depend on the choice of coordinates: `C121_adam_not`, `C121_components`, `C121_optimisers`, `C121_training`
* **C122** (proved) automatic differentiation of the losses gives the true gradient: `C122_cosine`, `C122_cosine_zero`, `C122_kinks`, `C122_regression`, `C122_sigmoid`, `C122_sigmoid_tangent`, `C122_softmax`
* **C123** (proved) the sum of the learning rates is the training budget of sgd: `C123_budget`, `C123_cosine`, `C123_cosine_sum`, `C123_exponential`, `C123_exponential_sum`, `C123_linear`, `C123_linear_sum`, `C123_travel`
* **C124** (proved) rounding errors do not build up in the momentum and moment accumulators: `C124_adam`, `C124_bfloat16`, `C124_float32`, `C124_model`, `C124_trace`
* **C125** (proved) clip_by_global_norm keeps its promise in floating point: `C125_clip_by_global_norm`, `C125_float32`, `C125_global_norm`
* **C126** (proved) old optimiser state is forgotten geometrically, except by adagrad: `C126_adam`, `C126_adam_limit`, `C126_adam_state`, `C126_ema`, `C126_rms`, `C126_rss`, `C126_target_lag`, `C126_trace`
* **C127** (proved) sgd is stable under the replacement of a training example, and so it generalises: `C127_generalisation`, `C127_huber`, `C127_large_rate`, `C127_mean`, `C127_stability`, `C127_strong`
* **C128** (proved) Negating coordinates negates the updates: `C128_aliases`, `C128_reflection`, `C128_training`, `C128_yogi`
* **C129** (proved) Averaging the parameters of a run with incremental_update: `C129_average`, `C129_jensen`, `C129_mean`, `C129_moving`, `C129_oscillation`, `C129_rate`, `C129_sgd`, `C129_stochastic`, `C129_stochastic_smooth`
* **C130** (proved) The order of the examples does not matter where gradients are summed: `C130_apply_every`, `C130_dp_batch`, `C130_dpsgd`, `C130_multi_steps`, `C130_multi_steps_outs`, `C130_rss`, `C130_trace`
* **C131** (proved) Adam's updates in floating point stay close to exact Adam: `C131_adam`, `C131_float32`
* **C132** (proved) What the answer of power_iteration certifies: `C132_deceived`, `C132_rate`, `C132_stopped`
* **C133** (proved) Smoothness and Lipschitz constants of the losses: `C133_regression`, `C133_sigmoid`, `C133_softmax`
* **C134** (proved) Training linear models to optimality: `C134_logistic`, `C134_regression`, `C134_softmax`
* **C135** (proved) Schedules change slowly: `C135_cosine`, `C135_exponential`, `C135_interpolate`, `C135_jumps`, `C135_onecycle`, `C135_polynomial`, `C135_warmup_cosine`
* **C136** (proved) Scaling the loss by a power of two is exact in floating point: `C136_adam`, `C136_clipped_sgd`, `C136_float32`, `C136_rms`, `C136_sgd`, `C136_unscale`
* **C137** (proved) Ensembles can be trained in one stacked tree: `C137_ensemble`, `C137_not_global_norm`
* **C138** (proved) How far a target network lags behind: `C138_incremental_lag`, `C138_incremental_limit`, `C138_incremental_ramp`, `C138_periodic_lag`
* **C139** (proved) Weight decay before the learning rate is L2 regularisation: `C139_is_l2`, `C139_logistic`, `C139_regression`, `C139_ridge`, `C139_separable`, `C139_softmax`
* **C140** (proved) Without momentum and weight decay every step points downhill: `C140_adam_uphill`, `C140_aliases`, `C140_apply`, `C140_loss`, `C140_momentum_uphill`, `C140_preprocessed`, `C140_sm3`
* **C141** (proved) Parameter groups with different optimisers by complementary masks: `C141_frozen`, `C141_groups`, `C141_order`, `C141_training`, `C141_works`
* **C142** (proved) Rounding never turns a step uphill: `C142_aliases`, `C142_apply`, `C142_clipped`, `C142_underflow`
* **C143** (proved) Training with apply_if_finite ignores the broken gradients: `C143_arithmetics`, `C143_faults`, `C143_gives_up`, `C143_rate`
* **C144** (proved) Layer-wise relative steps neither kill nor explode a layer: `C144_agc`, `C144_fromage`, `C144_lamb`
* **C145** (proved) MultiSteps and apply_if_finite nest in either order, with different meanings: `C145_arithmetics`, `C145_bad_batch`, `C145_inside`, `C145_outside`, `C145_runs`
* **C146** (proved) Gradient accumulation in floating point is accurate for moderate group sizes, and only for those: `C146_apply_every`, `C146_bfloat16`, `C146_float32`, `C146_multi_steps`, `C146_rounding`
* **C147** (proved) Any number of parameter groups given by a tree of labels: `C147_labels`, `C147_order`, `C147_training`, `C147_works`
* **C148** (proved) The edge of stability of sgd, exactly: `C148_direction`, `C148_quadratic`
* **C149** (proved) Zero learning rates freeze training, but not rmsprop with momentum: `C149_aliases`, `C149_budget`, `C149_cosine`, `C149_frozen`, `C149_rmsprop_momentum`, `C149_rmsprop_moves`
* **C150** (proved) Momentum multiplies the learning rate by 1/(1 - momentum): `C150_effective_rate`, `C150_single`
* **C151** (proved) Steps without gradient can be skipped for sgd and adagrad: `C151_lazy`, `C151_momentum`, `C151_rmsprop`
* **C152** (proved) What one NaN gradient entry does: `C152_adagrad`, `C152_arithmetics`, `C152_forever`, `C152_global_norm`, `C152_momentum_zero`, `C152_training`, `C152_zero_nans`
* **C153** (proved) Momentum accelerates on ill-conditioned quadratics: `C153_direction`, `C153_momentum`, `C153_plain`, `C153_tuning`
* **C154** (proved) Changing the unit of the parameters; scale-invariant losses: `C154_adam`, `C154_float`, `C154_norm_grows`, `C154_rmsprop`, `C154_scale_invariant`, `C154_sgd`, `C154_units`
* **C155** (proved) Weight decay on scale-invariant losses: the equilibrium of the norm: `C155_bounds`, `C155_equilibrium`, `C155_norm`
* **C156** (proved) sgd follows the gradient flow: `C156_convex`, `C156_flow`, `C156_momentum`, `C156_strong`, `C156_total`
* **C157** (proved) sgd tracks a moving minimiser: `C157_lag`, `C157_tracking`
* **C158** (proved) The edge of stability of lookahead: `C158_direction`, `C158_edge`, `C158_quadratic`
* **C159** (proved) What averaging does to gradient noise: `C159_apply_every`, `C159_ema`, `C159_multi_steps`, `C159_trace`
* **C160** (proved) The noise floor of SGD: `C160_decay`, `C160_floor`, `C160_recursion`
* **C161** (proved) The noise floor of heavy-ball momentum: `C161_floor`, `C161_less_noise`
* **C162** (proved) The noise floor of lookahead: `C162_floor`, `C162_reduction`
* **C163** (proved) Averaging the parameters removes noise: `C163_averaged`, `C163_reduction`
* **C164** (proved) The noise floor of sgd on a quadratic loss: `C164_floor`
* **C165** (proved) The noise floor of Nesterov momentum: `C165_against_heavy_ball`, `C165_floor`
* **C166** (proved) The noise floor of momentum on a quadratic loss: `C166_heavy_ball`, `C166_nesterov`
* **C167** (proved) Gradient accumulation divides the noise floor: `C167_accumulated`, `C167_floor`
* **C168** (proved) Weight decay trades bias for noise: `C168_bias_and_noise`, `C168_decay_helps`
* **C169** (proved) The implicit bias of gradient descent: `C169_adam_not`, `C169_nearest`, `C169_span`
* **C170** (proved) Rescaling symmetries: layers stay balanced: `C170_balance`, `C170_decay`
* **C171** (proved) Symmetric units never separate: `C171_any_arithmetic`, `C171_optimisers`, `C171_tied`

## 5. Where the code and its documentation (or the stated property) disagree

Each item is a theorem about the model, with the witness in the theorem.

* `ema(debias=False)` returns the raw gradients, not the moving average: `C22_no_debias_false`.
* `scale_by_yogi` squares the signed square again, so the paper's step bound fails: `C29_false`.
* `scale_by_radam` computes `2 * count` in int32, which wraps at step 2^30: `C30_ro_wraps`.
* `clip_by_global_norm(0)` on zero gradients gives NaN: `C12_zero_max_norm_nan`.
* `apply_every`: an infinite gradient leaks as NaN into every later group: `C33_inf_leaks`.
* `lookahead(reset_state=True)`: the reset multiplies by 0, so NaN survives: `C20_nan_survives`.
* `lookahead` passes the pair of slow and fast parameters to the fast optimiser, so a fast optimiser that uses
  params raises: `C19_params_mismatch`.
* `MultiSteps.update` drops `params`, so an inner optimiser that requires them always raises: `C15_drops_params`.
  Its `gradient_step` counter is incremented without the saturation guard.
* `masked` tests the truth value of `params` (`if params:`): a single array with two or more entries raises
  `ValueError`, and an empty container counts as `None`: `C16_single_array_params`.  A scalar parameter equal to zero is also treated as missing, so
  `masked(add_decayed_weights(w), True)` raises `ValueError` exactly when the parameter is zero: `C16_scalar_params`, `C16_decay_at_zero`.
* `flatten` raises on an empty tree (`C18_empty`) and changes transformations that are not entrywise
  (`C18_not_trust_ratio`).
* `scale_by_sm3` raises on rank-0 leaves: `C35_rank_zero`.
* `piecewise_constant_schedule` switches at the boundary itself (the docstring says after it): `C40_at_boundary`.
* `piecewise_interpolate_schedule` with a boundary at 0 is NaN, hence `linear_onecycle_schedule` with at most three
  steps: `C44_zero_boundary_nan`, `C44_short_transition_nan`; colliding integer boundaries overwrite each other: `C44_collision`.
* `warmup_cosine_decay_schedule` with peak 0 divides by zero: `C46_rejects`.
* `differentially_private_aggregate` on a rank-0 first leaf (or an empty tree) raises `IndexError`, not the documented `ValueError`: `C50_rejects`.
* `power_iteration` with `num_iters <= 0` returns the estimate 0: `C62_no_iterations`.
* `matrix_inverse_pth_root` is only right for p ∈ {1,2,4,8} (`C63_fails`); its stopping rule can give up after
  the first iteration on a well conditioned matrix and return a scaled identity: `C80_gives_up`.
* `moving_avg_baseline` de-biases the *stored* value, so the correction compounds: `C68_fails`;
  `control_variates_jacobians` updates the baseline with the very samples it then corrects, which biases the
  gradient (to exactly 0 in the first call with one sample): `C65_baseline_bias`.
* dtypes: `scale_by_sm3` creates float32 accumulators whatever the parameters' dtype, so in half precision its state and
  updates change dtype at the first step (`C81_sm3_unstable`, `C83_sm3`), and `apply_if_finite` / `maybe_update` of it
  raise (`C83_wrappers_reject`); `clip_by_global_norm`, `flatten` and `inject_hyperparams` promote the narrower leaves of
  a mixed precision tree (`C81_global_norm_mixed`, `C83_mixed`).
* floating point: one gradient entry whose square overflows (about 1.8e19 in float32) freezes its coordinate for ever under
  RMSProp, AdaGrad and Adam (`C86_*`), and `clip_by_global_norm` turns finite gradients of overflowing norm into zeros
  (`C86_clip_by_global_norm`); a linear warm-up need not start at `init_value` (`C88_start_lost`); RMSProp with `eps=0` gives NaN
  on a zero gradient (`C89_rms_without_eps`).
* meta-gradients: `eps_root = 0` (the default of `adam`) makes the derivative of an update at a zero gradient entry NaN, although
  the update is differentiable there (`C92_adam_nan`); `scale_by_rss` with accumulator 0 reports 0 for the derivative `1/√eps`
  (`C92_adagrad_zero`).
* structure and shapes: `flatten` checks only the total number of entries, so gradients of another structure are silently accepted
  (`C93_flatten_hides`); `apply_updates` silently changes the shape of a parameter of shape (1,) under an update of shape (3,)
  (`C94_shape_change`).
* C102: `adam` has no convergence guarantee even on convex problems: for every setting of its hyper-parameters (with b1² < b2) there is a finite convex data set on which
  it drives the parameters away from the minimiser for ever. (A property of the algorithm; the code implements it faithfully.)
* containers and names: `masked` looks at `bool(params)` and raises ValueError for params that are a bare array of several entries (`C104_masked_not`); the noise of
  `add_noise` goes by the position of the leaf, so that renaming a parameter changes the run although the seed is the same (`C105_add_noise_not`).
* `moving_avg_baseline` shrinks the score-function gradient by `1 - w/N` in expectation (C106): with the default settings the first estimate from 10 samples is only 9/10 of the gradient.
* `estimate_control_variate_coefficients` resamples "to avoid biased gradients" with a key split from the caller's key; C107 shows this works for the score-function and pathwise estimators, which draw only at the caller's key. `measure_valued_jacobians` itself splits the caller's key in the same way and draws its Weibull/Maxwell samples at the very key the coefficient's samples are drawn at, so there the independence C107 (and C65) needs is not given.
* `inject_hyperparams(alias)(learning_rate=f)` evaluates the schedule at the incremented count, so it runs one step ahead of `alias(f)` and never uses `f(0)` (C109).
* C110: with default hyper-parameters `adabelief` and `rmsprop(centered=True)` have no bound on the step in units of the learning rate: under constant unit gradients a single step exceeds 4·10⁷·lr and 9000·lr (`C110_adabelief_unbounded`, `C110_centered_unbounded`), whereas adam's is at most 73·lr.
* C112: back-propagating through `clip_by_global_norm` at all-zero updates gives NaN (the unselected branch of `where` divides by the zero norm), although the function is the identity there; back-propagating through `scale_by_trust_ratio` (default `min_norm = 0`, as in `lamb`) gives NaN for the parameters of a leaf with zero update.
* C115: the noise of `add_noise` does not anneal to zero: the int32 step counter saturates at 2^31-1, so the mean square distance never falls below `d (eta/(2^31-1)^gamma)^2`.
* `exponential_decay` spends a finite total learning rate, `lr/(1 - rate^(1/steps))`: with bounded gradients `sgd` never leaves a ball of that radius times the gradient bound (C123_exponential), whatever the loss and however long it trains (until the 32-bit step counter saturates).
* With bfloat16 parameters, the default `b2 = 0.999` of `adam` is rounded to 1 where it multiplies the moment: the second moment never decreases, so the step size only shrinks (C124_bfloat16).
* `scale_by_yogi` initialises its *first* moment with `initial_accumulator_value` (the paper and `scale_by_adam` start at 0): with a zero gradient it still returns a positive update, `9a/(√(b2 a/(1-b2))+eps)` at `b1 = 0.9`, and it is not symmetric under a change of sign (`C128_yogi`).
* `power_iteration` with a positive `error_tolerance` can stop far below the largest eigenvalue when the start vector has a small component along the top eigenvector: `C132_deceived`.  (`matrix_inverse_pth_root` uses it to scale the matrix.)
* `MultiSteps` accumulates in the dtype of the parameters: in bfloat16 the accumulator of a constant gradient stops growing at 256 times it, so groups of 1024 mini-batches give a quarter of the mean (C146).
* `rmsprop(lr, momentum=m)` places momentum after the learning rate (every other alias has it before): after a schedule has reached zero it keeps moving the parameters (C149).
* After one NaN gradient entry `sgd(momentum=0.)` never returns a number for it again whereas `sgd(momentum=None)` does (C101 states their equality on finite values only), `apply_every` returns NaN at every step (also the non-emitting ones) and `adagrad` silently stops updating the entry (C152).

A property that is false of the code keeps its English statement; the MANIFEST marks it `partial`, with the negation and
the strongest true part (`…_partial`) as theorems.

## 6. Trusted base

* Lean 4.33.0's kernel.
* The axioms `propext`, `Classical.choice`, `Quot.sound`; every theorem depends on at most these three (audited by `vcheck`).
  No axioms are added, no compiled evaluation is used.
* My reading of the python source and of the jax/numpy functions it calls: `tree_map`, `tree_multimap`,
  `tree_leaves`, `lax.cond`, `lax.while_loop`, broadcasting and reductions, `jnp.where/sign/maximum/minimum/isfinite`,
  `random.split`, `jax.grad` and relatives.  This correspondence is not machine checked (the code is not run here).

### Modelled

All public functions of `numerics`, `base`, `combine`, `update`, `constrain`, `clipping`, `transform`, `wrappers`, `lookahead`,
`schedule`, `privacy`, `alias`, `loss`, `linear_algebra`, `second_order`, `control_variates`,
`stochastic_gradient_estimators`, and of `utils` the functions `set_diags`, `multi_normal`, `tile_second_to_last_dim`.

### Not modelled

* Of floating point: signed zeros, fused multiply-add, excess precision and re-association by XLA (`FP F` rounds each operation
  in the order of the source).  Elementary functions are only assumed to satisfy the sign, range and monotonicity facts listed
  in `Format`.  Flushing subnormals to zero is covered (`Format` asks only for monotone idempotent rounding).  Python float
  hyper-parameters are read as numbers of the format: `1 - decay` is computed in double precision in the code and in the format
  in the model; C84–C90 use only that these are positive and finite; C113 is stated for `sgd`, which has no such constant, and C124, C131 for a version of `scale_by_adam` whose python-float hyper-parameters are rounded where they meet an array (`Model/PyFloat.lean`).  The theorems at ℝ say nothing about rounding.
* Which exception comes first when several are due: `tree_map` compares the whole structure before it applies the function, the
  model checks structure and leaves in one pass.  Claims naming an exception have one reason to raise, or quantify over `∃ e`.
* `jit`/`pmap`, `chex` assertions other than those raising on values the model can express, python-level
  mutation, `utils.cast_tree` beyond a `cast` parameter, reverse mode differentiation in general (C92 uses forward mode,
  with jax's jvp rules as written in `Model/Dual.lean`; for `safe_norm`, `clip_by_global_norm` and the trust ratio the transposed program is
  written out by hand, `Model/Dual.lean` and `Model/Reverse.lean`).
* The quality of the pseudo random generator: keys are free terms or points of a probability space, and C79, C91 state what they assume of the
  draws (`LawOf`, `IdealNormal`).
* Of `examples/`: tensorflow datasets, haiku networks and their gradients (parameters of the model in `Model/Examples.lean`).
