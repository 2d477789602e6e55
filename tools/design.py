rows='''C01|`safe_int32_increment`; the counters of ema, adam, belief, yogi, radam, schedule, add_noise, inject_hyperparams on `BitVec 32`|induction over the history: counter = min(n, 2^31-1), for every number type and every gradient
C02|`chain` over arbitrary (heterogeneous, dependently typed) lists of transformations|refinement of the fold to "component i runs alone on the stream produced by component i-1"; induction on list and history
C03|`chain`, `identity`|equality of output streams for nested / flat chains
C04|`chain`'s length check, on arbitrary state tuples|case analysis; reachable states always have the right arity
C05|every transformation and alias over arbitrary number type α|`update (mk σ x)` is `mk σ y` with the same specification σ (structure and shapes); lifted to runs
C06|`apply_updates`|tree lemma, sequences of updates = one update with the sum
C07|`incremental_update`|closed form by induction, range
C08|`periodic_update` (`lax.cond`)|`Nat.mod`; loop invariant
C09|`keep_params_nonnegative`, training loop|induction over training; version over any arithmetic with monotone rounding
C10|`zero_nans`|at `XReal`; report tree equals the NaN positions
C11–C12|`clip`, `clip_by_global_norm`, `global_norm`|ℝ for norm facts, `XReal` for the NaN finding
C13|`unitwise_norm`, `adaptive_grad_clip`|axes lemmas (sums over all but the last axes), per unit bound
C14|`apply_if_finite`|refinement to "inner optimiser run on the filtered history" for any inner transformation
C15|`MultiSteps` (class methods, `should_update`, schedules for k)|refinement to "inner run on the means of groups" for any inner transformation
C16|`masked`, `masked_init/update`|explicit list of selected subtrees; two-run non-interference
C17|`maybe_update`|refinement to the sub-history
C18|`flatten`|ravel / unravel inverse; entrywise transformations are unaffected; counter-examples for others
C19–C20|`lookahead`, `lookahead_update`, `LookaheadParams`|refinement to nested loops; state reset lemma
C21–C30|the accumulators of `transform.py`|scalar machine per coordinate, geometric sums by induction at ℝ
C31–C32|`scale_by_trust_ratio`, `safe_norm`|norm algebra; forward and reverse derivatives with dual numbers (`Dual`)
C33|`apply_every`|grouping by `Nat` division
C34|`centralize`|sums over all but the first axis; idempotence, norm decrease
C35|`scale_by_sm3`|axes lemmas, domination by induction
C36|`add_noise`|key terms are free, so distinctness is injectivity
C37|every transformation|which constructor is returned, for every α
C38–C47|`schedule.py`|real analysis at ℝ; lists of boundaries by induction; `XReal` for the NaN findings
C48|`inject_hyperparams`|refinement to an abstract hyperparameter log
C49–C50|`differentially_private_aggregate`|triangle inequality on `global_norm`; free keys
C51–C55|`alias.py`|composition of `C02` with the component theorems
C56–C60|`loss.py`|real analysis (`HasDerivAt`, Jensen / Gibbs, Cauchy–Schwarz)
C61|`global_norm`|norm axioms over flattened trees
C62|`power_iteration` (`lax.while_loop` with fuel = num_iters)|Cauchy–Schwarz, Rayleigh monotonicity, spectral convergence
C63|`matrix_inverse_pth_root`, `mat_power`|commuting loop invariant
C64|`second_order.py`|`jax.grad/jvp/linear_util` read as Mathlib derivatives
C65–C68|`control_variates.py`|measure theory / finite sums; completing the square
C69|`measure_valued_*`, `utils.set_diags`|list-level indexing of the tiled arrays
C70–C71|`score_function_jacobians`, `pathwise_jacobians`|derivative of the log density
C72|run / checkpoint / resume of any transformation and of the training loop|`run_append`
C73|entrywise transformations and aliases|simulation by one scalar machine per coordinate, so relayout and locality follow
C74|scaling of the gradients by c>0|the update is a fixed function of scale-invariant ratios (eps=0) or tends to it
C75|`clip`, `clip_by_global_norm`, non-negativity projection|convex-projection inequalities
C76|training loop with `sgd`|descent lemma, regret telescoping, linear rate
C77|training loop with `adagrad`|the AdaGrad regret bound coordinate by coordinate
C78|`loss.py`|convexity and gradients along lines
C79|`stochastic_gradient_estimators.py` under Gaussian laws|changes of variable, differentiation under the integral, Stein-type identities for Weibull / Maxwell / uniform densities
C80|`matrix_inverse_pth_root` on symmetric positive definite matrices|diagonalisation; scalar Newton convergence; counter-example to the stopping rule
C81–C83|dtype-level reading of every transformation, wrapper and alias (`Model/Dtype.lean`) over jax's promotion lattice|case analysis on leaf dtypes, fixed points, induction over steps
C84–C90|the same model functions at `FP F` (`Model/Float.lean`): any rounding function that is monotone and idempotent, with overflow, infinities and NaN; `float32` and `bfloat16` are instances|order lemmas for rounded arithmetic (`Lemmas/Float.lean`), induction over steps; the hypotheses are shown to hold in float32 with concrete hyper-parameters
C91|training loops of `differentially_private_aggregate` + measurable post-processing, with the draws of `jax.random.normal` a random function of key and entry|discrete Girsanov theorem for adapted shifts of Gaussians (`Lemmas/Girsanov.lean`), Rényi/zCDP tail bound, sensitivity from C49, distinct keys from C50
C92|The same model instantiated at dual numbers (Model/Dual.lean: a value and a tangent, both extended reals with NaN, with jax's jvp rules for + - * / sqrt rsqrt pow max min and comparisons) against the model over the reals; forward mode only.|`Tracks s0 f d`: d holds f(s0) and the HasDerivAt derivative of f at s0; a transformation is ADCorrect when its states and updates stay tracked; one lemma per transformation, closure under chain, induction over steps; two counterexamples at the guards
C93|every transformation, wrapper and optimiser over any number type and arbitrary (also ill-formed) trees|inversion of each update equation (a successful `zipM` forces equal structures), an invariant `Guard` that the state keeps the structure of params, composition for chains
C94|`Tensor.bop` (`bshape`, `bproj`) against numpy's rule stated on axes from the right and row-major positions|induction on reversed shapes, ravel/unravel inverse, leaves of a successful `zipM`
C95|the training loop of `sgd` with momentum (`trace`, heavy ball and Nesterov) with the gradient of a convex smooth loss|Lyapunov functions: p - a m for heavy ball, estimate sequence z = p + m/(L theta) for Nesterov; induction over steps
C96|the training loops of `adagrad` and `rmsprop` with the gradient of a smooth loss bounded below|per-entry descent lemma, telescoping bounds on the accumulators (sum g^2/acc <= log), self-bounding inequality
C97|the training loop of `sgd` with gradients computed from i.i.d. samples of any law on any probability space|independence of the current params (measurable in the past samples) and the next sample, Fubini, the descent inequalities of C76 in expectation; variance of means for minibatches
C98|`Model/Examples.lean`: the example programs (data set pipeline, accuracy, training loop), the network, its gradient and the shuffle being parameters|induction over batches and epochs, C19 for the lookahead loop
C99|`find_internal_python_modules` on any finite attribute graph|loop invariant; lexicographic termination measure (unvisited modules, visited modules on the stack)
C100|`chain`, the wrappers and the training loop, over any number type; `SameOn I A`: equal outcomes on every history of calls in `A`|equality on histories gives a bisimulation (states reached by the same history with the same futures), which every context preserves
C101|the transformations at their neutral arguments over ℝ, the aliases containing them, the wrappers that become transparent|each is bisimilar to `identity()` on pytrees of given shapes; removal from chains by C100 and C03
C102|`adam` with `trainLoop` over ℝ on the stream of gradients of a finite data set|closed form of the updates, a per-entry drift bound over one pass (rare large gradient, frequent small ones), summed over all passes
C103|the linear transformations over ℝ|linear closed forms (`geoSum`, window sums, slice means); induction over the chain; induction over the workers
C104|all transformations, wrappers and aliases over any number type|a logical relation "same leaves, structures S and S'" preserved by tree_map, tree_multimap, unflatten, lax.cond; a simulation per transformation, closed under chain and wrappers; equivalent to the specification
C105|the same without noise, flatten, masked|the logical relation "leaves permuted by π"; sums of squares over ℝ are invariant
C106|`controlVariatesJacobians`, `movingAvgBaseline`, `scoreFunctionJacobians`|decompose the baseline into a constant and the batch mean; independence of rows kills the cross terms, E[score]=0 the constant
C107|`estimateCoeffs`, `controlVariatesJacobians`, `controlDeltaMethod`, both reparametrised estimators|the coefficient is a measurable function of the draws at the split key, bounded by the jacobians of f (integrable); the control-variate terms are a function of the draws at the key; conditional form C65_delta_unbiased
C108|`Model/Bind.lean`: `bindArgs` (python's binding for parameters that can be given by position or by name), `injectCall`, the signature of `adam`|induction over the signature against the declarative `LegalCall` / `argValue`
C109|`injectHyperparams`, `lrFactory`, `scaleBySchedule`|bisimulation: same counter, same state of the body
C110|the aliases called with the literal defaults of their signatures (`Model/Defaults.lean`)|instances of C23, C24, C27, C30, C35 with numeric bounds; for adabelief and centered rmsprop closed forms for constant gradients and a numeric estimate
C111|the training loop of `adam` with the gradient of a smooth loss bounded below|closed form of the step (C26), the lag of the first moment bounded by the Lipschitz constant, denominators bounded above and below, descent lemma telescoped
C112|hand-transposed reverse mode of `clip_by_global_norm` and `scale_by_trust_ratio` (`Model/Reverse.lean`) over IEEE special values, from the transpose rules of the primitives|closed form of the cotangents, compared with the real derivative along every line; NaN at the zero points by evaluation
C113|`sgd` over the floating point numbers (`Model/Float.lean`), the generic training loop, an arbitrary inexact gradient evaluator|the error model is proved of the binary formats (nearest number within half a unit in the last place); one-step error recurrence `D' ≤ ρD + E` on l2 norms, induction with the no-overflow invariant
C114|`lookahead` wrapped around `sgd`, generic training loop (C19's one-step lemma)|induction over periods and steps in a period, triangle inequality for the slow step
C115|`noisy_sgd` with an ideal generator (`IdealNormal`), generic training loop|the parameters before step n are measurable in the draws of earlier keys, which are independent of the draws of step n (distinct keys, C36); cross term vanishes; recurrence summed
C116|`sm3` with momentum 0, generic training loop, the recursion `SM3Leaf` of C35|accumulators grow by at least the squared gradient (axis maxima dominate, minimum of them is at least the last accumulator); AdaGrad's telescoping argument for any such accumulator; slice bound by induction over steps
C117|`multiSteps` around any optimiser, generic training loop on both sides|strong induction over micro-steps with C15: zero updates keep the parameters within a group, so the accumulated gradients are those of the group function at the group's parameters; C76 for the rate
C118|`dpsgd` without momentum, stacked per-example gradients, ideal generator, generic training loop|clipping is the identity below the clip norm (C49); parameters before step n are independent of its draws, so the noise adds exactly its variance (machinery of C115); online gradient descent telescoping in expectation
C119|adamw, chain with add_decayed_weights, training loop|per-entry recursion x := (1-lr wd)x - lr u with |u| <= C, induction; Cauchy-Schwarz bound for adam also after counter saturation
C120|chain(clip_by_global_norm, sgd), training loop|the clipped step is a gradient step with learning rate lr*min(1,c/|g|); descent and convexity inequalities of C76
C121|transformations as in C103 plus clip_by_global_norm, add_decayed_weights, trust ratio|closed formulas for the outputs commute with a norm-preserving matrix; chains by composition; training by strong induction on the step
C122|the losses of Loss.lean run on dual numbers (Dual.lean) with jax's derivative rules; logaddexp and the maximum inside log_softmax are differentiated through their definitions (jax has a custom rule for the first and stops the gradient of the second; the values agree, because the result is the true derivative either way)|rules for exp, log, max, min, abs; log_softmax is shift invariant, so the tangent of the maximum cancels; safe_norm is locally constant or smooth off the threshold
C123|sgd with a schedule (Alias.lean), the schedules of Schedule.lean|potential argument as in C76 with step dependent rates; the cosine sum by reflection, geometric sum for the exponential schedule, triangle inequality for the travel bound
C124|Model/PyFloat.lean: `_update_moment`, `_bias_correction` and `scale_by_adam` with python-float hyper-parameters rounded where they meet an array; formats of Float.lean|one-step error bound, then induction with the geometric fixed point; agreement with the exact model; the nearest bfloat16 number to 0.999 is 1, then monotonicity of rounded addition
C125|`global_norm`, `clip_by_global_norm` at the floating point instance, summed in the order of the list|induction over the sum for the relative error, square root, then a case split on the computed and the exact comparison; distance to the exact model
C126|trace, scale_by_adam, scale_by_rss run from arbitrary states; incremental_update|closed forms of the accumulators from an arbitrary start by induction; Lipschitz bound of the quotient with the square root's modulus of continuity; contraction for the target copy
C127|the training loop of sgd (C51) with gradients averaged over batches of a data set; linear regression with huber_loss as instance|co-coercivity of the gradient (Baillon-Haddad) makes each step non-expansive, induction over steps; for the expectation, resampling one coordinate of the product measure
C128|the model of the transformations over the reals, trees of any shape|a relation between the states of the two runs preserved by every update (first moments negated, second moments equal), closed under chain; for yogi an explicit run
C129|incremental_update iterated beside the training loop of sgd (C51, C76, C97)|induction over steps for the closed form, Jensen's inequality from the subgradient inequality at the average, regret bounds C76/C97; an explicit oscillating run for the contrast
C130|dpAggregate on stacked batches, MultiSteps, apply_every, scale_by_rss, trace over the reals|closed forms C49, C15, C33, C23 and invariance of finite sums under bijections of the index set; run congruence for chains
C131|scale_by_adam with python-float hyper-parameters (Model/PyFloat.lean) over the float model, against scale_by_adam over the reals|induction on the accumulators with errors relative to the accumulators of absolute values; error rules for division and square root; instance for float32
C132|the while loop of power_iteration (Model/LinAlg.lean) over the reals, start vector an argument|moments of the start vector in an eigenbasis, Cauchy-Schwarz for successive moments, residual bound; explicit 2x2 counterexample
C133|the losses of Model/Loss.lean over the reals|a second-derivative bound (variance of the logit change under the softmax at most half its squared norm; p(1-p) at most 1/4) integrated along the segment
C134|sgd driven by any function computing the gradient of the mean loss of an affine model, all over the reals; the loss value is that returned by the modelled loss functions|C133 gives convexity and smoothness of the composite; the gradient is pinned by the squeeze between tangent and parabola; then C76
C135|the schedules of Model/Schedule.lean over the reals|Bernoulli's inequality, subadditivity of x^p, cosine and exp are 1-Lipschitz on the ranges used, clamps are non-expansive
C136|the transformations over floating point numbers with p significant digits, round to nearest even, and no limit on the exponent (`Format.unbounded`); `C136_float32`: in float32's normal range rounding is the same|rounding commutes with 2^k (`digits_scale`), hence every operation is graded (`Graded`); simulation of the scaled run through each transformation and `chain`
C137|trainLoop over the entrywise transformations of C18/C73 on `stackSpec M τ` (row-major stacking `interleaved`); negative example for clip_by_global_norm|the member is a relayout of the stacked tree, so every member's run is related step by step to the stacked run (`Reindexable`); closed loop by induction on the steps
C138|loops over `incrementalUpdate` and `periodicUpdate` on trees of reals (`polyak`, `copyEvery`)|recurrence of the lag, geometric sums; closed form of C08
C139|training loops with `chain [addDecayedWeights w, t]`; sgd on reals|induction on steps; strong convexity of the regularised loss, Cauchy iterates, smoothness of the losses (C133, C134)
C140|all stages on reals; `Downhill` on histories (`GT.outs`)|positive factor per entry as an invariant, closed under `chain`; derivative of the loss along the update; counterexamples for momentum
C141|`masked` and `chain` over any arithmetic|C16 for each stage, complement of the mask, induction on the history; a tree below a mask is determined by its two parts
C142|the stages over `FP F` for an arbitrary `Format`|sign invariant per stage closed under `chain`; monotonicity of rounding; single precision underflow as counterexample to the strict form
C143|`trainLoop` with `applyIfFinite` over any arithmetic with x + 0 = x; sgd over `XReal`|induction on steps with the length of the current failure run as invariant; `Nat.count`/`Nat.nth` of the finite steps; contraction of sgd
C144|`trainLoop` with `lamb`, `fromage`, `adaptiveGradClip` over the reals|C53, C54 and C13 for one step, triangle inequality, induction on steps
C145|`applyIfFinite` and `multiSteps` over the extended reals and any absorbing arithmetic|C15 in any arithmetic, C14, subsequences by `Nat.nth`/`Nat.count`
C146|`multiSteps` and `applyEvery` over `FP F`|C15 in any arithmetic, forward error analysis of recursive summation, ties-to-even at 2^p+1
C147|`masked` and `chain` over labelled trees, any arithmetic|C16, induction over the list of labels and the history; a tree is determined by its groups
C148|`sgd` with and without momentum through `trainLoop` on quadratic losses|projection on eigenvectors (spectral theorem); a quadratic Lyapunov function inside the edge, an excited real root of modulus >= 1 outside
C149|aliases through `trainLoop`, schedules|step bounds C110 summed; chain associativity; closed form of trace after the learning rate
C150|`sgd` with momentum through `trainLoop`|induction on the step: the weights of the past gradients move on by one
C151|`sgd`, `adagrad`, `scale_by_rms` on lists of calls|entrywise state machine whose step on a zero gradient is the identity; induction on the history; counterexamples from closed forms
C152|the transformations and aliases on any arithmetic in which NaN propagates; the extended reals and all formats are instances|stepwise invariant (the accumulator entry is NaN) closed under chain; induction on the history and on the training step
C153|sgd(eta, momentum, nesterov) trained on a quadratic|exact decay of the energy of the second-order recurrence per eigendirection; orthonormal eigenbasis (spectral theorem) and Parseval; explicit eigenvector start for the lower bound
C154|sgd, adam, adamw, rmsprop, adagrad in a training loop, over the reals and over floating point with unbounded exponents|simulation between the two training runs, closed under chain, from the graded structure of C136; uniqueness of gradients and the chain rule for the units; Euler's identity for scale-invariant losses
C155|chain(add_decayed_weights, sgd) in a training loop over the reals|orthogonality of gradient and parameters from scale invariance; AM-GM for the lower bound; contraction of y -> cy + d/y around its fixed point beyond 2 sqrt(cd)
C156|sgd with any schedule, with and without momentum, in a training loop over the reals; the flow as a differentiable curve|mean value inequality for one step, discrete Gronwall for many; contraction of the step for convex losses; the exact momentum sum of C150
C157|sgd with any schedule, with and without momentum, in a training loop over the reals|contraction of one step towards the current minimiser plus the triangle inequality; second-order linear recursion of the lag and the Schur criterion of C148
C158|lookahead around sgd in a training loop over the reals (C19's step)|exact fast and slow parameters by induction on the step; strict monotonicity of odd powers; eigenbasis of a symmetric matrix
C159|trace, ema, apply_every and MultiSteps run on every outcome's gradient history, over the reals (C21, C22, C33, C15)|the outputs are weighted sums of the gradients; variance of a sum of pairwise independent variables; geometric sums
C160|sgd in a training loop with random gradients, over the reals (C51, C76)|the component after n steps is the noise free one minus a weighted sum of the noises (induction); variance of sums of pairwise independent variables (C159); geometric series
C161|sgd with momentum in a training loop with random gradients, over the reals (C51, C95)|the component is the noise free one plus the impulse response summed over the noises (induction); its energy from an exact quadratic invariant of the second order recurrence (C148)
C162|lookahead around sgd in a training loop with random gradients, over the reals (C19's step)|slow parameters as a weighted sum of all noises, by induction on the period and the step inside it; variance of independent sums (C159); geometric series
C163|sgd and incremental_update in a training loop with random gradients, over the reals (C51, C138)|parameters and averages as weighted sums of the noises (induction); energy of the impulse response of a stable second order recurrence from an exact quadratic invariant
C164|sgd in a training loop with random gradients on a quadratic loss, over the reals (C138)|spectral theorem: an orthonormal eigenbasis splits the error into components, each with C138's law; Parseval adds them up
C165|sgd with Nesterov momentum in a training loop with random gradients, over the reals (C161)|parameters and velocity as weighted sums of the noises (induction); energy of a stable second order recurrence from arbitrary first values by an exact quadratic invariant; the comparison is a factorisation
C166|sgd with momentum in a training loop with random gradients on a quadratic loss, over the reals (C161, C164, C165)|orthonormal eigenbasis and Parseval as in C164, generic in the trajectory; second moment of filtered noise from C161's and C165's impulse responses
C167|MultiSteps around sgd in a training loop with random gradients, over the reals (C117)|C117's simulation by steps on the groups' gradients; the error as a weighted sum of all micro-batch noises (regrouping by induction); variance of independent sums
C168|chain of add_decayed_weights and sgd in a training loop with random gradients, over the reals (C160)|decay as a change of curvature and centre; C160's weighted sums of noise; factorisation and continuity at w = 0 for the gain
C169|sgd with and without momentum in a training loop, over the reals; scale_by_adam's first update (C26)|induction: parameters minus start and velocity stay combinations of the features; orthogonality passes to the limit; Pythagoras
C170|sgd and add_decayed_weights in a training loop, over the reals (C51, C155)|exact one step identity for the weighted square sum; induction with a geometric bound
C171|every entrywise transformation (C73) in a training loop over the reals|strong induction on the step; C73's scalar view of an entry: equal scalar histories give equal updates'''
import json
m={c['property']:c for c in json.load(open('/verif/MANIFEST.json'))['claims']}
props={}
for l in open('/verif/properties.jsonl'):
    p=json.loads(l); props[p['id']]=p
tab='| id | model | proof |\n|---|---|---|\n'+'\n'.join('| '+r.replace('|',' | ')+' |' for r in rows.split('\n'))
t2='\n'.join(f"* **{i}** ({m[i]['status']}) {props[i]['title']}: "+', '.join('`'+t+'`' for t in m[i]['theorems']) for i in props if i in m)
s=open('/verif/tools/DESIGN.in.md').read().replace('@PLAN@',tab).replace('@THEOREMS@',t2)
open('/verif/DESIGN.md','w').write(s)
