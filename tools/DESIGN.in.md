# A formal model of optax in Lean 4

Source: `/repo/optax/_src/*.py` (pinned commit).  Model, specifications and proofs:
`lean/Verif/`.  Properties: `properties.jsonl`.  Status: `MANIFEST.json`.  Mutation log:
`seeded/LOG.jsonl`.  (`DESIGN.md`, `properties.jsonl` and `MANIFEST.json` are generated by `tools/`.)

## 1. Layout

| directory | contents |
|---|---|
| `Verif/Num.lean` | numeric layer: class `JOps`, integer powers; instances `ℝ`, `XReal` (`FP F`, floating point, is in `Model/Float.lean`) |
| `Verif/Tree.lean` | errors, pytrees, tensors, `tree_map`/`tree_multimap` with jax's structure checks, broadcasting |
| `Verif/Model/*.lean` | the model, one file per python file (split where large); every definition cites `/repo` lines |
| `Verif/Spec/*.lean` | small specifications that do not use the model's helpers (histories, geometric sums, sub-histories) |
| `Verif/Lemmas/*.lean` | helper lemmas |
| `Verif/Props/*.lean` | the property theorems (`Cxx_…`), with non-vacuity `example`s next to them |

## 2. Modelling decisions

* **Arithmetic.**  Model functions are polymorphic in the number type `α` with the
  operations of jax.numpy they use (`JOps`).  Structural properties (tree structure, error
  behaviour, which gradients reach which inner optimiser, counters, keys) are proved for
  *every* `α`, so they hold for float32, bfloat16 and anything else.  Algebraic properties
  are proved at `α = ℝ` (exact arithmetic; rounding is treated in C84–C90 and C113), with explicit guards
  wherever a denominator or radicand could be bad (Lean's `x/0 = 0` is never relied upon).  Properties
  about NaN and infinity are proved at `XReal = ℝ ∪ {+∞, −∞, NaN}` with IEEE rules for
  special values.  C84–C90 and C113 are proved at `FP F`, the numbers of a floating point format `F` (every operation rounded, with
  overflow; `Model/Float.lean`), for every `F`.
* **Pytrees** are finite trees of containers (tag = tuple, list, dict with its sorted keys, namedtuple
  name, None) over leaves; **tensors** are a shape and row-major data.  `tree_multimap` checks
  structure like jax and raises; binary operations broadcast like numpy and raise on
  incompatible shapes.
* **Errors** are values (`Except Err`).
* **int32 counters** are `BitVec 32`, with two's complement `+` and signed comparison.
* **`lax.cond`** traces both branches: an error in either branch is an error of the
  `cond`, and the two result trees must have equal structure and shapes.
* **`lax.while_loop`** is recursion with fuel equal to the loop's own iteration bound.
* **PRNG keys** are free terms: `split k n` gives the n distinct terms `child k n i`;
  a draw is an uninterpreted function of key and shape.  Where probability matters (C65–C71, C79)
  a key is a point ω of a probability space and the law of the draw is a hypothesis
  (e.g. "the draw is i.i.d. standard normal"); C79's `idealPrng` shows the hypotheses are satisfiable.
* **Differentiation** (`jax.grad`, `jvp`, `hessian`, `jacfwd`) is read as Mathlib's derivative; in C32 the
  derivative rules jax applies, NaNs included, are modelled with dual numbers (`Dual`) over `XReal`.
* **dtypes** are not tracked in tensors; `Model/Dtype.lean` is a separate dtype-level model of the same lines (C81–C83).  A cast (`accumulator_dtype`) is a parameter
  `cast : α → α`.
* **`jit`, device placement, aliasing, performance** are outside the model.

## 3. Plan per property: what is modelled and how it is proved

@PLAN@

## 4. Theorems per property

@THEOREMS@

## 5. Where the code and its documentation (or the stated property) disagree

Each item is a theorem about the model, with the witness in the theorem.

* `ema(debias=False)` returns the raw gradients, not the moving average: `C22_no_debias_false`.
* `scale_by_yogi` squares the signed square again, so the paper's step bound fails: `C29_false`.
* `scale_by_radam` computes `2 * count` in int32, which wraps at step 2^30: `C30_ro_wraps`.
* `clip_by_global_norm(0)` on zero gradients gives NaN: `C12_zero_max_norm_nan`.
* `apply_every`: an infinite gradient leaks as NaN into every later group: `C33_inf_leaks`.
* `lookahead(reset_state=True)`: the reset multiplies by 0, so NaN survives: `C20_nan_survives`.
* `lookahead` passes the pair of slow and fast parameters to the fast optimiser, so a fast optimiser that uses
  params raises: `C19_params_mismatch`.
* `MultiSteps.update` drops `params`, so an inner optimiser that requires them always raises: `C15_drops_params`.
  Its `gradient_step` counter is incremented without the saturation guard.
* `masked` tests the truth value of `params` (`if params:`): a single array with two or more entries raises
  `ValueError`, and an empty container counts as `None`: `C16_single_array_params`.  A scalar parameter equal to zero is also treated as missing, so
  `masked(add_decayed_weights(w), True)` raises `ValueError` exactly when the parameter is zero: `C16_scalar_params`, `C16_decay_at_zero`.
* `flatten` raises on an empty tree (`C18_empty`) and changes transformations that are not entrywise
  (`C18_not_trust_ratio`).
* `scale_by_sm3` raises on rank-0 leaves: `C35_rank_zero`.
* `piecewise_constant_schedule` switches at the boundary itself (the docstring says after it): `C40_at_boundary`.
* `piecewise_interpolate_schedule` with a boundary at 0 is NaN, hence `linear_onecycle_schedule` with at most three
  steps: `C44_zero_boundary_nan`, `C44_short_transition_nan`; colliding integer boundaries overwrite each other: `C44_collision`.
* `warmup_cosine_decay_schedule` with peak 0 divides by zero: `C46_rejects`.
* `differentially_private_aggregate` on a rank-0 first leaf (or an empty tree) raises `IndexError`, not the documented `ValueError`: `C50_rejects`.
* `power_iteration` with `num_iters <= 0` returns the estimate 0: `C62_no_iterations`.
* `matrix_inverse_pth_root` is only right for p ∈ {1,2,4,8} (`C63_fails`); its stopping rule can give up after
  the first iteration on a well conditioned matrix and return a scaled identity: `C80_gives_up`.
* `moving_avg_baseline` de-biases the *stored* value, so the correction compounds: `C68_fails`;
  `control_variates_jacobians` updates the baseline with the very samples it then corrects, which biases the
  gradient (to exactly 0 in the first call with one sample): `C65_baseline_bias`.
* dtypes: `scale_by_sm3` creates float32 accumulators whatever the parameters' dtype, so in half precision its state and
  updates change dtype at the first step (`C81_sm3_unstable`, `C83_sm3`), and `apply_if_finite` / `maybe_update` of it
  raise (`C83_wrappers_reject`); `clip_by_global_norm`, `flatten` and `inject_hyperparams` promote the narrower leaves of
  a mixed precision tree (`C81_global_norm_mixed`, `C83_mixed`).
* floating point: one gradient entry whose square overflows (about 1.8e19 in float32) freezes its coordinate for ever under
  RMSProp, AdaGrad and Adam (`C86_*`), and `clip_by_global_norm` turns finite gradients of overflowing norm into zeros
  (`C86_clip_by_global_norm`); a linear warm-up need not start at `init_value` (`C88_start_lost`); RMSProp with `eps=0` gives NaN
  on a zero gradient (`C89_rms_without_eps`).
* meta-gradients: `eps_root = 0` (the default of `adam`) makes the derivative of an update at a zero gradient entry NaN, although
  the update is differentiable there (`C92_adam_nan`); `scale_by_rss` with accumulator 0 reports 0 for the derivative `1/√eps`
  (`C92_adagrad_zero`).
* structure and shapes: `flatten` checks only the total number of entries, so gradients of another structure are silently accepted
  (`C93_flatten_hides`); `apply_updates` silently changes the shape of a parameter of shape (1,) under an update of shape (3,)
  (`C94_shape_change`).
* C102: `adam` has no convergence guarantee even on convex problems: for every setting of its hyper-parameters (with b1² < b2) there is a finite convex data set on which
  it drives the parameters away from the minimiser for ever. (A property of the algorithm; the code implements it faithfully.)
* containers and names: `masked` looks at `bool(params)` and raises ValueError for params that are a bare array of several entries (`C104_masked_not`); the noise of
  `add_noise` goes by the position of the leaf, so that renaming a parameter changes the run although the seed is the same (`C105_add_noise_not`).
* `moving_avg_baseline` shrinks the score-function gradient by `1 - w/N` in expectation (C106): with the default settings the first estimate from 10 samples is only 9/10 of the gradient.
* `estimate_control_variate_coefficients` resamples "to avoid biased gradients" with a key split from the caller's key; C107 shows this works for the score-function and pathwise estimators, which draw only at the caller's key. `measure_valued_jacobians` itself splits the caller's key in the same way and draws its Weibull/Maxwell samples at the very key the coefficient's samples are drawn at, so there the independence C107 (and C65) needs is not given.
* `inject_hyperparams(alias)(learning_rate=f)` evaluates the schedule at the incremented count, so it runs one step ahead of `alias(f)` and never uses `f(0)` (C109).
* C110: with default hyper-parameters `adabelief` and `rmsprop(centered=True)` have no bound on the step in units of the learning rate: under constant unit gradients a single step exceeds 4·10⁷·lr and 9000·lr (`C110_adabelief_unbounded`, `C110_centered_unbounded`), whereas adam's is at most 73·lr.
* C112: back-propagating through `clip_by_global_norm` at all-zero updates gives NaN (the unselected branch of `where` divides by the zero norm), although the function is the identity there; back-propagating through `scale_by_trust_ratio` (default `min_norm = 0`, as in `lamb`) gives NaN for the parameters of a leaf with zero update.
* C115: the noise of `add_noise` does not anneal to zero: the int32 step counter saturates at 2^31-1, so the mean square distance never falls below `d (eta/(2^31-1)^gamma)^2`.
* `exponential_decay` spends a finite total learning rate, `lr/(1 - rate^(1/steps))`: with bounded gradients `sgd` never leaves a ball of that radius times the gradient bound (C123_exponential), whatever the loss and however long it trains (until the 32-bit step counter saturates).
* With bfloat16 parameters, the default `b2 = 0.999` of `adam` is rounded to 1 where it multiplies the moment: the second moment never decreases, so the step size only shrinks (C124_bfloat16).
* `scale_by_yogi` initialises its *first* moment with `initial_accumulator_value` (the paper and `scale_by_adam` start at 0): with a zero gradient it still returns a positive update, `9a/(√(b2 a/(1-b2))+eps)` at `b1 = 0.9`, and it is not symmetric under a change of sign (`C128_yogi`).
* `power_iteration` with a positive `error_tolerance` can stop far below the largest eigenvalue when the start vector has a small component along the top eigenvector: `C132_deceived`.  (`matrix_inverse_pth_root` uses it to scale the matrix.)
* `MultiSteps` accumulates in the dtype of the parameters: in bfloat16 the accumulator of a constant gradient stops growing at 256 times it, so groups of 1024 mini-batches give a quarter of the mean (C146).
* `rmsprop(lr, momentum=m)` places momentum after the learning rate (every other alias has it before): after a schedule has reached zero it keeps moving the parameters (C149).
* After one NaN gradient entry `sgd(momentum=0.)` never returns a number for it again whereas `sgd(momentum=None)` does (C101 states their equality on finite values only), `apply_every` returns NaN at every step (also the non-emitting ones) and `adagrad` silently stops updating the entry (C152).

A property that is false of the code keeps its English statement; the MANIFEST marks it `partial`, with the negation and
the strongest true part (`…_partial`) as theorems.

## 6. Trusted base

* Lean 4.33.0's kernel.
* The axioms `propext`, `Classical.choice`, `Quot.sound`; every theorem depends on at most these three (audited by `vcheck`).
  No axioms are added, no compiled evaluation is used.
* My reading of the python source and of the jax/numpy functions it calls: `tree_map`, `tree_multimap`,
  `tree_leaves`, `lax.cond`, `lax.while_loop`, broadcasting and reductions, `jnp.where/sign/maximum/minimum/isfinite`,
  `random.split`, `jax.grad` and relatives.  This correspondence is not machine checked (the code is not run here).

### Modelled

All public functions of `numerics`, `base`, `combine`, `update`, `constrain`, `clipping`, `transform`, `wrappers`, `lookahead`,
`schedule`, `privacy`, `alias`, `loss`, `linear_algebra`, `second_order`, `control_variates`,
`stochastic_gradient_estimators`, and of `utils` the functions `set_diags`, `multi_normal`, `tile_second_to_last_dim`.

### Not modelled

* Of floating point: signed zeros, fused multiply-add, excess precision and re-association by XLA (`FP F` rounds each operation
  in the order of the source).  Elementary functions are only assumed to satisfy the sign, range and monotonicity facts listed
  in `Format`.  Flushing subnormals to zero is covered (`Format` asks only for monotone idempotent rounding).  Python float
  hyper-parameters are read as numbers of the format: `1 - decay` is computed in double precision in the code and in the format
  in the model; C84–C90 use only that these are positive and finite; C113 is stated for `sgd`, which has no such constant, and C124, C131 for a version of `scale_by_adam` whose python-float hyper-parameters are rounded where they meet an array (`Model/PyFloat.lean`).  The theorems at ℝ say nothing about rounding.
* Which exception comes first when several are due: `tree_map` compares the whole structure before it applies the function, the
  model checks structure and leaves in one pass.  Claims naming an exception have one reason to raise, or quantify over `∃ e`.
* `jit`/`pmap`, `chex` assertions other than those raising on values the model can express, python-level
  mutation, `utils.cast_tree` beyond a `cast` parameter, reverse mode differentiation in general (C92 uses forward mode,
  with jax's jvp rules as written in `Model/Dual.lean`; for `safe_norm`, `clip_by_global_norm` and the trust ratio the transposed program is
  written out by hand, `Model/Dual.lean` and `Model/Reverse.lean`).
* The quality of the pseudo random generator: keys are free terms or points of a probability space, and C79, C91 state what they assume of the
  draws (`LawOf`, `IdealNormal`).
* Of `examples/`: tensorflow datasets, haiku networks and their gradients (parameters of the model in `Model/Examples.lean`).
