{"id": "C01", "title": "Step counters saturate, never wrap", "statement": "Every optimiser state counter that is advanced with safe_int32_increment (ema, scale_by_adam, scale_by_belief, scale_by_yogi, scale_by_radam, scale_by_schedule, add_noise, inject_hyperparams) holds min(n, 2^31-1) after n successful updates starting from init; it is never negative and never decreases.", "quantifier": "all numbers of updates n (including n >= 2^31) and all gradient histories", "why_tests_cant": "Reaching 2^31 updates is infeasible in a test; a test can only poke one pre-cooked counter value.", "anchors": ["optax/_src/numerics.py:safe_int32_increment", "optax/_src/transform.py:scale_by_adam", "optax/_src/transform.py:ema", "optax/_src/transform.py:scale_by_schedule", "optax/_src/transform.py:add_noise", "optax/_src/schedule.py:inject_hyperparams"]}
{"id": "C02", "title": "chain is sequential composition with private states", "statement": "Running chain(t1,...,tn) on any history of (gradients, params) gives, at every step, exactly the output of t_n fed with the output of t_(n-1) ... fed with the gradients, where each t_i keeps its own state evolving as if it were run alone on its input stream, and every t_i receives the same params; if some t_i raises, the chain raises.", "quantifier": "every list of transformations, every state, every finite history of (gradients, params) calls", "why_tests_cant": "Transformations are arbitrary user-supplied function pairs; tests fix three of them and one gradient.", "anchors": ["optax/_src/combine.py:chain"]}
{"id": "C03", "title": "chain is associative and identity is neutral", "statement": "chain(chain(ts), chain(us)) and chain(ts+us) produce the same outputs on every history; chain(t) behaves as t; inserting identity() anywhere in a chain changes no output.", "quantifier": "all lists of transformations ts, us, all histories", "why_tests_cant": "Equality of behaviours over all histories and all inner transformations.", "anchors": ["optax/_src/combine.py:chain", "optax/_src/base.py:identity"]}
{"id": "C04", "title": "chain rejects a state of the wrong arity", "statement": "chain(...).update raises ValueError, and calls none of the inner updates, whenever the state list it is given does not have exactly one entry per transformation; a state made by init always has the right arity and keeps it after every successful update. chain() with no transformation raises at construction.", "quantifier": "all lists of transformations, all state lists of any length, all histories", "why_tests_cant": "Quantifies over all lengths and over every reachable state.", "anchors": ["optax/_src/combine.py:chain"]}
{"id": "C05", "title": "Updates keep the tree structure and shapes of the gradients", "statement": "For identity, trace, ema, scale_by_rss, scale_by_rms, scale_by_stddev, scale_by_adam, scale_by_belief, scale_by_yogi, scale_by_radam, scale, scale_by_schedule, add_decayed_weights, scale_by_trust_ratio, apply_every, centralize, clip, clip_by_global_norm, keep_params_nonnegative, zero_nans, add_noise and the aliases: initialised with params of some structure and shapes, and called with gradients (and params) of the same structure and shapes, update succeeds and returns a tree of exactly that structure and those shapes, at every step of every history.", "quantifier": "every pytree structure, every leaf shape, every value (including NaN/Inf), every history length, any arithmetic", "why_tests_cant": "There are infinitely many pytree structures and shapes; tests use two or three tuples of vectors.", "anchors": ["optax/_src/transform.py:trace", "optax/_src/transform.py:ema", "optax/_src/transform.py:scale_by_adam", "optax/_src/transform.py:apply_every", "optax/_src/clipping.py:clip", "optax/_src/constrain.py:zero_nans"]}
{"id": "C06", "title": "apply_updates adds leaf by leaf and preserves structure and shape", "statement": "apply_updates(params, updates) returns a tree with the structure and shapes of params whose every entry is the sum of the corresponding entries, for updates of the same structure/shapes; updates whose tree structure differs from params are rejected with an error rather than silently applied. Applying updates one after another equals applying their entrywise sum (exact arithmetic).", "quantifier": "all pytrees and shapes, all values, all sequences of updates", "why_tests_cant": "Unbounded family of trees; histories of any length.", "anchors": ["optax/_src/update.py:apply_updates"]}
{"id": "C07", "title": "incremental_update tracks an exponential moving average", "statement": "Iterating old := incremental_update(new_t, old, s) for t=1..n from old_0 yields exactly (1-s)^n old_0 + sum_t s(1-s)^(n-t) new_t at every entry; with 0<=s<=1 each entry of the average stays between the smallest and the largest of the values seen; s=1 copies new, s=0 keeps old, and a constant input is a fixed point.", "quantifier": "all step sizes, all histories, all pytrees", "why_tests_cant": "Closed form over histories of unbounded length, all real step sizes.", "anchors": ["optax/_src/update.py:incremental_update"]}
{"id": "C08", "title": "periodic_update copies exactly on multiples of the period", "statement": "periodic_update returns the new tensors exactly when steps is a multiple of update_period and the old ones otherwise; hence in a loop steps=1,2,... the slow copy after n steps equals the new tensors of the last multiple of update_period not exceeding n (or the initial copy when none), and is constant in between. Trees of different structure or shapes are rejected with TypeError at every step.", "quantifier": "all step counts, all positive periods, all histories", "why_tests_cant": "Needs every step count and period.", "anchors": ["optax/_src/update.py:periodic_update"]}
{"id": "C09", "title": "keep_params_nonnegative keeps every parameter >= 0", "statement": "For any params and any updates, after apply_updates(params, keep_params_nonnegative().update(updates)) every entry is >= 0 - even when params was negative, in which case a non-recovering update moves it exactly to 0; entries whose update would not make the parameter negative are passed through unchanged. By induction, parameters stay non-negative along any training run that ends its chain with this transformation. Missing params raises ValueError.", "quantifier": "all params, updates, run lengths; also under any rounding arithmetic in which p+(-p)=0 and comparisons are total", "why_tests_cant": "Invariant over all reals and all run lengths; boundary p+u=0.", "anchors": ["optax/_src/constrain.py:keep_params_nonnegative"]}
{"id": "C10", "title": "zero_nans removes every NaN, reports exactly where, and touches nothing else", "statement": "After zero_nans().update the result contains no NaN, every entry that was NaN is 0 and every other entry (including infinities) is unchanged; the state has one boolean per leaf, True iff that leaf contained a NaN at the last call, irrespective of earlier calls.", "quantifier": "all trees, all IEEE values, all histories", "why_tests_cant": "Must hold for each position of every NaN in every shape.", "anchors": ["optax/_src/constrain.py:zero_nans", "optax/_src/constrain.py:ZeroNansState"]}
{"id": "C11", "title": "clip bounds every entry and is the identity inside the bound", "statement": "clip(d) with d >= 0 yields entries in [-d, d], leaves entries already in range untouched, keeps signs, is idempotent and monotone, and is the closest point of [-d,d] to each entry.", "quantifier": "all d >= 0, all trees and real values", "why_tests_cant": "Infinite value domain; boundary cases |g| = d.", "anchors": ["optax/_src/clipping.py:clip"]}
{"id": "C12", "title": "clip_by_global_norm bounds the global norm and preserves direction", "statement": "With max_norm > 0 the output global norm is exactly min(global_norm(updates), max_norm); gradients of norm < max_norm are returned unchanged; otherwise all entries are multiplied by one common factor max_norm/norm in (0,1], so direction (all ratios and signs) is preserved. The operation is idempotent. No division by zero happens for max_norm > 0.", "quantifier": "all pytrees, all real gradients, all max_norm > 0", "why_tests_cant": "Norm inequality over all real vectors of all dimensions.", "anchors": ["optax/_src/clipping.py:clip_by_global_norm", "optax/_src/linear_algebra.py:global_norm"]}
{"id": "C13", "title": "adaptive_grad_clip bounds each unit's gradient norm by clipping*max(param norm, eps)", "statement": "For every parameter of rank 0-4 and every output unit (whole array for scalars/vectors, column for rank 2/3, output channel for rank-4 kernels), the returned gradient's unit norm is at most clipping*max(unit param norm, eps) (given that bound is positive), units whose gradient norm is below the bound are unchanged, other units are rescaled by a factor in [0,1]; parameters of rank > 4 (that do not squeeze to vectors) and missing params are rejected with ValueError.", "quantifier": "all shapes, all real params and gradients, all clipping > 0, eps > 0", "why_tests_cant": "All shapes and values; per-axis reduction logic is shape dependent.", "anchors": ["optax/_src/clipping.py:adaptive_grad_clip", "optax/_src/clipping.py:unitwise_norm", "optax/_src/clipping.py:unitwise_clip"]}
{"id": "C14", "title": "apply_if_finite never lets a rejected gradient reach the inner optimiser", "statement": "For any inner transformation and any history: a gradient containing NaN/Inf is rejected - zero updates are returned and the inner state is left bit-identical - unless it is at least the (max_consecutive_errors+1)-th consecutive non-finite one; finite gradients are always forwarded. So the inner optimiser sees exactly the sub-history of accepted gradients. notfinite_count is the length of the current run of non-finite gradients, total_notfinite their total number, last_finite the status of the last gradient.", "quantifier": "all inner transformations, all histories of finite/non-finite gradients, all max_consecutive_errors", "why_tests_cant": "All interleavings of finite and non-finite steps; arbitrary inner optimiser.", "anchors": ["optax/_src/wrappers.py:apply_if_finite", "optax/_src/wrappers.py:ApplyIfFiniteState"]}
{"id": "C15", "title": "MultiSteps equals running the inner optimiser on accumulated gradients", "statement": "For any inner optimiser and any schedule k(.)>=1: the calls are partitioned into consecutive groups, the j-th of size k(j); inside a group updates are all zero and the inner state is untouched; at the last call of group j the inner optimiser is called exactly once with the mean (or the sum when use_grad_mean=False) of that group's gradients and its updates are returned; the accumulator restarts from zero. gradient_step is the number of completed groups, mini_step the position in the current one, and has_updated is true exactly after the last call of a group.", "quantifier": "all inner optimisers, all positive k-schedules, all histories (fewer than 2^31 gradient steps)", "why_tests_cant": "Arbitrary schedules and histories; refinement against the abstract grouped run.", "anchors": ["optax/_src/wrappers.py:MultiSteps", "optax/_src/wrappers.py:MultiStepsState"]}
{"id": "C16", "title": "masked transforms exactly the selected leaves and passes the rest through", "statement": "For any inner transformation and any boolean mask tree that is a prefix of the parameters: the inner transformation is called once with the list of selected subtrees (and the matching params), its outputs are put back in the selected positions, and every unselected subtree of the updates is returned unchanged; structure is preserved; the inner state is built only from selected subtrees, so unselected gradients can never influence the selected updates or the state. A mask that is not a prefix of the tree raises ValueError.", "quantifier": "all inner transformations, all mask/param trees, all histories", "why_tests_cant": "All tree shapes and prefix masks; non-interference is a statement about pairs of runs.", "anchors": ["optax/_src/wrappers.py:masked", "optax/_src/wrappers.py:MaskedState"]}
{"id": "C17", "title": "maybe_update calls the inner transformation exactly at the selected steps", "statement": "On call number n (from 0) the inner update is applied iff should_update_fn(n); otherwise updates and inner state pass through unchanged; the step counter counts all calls. Hence the inner transformation sees exactly the sub-history of selected calls.", "quantifier": "all inner transformations, predicates and histories (fewer than 2^31 calls)", "why_tests_cant": "Arbitrary predicates and unbounded histories.", "anchors": ["optax/_src/wrappers.py:maybe_update", "optax/_src/wrappers.py:MaybeUpdateState"]}
{"id": "C18", "title": "flatten is a faithful re-packing", "statement": "flatten(inner) calls inner with the single vector that concatenates all leaves in tree order and splits the result back to the original structure and shapes; concatenate-then-split is the identity for every non-empty tree; so for inner transformations that act entrywise - and for clip_by_global_norm - flatten(inner) returns the same updates as inner.", "quantifier": "all non-empty pytrees, shapes, inner transformations, histories", "why_tests_cant": "Round-trip over every tree structure and shape including empty and scalar leaves.", "anchors": ["optax/_src/wrappers.py:flatten"]}
{"id": "C19", "title": "lookahead implements the two nested loops of the paper", "statement": "With any fast optimiser, applying lookahead's updates to (fast, slow) yields exactly the nested-loop algorithm: fast parameters follow the fast optimiser; slow parameters change only at every sync_period-th step, where slow := slow + slow_step_size*(last_fast - slow) and fast := slow. So after every multiple of sync_period steps fast = slow, steps_since_sync is the step number modulo sync_period, and between synchronisations slow is constant. sync_period < 1 is rejected.", "quantifier": "all fast optimisers, gradients, sync periods >= 1, slow step sizes, history lengths", "why_tests_cant": "Refinement against the nested loop for all histories and all optimisers.", "anchors": ["optax/_src/lookahead.py:lookahead", "optax/_src/lookahead.py:_lookahead_update", "optax/_src/lookahead.py:LookaheadState", "optax/_src/lookahead.py:LookaheadParams"]}
{"id": "C20", "title": "lookahead resets the fast state exactly at synchronisation when asked", "statement": "With reset_state=True the fast optimiser state after each synchronisation step equals a freshly initialised state, and after any other step the state returned by the fast optimiser; with reset_state=False it is never touched.", "quantifier": "all fast optimisers with finite state, all histories and sync periods", "why_tests_cant": "Every reachable state.", "anchors": ["optax/_src/lookahead.py:lookahead"]}
{"id": "C21", "title": "trace is the geometric sum of past gradients", "statement": "After gradients g_1..g_n, trace(decay) returns sum_i decay^(n-i) g_i at every entry, and with nesterov=True g_n + decay * that sum; in particular it is linear in the gradient history, decay=0 is the identity, and for |decay|<1 and |g|<=G the output never exceeds G/(1-decay).", "quantifier": "all decays, histories, trees", "why_tests_cant": "Closed form for unbounded histories.", "anchors": ["optax/_src/transform.py:trace", "optax/_src/transform.py:TraceState"]}
{"id": "C22", "title": "ema is a (de-biased) exponential moving average", "statement": "After gradients g_1..g_n the state of ema(decay) holds (1-decay) sum_i decay^(n-i) g_i; with debias=True and 0<=decay<1 the returned update is this divided by 1-decay^n, a convex combination of g_1..g_n (weights non-negative, summing to 1): constant gradients are returned unchanged and the output always lies between the extremes seen. With debias=False the returned update is the (biased) moving average itself.", "quantifier": "all decays in [0,1), histories, trees", "why_tests_cant": "Closed form and convexity over unbounded histories.", "anchors": ["optax/_src/transform.py:ema", "optax/_src/transform.py:_update_moment", "optax/_src/transform.py:_bias_correction"]}
{"id": "C23", "title": "Adagrad scaling: accumulators only grow and updates are bounded by one", "statement": "After g_1..g_n the scale_by_rss accumulator equals initial_accumulator_value + sum g_i^2, so it never decreases; each returned entry is g_n/sqrt(acc+eps) (0 if the accumulator is 0), has the sign of g_n and absolute value <= 1, and for a fixed gradient the step never grows over time.", "quantifier": "all histories, initial values >= 0, eps >= 0", "why_tests_cant": "Monotonicity and bounds along every history.", "anchors": ["optax/_src/transform.py:scale_by_rss", "optax/_src/transform.py:ScaleByRssState"]}
{"id": "C24", "title": "RMSProp scaling is bounded", "statement": "With 0<=decay<1, eps>=0 and initial_scale>=0 the scale_by_rms accumulator after g_1..g_n is decay^n*initial_scale + (1-decay) sum decay^(n-i) g_i^2, hence non-negative, and each returned entry satisfies |u| <= 1/sqrt(1-decay); with eps>0 the argument of rsqrt is always positive.", "quantifier": "all histories and parameters in range", "why_tests_cant": "Bound holds over all gradient histories.", "anchors": ["optax/_src/transform.py:scale_by_rms", "optax/_src/transform.py:ScaleByRmsState"]}
{"id": "C25", "title": "Centered RMSProp never takes the root of a negative number", "statement": "With 0<=decay<=1, initial_scale>=0 the centred second moment n - m^2 tracked by scale_by_stddev is >= 0 after every history, so with eps>0 the argument of rsqrt is >= eps > 0 and the update is well defined.", "quantifier": "all gradient histories, decays and initial scales in range", "why_tests_cant": "Jensen-type inequality over all histories.", "anchors": ["optax/_src/transform.py:scale_by_stddev", "optax/_src/transform.py:ScaleByRStdDevState"]}
{"id": "C26", "title": "Adam moments are de-biased weighted averages of the past gradients", "statement": "After g_1..g_n, scale_by_adam's first (second) moment estimate, after bias correction, is a convex combination of the g_i (g_i^2) with weights proportional to b^(n-i) that sum to exactly 1; the returned entry is mhat/(sqrt(vhat+eps_root)+eps). With constant gradient g the update is g/(sqrt(g^2+eps_root)+eps) at every step; entries of mhat never exceed the largest |g_i|.", "quantifier": "all b1,b2 in [0,1), eps, eps_root >= 0, all histories; beyond 2^31-1 calls the saturated counter is used in the bias correction and the formula is stated with it", "why_tests_cant": "Weights over unbounded histories; tests compare a handful of steps with another implementation.", "anchors": ["optax/_src/transform.py:scale_by_adam", "optax/_src/transform.py:_update_moment", "optax/_src/transform.py:_bias_correction", "optax/_src/transform.py:ScaleByAdamState"]}
{"id": "C27", "title": "Adam's step is bounded independently of gradient scale", "statement": "For 0<=b1, b1^2<b2<1 and eps,eps_root>=0 there is an explicit constant C(b1,b2,n) such that every entry of the scale_by_adam update has absolute value at most C whatever the gradients (Cauchy-Schwarz bound); the first update has absolute value <= 1 and the sign of g_1. With eps=eps_root=0, rescaling all gradients by c>0 changes nothing.", "quantifier": "all gradient histories", "why_tests_cant": "Universal bound over all real histories.", "anchors": ["optax/_src/transform.py:scale_by_adam"]}
{"id": "C28", "title": "AdaBelief tracks squared prediction errors", "statement": "The second moment of scale_by_belief after g_1..g_n is (1-b2) sum b2^(n-i) (g_i - m_(i-1))^2 where m is the first-moment EMA before seeing g_i; it is non-negative, so the root argument is >= eps_root; when gradients are always 0 it stays 0.", "quantifier": "all histories, b1,b2 in [0,1)", "why_tests_cant": "Closed form over unbounded histories.", "anchors": ["optax/_src/transform.py:scale_by_belief", "optax/_src/transform.py:ScaleByBeliefState"]}
{"id": "C29", "title": "Yogi's second moment moves towards g^2 by at most (1-b2) g^2 per step", "statement": "In scale_by_yogi the change of the second moment in one step has absolute value at most (1-b2) g^2 and the direction of sign(g^2 - v) (additive, sign-controlled update of the Yogi paper).", "quantifier": "all gradients and accumulator values", "why_tests_cant": "Universal inequality on reals; tests only check convergence on one quadratic.", "anchors": ["optax/_src/transform.py:scale_by_yogi"]}
{"id": "C30", "title": "RAdam's rectification is well defined and never amplifies", "statement": "For 0<b2<1 the approximated SMA length ro_t is < ro_inf at every step t>=1; whenever the rectified branch is taken with threshold >= 4 the radicand is non-negative and the rectification factor r is in [0,1]; otherwise the bias-corrected momentum is returned; if ro_inf < threshold the adaptive branch is never taken.", "quantifier": "all b2 in (0,1), all step counts, thresholds >= 4", "why_tests_cant": "For every step number t and every b2.", "anchors": ["optax/_src/transform.py:scale_by_radam"]}
{"id": "C31", "title": "Trust ratio rescales each layer's update to the norm of its parameters", "statement": "With min_norm=0, for each leaf: if both norms are non-zero the returned leaf has exactly the parameters' norm and the direction of the update; if either norm is zero the update is returned unchanged. With min_norm>0 the ratio is max(|p|,min_norm)/max(|u|,min_norm). There is never a division by zero. Missing params raises ValueError.", "quantifier": "all shapes and real values, all min_norm >= 0", "why_tests_cant": "All vectors in all dimensions incl. zero.", "anchors": ["optax/_src/transform.py:scale_by_trust_ratio", "optax/_src/numerics.py:safe_norm"]}
{"id": "C32", "title": "safe_norm computes max(norm, min_norm)", "statement": "safe_norm(x, m) = max(|x|_2, m) for every array; in particular it is >= m. Its forward-mode derivative is finite everywhere, in particular 0 (not NaN) at x = 0.", "quantifier": "all arrays, all min_norm", "why_tests_cant": "All arrays, both branches; derivative claim at a non-smooth point.", "anchors": ["optax/_src/numerics.py:safe_norm"]}
{"id": "C33", "title": "apply_every emits the sum of the last k gradients every k-th step and zero otherwise", "statement": "With k>=1, on call number n (from 0) apply_every(k) returns the sum of the last k gradients if (n+1) is a multiple of k and zero otherwise, hence after any whole number of periods the total emitted equals the total of the gradients; k=1 is the identity.", "quantifier": "all k >= 1, all histories of finite gradients", "why_tests_cant": "All periods and histories.", "anchors": ["optax/_src/transform.py:apply_every", "optax/_src/transform.py:ApplyEvery"]}
{"id": "C34", "title": "centralize removes the mean over all but the first axis and is idempotent", "statement": "For every leaf of rank >= 2 each slice along axis 0 of the output has mean zero and differs from the input by a constant per slice; leaves of rank 0/1 are unchanged; applying it twice equals applying it once; it never increases the norm.", "quantifier": "all shapes (non-empty), all reals", "why_tests_cant": "All shapes; reduction axes logic.", "anchors": ["optax/_src/transform.py:centralize", "optax/_src/transform.py:_subtract_mean"]}
{"id": "C35", "title": "SM3 accumulators dominate Adagrad's and never decrease", "statement": "With b2=1 for every leaf of rank >= 1 and every entry, the SM3 accumulator used for scaling after g_1..g_n is >= sum_i g_i^2 of that entry (so effective learning rates never exceed Adagrad's); per-axis accumulators never decrease; for rank-1 leaves it equals Adagrad's accumulator. Works for tensors of arbitrary rank.", "quantifier": "all shapes, histories", "why_tests_cant": "Invariant over all histories and cover structures.", "anchors": ["optax/_src/transform.py:scale_by_sm3", "optax/_src/transform.py:ScaleBySM3State"]}
{"id": "C36", "title": "add_noise never reuses a random key and anneals the noise", "statement": "Across all steps and leaves of a run, every normal draw uses a key different from every other draw's key and from every key held in the state; two runs with the same seed and shapes add identical noise; the noise multiplier at the n-th update is eta/n^gamma; noise is independent of gradient values.", "quantifier": "all tree structures, all run lengths, all seeds (keys modelled as free split terms)", "why_tests_cant": "Key freshness over all steps and leaves.", "anchors": ["optax/_src/transform.py:add_noise", "optax/_src/transform.py:AddNoiseState"]}
{"id": "C37", "title": "Transformations that need params fail loudly without them", "statement": "add_decayed_weights, scale_by_trust_ratio, keep_params_nonnegative and adaptive_grad_clip (hence adamw, lamb, fromage built from them) raise ValueError when update is called without params, for every gradient and state; every other transformation listed in C05 ignores params: its result does not depend on whether or which params are passed.", "quantifier": "all gradients, states, params", "why_tests_cant": "Independence from params is a statement about all pairs of calls.", "anchors": ["optax/_src/transform.py:add_decayed_weights", "optax/_src/transform.py:scale_by_trust_ratio", "optax/_src/constrain.py:keep_params_nonnegative", "optax/_src/clipping.py:adaptive_grad_clip"]}
{"id": "C38", "title": "scale_by_schedule evaluates the schedule at 0,1,2,...", "statement": "The n-th call (from 0) multiplies the gradients by step_size_fn(n); after 2^31-1 calls the argument stays at 2^31-1. With a learning-rate schedule, the aliases multiply by minus the schedule value at n.", "quantifier": "all schedules, histories", "why_tests_cant": "All call numbers including saturation.", "anchors": ["optax/_src/transform.py:scale_by_schedule", "optax/_src/alias.py:_scale_by_learning_rate"]}
{"id": "C39", "title": "Polynomial/linear schedules: boundary values, range and monotonicity", "statement": "polynomial_schedule(init,end,power,steps,begin) returns init for count <= begin, end for count >= begin+steps (power>0), stays between init and end, is monotone in count; linear_schedule is the straight line; steps <= 0 gives the constant init; negative begin acts as 0.", "quantifier": "all parameters, all integer counts", "why_tests_cant": "All counts and parameters.", "anchors": ["optax/_src/schedule.py:polynomial_schedule", "optax/_src/schedule.py:linear_schedule", "optax/_src/schedule.py:constant_schedule"]}
{"id": "C40", "title": "piecewise_constant_schedule multiplies the factors of the boundaries passed", "statement": "For every count s the schedule returns init_value times the product of the factors f_i whose boundary b_i satisfies b_i <= s, whatever the order in which boundaries were given; negative factors are rejected at construction. (The docstring says b_i < s.)", "quantifier": "all boundary dictionaries, all counts", "why_tests_cant": "All dictionaries and counts, in particular counts equal to a boundary.", "anchors": ["optax/_src/schedule.py:piecewise_constant_schedule"]}
{"id": "C41", "title": "exponential_decay: closed form, start plateau, staircase and end bound", "statement": "For transition_steps>0, decay_rate>0: value is init for count <= begin and init*rate^((count-begin)/steps) after; with staircase the exponent is the integer quotient; at whole multiples of transition_steps both agree; the value is monotone in count; with end_value the result is never below (rate<1) or above (rate>=1) end_value; non-positive steps or zero rate give the constant init.", "quantifier": "all counts and parameters in range", "why_tests_cant": "All counts and real parameters.", "anchors": ["optax/_src/schedule.py:exponential_decay"]}
{"id": "C42", "title": "cosine_decay_schedule: endpoints, range, monotone", "statement": "cosine_decay_schedule(init, decay_steps, alpha) equals init at 0, init*alpha for every count >= decay_steps, stays between init*alpha and init (alpha<=1, init>=0) and never increases with the count in [0, decay_steps]; non-positive decay_steps raise ValueError.", "quantifier": "all counts >= 0 and parameters", "why_tests_cant": "All counts; trigonometric inequality.", "anchors": ["optax/_src/schedule.py:cosine_decay_schedule"]}
{"id": "C43", "title": "piecewise_interpolate_schedule hits its knots and stays between them", "statement": "With strictly positive distinct boundaries: at count 0 it returns init_value, at boundary b_i init_value times the product of the factors up to and including f_i, between two consecutive knots a value between the knot values (linear: the chord), after the last boundary the last knot value; independent of dictionary order; invalid type or negative factor raise ValueError.", "quantifier": "all boundary dictionaries with positive keys, all counts >= 0", "why_tests_cant": "All dictionaries and counts.", "anchors": ["optax/_src/schedule.py:piecewise_interpolate_schedule", "optax/_src/schedule.py:_linear_interpolate", "optax/_src/schedule.py:_cosine_interpolate"]}
{"id": "C44", "title": "One-cycle schedules reach peak and final values, and never exceed the peak", "statement": "linear_onecycle_schedule and cosine_onecycle_schedule start at peak/div_factor, attain peak_value at step int(pct_start*steps), end at peak/(div*final_div) for all later counts, and never exceed peak_value (div_factor>=1, final_div_factor>=1), for every positive transition_steps.", "quantifier": "all transition_steps >= 1, all fractions 0<pct_start<pct_final<1, all counts", "why_tests_cant": "All step counts, in particular small transition_steps where the integer boundaries collide.", "anchors": ["optax/_src/schedule.py:linear_onecycle_schedule", "optax/_src/schedule.py:cosine_onecycle_schedule"]}
{"id": "C45", "title": "join_schedules switches at the boundaries and restarts counts", "statement": "With non-decreasing boundaries b_1<=..<=b_m, join_schedules returns schedules[j](step - b_j) where j is the number of boundaries <= step (b_0 = 0).", "quantifier": "all schedules, boundary lists, steps", "why_tests_cant": "Arbitrary schedule functions and numbers of boundaries.", "anchors": ["optax/_src/schedule.py:join_schedules"]}
{"id": "C46", "title": "Warm-up schedules are continuous at the junction and bounded by the peak", "statement": "warmup_cosine_decay_schedule and warmup_exponential_decay_schedule start at init_value, reach exactly peak_value at warmup_steps, then follow the decay schedule restarted at 0; warm-up values lie between init and peak; cosine warm-up ends at end_value for all counts >= decay_steps.", "quantifier": "all parameters in range and counts", "why_tests_cant": "All counts.", "anchors": ["optax/_src/schedule.py:warmup_cosine_decay_schedule", "optax/_src/schedule.py:warmup_exponential_decay_schedule"]}
{"id": "C47", "title": "sgdr_schedule concatenates the cycles", "statement": "In the j-th cycle (steps from the sum of the previous decay_steps up to the next sum) sgdr_schedule returns the j-th warm-up cosine schedule evaluated at the step counted from the start of that cycle.", "quantifier": "all lists of cycles, all steps", "why_tests_cant": "Any number of cycles.", "anchors": ["optax/_src/schedule.py:sgdr_schedule"]}
{"id": "C48", "title": "inject_hyperparams uses current hyperparameters at every step", "statement": "On the n-th update (from 1) the inner transformation is built with each scheduled hyperparameter at schedule(n) and each numeric one at the value currently stored in the state; overriding a numeric hyperparameter in the state takes effect from the next update on and persists; overriding a scheduled one has no effect; static/boolean arguments never enter the state; the stored values equal those just used; with constant hyperparameters it behaves exactly as the plain inner transformation.", "quantifier": "all inner factories, hyperparameter sets, histories with arbitrary interleaved overrides", "why_tests_cant": "Arbitrary interleavings of overrides and updates.", "anchors": ["optax/_src/schedule.py:inject_hyperparams", "optax/_src/schedule.py:InjectHyperparamsState"]}
{"id": "C49", "title": "differentially_private_aggregate has bounded sensitivity", "statement": "Before noise, each example contributes a vector of global L2 norm <= l2_norm_clip (examples within the bound contribute unchanged); so replacing one example changes the summed gradient by at most 2*l2_norm_clip, and adding/removing one by at most l2_norm_clip, in global L2 norm; the added noise has standard deviation l2_norm_clip*noise_multiplier before division by the batch size; with zero noise and no clipping the result is the mean gradient.", "quantifier": "all batches, trees, pairs of neighbouring batches, clip norms > 0", "why_tests_cant": "Statement about all pairs of neighbouring datasets.", "anchors": ["optax/_src/privacy.py:differentially_private_aggregate"]}
{"id": "C50", "title": "differentially_private_aggregate draws fresh noise per leaf and step, independent of data, and rejects unbatched input", "statement": "All noise keys used over a run are pairwise distinct and distinct from the state's keys; the keys (hence noise) do not depend on gradient values; an input with a rank-0 leaf or with different leading dimensions is rejected with an exception (ValueError; IndexError when the very first leaf has rank 0 or there is no leaf).", "quantifier": "all runs, trees", "why_tests_cant": "Key freshness over all steps and leaves.", "anchors": ["optax/_src/privacy.py:differentially_private_aggregate", "optax/_src/privacy.py:DifferentiallyPrivateAggregateState"]}
{"id": "C51", "title": "sgd follows the textbook (Nesterov) momentum recurrences", "statement": "The parameters after n steps of apply_updates with sgd(lr, momentum, nesterov) equal those of the textbook recurrence v:=mu v+g; p:=p-lr v (or p:=p-lr(g+mu v)); momentum=None is plain gradient descent; with a schedule lr is schedule(n) at step n.", "quantifier": "all learning rates/schedules, histories, trees", "why_tests_cant": "All histories.", "anchors": ["optax/_src/alias.py:sgd", "optax/_src/alias.py:_scale_by_learning_rate"]}
{"id": "C52", "title": "adamw's weight decay is decoupled", "statement": "The adamw update equals the adam update plus -lr*weight_decay*params at every step of every history: the Adam moments never see the decay term; weight_decay=0 gives exactly adam.", "quantifier": "all histories of (gradients, params), all hyperparameters", "why_tests_cant": "Equality of two stateful optimisers over all histories.", "anchors": ["optax/_src/alias.py:adamw", "optax/_src/alias.py:adam", "optax/_src/transform.py:add_decayed_weights"]}
{"id": "C53", "title": "lamb moves each layer by exactly lr times its parameter norm", "statement": "For each leaf with non-zero parameters and non-zero pre-scaled update, the lamb update has norm |lr|*norm(param).", "quantifier": "all histories, shapes", "why_tests_cant": "All real vectors.", "anchors": ["optax/_src/alias.py:lamb"]}
{"id": "C54", "title": "fromage keeps parameter norms from exploding", "statement": "With min_norm = 0 and non-zero params/gradient per leaf, one fromage step gives new = (p - lr*|p| g/|g|)/sqrt(1+lr^2): its norm is at most |p|(1+lr)/sqrt(1+lr^2) <= sqrt(2)|p|, and equals |p| when the gradient is orthogonal to the parameters. With zero gradient the step shrinks p by 1/sqrt(1+lr^2).", "quantifier": "all leaves, gradients, learning rates >= 0", "why_tests_cant": "Geometric inequality for all vectors.", "anchors": ["optax/_src/alias.py:fromage"]}
{"id": "C55", "title": "Aliases compose their documented parts in the documented order", "statement": "adam, adabelief, adagrad, radam, yogi, sm3, rmsprop (centred or not, with or without momentum), noisy_sgd, lamb, dpsgd produce, on every history, the output of their scaling transformation followed by multiplication by -learning_rate (with momentum applied after the learning rate in rmsprop and before it in sgd/dpsgd; noise added after the learning rate in noisy_sgd).", "quantifier": "all hyperparameters, histories", "why_tests_cant": "All histories, both scalar and schedule learning rates.", "anchors": ["optax/_src/alias.py:adam", "optax/_src/alias.py:adabelief", "optax/_src/alias.py:adagrad", "optax/_src/alias.py:radam", "optax/_src/alias.py:rmsprop", "optax/_src/alias.py:sm3", "optax/_src/alias.py:yogi", "optax/_src/alias.py:noisy_sgd", "optax/_src/alias.py:dpsgd"]}
{"id": "C56", "title": "huber_loss is the piecewise function and its gradient is the clipped L2 gradient", "statement": "huber_loss equals 0.5 e^2 for |e|<=delta and 0.5 delta^2 + delta(|e|-delta) beyond, for delta>=0; it is non-negative, at most l2_loss, even, convex-bounded; its derivative at every e is e clipped to [-delta, delta] (the derivative of the clipped l2 loss).", "quantifier": "all reals and delta > 0", "why_tests_cant": "All reals incl. |e|=delta.", "anchors": ["optax/_src/loss.py:huber_loss", "optax/_src/loss.py:l2_loss"]}
{"id": "C57", "title": "smooth_labels maps distributions to distributions", "statement": "For labels that sum to 1 the smoothed labels sum to 1; for non-negative labels and 0<=alpha<=1 they are >= alpha/K; the greedy class of a one-hot vector gets (1-alpha)+alpha/K; argmax order is preserved.", "quantifier": "all label vectors, alphas", "why_tests_cant": "All vectors and K.", "anchors": ["optax/_src/loss.py:smooth_labels"]}
{"id": "C58", "title": "sigmoid_binary_cross_entropy is the (non-negative) Bernoulli cross entropy", "statement": "For labels in [0,1] the loss equals -y log sigma(x) - (1-y) log(1-sigma(x)), is >= 0, is symmetric under (x,y) -> (-x,1-y), has derivative sigma(x)-y, and is minimised at sigma(x)=y.", "quantifier": "all logits and labels", "why_tests_cant": "All reals.", "anchors": ["optax/_src/loss.py:sigmoid_binary_cross_entropy"]}
{"id": "C59", "title": "softmax_cross_entropy is shift invariant, non-negative and bounded below by the label entropy", "statement": "For labels forming a distribution the loss is >= 0, is unchanged when a constant is added to all logits, and is >= the entropy of the labels with equality when softmax(logits)=labels; for a one-hot label it is -log softmax of that class.", "quantifier": "all logit vectors and label distributions", "why_tests_cant": "All vectors and dimensions.", "anchors": ["optax/_src/loss.py:softmax_cross_entropy"]}
{"id": "C60", "title": "cosine_similarity lies in [-1,1] and ignores scale", "statement": "For non-zero vectors and epsilon=0, cosine_similarity is in [-1,1], symmetric, invariant under positive rescaling of either argument, 1 for parallel vectors; cosine_distance = 1 - similarity in [0,2]; with epsilon>0 the absolute value is still <= 1 for all vectors incl. zero.", "quantifier": "all vectors", "why_tests_cant": "Cauchy-Schwarz over all vectors.", "anchors": ["optax/_src/loss.py:cosine_similarity", "optax/_src/loss.py:cosine_distance"]}
{"id": "C61", "title": "global_norm is a norm of the flattened tree", "statement": "global_norm(t) is the Euclidean norm of the concatenation of all leaves: independent of how entries are grouped into leaves, non-negative, zero iff all entries are 0, absolutely homogeneous and subadditive.", "quantifier": "all trees", "why_tests_cant": "All trees and vectors.", "anchors": ["optax/_src/linear_algebra.py:global_norm"]}
{"id": "C62", "title": "power_iteration terminates, returns a unit vector and never overestimates", "statement": "For every symmetric matrix, start vector and num_iters the loop stops after at most num_iters iterations; when iterates stay non-zero the returned vector has norm 1; the returned eigenvalue estimate is a Rayleigh quotient, hence between the smallest and the largest eigenvalue; if the start vector is an eigenvector it is returned with its eigenvalue.", "quantifier": "all symmetric matrices, start vectors, iteration limits", "why_tests_cant": "Arbitrary dimension and iteration count.", "anchors": ["optax/_src/linear_algebra.py:power_iteration"]}
{"id": "C63", "title": "matrix_inverse_pth_root maintains the coupled-Newton invariant", "statement": "For matrices of size >= 2 every iterate of the loop satisfies mat_h^p * damped_matrix = mat_m, so if the reported error is 0 the result H satisfies H^p * (A + ridge*I) = I, i.e. H = (A+ridge I)^(-1/p), for every positive integer p. The loop performs at most num_iters iterations.", "quantifier": "all matrices, p, iteration counts", "why_tests_cant": "Loop invariant for all iterates.", "anchors": ["optax/_src/linear_algebra.py:matrix_inverse_pth_root"]}
{"id": "C64", "title": "hessian_diag returns the diagonal of the Hessian", "statement": "For every twice differentiable loss, hessian_diag's i-th entry is the second partial derivative with respect to the i-th (ravelled) parameter; hvp is linear in v; fisher_diag is the entrywise square of the gradient, hence non-negative.", "quantifier": "all twice differentiable losses, parameters", "why_tests_cant": "All functions; derivative semantics.", "anchors": ["optax/_src/second_order.py:hvp", "optax/_src/second_order.py:hessian_diag", "optax/_src/second_order.py:fisher_diag"]}
{"id": "C65", "title": "Control variates do not bias the gradient estimate", "statement": "If the estimator's expectation of the control-variate terms cancels (E[cv_jacobians] + E[cv_param_grads] = expected_value_grads), the expected output of control_variates_jacobians equals that of the plain estimator for every coefficient; with the moving-average baseline the last two terms vanish/cancel; if the control variate equals the function and all terms coincide, per-sample variance is zero.", "quantifier": "all functions, control variates, coefficients, sample sets", "why_tests_cant": "Linear identity over all samples and functions.", "anchors": ["optax/_src/control_variates.py:control_variates_jacobians", "optax/_src/control_variates.py:moving_avg_baseline"]}
{"id": "C66", "title": "The estimated control-variate coefficient minimises the sample variance", "statement": "With eps=0 and non-degenerate control variate jacobians, the coefficient computed by estimate_control_variate_coefficients minimises the total (summed over dimensions) sample variance of f_jac - c*cv_jac over all real c.", "quantifier": "all sample sets", "why_tests_cant": "Optimality over all reals c and all samples.", "anchors": ["optax/_src/control_variates.py:estimate_control_variate_coefficients"]}
{"id": "C67", "title": "control_delta_method is exact on quadratics", "statement": "For a quadratic function the control variate equals the function at every sample and its expected value equals f(mean)+0.5*sum var_i*H_ii.", "quantifier": "all quadratics, means, scales, samples", "why_tests_cant": "All quadratics and samples.", "anchors": ["optax/_src/control_variates.py:control_delta_method"]}
{"id": "C68", "title": "moving_avg_baseline is a moving average of the function values", "statement": "Starting from (0,0), after any number of updates on samples whose function values are constantly c the (zero-debiased) baseline equals c; in general it stays within the range of the sample means seen.", "quantifier": "all histories", "why_tests_cant": "Unbounded histories.", "anchors": ["optax/_src/control_variates.py:moving_avg_baseline"]}
{"id": "C69", "title": "Measure-valued estimators perturb exactly one coordinate", "statement": "For every sample n and dimension d the point evaluated for the d-th gradient component equals the n-th sample with only its d-th coordinate replaced by the positive/negative variate, so for functions that do not depend on coordinate d the d-th gradient estimate is exactly zero; for functions linear in coordinate d with slope a and coupling the estimate is a*2*w/sqrt(2 pi).", "quantifier": "all functions, samples, dimensions", "why_tests_cant": "All N, D and functions.", "anchors": ["optax/_src/stochastic_gradient_estimators.py:measure_valued_estimation_mean", "optax/_src/stochastic_gradient_estimators.py:measure_valued_estimation_std", "optax/_src/utils.py:set_diags", "optax/_src/utils.py:tile_second_to_last_dim"]}
{"id": "C70", "title": "The score-function estimator is the function value times the score", "statement": "score_function_jacobians on a multi-normal built from mean and log_scale returns, for sample n and dimension d, f(x_n)*e/sigma_d for the mean and f(x_n)*(e^2-1) for the log scale, where e is the standardised sample; for a constant function its expectation is 0 whenever the normal draws have mean 0 and variance 1, so a baseline that does not depend on the samples adds no bias.", "quantifier": "all functions (differentiable or not), means, log scales, keys, sample counts and dimensions", "why_tests_cant": "All functions and draws; a statement about expectations.", "anchors": ["optax/_src/stochastic_gradient_estimators.py:score_function_jacobians", "optax/_src/utils.py:multi_normal"]}
{"id": "C71", "title": "The pathwise estimator differentiates through the sample", "statement": "pathwise_jacobians on a multi-normal returns, for sample n and dimension d, (d f)(x_n) for the mean and (d f)(x_n)*sigma_d*e for the log scale, for every differentiable f: the sample is differentiated as a function of the parameters with the noise held fixed.", "quantifier": "all differentiable functions, means, log scales, keys, sample counts and dimensions", "why_tests_cant": "All functions and draws.", "anchors": ["optax/_src/stochastic_gradient_estimators.py:pathwise_jacobians", "optax/_src/utils.py:multi_normal"]}
{"id": "C72", "title": "Checkpointing the optimiser state and resuming is invisible", "statement": "The optimiser state returned by update is everything a transformation remembers: saving params and state at any step of any run (to any faithful format), restoring and continuing gives exactly the updates, params and state of the uninterrupted run; a run that fails before the crash point fails with the same error.", "quantifier": "all transformations, histories, gradient functions, crash points and faithful save/restore pairs", "why_tests_cant": "Every crash point of every history.", "anchors": ["optax/_src/base.py:GradientTransformation", "optax/_src/base.py:InitFn", "optax/_src/base.py:UpdateFn"]}
{"id": "C73", "title": "Entrywise optimisers treat every coordinate independently", "statement": "For adam, adagrad, rmsprop, sgd, adamw, yogi and every other chain of entrywise transformations: moving coordinates between leaves, reshaping or regrouping leaves commutes with the optimiser for the whole history, coordinate (k,i) of the updates is what the same optimiser computes for a lone scalar parameter with that coordinate's history, and two histories that agree on a coordinate give the same updates on it.", "quantifier": "all entrywise chains, tree structures, shapes, coordinate maps and histories", "why_tests_cant": "All trees, layouts and histories.", "anchors": ["optax/_src/transform.py:scale_by_adam", "optax/_src/transform.py:scale_by_rms", "optax/_src/transform.py:scale_by_rss", "optax/_src/transform.py:scale_by_yogi", "optax/_src/transform.py:trace", "optax/_src/transform.py:ema", "optax/_src/combine.py:chain"]}
{"id": "C74", "title": "Adaptive optimisers are invariant to the scale of the loss", "statement": "Multiplying all gradients of a history by c != 0 (and the eps terms by the matching power of |c|) changes the updates of scale_by_adam, scale_by_belief, scale_by_rss, scale_by_rms and scale_by_stddev by the sign of c only; with eps = eps_root = 0 Adam is invariant to a different factor for every coordinate; scale_by_trust_ratio with min_norm 0 is invariant to a factor per leaf.", "quantifier": "all histories, tree structures, factors c != 0 and hyper-parameters", "why_tests_cant": "A statement about all pairs of histories.", "anchors": ["optax/_src/transform.py:scale_by_adam", "optax/_src/transform.py:scale_by_belief", "optax/_src/transform.py:scale_by_rss", "optax/_src/transform.py:scale_by_rms", "optax/_src/transform.py:scale_by_stddev", "optax/_src/transform.py:scale_by_trust_ratio"]}
{"id": "C75", "title": "The clipping transformations are nearest-point projections", "statement": "clip_by_global_norm(m) returns the tree of global norm <= m nearest to the gradients, is non-expansive and keeps the direction; clip(d) returns the nearest tree with entries in [-d,d], is non-expansive in global norm and in every entry; keep_params_nonnegative moves the params to the non-negative point nearest to where the update would have moved them.", "quantifier": "all trees, thresholds and competitors", "why_tests_cant": "Optimality over all competitors.", "anchors": ["optax/_src/clipping.py:clip", "optax/_src/clipping.py:clip_by_global_norm", "optax/_src/constrain.py:keep_params_nonnegative"]}
{"id": "C76", "title": "Training with sgd converges at the textbook rates", "statement": "Training with sgd(learning_rate) without momentum through init/update/apply_updates: for any convex losses and any non-negative schedule the weighted regret is at most |p0-q|^2/2 + sum lr_n^2 |g_n|^2/2; on an L-smooth loss with lr <= 1/L the loss never increases and the gradient norms are summable; on a convex L-smooth loss the gap after N steps is at most |p0-q|^2/(2 lr N); on a mu-strongly convex one the distance to the minimiser contracts by (1 - lr mu) per step.", "quantifier": "all losses of the class, starting points, schedules, numbers of steps", "why_tests_cant": "All functions, unbounded training runs.", "anchors": ["optax/_src/alias.py:sgd", "optax/_src/update.py:apply_updates"]}
{"id": "C77", "title": "Training with adagrad has sublinear regret", "statement": "Training with adagrad(lr, initial_accumulator_value a >= 0, eps >= 0) on any sequence of convex losses: while the iterates stay within D of a comparator q in each coordinate, the regret against q is at most (D^2/(2 lr) + lr) * sum over coordinates of sqrt(a + eps + sum of squared gradients), hence O(sqrt N) for bounded gradients.", "quantifier": "all sequences of convex losses, comparators, numbers of steps", "why_tests_cant": "All adversarial loss sequences.", "anchors": ["optax/_src/alias.py:adagrad", "optax/_src/transform.py:scale_by_rss"]}
{"id": "C78", "title": "Training losses are convex with gradient probabilities minus labels", "statement": "softmax_cross_entropy is differentiable in the logits with gradient (sum of labels)*softmax(logits) - labels, whose entries sum to 0, and for labels of non-negative sum it lies above all its tangents (convex); sigmoid_binary_cross_entropy is convex in each logit with derivative sigmoid(logit) - label for any label; l2_loss and huber_loss are convex in the prediction with derivatives the error and the error clipped to [-delta, delta].", "quantifier": "all logits, labels, predictions, targets, batch shapes and class counts", "why_tests_cant": "All inputs; differentiability and convexity are statements about the whole function.", "anchors": ["optax/_src/loss.py:softmax_cross_entropy", "optax/_src/loss.py:sigmoid_binary_cross_entropy", "optax/_src/loss.py:l2_loss", "optax/_src/loss.py:huber_loss"]}
{"id": "C79", "title": "The stochastic gradient estimators are unbiased", "statement": "If the draws jax makes from a random key have their documented laws (independent standard normal, Weibull, double-sided Maxwell, uniform), then for a diagonal Gaussian the expected value of score_function_jacobians and of measure_valued_jacobians (coupled or not) is the exact derivative of E[f(x)] in every coordinate of the mean and of the log scale, for every measurable f with finite second moment at the sample (no differentiability needed), and that of pathwise_jacobians for every differentiable f of at most exponential growth.", "quantifier": "all functions of the class, dimensions, parameters, sample counts, sample and coordinate indices", "why_tests_cant": "A statement about expectations over all keys and all functions; sampling tests only see noise.", "anchors": ["optax/_src/stochastic_gradient_estimators.py:score_function_jacobians", "optax/_src/stochastic_gradient_estimators.py:pathwise_jacobians", "optax/_src/stochastic_gradient_estimators.py:measure_valued_jacobians", "optax/_src/stochastic_gradient_estimators.py:measure_valued_estimation_mean", "optax/_src/stochastic_gradient_estimators.py:measure_valued_estimation_std", "optax/_src/utils.py:multi_normal"]}
{"id": "C80", "title": "matrix_inverse_pth_root converges on positive definite matrices", "statement": "For a positive definite (damped) matrix and p in {1,2,4,8}: for every positive error_tolerance there is a num_iters from which on the function returns either a matrix whose true residual |H^p (A + ridge I) - I| is entrywise within the tolerance and reports such an error, or the initial multiple of the identity because it gave up after the very first iteration; the latter cannot happen when no eigenvalue exceeds 2|D|_F/(p+1), in particular never for p=1 - and does happen for well conditioned matrices otherwise.", "quantifier": "all positive definite matrices of any size, tolerances, start vectors", "why_tests_cant": "Convergence for all matrices is a limit statement.", "anchors": ["optax/_src/linear_algebra.py:matrix_inverse_pth_root"]}
{"id": "C81", "title": "Updates and state keep their dtypes", "statement": "With floating point parameters (bf16, f16, f32, f64, possibly different from leaf to leaf), python-number or schedule hyperparameters and gradients of the parameters' dtypes, for every transformation of transform.py, clipping.py (clip, adaptive_grad_clip) and constrain.py except scale_by_sm3, and every alias except sm3 and dpsgd: no update raises a dtype error, every update has the gradients' dtypes and after any number of steps the state has exactly the dtypes init gave it. clip_by_global_norm does so when all leaves have one dtype; scale_by_sm3 does so in float32 only.", "quantifier": "all trees of floating dtypes, transformations, options and numbers of steps", "why_tests_cant": "Every combination of leaf dtypes and transformation; a change of dtype shows up only as recompilation or a failing scan.", "anchors": ["optax/_src/transform.py:trace", "optax/_src/transform.py:scale_by_adam", "optax/_src/transform.py:scale_by_radam", "optax/_src/transform.py:scale_by_sm3", "optax/_src/transform.py:_update_moment", "optax/_src/transform.py:_bias_correction", "optax/_src/clipping.py:clip_by_global_norm"]}
{"id": "C82", "title": "State dtypes settle after the first update", "statement": "With gradients of any floating dtypes, the same at every step but different from those of the parameters, the accumulators change dtype at most once, at the first update, and every update has the promotion of the gradient's and the parameter's dtype; transformations that use neither params nor accumulators keep the gradients' dtypes. The same holds for the optimisers of optax.alias (sgd without momentum and noisy_sgd keep the gradients' dtypes). With accumulator_dtype=a, trace and ema store their accumulator in dtype a from init on, in every history of gradients.", "quantifier": "all pairs of dtype trees, histories of gradients and numbers of steps", "why_tests_cant": "All histories.", "anchors": ["optax/_src/transform.py:trace", "optax/_src/transform.py:ema", "optax/_src/transform.py:scale_by_adam", "optax/_src/transform.py:apply_every", "optax/_src/utils.py:cast_tree"]}
{"id": "C83", "title": "Training keeps the parameters' dtypes and is a valid loop carry", "statement": "Whatever dtypes the updates have, apply_updates gives every parameter its old dtype, so no training run changes one; with a dtype-stable optimiser the pair (params, state) keeps all dtypes at every step, as lax.scan requires. apply_if_finite, maybe_update and MultiSteps of a stable transformation are stable; of one that is not, apply_if_finite and maybe_update raise at the first call. flatten and inject_hyperparams promote narrower leaves of mixed precision trees.", "quantifier": "all transformations, dtype trees, numbers of steps", "why_tests_cant": "All optimisers and all tree dtypes.", "anchors": ["optax/_src/update.py:apply_updates", "optax/_src/wrappers.py:apply_if_finite", "optax/_src/wrappers.py:maybe_update", "optax/_src/wrappers.py:MultiSteps", "optax/_src/wrappers.py:flatten", "optax/_src/schedule.py:inject_hyperparams"]}
{"id": "C84", "title": "Exact guarantees survive floating point rounding", "statement": "In any floating point format with IEEE style rounding (any precision, any rounding mode, with overflow, NaN and infinities): clip(d) returns entries exactly within [-d,d] for every input that is not NaN, leaves entries already inside bit for bit alone and propagates NaN; with keep_params_nonnegative last in the chain no parameter is ever negative after apply_updates, whatever the optimiser before it does (rounding of params + updates included); safe_norm never returns less than min_norm.", "quantifier": "all formats, trees, gradients including special values, optimisers and numbers of steps", "why_tests_cant": "All bit patterns and histories; rounding errors show on few inputs.", "anchors": ["optax/_src/clipping.py:clip", "optax/_src/constrain.py:keep_params_nonnegative", "optax/_src/numerics.py:safe_norm"]}
{"id": "C85", "title": "Adaptive optimisers never create NaN from finite gradients", "statement": "In any floating point format, for every history of finite gradients (possibly huge) scale_by_rms and scale_by_rss with eps > 0 (and finite 1/sqrt(eps)) keep non-negative accumulators and never output NaN; scale_by_adam and scale_by_belief with gradients in [-M,M] (and hyper-parameters for which the first moment cannot overflow and the bias corrections are positive) keep mu bounded and nu non-negative, and each update entry stays within a bound that is the same for all steps.", "quantifier": "all formats, histories of finite gradients, tree structures, hyper-parameters, numbers of steps", "why_tests_cant": "All histories and rounding modes.", "anchors": ["optax/_src/transform.py:scale_by_rms", "optax/_src/transform.py:scale_by_rss", "optax/_src/transform.py:scale_by_adam", "optax/_src/transform.py:scale_by_belief"]}
{"id": "C86", "title": "Effect of overflow in the squared gradient", "statement": "If the square of one finite gradient entry overflows the format, scale_by_rms, scale_by_rss and scale_by_adam return exactly 0 for that coordinate from that step on for ever (the accumulator stays infinite), without NaN and without error; clip_by_global_norm returns all zeros for finite gradients whose global norm overflows.", "quantifier": "all formats, histories of finite gradients, coordinates, later steps", "why_tests_cant": "A statement about all continuations of a history.", "anchors": ["optax/_src/transform.py:scale_by_rms", "optax/_src/transform.py:scale_by_rss", "optax/_src/transform.py:scale_by_adam", "optax/_src/clipping.py:clip_by_global_norm"]}
{"id": "C87", "title": "AdaGrad's step sizes never increase, rounding included", "statement": "In any floating point format scale_by_rss with a positive initial accumulator multiplies each gradient entry by a non-negative factor which never increases over the steps, for every history of finite gradients; the accumulator never decreases.", "quantifier": "all formats, histories of finite gradients and pairs of steps", "why_tests_cant": "All histories and rounding modes.", "anchors": ["optax/_src/transform.py:scale_by_rss"]}
{"id": "C88", "title": "Schedules keep their end points, range and monotonicity under rounding", "statement": "In any floating point format: polynomial_schedule and linear_schedule are exactly end_value from the last transition step on, equal the computed (init-end)+end up to transition_begin, stay between these two and are monotone in the count; piecewise_constant_schedule is exactly the running product of the scales in boundary order; cosine_decay_schedule stays between the rounded alpha*init and its start value; exponential_decay starts exactly at init_value and never crosses end_value.", "quantifier": "all formats, counts and schedule parameters (finite, without overflow)", "why_tests_cant": "All counts and parameters.", "anchors": ["optax/_src/schedule.py:polynomial_schedule", "optax/_src/schedule.py:linear_schedule", "optax/_src/schedule.py:piecewise_constant_schedule", "optax/_src/schedule.py:cosine_decay_schedule", "optax/_src/schedule.py:exponential_decay"]}
{"id": "C89", "title": "Zero gradients leave parameters bit for bit unchanged", "statement": "In any floating point format, training for any number of steps with gradients that are all zero leaves every parameter (NaN and infinity included) exactly as it was, for sgd with or without (Nesterov) momentum, adagrad, rmsprop, adam, adabelief with positive eps and finite learning rates and any chain of such transformations; incremental_update with step size 1 returns exactly the new and with 0 exactly the old tensors.", "quantifier": "all formats, parameters, numbers of steps, hyper-parameters", "why_tests_cant": "Unbounded runs, all parameters.", "anchors": ["optax/_src/alias.py:sgd", "optax/_src/alias.py:adagrad", "optax/_src/alias.py:rmsprop", "optax/_src/alias.py:adam", "optax/_src/alias.py:adabelief", "optax/_src/update.py:apply_updates", "optax/_src/update.py:incremental_update"]}
{"id": "C90", "title": "Losses are never negative in floating point", "statement": "In any floating point format (elementary functions only assumed to have the right sign and range): log_softmax and log_sigmoid of finite inputs are at most 0 and not NaN; softmax_cross_entropy with finite logits and non-negative finite labels, sigmoid_binary_cross_entropy with finite logits and labels in [0,1], and l2_loss and huber_loss of any inputs (delta > 0) are never negative.", "quantifier": "all formats, batch shapes, class counts, logits, labels, predictions", "why_tests_cant": "All bit patterns.", "anchors": ["optax/_src/loss.py:softmax_cross_entropy", "optax/_src/loss.py:sigmoid_binary_cross_entropy", "optax/_src/loss.py:l2_loss", "optax/_src/loss.py:huber_loss"]}
{"id": "C91", "title": "Training with dpsgd is differentially private", "statement": "Take the random number generator as an ideal source of Gaussian noise (every entry of every draw standard normal; different keys and entries independent). Train any number of steps with dpsgd (any learning rate, momentum, Nesterov), or with differentially_private_aggregate followed by any measurable transformations (adam, trace, schedules, weight decay, ...), clip C > 0, noise multiplier m > 0, on two data sets that differ in one example, with data-independent batches without repetition. For every delta in (0,1] and every measurable set E of parameter trajectories, P(trajectory in E) <= exp(eps) P(trajectory' in E) + delta, where eps = rho + 2 sqrt(rho log(1/delta)), rho = 2k/m^2 and k is the number of steps whose batch contains the example - although each batch's gradients depend on all earlier noise. The guarantee is per run: two runs with the same seed share their noise, and their first updates differ by exactly the difference of the clipped sums over the batch size.", "quantifier": "all numbers of steps, data sets, gradient functions, batch schedules, hyper-parameters, structures, outcomes of the generator, events", "why_tests_cant": "A statement about probability distributions over all noise outcomes, adaptively composed over unboundedly many steps.", "anchors": ["optax/_src/privacy.py:differentially_private_aggregate", "optax/_src/alias.py:dpsgd"]}
{"id": "C92", "title": "Differentiating through training gives the true derivative", "statement": "Meta-gradients: if a whole training run (init, then any number of update/apply_updates steps with gradients that may depend on the parameters) is differentiated by automatic differentiation with respect to a hyper-parameter, an initial parameter or the data, every entry of the final parameters gets its true, finite derivative. This holds for sgd with any momentum, adam and adamw with eps_root > 0, adabelief, rmsprop (centered or not) with eps > 0, adagrad with a positive initial accumulator, for a fixed or scheduled learning rate, and for chains of the corresponding transformations. Without those guards it fails: with eps_root = 0 the derivative of adam at a zero gradient entry is NaN although the true one is 1/eps, and with accumulator 0 scale_by_rss returns 0 although the true one is 1/sqrt(eps).", "quantifier": "every number of steps, tree of parameters, differentiable loss, hyper-parameter path and learning rate schedule", "why_tests_cant": "the derivative is a limit over uncountably many inputs and the composition has unboundedly many steps; finite differences on samples miss the singular points, which are exactly where the guards matter", "anchors": ["optax/_src/transform.py:scale_by_adam", "optax/_src/transform.py:scale_by_belief", "optax/_src/transform.py:scale_by_rms", "optax/_src/transform.py:scale_by_stddev", "optax/_src/transform.py:scale_by_rss", "optax/_src/transform.py:trace", "optax/_src/transform.py:add_decayed_weights", "optax/_src/transform.py:scale_by_schedule", "optax/_src/alias.py:sgd", "optax/_src/alias.py:adam", "optax/_src/alias.py:adamw", "optax/_src/alias.py:adabelief", "optax/_src/alias.py:rmsprop", "optax/_src/alias.py:adagrad", "optax/_src/update.py:apply_updates", "optax/_src/combine.py:chain"]}
{"id": "C93", "title": "Gradients of the wrong structure are never silently accepted", "statement": "For any number type and any trees: apply_updates and incremental_update raise if the two trees differ in structure. Every transformation and every optimiser, and every chain or wrapper of them, either raises or returns updates with the tree structure of the gradients; those that read params raise if params have another structure. Every stateful transformation (trace, ema, rms, adam, sm3, apply_every, MultiSteps, ...) and every optimiser that contains one raises at the first gradients whose structure differs from the params it was initialised with, also behind apply_if_finite or maybe_update when the call would be skipped. Hence a training step that does not raise had gradients of the structure of params and keeps that structure. The exception: flatten only checks the total number of entries.", "quantifier": "all trees, states, hyper-parameters, number types, chains and wrappers", "why_tests_cant": "All pairs of mismatching trees and all compositions; silent acceptance shows only for particular pairs.", "anchors": ["optax/_src/update.py:apply_updates", "optax/_src/update.py:incremental_update", "optax/_src/combine.py:chain", "optax/_src/transform.py:trace", "optax/_src/transform.py:scale_by_adam", "optax/_src/transform.py:apply_every", "optax/_src/wrappers.py:flatten", "optax/_src/wrappers.py:masked", "optax/_src/wrappers.py:MultiSteps", "optax/_src/wrappers.py:apply_if_finite", "optax/_src/wrappers.py:maybe_update"]}
{"id": "C94", "title": "apply_updates broadcasts exactly as numpy does", "statement": "For params and updates of the same structure apply_updates succeeds exactly if the shapes of each pair of leaves are compatible (aligned at the last axis, equal or one of them 1), and every entry of the new leaf is the sum of the two entries numpy's broadcasting rule selects. The new parameters keep the shapes of the old exactly if every update leaf broadcasts to its parameter's shape; otherwise the parameters silently change shape.", "quantifier": "all shapes, ranks and entries, all trees", "why_tests_cant": "All pairs of shapes of any rank.", "anchors": ["optax/_src/update.py:apply_updates"]}
{"id": "C95", "title": "Momentum converges, and Nesterov momentum accelerates", "statement": "Training with sgd(learning_rate, momentum): heavy ball with 0 <= momentum < 1 and learning rate at most (1-momentum)/L on a convex loss with L-Lipschitz gradients and a minimiser meets losses whose excesses sum to at most (1-b)|p0-q|^2/(2 lr) + b/(1-b) (loss(p0)-loss(q)), for any number of steps. With nesterov=True, learning rate 1/L and momentum (1-t)/(1+t), t = sqrt(mu/L), on a mu-strongly convex loss, the excess loss and squared distance decrease like (1-sqrt(mu/L))^N.", "quantifier": "all convex smooth losses, structures, initial params, numbers of steps, admissible rates", "why_tests_cant": "All losses and unbounded numbers of steps.", "anchors": ["optax/_src/alias.py:sgd", "optax/_src/transform.py:trace", "optax/_src/update.py:apply_updates"]}
{"id": "C96", "title": "Adaptive methods find stationary points of non-convex losses", "statement": "Training with adagrad at any learning rate on a loss with L-Lipschitz gradients that is bounded below, convex or not: the squared gradient norms sum to at most a constant that does not depend on the number of steps, so the gradients tend to 0. Training with rmsprop when gradient entries are bounded: the mean squared gradient norm of N steps is at most an explicit bound that tends to a floor proportional to the learning rate. Training with sgd(lr, momentum) with L*lr <= 1-momentum^2: the squared gradient norms sum to at most 2(loss(p0)-inf loss)/lr.", "quantifier": "all smooth losses bounded below, structures, initial params, numbers of steps, learning rates", "why_tests_cant": "All losses and unbounded numbers of steps.", "anchors": ["optax/_src/alias.py:adagrad", "optax/_src/alias.py:rmsprop", "optax/_src/alias.py:sgd", "optax/_src/transform.py:scale_by_rss", "optax/_src/transform.py:scale_by_rms", "optax/_src/transform.py:trace", "optax/_src/update.py:apply_updates"]}
{"id": "C97", "title": "Training with random minibatches converges in expectation", "statement": "Training with sgd where each step's gradient is computed from an independent random sample and is unbiased with variance at most V: for convex losses with bounded gradients, for convex smooth losses, for strongly convex smooth losses and for non-convex smooth losses the classical bounds on the expected loss, squared distance or squared gradient norm hold for every number of steps, for any schedule of non-negative (where needed, small) rates. Uniform sampling from a finite data set gives unbiased gradients, and averaging a minibatch of b independent samples divides the variance by b.", "quantifier": "all probability spaces, laws of samples, gradient estimators, losses, schedules, structures, numbers of steps", "why_tests_cant": "A statement about expectations over all sample sequences.", "anchors": ["optax/_src/alias.py:sgd", "optax/_src/update.py:apply_updates", "optax/_src/transform.py:scale", "optax/_src/transform.py:scale_by_schedule"]}
{"id": "C98", "title": "The example programs compute what they report", "statement": "load_image_dataset puts every element into exactly one batch, batches have the requested size except possibly the last, pixels are in [0,1] and labels one-hot and in range. model_accuracy on it is the fraction of elements classified correctly, whatever the batch size, order and remainder batch. categorical_crossentropy is the mean softmax cross entropy. The accuracies printed by lookahead_mnist are those of the slow parameters of the lookahead algorithm with adam, after steps // sync_period rounds. The chain of haiku_example is adam.", "quantifier": "all data sets, batch sizes, orders, models, numbers of epochs, hyper-parameters", "why_tests_cant": "All data sets and batchings; the remainder batch matters only for particular sizes.", "anchors": ["examples/datasets.py:load_image_dataset", "examples/datasets.py:_preprocess_image_dataset", "examples/lookahead_mnist.py:model_accuracy", "examples/lookahead_mnist.py:accuracy", "examples/lookahead_mnist.py:categorical_crossentropy", "examples/lookahead_mnist.py:main", "examples/haiku_example.py:main"]}
{"id": "C99", "title": "The module finder visits exactly the public modules", "statement": "find_internal_python_modules terminates on every finite graph of modules, cycles included, and returns the root and exactly the modules whose name starts with optax and does not contain _src that are reachable from it through such modules.", "quantifier": "all finite module graphs", "why_tests_cant": "All graphs, with cycles.", "anchors": ["optax/_src/test_utils.py:find_internal_python_modules"]}
{"id": "C100", "title": "Interchangeable components stay interchangeable", "statement": "If two transformations return the same updates (or raise the same exceptions) on every history, then so do the results of putting either of them at the same place of any chain, or into flatten, masked, apply_if_finite, maybe_update, MultiSteps or lookahead, with any arguments; and training with either gives the same parameters after any number of steps. It is enough that they agree on histories of a class that is closed under the intermediate updates, e.g. gradients and params of given shapes for shape-preserving transformations.", "quantifier": "all transformations, chains, wrappers and their arguments, histories, numbers of steps", "why_tests_cant": "All contexts and all histories; the states of the two may have different types.", "anchors": ["optax/_src/combine.py:chain", "optax/_src/wrappers.py:flatten", "optax/_src/wrappers.py:masked", "optax/_src/wrappers.py:apply_if_finite", "optax/_src/wrappers.py:maybe_update", "optax/_src/wrappers.py:MultiSteps", "optax/_src/lookahead.py:lookahead", "optax/_src/update.py:apply_updates"]}
{"id": "C101", "title": "Neutral hyper-parameters switch a component off", "statement": "On finite values, scale(1), a schedule that is constantly 1, trace(decay=0) with and without nesterov, ema(decay=0) with and without debias, add_decayed_weights(0), add_noise(eta=0) for every seed and apply_every(1) behave as identity() on every history, and can be removed from any place of any chain of shape-preserving transformations. Hence sgd and rmsprop with momentum=0 are those with momentum=None, adamw(weight_decay=0) is adam and noisy_sgd(eta=0) is sgd, for every learning rate. maybe_update that always updates, apply_if_finite on finite values and MultiSteps(every_k_schedule=1) (called without params) are transparent. A constant schedule as learning rate is the same as the number, on all inputs. lookahead with slow_step_size=1 leaves training with an optimiser that ignores its params unchanged for every sync_period; with slow_step_size=0 the slow parameters never move and the fast ones return to them at every synchronisation.", "quantifier": "all structures, shapes, histories of finite gradients and params, other hyper-parameters, chains", "why_tests_cant": "All histories and contexts.", "anchors": ["optax/_src/transform.py:scale", "optax/_src/transform.py:scale_by_schedule", "optax/_src/transform.py:trace", "optax/_src/transform.py:ema", "optax/_src/transform.py:add_decayed_weights", "optax/_src/transform.py:add_noise", "optax/_src/transform.py:apply_every", "optax/_src/alias.py:sgd", "optax/_src/alias.py:rmsprop", "optax/_src/alias.py:adamw", "optax/_src/alias.py:noisy_sgd", "optax/_src/wrappers.py:maybe_update", "optax/_src/wrappers.py:apply_if_finite", "optax/_src/wrappers.py:MultiSteps", "optax/_src/schedule.py:constant_schedule"]}
{"id": "C102", "title": "Adam can run away from the minimiser of a convex problem", "statement": "For every learning rate > 0, all b1^2 < b2 < 1 and eps, eps_root >= 0 there is a finite data set of convex functions (losses K|x| and -x, one pass after the other) whose mean is minimised at 0, and a starting point, from which training with adam drives every parameter and the mean loss to +infinity.", "quantifier": "all learning rates, decay rates, eps and structures; unlimited numbers of steps, including those after the step counter has saturated", "why_tests_cant": "A statement about all hyper-parameters and the limit of infinitely many steps.", "anchors": ["optax/_src/alias.py:adam", "optax/_src/transform.py:scale_by_adam", "optax/_src/update.py:apply_updates"]}
{"id": "C103", "title": "Linear optimizers obey superposition; averaging the workers' updates equals updating with the average gradient", "statement": "identity, scale, scale_by_schedule, trace, ema, apply_every, centralize, every chain of them and sgd with any learning rate or schedule, momentum and nesterov satisfy: the updates for gradients a*g + b*g' are a times those for g plus b times those for g', at every step of every history; hence m data-parallel workers with their own optimizer states that average their updates take the same steps as one optimizer fed the average gradient. scale_by_adam does not have the property.", "quantifier": "all structures, histories, coefficients, numbers of workers and steps, chains", "why_tests_cant": "All histories, all real coefficients, all numbers of workers.", "anchors": ["optax/_src/transform.py:scale", "optax/_src/transform.py:scale_by_schedule", "optax/_src/transform.py:trace", "optax/_src/transform.py:ema", "optax/_src/transform.py:apply_every", "optax/_src/transform.py:centralize", "optax/_src/transform.py:scale_by_adam", "optax/_src/alias.py:sgd", "optax/_src/combine.py:chain"]}
{"id": "C104", "title": "How parameters are grouped into containers does not matter", "statement": "Two groupings of the same list of arrays into dicts, lists, tuples and named tuples get the same updates from every transformation and every optimizer of the library, at every step of every history, or both raise the same exception; chain, flatten, apply_if_finite, maybe_update, MultiSteps and lookahead preserve this, flatten even establishes it for every inner transformation, and training ends in the same arrays. masked has the property on non-empty containers; on a bare array as params it raises ValueError.", "quantifier": "all pytree structures, arrays, histories, transformations, numbers of steps, number types", "why_tests_cant": "All pairs of tree structures and all histories.", "anchors": ["optax/_src/transform.py:trace", "optax/_src/transform.py:ema", "optax/_src/transform.py:scale_by_adam", "optax/_src/transform.py:scale_by_sm3", "optax/_src/transform.py:add_noise", "optax/_src/clipping.py:clip_by_global_norm", "optax/_src/clipping.py:adaptive_grad_clip", "optax/_src/constrain.py:zero_nans", "optax/_src/wrappers.py:flatten", "optax/_src/wrappers.py:masked", "optax/_src/wrappers.py:apply_if_finite", "optax/_src/wrappers.py:maybe_update", "optax/_src/wrappers.py:MultiSteps", "optax/_src/lookahead.py:lookahead", "optax/_src/combine.py:chain", "optax/_src/alias.py:adam", "optax/_src/alias.py:lamb", "optax/_src/alias.py:sgd", "optax/_src/alias.py:dpsgd", "optax/_src/privacy.py:differentially_private_aggregate"]}
{"id": "C105", "title": "Renaming parameters does not change training, except for the noise", "statement": "jax orders the leaves of a dict by its keys, so that renaming a parameter permutes the leaves. For every transformation and optimizer without noise, renaming permutes the updates in the same way at every step of every history (or both histories raise), chains and wrappers preserve this, and training ends in the renamed parameters. add_noise gives the parameters other noise after a renaming.", "quantifier": "all permutations of the leaves, structures, arrays, histories, chains, numbers of steps", "why_tests_cant": "All permutations and all histories.", "anchors": ["optax/_src/transform.py:trace", "optax/_src/transform.py:ema", "optax/_src/transform.py:scale_by_adam", "optax/_src/transform.py:scale_by_sm3", "optax/_src/transform.py:add_noise", "optax/_src/clipping.py:clip_by_global_norm", "optax/_src/clipping.py:adaptive_grad_clip", "optax/_src/constrain.py:zero_nans", "optax/_src/wrappers.py:apply_if_finite", "optax/_src/wrappers.py:maybe_update", "optax/_src/wrappers.py:MultiSteps", "optax/_src/combine.py:chain", "optax/_src/alias.py:adam", "optax/_src/alias.py:lamb", "optax/_src/alias.py:sgd", "optax/_src/alias.py:noisy_sgd"]}
{"id": "C106", "title": "Exact bias of the moving-average baseline", "statement": "With moving_avg_baseline and unit coefficients, control_variates_jacobians on the score-function estimator returns, in expectation over independent standard Gaussian sample rows, the gradient of the objective multiplied by 1 - w/N, where N is the number of samples and w the weight of the new batch mean in the updated baseline ((1-d)/(1-d^(i+1)) with debiasing, 1-d without): because the state is updated with the very samples of the estimate. For a decay in [0, 1) the factor is in [0, 1), so the estimate is unbiased only where the gradient is zero; it is 1 - 1/N on the first call.", "quantifier": "every measurable function with a finite second moment, every stored value and update number, decay, flags, number of samples, dimension, parameters, coordinate of mean and log scale", "why_tests_cant": "An expectation over the random key for every function: a test can only average finitely many draws, and the deviation is hidden in the Monte Carlo error.", "anchors": ["optax/_src/control_variates.py:moving_avg_baseline", "optax/_src/control_variates.py:control_variates_jacobians", "optax/_src/stochastic_gradient_estimators.py:score_function_jacobians"]}
{"id": "C107", "title": "Estimated coefficients keep the estimate unbiased", "statement": "control_variates_jacobians with control_delta_method and estimate_cv_coeffs=True is unbiased for the gradient of the objective, for the score-function and for the pathwise estimator, provided the draws at the key split off for the coefficient are independent of the draws at the caller's key.", "quantifier": "every three times continuously differentiable function (finite second moment, or partial derivatives of at most exponential growth for pathwise), number of samples, number of coefficient samples, dimension, parameters, coordinate", "why_tests_cant": "An expectation over the random key of a ratio of sample moments times a sample: no finite number of draws decides it.", "anchors": ["optax/_src/control_variates.py:control_variates_jacobians", "optax/_src/control_variates.py:estimate_control_variate_coefficients", "optax/_src/control_variates.py:control_delta_method", "optax/_src/stochastic_gradient_estimators.py:score_function_jacobians", "optax/_src/stochastic_gradient_estimators.py:pathwise_jacobians"]}
{"id": "C108", "title": "Calling a factory wrapped by inject_hyperparams", "statement": "inject_hyperparams(factory, static_args)(*args, **kwargs) raises ValueError if a static name is not a parameter of the factory; otherwise it raises TypeError exactly when the call is not a legal call of the factory (too many positional arguments, an argument given twice, missing, or with an unknown name) and else builds the transformation in which every parameter has its positional argument, else its keyword argument, else its default. Giving arguments by name in any order instead of by position changes nothing; inject_hyperparams(adam)(lr) is adam(lr) with the documented defaults.", "quantifier": "every factory signature, static names, positional and keyword arguments", "why_tests_cant": "A statement about all signatures and all ways to call; tests cover a few calls.", "anchors": ["optax/_src/schedule.py:inject_hyperparams", "optax/_src/alias.py:adam"]}
{"id": "C109", "title": "An injected schedule runs one step ahead", "statement": "For an alias chain(body, _scale_by_learning_rate(learning_rate)), injecting a schedule f through inject_hyperparams is the native alias with the schedule n -> f(n+1): same outputs and errors on every history (up to saturation of the counter). So whenever f(0) != f(1), inject_hyperparams(sgd)(learning_rate=f) is not sgd(f): f(0) is never used.", "quantifier": "every body factory that does not read the learning rate, schedule, other arguments, parameters and histories of any length", "why_tests_cant": "An equivalence of two transformations over all histories.", "anchors": ["optax/_src/schedule.py:inject_hyperparams", "optax/_src/transform.py:scale_by_schedule", "optax/_src/alias.py:adam", "optax/_src/alias.py:sgd"]}
{"id": "C110", "title": "Default hyper-parameters bound the step", "statement": "With the default hyper-parameters, whatever the gradients: adam(lr) never moves an entry of the parameters by more than 73 times the learning rate of that step, adagrad(lr) and sm3(lr) by more than the learning rate, rmsprop(lr) by more than 3.17 times; radam(lr) by more than max(B,73) times when gradients are bounded by B. There is no such bound for adabelief(lr) and rmsprop(lr, centered=True): constant gradients of size 1 lead to steps of more than 4*10^7 and 9000 times the learning rate; for gradients bounded by B they are bounded by 5*10^7*B and 10^4*B. For every alias the updates over a whole history are given by a closed formula with the default numbers written out (adamw decays by 1e-4, lamb does not decay, adagrad starts its accumulators at 0.1, ...); yogi(lr) starts both averages at 1e-6 and its first step moves entries whose gradient is zero.", "quantifier": "all gradient histories shorter than 2^31 (2^30 for radam), trees, learning rates and schedules", "why_tests_cant": "the bound ranges over all gradient histories; the bad case needs tens of thousands of steps", "anchors": ["optax/_src/alias.py:adam", "optax/_src/alias.py:adagrad", "optax/_src/alias.py:rmsprop", "optax/_src/alias.py:sm3", "optax/_src/alias.py:radam", "optax/_src/alias.py:adabelief", "optax/_src/transform.py:scale_by_adam", "optax/_src/transform.py:scale_by_belief", "optax/_src/transform.py:scale_by_stddev", "optax/_src/transform.py:scale_by_rss", "optax/_src/transform.py:scale_by_rms", "optax/_src/transform.py:scale_by_sm3"]}
{"id": "C111", "title": "Full-batch adam finds stationary points of non-convex losses", "statement": "Training with adam(lr) on a loss with L-Lipschitz gradients that is bounded below, convex or not, with gradient entries bounded by R and b1^2 < b2: for every number of steps N, including numbers beyond the saturation of the step counter, the mean squared gradient norm of the params visited is at most an explicit bound of the form D*((loss(p0)-inf loss)/(lr*N) + lr*C). Hence for every accuracy there is a learning rate threshold below which long enough training has mean squared gradient norm below that accuracy. (C102 gives convex losses with changing gradients where adam diverges, so determinism of the gradient is needed.)", "quantifier": "all smooth losses bounded below with bounded gradient entries, tree structures, initial params, numbers of steps, learning rates, b1^2 < b2 < 1, eps, eps_root >= 0", "why_tests_cant": "All losses and unbounded numbers of steps.", "anchors": ["optax/_src/alias.py:adam", "optax/_src/transform.py:scale_by_adam", "optax/_src/update.py:apply_updates"]}
{"id": "C112", "title": "Back-propagating through clipping and the trust ratio", "statement": "Reverse-mode differentiation of the update functions (meta-gradients). clip_by_global_norm: whenever the updates are not all zero the cotangents are finite and, away from the threshold, they are the transposed derivative of the update function in every direction; when all updates are zero the update function is the identity but back-propagation returns NaN for every entry. scale_by_trust_ratio: cotangents of update and param are finite and, away from the thresholds, the transposed derivative, unless min_norm = 0 and the update of a leaf is zero: then the returned update does not depend on the (non-zero) parameters but back-propagation returns NaN for their cotangents.", "quantifier": "all trees, shapes, values of updates, params and cotangents, all directions, all max_norm > 0, min_norm >= 0", "why_tests_cant": "Tests differentiate at a few points; the derivative identity ranges over all points and directions and the NaN points are corner cases.", "anchors": ["optax/_src/clipping.py:clip_by_global_norm", "optax/_src/linear_algebra.py:global_norm", "optax/_src/transform.py:scale_by_trust_ratio", "optax/_src/numerics.py:safe_norm"]}
{"id": "C113", "title": "Gradient descent in floating point converges to a rounding floor and never overflows", "statement": "Training with sgd (constant learning rate a, no momentum) when every operation of the optimiser and of apply_updates is rounded and the gradient itself is computed inexactly (error at most delta + kappa*distance to the minimiser): on an L-smooth mu-strongly convex loss with a*L <= 1 and rho = sqrt(1-a*mu)+4u+2a*kappa < 1, no call fails, no parameter ever becomes infinite or NaN, and the distance to the minimiser after N steps is at most rho^N times the initial distance plus a floor E/(1-rho) with E proportional to the unit roundoff, the underflow threshold and delta. Single precision and bfloat16 satisfy the rounding model. For 1/2*||p-c||^2 in single precision with learning rate 1/2: ||p_N-c|| <= (3/4)^N ||p_0-c|| + 2^-22 ||c|| + 2^-145 sqrt(d). The floor is real: with gradient -1 and learning rate 2^-26 parameters equal to -1 never move in single precision.", "quantifier": "all trees, losses, gradient evaluators, starting points, step counts, rounding rules and formats satisfying the error model", "why_tests_cant": "Rounding errors depend on every intermediate value of an unbounded run; a test sees one run.", "anchors": ["optax/_src/alias.py:sgd", "optax/_src/transform.py:scale", "optax/_src/update.py:apply_updates"]}
{"id": "C114", "title": "Lookahead over sgd converges linearly", "statement": "Training with lookahead(sgd(eta), sync_period=k, slow_step_size=a), 0 <= a <= 1, from synchronised parameters, gradients taken at the fast parameters of an L-smooth mu-strongly convex loss with eta*L <= 1: with rho = sqrt(1-eta*mu), after j full periods and r < k further steps the slow parameters are within (1-a+a*rho^k)^j times the initial distance of the minimiser and the fast parameters within rho^r times that; the factor per period is below 1 when 0 < a and 0 < eta*mu.", "quantifier": "all trees, losses, starting points, periods, step sizes, numbers of steps", "why_tests_cant": "A rate is a statement about every loss of the class and every number of steps.", "anchors": ["optax/_src/lookahead.py:lookahead", "optax/_src/lookahead.py:LookaheadParams", "optax/_src/alias.py:sgd", "optax/_src/update.py:apply_updates"]}
{"id": "C115", "title": "noisy_sgd with annealed noise converges in mean square to a floor set by the counter", "statement": "Training with noisy_sgd(lr, eta, gamma) on an L-smooth mu-strongly convex loss with lr*L <= 1, the random generator being ideal (independent standard normals for different keys and entries): each step contracts the mean square distance to the minimiser by 1-lr*mu and adds d*(eta/(n+1)^gamma)^2, hence E||p_{M+m}-q||^2 <= (1-lr*mu)^m((1-lr*mu)^M ||p_0-q||^2 + d*eta^2/(lr*mu)) + d*(eta/(M+1)^gamma)^2/(lr*mu) for all M, m; the limit is at most d*(eta/(2^31-1)^gamma)^2/(lr*mu), and never below d*(eta/(2^31-1)^gamma)^2, because the step counter saturates.", "quantifier": "all trees, losses, starting points, seeds, noise parameters, numbers of steps, over the probability space of the generator", "why_tests_cant": "Expectations over all noise sequences and limits are not observable in a test.", "anchors": ["optax/_src/alias.py:noisy_sgd", "optax/_src/transform.py:add_noise", "optax/_src/update.py:apply_updates"]}
{"id": "C116", "title": "sm3 has sublinear regret on convex losses", "statement": "Training with sm3(eta, momentum=0) on any sequence of convex losses over any tree of leaves of rank at least one: if every parameter stays within D of q, the regret with respect to q after N steps is at most (D^2/(2 eta)+eta) * sum over entries of sqrt(acc + 1e-8), acc being the accumulator SM3 scales the entry with at the last step; acc never exceeds the sum over steps of the largest squared gradient of the entry's slice along any axis; with gradient entries bounded by B the regret is at most (D^2/(2 eta)+eta)*size*sqrt(N B^2+1e-8).", "quantifier": "all trees of leaves of rank >= 1, convex loss sequences, starting points, comparators, numbers of steps, choices of an axis per entry", "why_tests_cant": "A regret bound quantifies over every adversarial sequence of losses and every horizon.", "anchors": ["optax/_src/alias.py:sm3", "optax/_src/transform.py:scale_by_sm3", "optax/_src/update.py:apply_updates"]}
{"id": "C117", "title": "Gradient accumulation is large-batch training", "statement": "Training in a closed loop (each gradient taken at the current parameters) with MultiSteps(opt, every_k_schedule, use_grad_mean), opt keeping structure and not reading params (adam, sgd with or without momentum, clipping in front): during the j-th group of micro-steps the parameters are exactly those opt alone has before its j-th step when trained on the mean (or sum) of the group's gradient functions. Hence MultiSteps(sgd(eta), K) over micro-batches that average to a smooth strongly convex loss contracts the squared distance to the minimiser by 1-eta*mu per group.", "quantifier": "all trees, optimisers of the class, group-size schedules, micro-batch gradient functions, starting points, fewer than 2^31 micro-steps", "why_tests_cant": "The loop feeds updates back into gradients: equality must be shown for every gradient function, group schedule and number of steps.", "anchors": ["optax/_src/wrappers.py:MultiSteps", "optax/_src/alias.py:sgd", "optax/_src/alias.py:adam", "optax/_src/update.py:apply_updates"]}
{"id": "C118", "title": "The price of privacy: expected regret of dpsgd", "statement": "Training with dpsgd(eta, l2_norm_clip=C, noise_multiplier=m) on batches of B_n examples with convex batch losses whose per-example gradients never exceed C, the random generator being ideal: after N steps the expected regret with respect to any q is at most |p_0-q|^2/(2 eta) + sum_n eta/2 (C^2 + d (C m/B_n)^2), d the number of parameters; with the learning rate D/(C sqrt(N(1+d m^2/B^2))) the average expected excess loss is at most D C sqrt((1+d m^2/B^2)/N).", "quantifier": "all trees, batch sizes, example gradients (adaptive to the parameters), convex losses, starting points, comparators, seeds, numbers of steps, over the probability space of the generator", "why_tests_cant": "Expectations over all noise sequences, for every adversarial sequence of losses and every horizon.", "anchors": ["optax/_src/alias.py:dpsgd", "optax/_src/privacy.py:differentially_private_aggregate", "optax/_src/update.py:apply_updates"]}
{"id": "C119", "title": "Weight decay keeps adamw's parameters in a box", "statement": "Training with adamw (or any chain of a transformation with outputs bounded by C, add_decayed_weights(wd), the learning rate), wd > 0 and 0 <= lr*wd <= 1 at every step, with any gradients whatsoever: no entry of the parameters ever exceeds max(|initial value|, C/wd); for adamw C = 1/sqrt((1-b2)(1-b1^2/b2)), with default arguments the box has radius 730000. With a constant learning rate the influence of the initial value decays like (1-lr*wd)^n. Without decay there is no such bound: adam on a linear loss drives every entry beyond all bounds.", "quantifier": "all trees, initial parameters, gradient functions, learning rates and schedules, hyper-parameters with b1^2 < b2 < 1, all numbers of steps", "why_tests_cant": "unbounded numbers of steps and adversarial gradients", "anchors": ["optax/_src/alias.py:adamw", "optax/_src/transform.py:add_decayed_weights", "optax/_src/transform.py:scale_by_adam"]}
{"id": "C120", "title": "Clipped gradient descent is robust and converges", "statement": "Training with chain(clip_by_global_norm(c), sgd(lr)): no step is longer than |lr|*c whatever the gradients, so N steps move at most N*|lr|*c. On an L-smooth loss with lr*L <= 1 each step decreases the loss by at least lr/2*|g|*min(|g|,c), so the loss never increases and the sum of |g|*min(|g|,c) is at most 2(loss(p0)-inf)/lr. On a convex one the distance to a minimiser q never increases and the excess loss after N steps is at most |p0-q|^2/(2 lr N) * max(1, sqrt((2/lr)(loss(p0)-loss(q)))/c).", "quantifier": "all trees, losses, initial parameters, bounds c > 0, numbers of steps", "why_tests_cant": "all losses and all numbers of steps", "anchors": ["optax/_src/clipping.py:clip_by_global_norm", "optax/_src/alias.py:sgd"]}
{"id": "C121", "title": "sgd does not depend on the choice of coordinates", "statement": "Rotating the gradients and the parameters by any orthogonal map of the whole parameter vector rotates the updates, at every step of every history, for identity, scale, scale_by_schedule, trace, ema, apply_every, clip_by_global_norm, add_decayed_weights and every chain of them, in particular sgd with any schedule, momentum, nesterov, clipping and weight decay; maps rotating each leaf by itself are also respected by scale_by_trust_ratio, fromage and layer-wise scaled sgd. Training on the problem in rotated coordinates visits the rotated parameters at every step. scale_by_adam does not have this symmetry.", "quantifier": "all trees, orthogonal maps, histories, losses, numbers of steps", "why_tests_cant": "all orthogonal maps and all histories", "anchors": ["optax/_src/alias.py:sgd", "optax/_src/alias.py:fromage", "optax/_src/clipping.py:clip_by_global_norm", "optax/_src/transform.py:trace", "optax/_src/transform.py:ema", "optax/_src/transform.py:apply_every", "optax/_src/transform.py:add_decayed_weights", "optax/_src/transform.py:scale_by_trust_ratio"]}
{"id": "C122", "title": "automatic differentiation of the losses gives the true gradient", "statement": "Differentiating l2_loss, huber_loss, sigmoid_binary_cross_entropy and softmax_cross_entropy by forward-mode automatic differentiation gives the true derivative, finite, at every finite input: also at the kinks of the Huber loss, at logits of any size and where the largest logit is tied. For cosine_similarity and cosine_distance this holds wherever no row has norm exactly epsilon; with the default epsilon = 0, a zero row makes the gradient NaN. Through clip, the derivative passes inside the interval, is 0 outside and is halved exactly at a bound.", "quantifier": "all shapes, curves of predictions and targets, tangents", "why_tests_cant": "holds at every real input including the measure-zero kinks", "anchors": ["optax/_src/loss.py:l2_loss", "optax/_src/loss.py:huber_loss", "optax/_src/loss.py:sigmoid_binary_cross_entropy", "optax/_src/loss.py:softmax_cross_entropy", "optax/_src/loss.py:cosine_similarity", "optax/_src/loss.py:cosine_distance", "optax/_src/clipping.py:clip"]}
{"id": "C123", "title": "the sum of the learning rates is the training budget of sgd", "statement": "On a convex smooth loss, sgd with any schedule of rates between 0 and 1/L has, after N steps, a loss gap of at most the squared initial distance over twice the sum of the rates used. cosine_decay_schedule and linear_schedule spend a sum proportional to their length (given exactly), so decaying costs a factor of at most two against the constant rate. exponential_decay spends a bounded sum in any number of steps (up to the counter limit): with bounded gradients the parameters cannot leave a fixed ball around the start, so training started farther than its radius from the minimisers never reaches them.", "quantifier": "all trees, convex smooth losses, gradient oracles, schedules, lengths, starting points", "why_tests_cant": "a bound over every loss and every number of steps", "anchors": ["optax/_src/alias.py:sgd", "optax/_src/schedule.py:cosine_decay_schedule", "optax/_src/schedule.py:linear_schedule", "optax/_src/schedule.py:exponential_decay"]}
{"id": "C124", "title": "rounding errors do not build up in the momentum and moment accumulators", "statement": "In floating point with unit roundoff u, the momentum accumulator of trace and the two moments of scale_by_adam stay finite and within a fixed multiple of u (over 1 - decay) of the exact discounted sums of the gradients, for every bounded history of any length; in float32 with the default decays the first moment is within 2e-5 G and the second within 2e-3 G^2 for ever. In bfloat16 the decay 0.999 is rounded to 1, so the second moment never decreases and is frozen by zero gradients.", "quantifier": "all trees, formats obeying the standard model, decays, bounded gradient histories, numbers of steps", "why_tests_cant": "a bound over every history and every number of steps", "anchors": ["optax/_src/transform.py:trace", "optax/_src/transform.py:scale_by_adam", "optax/_src/transform.py:_update_moment", "optax/_src/transform.py:_bias_correction"]}
{"id": "C125", "title": "clip_by_global_norm keeps its promise in floating point", "statement": "For finite gradients whose sum of squares does not overflow, global_norm has a relative rounding error of at most a small multiple of (number of entries + leaves) times the unit roundoff, and clip_by_global_norm returns finite updates whose distance to the exactly clipped gradient is at most three times that multiple of max_norm, so their norm exceeds max_norm by at most that much, wherever the comparison with max_norm falls. In float32 with up to ten thousand entries the norm is at most 1.004 max_norm.", "quantifier": "all trees, finite gradients, max_norm, formats obeying the standard model", "why_tests_cant": "an error bound over every tree and every value", "anchors": ["optax/_src/clipping.py:clip_by_global_norm", "optax/_src/linear_algebra.py:global_norm"]}
{"id": "C126", "title": "old optimiser state is forgotten geometrically, except by adagrad", "statement": "Run the same gradients through trace or scale_by_adam from two arbitrary states (two checkpoints, or one reset): the accumulators differ by exactly decay^n times their initial difference after n calls, and the updates of adam differ by at most a constant times b1^n plus a constant times the square root of b2^n, which tends to zero. For scale_by_rms the accumulators too differ by decay^n times their initial difference, and the updates by at most |g| decay^(n+1) |difference| / (2 eps^(3/2)); for the transformation form of ema the average differs by decay^n times the initial difference. scale_by_rss keeps the difference for ever. A target copy maintained by incremental_update lags behind parameters moving at most delta per call by at most delta (1 - step)/step plus a geometrically vanishing term.", "quantifier": "all trees, states, gradient histories, hyper-parameters in range, numbers of calls", "why_tests_cant": "a statement about every pair of states and every history", "anchors": ["optax/_src/transform.py:trace", "optax/_src/transform.py:scale_by_adam", "optax/_src/transform.py:scale_by_rss", "optax/_src/update.py:incremental_update"]}
{"id": "C127", "title": "sgd is stable under the replacement of a training example, and so it generalises", "statement": "Train with sgd on two data sets that differ in one example, same schedule and batches: for convex L-smooth per-example losses and rates at most 2/L, the parameters differ after N steps by at most V/b times the sum of the rates weighted by the number of occurrences of the example in the batches (V bounds the difference of two per-example gradients, b is the batch size), and for strongly convex losses by at most c V/(b mu) for ever. Hence for n i.i.d. examples the expected difference between the loss on fresh data and on the training data is at most 2 C^2/n times the sum of the rates, whatever the number of parameters. Beyond the rate 2/L the difference can grow without bound.", "quantifier": "all trees, data sets, batch orders, schedules, smooth convex losses, data distributions, numbers of steps", "why_tests_cant": "expectation over data sets and a worst case over replaced examples, of runs of any length", "anchors": ["optax/_src/alias.py:sgd", "optax/_src/update.py:apply_updates", "optax/_src/transform.py:scale", "optax/_src/transform.py:scale_by_schedule"]}
{"id": "C128", "title": "Negating coordinates negates the updates", "statement": "Choose any set of scalar coordinates and negate them in the initial parameters, in every gradient and in the params given to update: the updates returned are the same with these coordinates negated, or the same exception is raised, for every chain of the deterministic transformations and for every alias except yogi and those adding noise. Hence training on the loss composed with the reflection, from the reflected start, visits the reflected parameters. scale_by_yogi violates it: its first moment starts at initial_accumulator_value (like its second moment) instead of zero, so that it returns a positive update for a zero gradient.", "quantifier": "all trees, sets of coordinates, histories, chains of any length, hyper-parameters", "why_tests_cant": "every history and every choice of signs", "anchors": ["optax/_src/transform.py:scale_by_adam", "optax/_src/transform.py:scale_by_yogi", "optax/_src/transform.py:scale_by_belief", "optax/_src/transform.py:scale_by_sm3", "optax/_src/transform.py:scale_by_trust_ratio", "optax/_src/clipping.py:clip", "optax/_src/clipping.py:adaptive_grad_clip", "optax/_src/alias.py:adam", "optax/_src/alias.py:lamb", "optax/_src/alias.py:fromage", "optax/_src/alias.py:sm3"]}
{"id": "C129", "title": "Averaging the parameters of a run with incremental_update", "statement": "Calling incremental_update after every training step with the step sizes w_n/(w_0+...+w_n) makes the target the average of all parameter trees seen with the weights w_n (1/(n+1): the arithmetic mean), whatever it was initialised with. On a convex loss the average is at most as bad as the average of the losses, a moving average with constant step size in [0,1] at most as bad as the worst tree seen, and with sgd the averaged parameters are within (|p0-q|^2 + sum of eta_n^2 |g_n|^2)/(2 sum of eta_n) of any comparator, D B/sqrt(N) at the textbook rate, and likewise in expectation with stochastic gradients, although the parameters themselves need not converge.", "quantifier": "all trees, runs of any length, schedules, convex losses, distributions of samples", "why_tests_cant": "a limit over runs of any length on every convex loss", "anchors": ["optax/_src/update.py:incremental_update", "optax/_src/update.py:apply_updates", "optax/_src/alias.py:sgd"]}
{"id": "C130", "title": "The order of the examples does not matter where gradients are summed", "statement": "Reordering the examples inside every batch given to dpsgd (or differentially_private_aggregate followed by anything) changes neither updates nor state; reordering the mini-batches inside the groups of MultiSteps, or the gradients inside the periods of apply_every, changes no update; the state of Adagrad does not depend on the order of the gradients seen. With momentum the order matters: the last update of trace(decay) on a, b and on b, a agree only if decay = 1 or a = b.", "quantifier": "all trees, batch and group sizes, permutations, inner transformations, histories", "why_tests_cant": "every permutation of batches of every size", "anchors": ["optax/_src/privacy.py:differentially_private_aggregate", "optax/_src/alias.py:dpsgd", "optax/_src/alias.py:adagrad", "optax/_src/wrappers.py:MultiSteps", "optax/_src/transform.py:apply_every", "optax/_src/transform.py:scale_by_rss", "optax/_src/transform.py:trace"]}
{"id": "C131", "title": "Adam's updates in floating point stay close to exact Adam", "statement": "With gradients of bounded size and rounded arithmetic of unit roundoff u, every update scale_by_adam returns over N steps is finite, and the n-th differs from the update of exact arithmetic by at most (12 n + 27) u relative to the update exact Adam returns for the absolute values of the gradients, plus an underflow term of order n * (smallest number) / eps. In float32 with the default hyper-parameters this covers 200000 steps and gradients up to 10^15.", "quantifier": "all trees, gradient histories, lengths within the stated limit, formats satisfying the standard rounding model", "why_tests_cant": "every gradient history and rounding pattern", "anchors": ["optax/_src/transform.py:scale_by_adam", "optax/_src/transform.py:_update_moment", "optax/_src/transform.py:_bias_correction", "optax/_src/alias.py:adam"]}
{"id": "C132", "title": "What the answer of power_iteration certifies", "statement": "For a symmetric positive semi-definite matrix: if raising num_iters by one does not change the answer (the loop was stopped by error_tolerance), some eigenvalue lies within tol + sqrt(s * tol) of the returned estimate s; if it does change, all iterations were done and s >= mu * (cos^2 angle)^(1/(2(N-1))) for every eigenvalue mu and the angle of the start vector to its eigenvector, without any spectral gap. The eigenvalue near a stopped estimate need not be the largest: for every positive tolerance there is a start vector, not orthogonal to the top eigenvector of diag(1, 1/2), for which the estimate is below 0.53 whatever num_iters.", "quantifier": "all symmetric positive semi-definite matrices of every dimension, start vectors with non-vanishing iterates, tolerances and iteration limits", "why_tests_cant": "every matrix, dimension and tolerance", "anchors": ["optax/_src/linear_algebra.py:power_iteration"]}
{"id": "C133", "title": "Smoothness and Lipschitz constants of the losses", "statement": "Per row, softmax_cross_entropy with labels of sum s >= 0 lies below its tangent plus (s/4)|x'-x|^2 (it is s/2-smooth in the logits), and for labels forming a distribution moving every logit by at most B changes the loss by at most 2B; per entry sigmoid_binary_cross_entropy is 1/4-smooth for every label and 1-Lipschitz for labels in [0,1]; l2_loss and huber_loss are 1-smooth and huber_loss is delta-Lipschitz.", "quantifier": "all batch shapes, numbers of classes, logits, labels, predictions, targets and positive delta", "why_tests_cant": "every pair of logit vectors", "anchors": ["optax/_src/loss.py:softmax_cross_entropy", "optax/_src/loss.py:sigmoid_binary_cross_entropy", "optax/_src/loss.py:l2_loss", "optax/_src/loss.py:huber_loss"]}
{"id": "C134", "title": "Training linear models to optimality", "statement": "A model whose logits are affine in its parameters, its loss the mean over the data of sigmoid_binary_cross_entropy, softmax_cross_entropy, l2_loss or huber_loss, trained with sgd on the gradient of that loss with a learning rate at most the reciprocal of an explicit curvature (mean squared feature norm over 4, 2, 1 and 1): after n steps the loss is within |p0 - q|^2/(2 eta n) of the loss of every parameter vector q. On linearly separable data the logistic training loss tends to zero.", "quantifier": "all parameter trees, data sets, labels (rows of non-negative sum), starting points, learning rates in the range, numbers of steps and comparators q", "why_tests_cant": "every data set, start and number of steps; a limit", "anchors": ["optax/_src/alias.py:sgd", "optax/_src/loss.py:sigmoid_binary_cross_entropy", "optax/_src/loss.py:softmax_cross_entropy", "optax/_src/loss.py:l2_loss", "optax/_src/loss.py:huber_loss"]}
{"id": "C135", "title": "Schedules change slowly", "statement": "Between any two steps the value moves at most, per step: |init-end|*power/transition_steps for polynomial_schedule with power >= 1 (for power in (0,1] it is Hoelder: |init-end|*(steps apart/transition_steps)^power), |init-end|/transition_steps for linear_schedule, |init(1-alpha)|*pi/(2 decay_steps) for cosine_decay_schedule, |init|*log(1/rate)/transition_steps for exponential_decay without staircase (with or without end_value), and the larger of the slopes of its two parts for warmup_cosine_decay_schedule, including across the joint. piecewise_interpolate_schedule moves per step at most the steepest chord between neighbouring knots (pi/2 times it for cosine), and so do the one-cycle schedules, with their legs. With staircase the whole factor is applied in one step.", "quantifier": "all real parameters in the stated ranges and all pairs of steps", "why_tests_cant": "every pair of steps and all parameters", "anchors": ["optax/_src/schedule.py:polynomial_schedule", "optax/_src/schedule.py:linear_schedule", "optax/_src/schedule.py:cosine_decay_schedule", "optax/_src/schedule.py:exponential_decay", "optax/_src/schedule.py:warmup_cosine_decay_schedule", "optax/_src/schedule.py:piecewise_interpolate_schedule", "optax/_src/schedule.py:linear_onecycle_schedule", "optax/_src/schedule.py:cosine_onecycle_schedule"]}
{"id": "C136", "title": "Scaling the loss by a power of two is exact in floating point", "statement": "When every gradient is multiplied by 2^k (loss scaling) and no intermediate result overflows or becomes subnormal, the updates are the same bit for bit if: sgd's learning rate or schedule is multiplied by 2^-k (with any momentum; clip, clip_by_global_norm and add_decayed_weights in front of it with their constants times 2^k); or adam/adamw's eps is multiplied by 2^k and eps_root by 4^k; or rmsprop's (centered or not, with or without momentum) and adagrad's eps and initial accumulator are multiplied by 4^k (likewise scale_by_belief's eps by 2^k and eps_root by 4^k). Unscaling first with scale(2^-k) is exact in front of every optimizer.", "quantifier": "all histories of gradients (including infinities and NaN) and params, all trees, all k, all constants, every precision of the significand", "why_tests_cant": "every history and every rounding of every operation", "anchors": ["optax/_src/transform.py:scale", "optax/_src/transform.py:trace", "optax/_src/transform.py:scale_by_adam", "optax/_src/transform.py:scale_by_rms", "optax/_src/transform.py:scale_by_rss", "optax/_src/transform.py:scale_by_stddev", "optax/_src/transform.py:scale_by_belief", "optax/_src/transform.py:add_decayed_weights", "optax/_src/clipping.py:clip", "optax/_src/clipping.py:clip_by_global_norm", "optax/_src/alias.py:sgd", "optax/_src/alias.py:adam", "optax/_src/alias.py:adamw", "optax/_src/alias.py:rmsprop", "optax/_src/alias.py:adagrad"]}
{"id": "C137", "title": "Ensembles can be trained in one stacked tree", "statement": "M models of the same structure, stacked along a new leading axis of every leaf and trained on the sum of their losses by any entrywise optimizer (sgd, momentum, adam, adamw, rmsprop, adagrad, adabelief, yogi, radam, clip, schedules, apply_every, keep_params_nonnegative, zero_nans, and chains of these), follow after every number of steps exactly the parameters each would have if trained alone. clip_by_global_norm does not have this property.", "quantifier": "all trees of parameters, all M, all gradient fields of the members, all numbers of steps, every arithmetic (reals, floats with NaN)", "why_tests_cant": "all training runs of all ensembles", "anchors": ["optax/_src/transform.py:scale_by_adam", "optax/_src/transform.py:trace", "optax/_src/transform.py:scale_by_rms", "optax/_src/transform.py:scale_by_schedule", "optax/_src/alias.py:sgd", "optax/_src/alias.py:adam", "optax/_src/alias.py:adamw", "optax/_src/alias.py:rmsprop", "optax/_src/alias.py:adagrad", "optax/_src/alias.py:adabelief", "optax/_src/alias.py:radam", "optax/_src/alias.py:yogi", "optax/_src/combine.py:chain"]}
{"id": "C138", "title": "How far a target network lags behind", "statement": "If no online parameter moves by more than delta per step, the target kept by incremental_update with step_size s in (0,1] lags behind by at most delta(1-s)/s plus the initial difference times exp(-s n), and this is attained by parameters moving at constant speed; if the online parameters converge the target converges to the same limit from any start. The target kept by periodic_update lags by at most delta times the steps since the last copy, at most delta(period-1).", "quantifier": "all sequences of online parameters, all trees, all starts, all step sizes in (0,1] and periods, all numbers of steps", "why_tests_cant": "all histories of parameters", "anchors": ["optax/_src/update.py:incremental_update", "optax/_src/update.py:periodic_update"]}
{"id": "C139", "title": "Weight decay before the learning rate is L2 regularisation", "statement": "Training with chain(add_decayed_weights(w), t) on the gradients of a loss visits exactly the parameters that training with t on the gradients of loss + w/2 ||p||^2 visits, in every arithmetic and for every structure-keeping t. With sgd on a convex L-smooth loss, w > 0 and lr (L + w) <= 1 the regularised loss has exactly one minimiser, and training converges to it geometrically (rate (1 - lr w)^n) from every start; in particular for logistic and softmax regression (also on separable data, where the unregularised weights diverge), least squares and Huber regression.", "quantifier": "all transformations t, all gradient functions, all convex smooth losses, all trees, all starts, all data sets, all numbers of steps", "why_tests_cant": "all losses, starts and histories; a limit", "anchors": ["optax/_src/transform.py:add_decayed_weights", "optax/_src/alias.py:sgd", "optax/_src/loss.py:sigmoid_binary_cross_entropy", "optax/_src/loss.py:softmax_cross_entropy", "optax/_src/loss.py:l2_loss", "optax/_src/loss.py:huber_loss", "optax/_src/combine.py:chain"]}
{"id": "C140", "title": "Without momentum and weight decay every step points downhill", "statement": "After any history of gradients and parameters, each entry of the update emitted by sgd, adagrad, rmsprop (plain or centred), sm3, adam, adabelief, yogi, radam (b1 = 0), adamw and lamb (b1 = 0, no decay) with positive learning rates has the opposite sign to the same entry of the gradient of that step and is zero only where that is, also behind clip, clip_by_global_norm, adaptive_grad_clip, zero_nans, trust-ratio scaling; so for a differentiable loss a small enough multiple of the update decreases the loss. With momentum (any m > 0) or with adam at any b1 in (0,1) some histories give an uphill step.", "quantifier": "all histories, trees, learning-rate schedules, hyper-parameters in range, preprocessing chains", "why_tests_cant": "all histories of gradients", "anchors": ["optax/_src/alias.py:sgd", "optax/_src/alias.py:adagrad", "optax/_src/alias.py:rmsprop", "optax/_src/alias.py:adam", "optax/_src/alias.py:adamw", "optax/_src/alias.py:lamb", "optax/_src/alias.py:radam", "optax/_src/alias.py:yogi", "optax/_src/alias.py:adabelief", "optax/_src/alias.py:sm3", "optax/_src/transform.py:scale_by_rss", "optax/_src/transform.py:scale_by_rms", "optax/_src/transform.py:scale_by_stddev", "optax/_src/transform.py:scale_by_adam", "optax/_src/transform.py:scale_by_trust_ratio", "optax/_src/clipping.py:clip", "optax/_src/clipping.py:clip_by_global_norm", "optax/_src/clipping.py:adaptive_grad_clip"]}
{"id": "C141", "title": "Parameter groups with different optimisers by complementary masks", "statement": "chain(masked(A, m), masked(B, not m)) never raises where A and B do not, and its updates are, at the selected positions, exactly those of A run alone on the list of selected gradients and params and, elsewhere, exactly those of B run alone on the others; the optimiser state is the pair of the two states; the other order gives the same updates.  In a training loop whose gradients are separable, the chain follows the two separate trainings; with B = scale(0), the parameters outside the mask never move.", "quantifier": "all structure-keeping transformations A and B, all containers of parameters, all prefix masks, all histories, all arithmetics", "why_tests_cant": "all trees, masks and histories", "anchors": ["optax/_src/wrappers.py:masked", "optax/_src/combine.py:chain"]}
{"id": "C142", "title": "Rounding never turns a step uphill", "statement": "In every floating point format (rounding monotone; overflow, underflow and subnormals included) sgd, adagrad and rmsprop without momentum, with positive finite learning rates or schedules, also behind clip and (sgd) clip_by_global_norm, emit for every history of finite gradients updates that are never NaN, are <= 0 where the gradient is >= 0 and >= 0 where it is <= 0 (so 0 where it is 0), and adding them to a finite parameter never moves it in the direction of its gradient, even when an accumulator or the global norm overflows. The strict form of the exact-arithmetic property does not survive rounding: small gradients can give zero updates.", "quantifier": "all formats, all trees, all histories of finite gradients, all positive finite hyperparameters", "why_tests_cant": "every rounding of every history; tests try a few numbers in one format", "anchors": ["optax/_src/alias.py:sgd", "optax/_src/alias.py:adagrad", "optax/_src/alias.py:rmsprop", "optax/_src/transform.py:scale_by_rss", "optax/_src/transform.py:scale_by_rms", "optax/_src/transform.py:scale", "optax/_src/transform.py:scale_by_schedule", "optax/_src/clipping.py:clip", "optax/_src/clipping.py:clip_by_global_norm", "optax/_src/update.py:apply_updates"]}
{"id": "C143", "title": "Training with apply_if_finite ignores the broken gradients", "statement": "In a closed training loop with apply_if_finite(opt, m), gradients being taken at the current parameters, where among any m + 1 consecutive steps at least one gradient is finite: the loop never fails and at every time its parameters and inner state are those of training with opt alone on the gradient functions of the finite steps; total_notfinite counts the others. Hence apply_if_finite(sgd) on a smooth strongly convex loss whose gradients are replaced by NaN or infinities at arbitrary steps (even depending on the parameters), never more than m in a row, keeps all parameters finite and converges at the rate of sgd per finite step. The bound is sharp: after m + 1 NaN gradients in a row every parameter is NaN.", "quantifier": "all inner transformations keeping structure, all gradient functions, all fault patterns, all trees, all histories shorter than 2^31", "why_tests_cant": "all fault patterns and histories in a closed loop", "anchors": ["optax/_src/wrappers.py:apply_if_finite", "optax/_src/update.py:apply_updates", "optax/_src/alias.py:sgd"]}
{"id": "C144", "title": "Layer-wise relative steps neither kill nor explode a layer", "statement": "In a closed training loop with arbitrary gradients: with lamb and |lr| < 1 every layer with non-zero initial parameters moves by at most |lr| times its norm per step and its norm stays between prod(1-|lr|) and prod(1+|lr|) times the initial one; with fromage(lr), 0 <= lr < 1, the norm changes per step by a factor between (1-lr)/sqrt(1+lr^2) and (1+lr)/sqrt(1+lr^2); with adaptive_grad_clip(c, eps) before the learning rate every unit moves by at most |lr| c max(norm, eps), so that max(norm, eps) grows by at most 1 + |lr| c per step.", "quantifier": "all trees (all clipped shapes for adaptive_grad_clip), gradient functions, schedules, hyper-parameters, numbers of steps", "why_tests_cant": "all gradient functions and histories in a closed loop", "anchors": ["optax/_src/alias.py:lamb", "optax/_src/alias.py:fromage", "optax/_src/clipping.py:adaptive_grad_clip", "optax/_src/transform.py:scale_by_trust_ratio"]}
{"id": "C145", "title": "MultiSteps and apply_if_finite nest in either order, with different meanings", "statement": "apply_if_finite(MultiSteps(opt, k), m), with never more than m non-finite mini-batch gradients in a row, forms its groups of the finite gradients only: opt is run on exactly their accumulations, the call completing the j-th such group returns the j-th update and every other call zeros (a bad mini-batch costs one mini-batch). MultiSteps(apply_if_finite(opt, m), k), with never more than m spoilt groups in a row, drops every group containing a non-finite gradient as a whole and runs opt on the accumulations of the others; in floating point too a group with a bad mini-batch never reaches opt as finite. Both run through every history for structure-keeping opt.", "quantifier": "all optimisers, trees, group-size schedules, gradients (with NaN and infinities), histories shorter than 2^31, both settings of use_grad_mean", "why_tests_cant": "all fault patterns, group schedules and histories", "anchors": ["optax/_src/wrappers.py:apply_if_finite", "optax/_src/wrappers.py:MultiSteps"]}
{"id": "C146", "title": "Gradient accumulation in floating point is accurate for moderate group sizes, and only for those", "statement": "In floating point with unit roundoff u and underflow threshold eta, MultiSteps with groups of k <= 1/(2u) mini-batches of finite gradients away from overflow hands the wrapped optimiser finite averages within 8ku times the average gradient magnitude of the group, plus 4 eta, of the exact average (sums within 2ku times the sum of the magnitudes plus 2k eta); apply_every(k) emits sums with the same bound every k-th call and exact zeros otherwise. In float32, with k <= 2^20 and gradients bounded by G, the error is at most k 2^-21 G + 2^-148. The restriction matters: with bfloat16 parameters, gradients that are all 1 and groups of 2^(8+d) mini-batches, the accumulator stops at 256 and the optimiser receives 2^-d instead of 1. The modelled binary formats (single precision, bfloat16) round every result to a nearest number of the format, with an even significand when it is half a unit of the last digit away, and overflow from half a unit above the largest number on.", "quantifier": "all floating point formats with the standard error model, optimisers, trees, finite gradients, group-size schedules, numbers of calls", "why_tests_cant": "rounding errors of every history and group size", "anchors": ["optax/_src/wrappers.py:MultiSteps", "optax/_src/transform.py:apply_every"]}
{"id": "C147", "title": "Any number of parameter groups given by a tree of labels", "statement": "Let a tree of labels be a prefix of the parameters, and chain, for a list of distinct labels, masked(A_i, mask of the label i). Then for every history the updates at the positions labelled i are exactly those of A_i run alone on the list of the gradients and params labelled i (from its own init), the positions whose label is not in the list receive the raw gradients, the state of the chain consists of the states of the A_i, and permuting the list changes nothing in the updates. For structure-keeping A_i nothing ever raises. When every label of the tree is in the list and the gradients of each group depend only on the parameters of that group, training with the chain is the separate trainings of the groups side by side, for any number of steps.", "quantifier": "all transformations, label types, label trees, lists of distinct labels, parameter containers, histories", "why_tests_cant": "all trees, label trees, numbers of groups and histories", "anchors": ["optax/_src/wrappers.py:masked", "optax/_src/combine.py:chain"]}
{"id": "C148", "title": "The edge of stability of sgd, exactly", "statement": "Train with sgd(lr, momentum, nesterov), 0 <= momentum < 1, on the loss (p-q)'A(p-q)/2 with A symmetric over all parameters. The parameters reach the minimiser q from every start if and only if every eigenvalue c of A satisfies 0 < lr*c < edge, where the edge is 2 without momentum, 2(1+momentum) with momentum and 2(1+momentum)/(1+2*momentum) with Nesterov momentum. Direction by direction: the component of the error along an eigenvector tends to zero iff it starts at zero or its eigenvalue is inside these limits, and is unbounded when lr*c is negative or beyond the edge, however small the initial error. So momentum almost doubles the largest stable learning rate, and Nesterov momentum lowers it below that of plain sgd.", "quantifier": "all symmetric matrices, minimisers, starts, learning rates, momenta in [0,1), both momentum variants, parameter trees", "why_tests_cant": "infinite runs, all quadratic losses and starts, and an exact threshold", "anchors": ["optax/_src/alias.py:sgd", "optax/_src/transform.py:trace", "optax/_src/update.py:apply_updates"]}
{"id": "C149", "title": "Zero learning rates freeze training, but not rmsprop with momentum", "statement": "Whatever the losses and gradients: between any two steps adam(lr), adagrad(lr) and rmsprop(lr) with default arguments move no parameter by more than 73, 1 and 3.17 times the sum of the learning rates used in between (with cosine_decay_schedule(lr,T) adam moves at most 73*lr*(T+1)/2 in total). Every chain that ends with the learning rate (sgd with or without momentum, adam, adamw, adabelief, adagrad, lamb, radam, yogi) leaves the parameters unchanged for ever once the schedule has reached zero. rmsprop with momentum does not: it applies momentum after the learning rate, so that from then on every update is momentum times the one before, whatever the gradients, and the parameters keep moving by momentum/(1-momentum) times the last update in total.", "quantifier": "all losses, gradients, schedules, parameter trees, hyper-parameters, numbers of steps", "why_tests_cant": "all gradient histories and infinite runs", "anchors": ["optax/_src/alias.py:adam", "optax/_src/alias.py:adagrad", "optax/_src/alias.py:rmsprop", "optax/_src/alias.py:sgd", "optax/_src/alias.py:_scale_by_learning_rate", "optax/_src/schedule.py:cosine_decay_schedule", "optax/_src/transform.py:trace"]}
{"id": "C150", "title": "Momentum multiplies the learning rate by 1/(1 - momentum)", "statement": "Train with sgd(lr, momentum=b, nesterov) on any losses. After N steps the parameters are the initial ones minus lr/(1-b) times the sum over all steps j of (1 - b^(N-j)) (Nesterov: 1 - b^(N-j+1)) times the gradient met at step j: every gradient contributes its full lr/(1-b) in the end, with a geometric delay. If the gradients are bounded by B the parameters stay for ever within lr*b*B/(1-b)^2 of the initial ones minus lr/(1-b) times the plain sum of the gradients. A single gradient followed by zeros moves the parameters by exactly -lr/(1-b) times itself in the limit.", "quantifier": "all losses, gradient sequences, learning rates, momenta different from 1, both variants, parameter trees, numbers of steps", "why_tests_cant": "all gradient histories and infinite runs", "anchors": ["optax/_src/alias.py:sgd", "optax/_src/transform.py:trace"]}
{"id": "C151", "title": "Steps without gradient can be skipped for sgd and adagrad", "statement": "Sparse gradients (rows of an embedding table): with sgd without momentum and adagrad, constant learning rate, an entry with zero gradient at some steps receives zero updates at these steps, and its updates at the other steps are exactly those of the run on the history with these steps left out, for every entry and every history (so lazy updates are exact). With momentum a zero gradient still gives a non-zero update, and rmsprop's next update differs from the one after skipping.", "quantifier": "all histories, entries, parameter trees, learning rates and accumulator settings", "why_tests_cant": "all histories and all patterns of sparsity", "anchors": ["optax/_src/alias.py:sgd", "optax/_src/alias.py:adagrad", "optax/_src/alias.py:rmsprop", "optax/_src/transform.py:scale_by_rss", "optax/_src/transform.py:scale_by_rms", "optax/_src/transform.py:trace"]}
{"id": "C152", "title": "What one NaN gradient entry does", "statement": "In every floating point format: with sgd with momentum (momentum=0 included), adam, adamw, adabelief, radam, yogi, lamb, rmsprop (centered or not), debiased ema and apply_every, one NaN entry of one gradient makes this entry of that update and of all later updates NaN, whatever the later gradients; in training the parameter entry is NaN for ever with every alias including plain sgd, adagrad and fromage. Adagrad hides it: its later updates of this entry are exactly 0. sgd(momentum=None) returns numbers again, sgd(momentum=0) does not. clip_by_global_norm spreads one NaN entry to all entries of all leaves in the same call. zero_nans in front of a chain prevents all this: the updates are those of the rest of the chain on the gradients with 0 in place of NaN.", "quantifier": "all formats (and the extended reals), parameter trees, positions, histories, hyper-parameters and learning rates", "why_tests_cant": "all histories and all later steps", "anchors": ["optax/_src/alias.py:sgd", "optax/_src/alias.py:adam", "optax/_src/alias.py:adamw", "optax/_src/alias.py:adabelief", "optax/_src/alias.py:radam", "optax/_src/alias.py:yogi", "optax/_src/alias.py:lamb", "optax/_src/alias.py:rmsprop", "optax/_src/alias.py:adagrad", "optax/_src/alias.py:fromage", "optax/_src/transform.py:trace", "optax/_src/transform.py:scale_by_adam", "optax/_src/transform.py:scale_by_rms", "optax/_src/transform.py:scale_by_rss", "optax/_src/transform.py:apply_every", "optax/_src/clipping.py:clip_by_global_norm", "optax/_src/constrain.py:zero_nans"]}
{"id": "C153", "title": "Momentum accelerates on ill-conditioned quadratics", "statement": "On a quadratic loss whose eigenvalues lie in [mu, L] (any symmetric matrix over all parameters), sgd(eta, momentum=beta) with (1 - sqrt beta)^2 < eta mu and eta L < (1 + sqrt beta)^2 brings the squared distance to the minimiser below C beta^n times the initial one after n steps, from every start, with an explicit constant; such a learning rate exists as soon as sqrt L (1 - sqrt beta) < sqrt mu (1 + sqrt beta). Along one direction of curvature c, Nesterov momentum shrinks the error by sqrt(beta (1 - eta c)) per step in the underdamped range. Without momentum, whatever the learning rate, there is a start from which every step shrinks the distance by a factor of exactly f, f at least (L - mu)/(L + mu).", "quantifier": "learning rates, momenta, parameter trees, symmetric matrices with any spectrum, minimisers, starts, numbers of steps", "why_tests_cant": "all horizons, dimensions and spectra", "anchors": ["optax/_src/alias.py:sgd", "optax/_src/transform.py:trace"]}
{"id": "C154", "title": "Changing the unit of the parameters; scale-invariant losses", "statement": "Express all parameters in another unit (multiply them by c > 0; the gradients are divided by c). Training then visits exactly c times the parameters, at every step, if sgd (any momentum) gets c^2 times the learning rate (a global-norm threshold in front divided by c, a weight decay in front divided by c^2), adam and adamw c times the learning rate, eps/c, eps_root/c^2 and weight_decay/c, rmsprop (centered or not, any momentum) and adagrad c times the learning rate and eps and initial accumulator divided by c^2. For powers of two it holds bit for bit in floating point short of overflow and underflow. For a loss that does not change when the parameters are scaled, the same holds of one and the same problem (so start scale and learning rate are interchangeable), and with plain sgd the squared norm of the parameters grows in every step by exactly the squared norm of the step.", "quantifier": "units, losses (a new one at every step, if you like), learning rates and schedules, hyper-parameters, parameter trees, starts, horizons, precisions", "why_tests_cant": "all horizons and losses", "anchors": ["optax/_src/alias.py:sgd", "optax/_src/alias.py:adam", "optax/_src/alias.py:adamw", "optax/_src/alias.py:rmsprop", "optax/_src/alias.py:adagrad", "optax/_src/clipping.py:clip_by_global_norm", "optax/_src/transform.py:add_decayed_weights"]}
{"id": "C155", "title": "Weight decay on scale-invariant losses: the equilibrium of the norm", "statement": "Train with chain(add_decayed_weights(w), sgd(lr)) on scale-invariant losses, a new one in every step if you like. In every step the squared norm of the parameters is multiplied by (1-lr*w)^2 and increased by the squared norm of lr times the gradient. If the gradients met have norm between a/|p| and b/|p|, the squared norm is at least 2(1-lr*w)*lr*a from the first step on, for any schedule and any start but 0, and bounded above for ever; if the norm is a/|p| and lr*w <= 1/2 the squared norm converges geometrically to lr*a/sqrt(1-(1-lr*w)^2), the relative size of a step to sqrt(1-(1-lr*w)^2) and the cosine of the angle between successive parameters to 1-lr*w. So the effective learning rate depends on the product lr*w only, not on the initialisation.", "quantifier": "scale-invariant losses (a new one at every step), learning rates and schedules, decay rates, parameter trees, starts, horizons", "why_tests_cant": "all horizons and losses", "anchors": ["optax/_src/transform.py:add_decayed_weights", "optax/_src/alias.py:sgd"]}
{"id": "C156", "title": "sgd follows the gradient flow", "statement": "Train with sgd(lr), any schedule of rates in [0,h], on a loss with L-Lipschitz gradients, and let x be a solution of the gradient flow x' = -grad loss(x) started at the same point along which the gradient is at most B. After N steps the parameters are within h*B*(e^(L*t)-1)/2 of x(t), t the sum of the N learning rates; for convex losses and rates at most 2/L within h*L*B*t/2, for mu-strongly convex losses within h*L*B/(2*mu) for ever. So two schedules with the same sum of learning rates end, to first order in the rates, at the same parameters. sgd(lr, momentum=b, nesterov or not) follows the same flow with lr/(1-b) in place of lr.", "quantifier": "schedules, learning rates, momenta, losses with Lipschitz gradients, parameter trees, starts, horizons", "why_tests_cant": "all horizons, schedules and losses", "anchors": ["optax/_src/alias.py:sgd", "optax/_src/transform.py:trace", "optax/_src/transform.py:scale", "optax/_src/transform.py:scale_by_schedule"]}
{"id": "C157", "title": "sgd tracks a moving minimiser", "statement": "Train with sgd(lr), rates in [a,h] with h*(L+mu) <= 2, where in step n the gradient of a mu-strongly convex L-smooth loss n is read with an error of norm at most eps, and the minimiser moves by at most v per step. The distance of the parameters to the current minimiser after N steps is at most (1-a*mu)^N times the initial distance plus (h*eps+v)/(a*mu). On quadratics of curvature c whose minimiser moves by u per step, sgd(lr, momentum=b, nesterov or not) follows exactly (1-b)*u/(lr*c) behind, as long as lr*c is below the edge of stability.", "quantifier": "schedules, learning rates, momenta, sequences of losses, gradient errors, drifts, parameter trees, starts, horizons", "why_tests_cant": "all horizons and sequences of losses", "anchors": ["optax/_src/alias.py:sgd", "optax/_src/transform.py:trace", "optax/_src/transform.py:scale", "optax/_src/transform.py:scale_by_schedule"]}
{"id": "C158", "title": "The edge of stability of lookahead", "statement": "Train with lookahead(sgd(lr), k, a), 0 < a <= 1, gradients taken at the fast parameters. The component of the error along a direction of constant curvature c is after j periods and r < k further steps (1-lr*c)^r (1-a+a(1-lr*c)^k)^j times the initial one (slow parameters: without the first factor). Fast and slow parameters converge along it if and only if it starts at zero or 0 < lr*c < edge; the edge is 2, that of plain sgd, for even k or a = 1, and 1 + (2/a-1)^(1/k) > 2 for odd k and a < 1. On quadratic losses all parameters reach the minimiser from every start if every eigenvalue satisfies this.", "quantifier": "learning rates, sync periods, slow step sizes, losses with directions of constant curvature, quadratic losses, parameter trees, starts", "why_tests_cant": "all horizons, dimensions and starts", "anchors": ["optax/_src/lookahead.py:lookahead", "optax/_src/lookahead.py:_lookahead_update", "optax/_src/lookahead.py:LookaheadParams", "optax/_src/alias.py:sgd"]}
{"id": "C159", "title": "What averaging does to gradient noise", "statement": "Let the gradients of one entry over time be random: square integrable, pairwise independent, of mean m and variance V. trace(d): the update at call n (from 0) has mean m(1-d^(n+1))/(1-d) and variance V(1-d^(2(n+1)))/(1-d^2), tending to m/(1-d) and V/(1-d^2). ema(d) with bias correction: the update is an unbiased estimate of m from the first call on, with variance V(1-d)(1+d^(n+1))/((1+d)(1-d^(n+1))) <= V (strictly below V from the second call on if d, V > 0), tending to V(1-d)/(1+d). apply_every(k) at the end of a period: mean k*m, variance k*V. MultiSteps with groups of k at the end of a group: mean m and variance V/k with use_grad_mean, k*m and k*V without.", "quantifier": "decay rates, group sizes, probability spaces and random gradient histories with the stated moments, parameter trees, entries", "why_tests_cant": "distributions of histories; all horizons", "anchors": ["optax/_src/transform.py:trace", "optax/_src/transform.py:ema", "optax/_src/transform.py:apply_every", "optax/_src/wrappers.py:MultiSteps"]}
{"id": "C160", "title": "The noise floor of SGD", "statement": "Train with sgd without momentum; along a direction v the loss has constant curvature c around q and the gradient's component carries centred noise, pairwise independent between steps, of variance V. For every learning rate or schedule the mean of the component of p - q follows the noise free run and its variance satisfies W(n+1) = (1 - lr_n c)^2 W(n) + lr_n^2 V exactly, W(0) = 0. With a constant rate and 0 < lr*c < 2 the mean tends to 0 and the variance to lr*V/(c(2 - lr*c)), never to 0; otherwise (lr != 0, V > 0) the variance grows without bound. With the schedule 1/(c(t+1)) the start is forgotten after one step and the variance after n steps is V/(c^2 n), until the step counter saturates.", "quantifier": "learning rates, schedules, losses with directions of constant curvature, probability spaces, noise histories, starts, parameter trees", "why_tests_cant": "distributions of histories; all horizons", "anchors": ["optax/_src/alias.py:sgd", "optax/_src/transform.py:scale_by_schedule", "optax/_src/update.py:apply_updates"]}
{"id": "C161", "title": "The noise floor of heavy-ball momentum", "statement": "Train with sgd(lr, momentum=b), 0 <= b < 1, no Nesterov; along a direction v the loss has constant curvature c around q and the gradient's component carries centred noise, pairwise independent between steps, of variance V. Whenever 0 < lr*c < 2(1+b), the mean of the component of p - q tends to 0 and its variance rises monotonically to exactly lr(1+b)V/((1-b)c(2(1+b) - lr*c)). At the same effective rate lr/(1-b) this floor is strictly below that of plain sgd, whenever plain sgd is stable.", "quantifier": "learning rates, momenta, curvatures, noise variances, probability spaces, noise histories, starts, parameter trees", "why_tests_cant": "distributions of histories; limits over all horizons", "anchors": ["optax/_src/alias.py:sgd", "optax/_src/transform.py:trace", "optax/_src/update.py:apply_updates"]}
{"id": "C162", "title": "The noise floor of lookahead", "statement": "Train with lookahead(sgd(lr), k, a), 0 < a <= 1, gradients taken at the fast parameters; along a direction v the loss has constant curvature c around q and the gradient's component carries centred noise, pairwise independent between steps, of variance V. With r = 1 - lr*c, after j periods and any number of further steps below k the slow parameters' component of p - q has mean (1-a+a r^k)^j times the initial one and variance a^2 lr^2 V (sum_{i<k} r^(2i)) (sum_{i<j} (1-a+a r^k)^(2i)). If 0 < lr*c < 2 the variance tends to that of plain sgd, lr*V/(c(2-lr*c)), times a(1+r^k)/(2-a(1-r^k)); the factor is 1 for a = 1 and strictly between 0 and 1 for a < 1.", "quantifier": "learning rates, sync periods, slow step sizes, curvatures, noise variances, probability spaces, noise histories, starts, parameter trees", "why_tests_cant": "distributions of histories; all horizons and limits", "anchors": ["optax/_src/lookahead.py:lookahead", "optax/_src/lookahead.py:_lookahead_update", "optax/_src/lookahead.py:LookaheadParams", "optax/_src/alias.py:sgd"]}
{"id": "C163", "title": "Averaging the parameters removes noise", "statement": "Train with sgd(lr), along a direction v of curvature c around q with centred, pairwise independent gradient noise of variance V, 0 < lr*c < 2, and after every step move averaged parameters towards the parameters by incremental_update with step size 0 < t <= 1, from any initial average. The averaged parameters' component of the error has mean tending to 0 and variance tending to that of the parameters themselves, lr*V/(c(2-lr*c)), times t(1+r(1-t))/((2-t)(1-r(1-t))), r = 1-lr*c. The factor is positive, 1 for t = 1, below 1 for t < 1 and at most 2t/(1-|r|): it vanishes as t does.", "quantifier": "learning rates, averaging step sizes, curvatures, noise variances, probability spaces, noise histories, starts, parameter trees", "why_tests_cant": "distributions of histories; limits over all horizons", "anchors": ["optax/_src/update.py:incremental_update", "optax/_src/update.py:apply_updates", "optax/_src/alias.py:sgd"]}
{"id": "C164", "title": "The noise floor of sgd on a quadratic loss", "statement": "Train with sgd(lr) on the loss (p-q).M(p-q)/2, M symmetric with eigenvalues c_j, 0 < lr*c_j < 2, from any parameters, adding to the gradient noise that at every entry is centred with variance V, pairwise independent between entries and between steps. The expected squared distance to q tends to sum_j lr*V/(c_j(2-lr*c_j)) and the expected loss to sum_j lr*V/(2(2-lr*c_j)), which is at least lr*V/4 times the number of parameters.", "quantifier": "learning rates, symmetric matrices, noise variances, probability spaces, noise histories, starts, parameter trees", "why_tests_cant": "distributions of histories; limits over all horizons, every dimension and spectrum", "anchors": ["optax/_src/alias.py:sgd", "optax/_src/update.py:apply_updates"]}
{"id": "C165", "title": "The noise floor of Nesterov momentum", "statement": "Train with sgd(lr, momentum=b, nesterov=True), 0 <= b < 1, along a direction v of curvature c around q with centred, pairwise independent gradient noise of variance V, 0 < lr*c and lr*c*(1+2b) < 2(1+b). The mean error tends to 0 and the variance rises, never above it, to lr*V*(1+b+b(1+2b)lr*c)/((1-b+b*lr*c)*c*(2(1+b)-(1+2b)lr*c)). With the same rate and momentum this is below the floor without nesterov exactly when b(1+2b)lr*c < (1+b)^2(2b-1), hence never for b <= 1/2.", "quantifier": "learning rates, momenta, curvatures, noise variances, probability spaces, noise histories, starts, parameter trees", "why_tests_cant": "distributions of histories; limits over all horizons", "anchors": ["optax/_src/alias.py:sgd", "optax/_src/transform.py:trace", "optax/_src/update.py:apply_updates"]}
{"id": "C166", "title": "The noise floor of momentum on a quadratic loss", "statement": "In the setting of C164 train with sgd(lr, momentum=b), 0 <= b < 1, all 0 < lr*c_j < 2(1+b): the expected squared distance tends to the sum of C161's floors over the eigenvalues and the expected loss to sum_j lr(1+b)V/(2(1-b)(2(1+b)-lr*c_j)), at least lr*V/(4(1-b)) times the number of parameters, so that momentum does not beat the floor of the effective rate lr/(1-b). With nesterov=True and all lr*c_j*(1+2b) < 2(1+b) the limits are those of C165 summed: the expected loss tends to sum_j lr(1+b+b(1+2b)lr*c_j)V/(2(1-b+b*lr*c_j)(2(1+b)-(1+2b)lr*c_j)).", "quantifier": "learning rates, momenta, symmetric matrices, noise variances, probability spaces, noise histories, starts, parameter trees", "why_tests_cant": "distributions of histories; limits over all horizons, every dimension and spectrum", "anchors": ["optax/_src/alias.py:sgd", "optax/_src/transform.py:trace"]}
{"id": "C167", "title": "Gradient accumulation divides the noise floor", "statement": "Train with MultiSteps(sgd(lr), K), micro-batch gradients having along a direction v constant curvature c and centred, pairwise independent noise of variance V. At every micro-step of group j (fewer than 2^31 micro-steps) the component of the error has mean (1-lr*c)^j times the initial one and variance lr^2 (V/K) sum_{i<j} (1-lr*c)^(2i), so that for 0 < lr*c < 2 it never exceeds lr*V/(c(2-lr*c)) / K, a K-th of the floor without accumulation. With use_grad_mean=False the same holds with curvature K*c and noise variance K*V.", "quantifier": "learning rates, group sizes, curvatures, noise variances, probability spaces, noise histories, starts, parameter trees", "why_tests_cant": "distributions of histories; all horizons", "anchors": ["optax/_src/wrappers.py:MultiSteps", "optax/_src/alias.py:sgd"]}
{"id": "C168", "title": "Weight decay trades bias for noise", "statement": "Train with chain(add_decayed_weights(w), sgd(lr)), along a direction v of curvature c around q with centred, pairwise independent gradient noise of variance V, 0 < lr*(c+w) < 2. The mean error of the component tends to -w/(c+w) times the component of q, its variance to lr*V/((c+w)(2-lr*(c+w))) and the mean squared error to the sum of the variance and the squared bias. Whenever lr*c < 1 and V > 0, whatever q, some positive weight decay has a smaller limit of the mean squared error than none.", "quantifier": "learning rates, weight decays, curvatures, minimisers, noise variances, probability spaces, noise histories, starts, parameter trees", "why_tests_cant": "distributions of histories; limits over all horizons", "anchors": ["optax/_src/alias.py:sgd", "optax/_src/transform.py:add_decayed_weights"]}
{"id": "C169", "title": "The implicit bias of gradient descent", "statement": "Train with sgd, any learning rate or schedule, with or without (Nesterov) momentum, on gradients that at every step and every parameters are combinations of fixed feature trees phi_1..phi_R (a model linear in its parameters, any loss). At every step the parameters differ from the initial ones by a combination of the features. If the parameters converge, their limit q is the nearest to the initial parameters of all parameters with the same outputs sum(phi_r * z) on all examples, and |z-p0|^2 = |z-q|^2 + |q-p0|^2 for those. scale_by_adam does not have this property: on the gradient (1,2) its first update is not a multiple of (1,2).", "quantifier": "learning rates, schedules, momenta, feature trees and their number, gradients, starts, parameter trees", "why_tests_cant": "infinitely many histories and competing solutions", "anchors": ["optax/_src/alias.py:sgd", "optax/_src/transform.py:trace", "optax/_src/transform.py:scale_by_adam"]}
{"id": "C170", "title": "Rescaling symmetries: layers stay balanced", "statement": "Suppose that at all parameters the gradients satisfy sum(e * p * g) = 0 for fixed weights e (e = 1 on some entries and -1 on others: the loss does not change when the former are multiplied and the latter divided by a factor, as between consecutive layers of a ReLU network). Let B(x) = sum(e * x^2). Training with sgd and any learning rates: B(p) changes at step n exactly by lr_n^2 B(g_n), so that with rates in [0,h] and |B(g)| <= M it moves by at most h*M*(sum of the rates). Training with chain(add_decayed_weights(w), sgd(lr)), 0 < lr*w < 2: B(p_{n+1}) = (1-lr*w)^2 B(p_n) + lr^2 B(g_n), and if |B(g)| <= M the initial imbalance is forgotten: |B(p_N)| <= (1-lr*w)^(2N)|B(p_0)| + lr*M/(w(2-lr*w)).", "quantifier": "learning rates, schedules, weight decays, symmetries, gradients, starts, parameter trees", "why_tests_cant": "all histories of any length", "anchors": ["optax/_src/alias.py:sgd", "optax/_src/transform.py:add_decayed_weights"]}
{"id": "C171", "title": "Symmetric units never separate", "statement": "Let some entries of the parameters be related (the weights of interchangeable hidden units), and let the gradients at related entries agree wherever all related entries of the parameters do. Trained by sgd, adagrad, rmsprop, adam, adamw, adabelief, radam, yogi or any other chain of entrywise transformations, with any hyper-parameters and schedules, from parameters where they agree, related entries are equal at every step, in every arithmetic including floating point: only randomness or the initial values can break the symmetry.", "quantifier": "optimisers, hyper-parameters, relations between entries, gradients, starts, parameter trees", "why_tests_cant": "all histories of any length, every symmetry", "anchors": ["optax/_src/alias.py:sgd", "optax/_src/alias.py:adagrad", "optax/_src/alias.py:rmsprop", "optax/_src/alias.py:adam", "optax/_src/alias.py:adamw", "optax/_src/alias.py:adabelief", "optax/_src/alias.py:radam", "optax/_src/alias.py:yogi"]}
