{
 "claims": [
  {
   "property": "C01",
   "status": "proved",
   "theorems": [
    "C01_adam",
    "C01_add_noise",
    "C01_belief",
    "C01_ema",
    "C01_increment",
    "C01_increment_mono",
    "C01_inject_hyperparams",
    "C01_nonneg_mono",
    "C01_radam",
    "C01_schedule",
    "C01_schedule_total",
    "C01_yogi"
   ],
   "note": ""
  },
  {
   "property": "C02",
   "status": "proved",
   "theorems": [
    "C02_chain_sequential",
    "C02_chain_step"
   ],
   "note": ""
  },
  {
   "property": "C03",
   "status": "proved",
   "theorems": [
    "C03_chain_assoc",
    "C03_chain_identity",
    "C03_chain_singleton"
   ],
   "note": ""
  },
  {
   "property": "C04",
   "status": "proved",
   "theorems": [
    "C04_chain_no_args",
    "C04_chain_reachable_arity",
    "C04_chain_right_arity",
    "C04_chain_wrong_arity"
   ],
   "note": ""
  },
  {
   "property": "C05",
   "status": "proved",
   "theorems": [
    "C05_adam",
    "C05_adaptive_grad_clip",
    "C05_add_decayed_weights",
    "C05_add_noise",
    "C05_aliases",
    "C05_aliases_with_params",
    "C05_apply_every",
    "C05_belief",
    "C05_centralize",
    "C05_clip",
    "C05_clip_by_global_norm",
    "C05_dpsgd",
    "C05_ema",
    "C05_identity",
    "C05_keep_params_nonnegative",
    "C05_radam",
    "C05_rms",
    "C05_rss",
    "C05_scale",
    "C05_schedule",
    "C05_sm3",
    "C05_stddev",
    "C05_trace",
    "C05_trust_ratio",
    "C05_yogi",
    "C05_zero_nans"
   ],
   "note": ""
  },
  {
   "property": "C06",
   "status": "proved",
   "theorems": [
    "C06_apply_updates",
    "C06_apply_updates_seq",
    "C06_rejects_structure_mismatch",
    "C06_trees"
   ],
   "note": ""
  },
  {
   "property": "C07",
   "status": "proved",
   "theorems": [
    "C07_bounds",
    "C07_closed_form",
    "C07_special"
   ],
   "note": ""
  },
  {
   "property": "C08",
   "status": "proved",
   "theorems": [
    "C08_periodic_loop",
    "C08_periodic_update",
    "C08_rejects"
   ],
   "note": ""
  },
  {
   "property": "C09",
   "status": "proved",
   "theorems": [
    "C09_any_rounding",
    "C09_requires_params",
    "C09_step",
    "C09_training"
   ],
   "note": ""
  },
  {
   "property": "C10",
   "status": "proved",
   "theorems": [
    "C10_init",
    "C10_xreal",
    "C10_zero_nans"
   ],
   "note": ""
  },
  {
   "property": "C11",
   "status": "proved",
   "theorems": [
    "C11_clip",
    "C11_idempotent",
    "C11_monotone"
   ],
   "note": ""
  },
  {
   "property": "C12",
   "status": "proved",
   "theorems": [
    "C12_clip_by_global_norm",
    "C12_finite",
    "C12_idempotent",
    "C12_zero_max_norm_nan"
   ],
   "note": ""
  },
  {
   "property": "C13",
   "status": "proved",
   "theorems": [
    "C13_adaptive_grad_clip",
    "C13_missing_params",
    "C13_unsupported_shape"
   ],
   "note": ""
  },
  {
   "property": "C14",
   "status": "proved",
   "theorems": [
    "C14_all_finite",
    "C14_apply_if_finite",
    "C14_preserves",
    "C14_shape_change"
   ],
   "note": ""
  },
  {
   "property": "C15",
   "status": "proved",
   "theorems": [
    "C15_any_arithmetic",
    "C15_drops_params",
    "C15_multi_steps",
    "C15_preserves",
    "C15_preserves_any"
   ],
   "note": ""
  },
  {
   "property": "C16",
   "status": "proved",
   "theorems": [
    "C16_decay_at_zero",
    "C16_init",
    "C16_noninterference",
    "C16_not_prefix",
    "C16_run",
    "C16_scalar_params",
    "C16_single_array_params",
    "C16_structure",
    "C16_update",
    "C16_update_error"
   ],
   "note": ""
  },
  {
   "property": "C17",
   "status": "proved",
   "theorems": [
    "C17_maybe_update",
    "C17_preserves",
    "C17_shape_change"
   ],
   "note": ""
  },
  {
   "property": "C18",
   "status": "proved",
   "theorems": [
    "C18_calls_inner",
    "C18_clip_by_global_norm",
    "C18_empty",
    "C18_entrywise",
    "C18_not_array",
    "C18_not_trust_ratio",
    "C18_round_trip",
    "C18_wrong_length"
   ],
   "note": ""
  },
  {
   "property": "C19",
   "status": "proved",
   "theorems": [
    "C19_init",
    "C19_needs_lookahead_params",
    "C19_nested_loops",
    "C19_params_mismatch",
    "C19_rejects",
    "C19_slow_constant",
    "C19_step",
    "C19_synced"
   ],
   "note": ""
  },
  {
   "property": "C20",
   "status": "proved",
   "theorems": [
    "C20_adam_layout",
    "C20_counter",
    "C20_nan_survives",
    "C20_no_reset",
    "C20_reset",
    "C20_reset_step"
   ],
   "note": ""
  },
  {
   "property": "C21",
   "status": "proved",
   "theorems": [
    "C21_bounded",
    "C21_linear",
    "C21_trace",
    "C21_zero_decay"
   ],
   "note": ""
  },
  {
   "property": "C22",
   "status": "partial",
   "theorems": [
    "C22_between",
    "C22_constant",
    "C22_ema_partial",
    "C22_no_debias_false",
    "C22_weights"
   ],
   "note": "State closed form, de-biased output, convexity weights and range proved in full for debias=True. The last sentence (debias=False returns the moving average) is false of the code: it returns the raw gradients (transform.py ema, `updates` is returned unless debias). Negation: C22_no_debias_false. The _partial theorem covers everything else."
  },
  {
   "property": "C23",
   "status": "proved",
   "theorems": [
    "C23_bounds",
    "C23_rss"
   ],
   "note": ""
  },
  {
   "property": "C24",
   "status": "proved",
   "theorems": [
    "C24_bounds",
    "C24_finite",
    "C24_rms"
   ],
   "note": ""
  },
  {
   "property": "C25",
   "status": "proved",
   "theorems": [
    "C25_finite",
    "C25_stddev"
   ],
   "note": ""
  },
  {
   "property": "C26",
   "status": "proved",
   "theorems": [
    "C26_adam",
    "C26_constant",
    "C26_finite",
    "C26_numerator",
    "C26_saturated",
    "C26_weights"
   ],
   "note": ""
  },
  {
   "property": "C27",
   "status": "proved",
   "theorems": [
    "C27_bounded",
    "C27_bounded_forever",
    "C27_scale_invariant",
    "C27_travel"
   ],
   "note": ""
  },
  {
   "property": "C28",
   "status": "proved",
   "theorems": [
    "C28_belief",
    "C28_nonneg",
    "C28_saturated"
   ],
   "note": ""
  },
  {
   "property": "C29",
   "status": "partial",
   "theorems": [
    "C29_false",
    "C29_yogi_nonneg_partial",
    "C29_yogi_step_partial"
   ],
   "note": "The code squares the signed square a second time (transform.py scale_by_yogi calls _update_moment with order 2 on the already squared moment and starts from 1e-6), so the paper's bound is false: C29_false. The _partial theorems give the step the code really performs, and non-negativity of the accumulator."
  },
  {
   "property": "C30",
   "status": "partial",
   "theorems": [
    "C30_r_unit",
    "C30_radam_partial",
    "C30_ro_lt",
    "C30_ro_wraps"
   ],
   "note": "Proved for counts below 2^30. `2 * count_inc` is an int32 product and wraps at 2^30, after which ro_t is meaningless: C30_ro_wraps. The _partial theorem has that bound as hypothesis."
  },
  {
   "property": "C31",
   "status": "proved",
   "theorems": [
    "C31_finite",
    "C31_min_norm",
    "C31_norm",
    "C31_requires_params",
    "C31_trust_ratio"
   ],
   "note": ""
  },
  {
   "property": "C32",
   "status": "proved",
   "theorems": [
    "C32_forward_derivative",
    "C32_ge",
    "C32_naive_nan",
    "C32_reverse_derivative",
    "C32_safe_norm"
   ],
   "note": ""
  },
  {
   "property": "C33",
   "status": "proved",
   "theorems": [
    "C33_apply_every",
    "C33_inf_leaks",
    "C33_one",
    "C33_total"
   ],
   "note": ""
  },
  {
   "property": "C34",
   "status": "proved",
   "theorems": [
    "C34_centralize",
    "C34_idempotent",
    "C34_norm"
   ],
   "note": ""
  },
  {
   "property": "C35",
   "status": "proved",
   "theorems": [
    "C35_dominates",
    "C35_empty_axis",
    "C35_rank_zero",
    "C35_recursion",
    "C35_vs_adagrad"
   ],
   "note": ""
  },
  {
   "property": "C36",
   "status": "proved",
   "theorems": [
    "C36_keys_distinct",
    "C36_noise",
    "C36_run"
   ],
   "note": ""
  },
  {
   "property": "C37",
   "status": "proved",
   "theorems": [
    "C37_aliases_ignored",
    "C37_aliases_required",
    "C37_aliases_value_error",
    "C37_chain_ignored",
    "C37_chain_required",
    "C37_ignored",
    "C37_required"
   ],
   "note": ""
  },
  {
   "property": "C38",
   "status": "proved",
   "theorems": [
    "C38_learning_rate_schedule",
    "C38_scale_by_schedule"
   ],
   "note": ""
  },
  {
   "property": "C39",
   "status": "proved",
   "theorems": [
    "C39_closed_form",
    "C39_degenerate",
    "C39_linear",
    "C39_polynomial"
   ],
   "note": ""
  },
  {
   "property": "C40",
   "status": "proved",
   "theorems": [
    "C40_at_boundary",
    "C40_negative_rejected",
    "C40_order",
    "C40_piecewise_constant"
   ],
   "note": ""
  },
  {
   "property": "C41",
   "status": "proved",
   "theorems": [
    "C41_closed_form",
    "C41_degenerate",
    "C41_end_value",
    "C41_monotone",
    "C41_monotone_all"
   ],
   "note": ""
  },
  {
   "property": "C42",
   "status": "proved",
   "theorems": [
    "C42_cosine_decay",
    "C42_rejects"
   ],
   "note": ""
  },
  {
   "property": "C43",
   "status": "proved",
   "theorems": [
    "C43_cosine",
    "C43_linear",
    "C43_order",
    "C43_rejects"
   ],
   "note": ""
  },
  {
   "property": "C44",
   "status": "partial",
   "theorems": [
    "C44_collision",
    "C44_cosine_partial",
    "C44_linear_partial",
    "C44_rejects",
    "C44_short_transition_nan",
    "C44_zero_boundary_nan"
   ],
   "note": "Proved whenever the integer boundaries int(pct_start*steps) < int(pct_final*steps) < steps are distinct and positive. For short transitions they collide (C44_collision) or are 0 and the schedule returns NaN (C44_zero_boundary_nan, C44_short_transition_nan), so the full statement is false of the code."
  },
  {
   "property": "C45",
   "status": "proved",
   "theorems": [
    "C45_empty",
    "C45_join"
   ],
   "note": ""
  },
  {
   "property": "C46",
   "status": "proved",
   "theorems": [
    "C46_cosine",
    "C46_exponential",
    "C46_rejects"
   ],
   "note": ""
  },
  {
   "property": "C47",
   "status": "proved",
   "theorems": [
    "C47_errors",
    "C47_sgdr"
   ],
   "note": ""
  },
  {
   "property": "C48",
   "status": "proved",
   "theorems": [
    "C48_constant",
    "C48_inject_hyperparams",
    "C48_override_scheduled_no_effect",
    "C48_state_keys",
    "C48_stored_values"
   ],
   "note": ""
  },
  {
   "property": "C49",
   "status": "proved",
   "theorems": [
    "C49_add_remove_one",
    "C49_contribution",
    "C49_mean",
    "C49_replace_one",
    "C49_update"
   ],
   "note": ""
  },
  {
   "property": "C50",
   "status": "proved",
   "theorems": [
    "C50_accepts_only_batched",
    "C50_keys_distinct",
    "C50_rejects",
    "C50_run"
   ],
   "note": ""
  },
  {
   "property": "C51",
   "status": "proved",
   "theorems": [
    "C51_sgd_momentum",
    "C51_sgd_plain"
   ],
   "note": ""
  },
  {
   "property": "C52",
   "status": "proved",
   "theorems": [
    "C52_adamw",
    "C52_moments",
    "C52_no_decay"
   ],
   "note": ""
  },
  {
   "property": "C53",
   "status": "proved",
   "theorems": [
    "C53_lamb"
   ],
   "note": ""
  },
  {
   "property": "C54",
   "status": "proved",
   "theorems": [
    "C54_fromage",
    "C54_fromage_min_norm",
    "C54_fromage_step"
   ],
   "note": ""
  },
  {
   "property": "C55",
   "status": "proved",
   "theorems": [
    "C55_adabelief",
    "C55_adagrad",
    "C55_adam",
    "C55_adamw",
    "C55_dpsgd",
    "C55_dpsgd_plain",
    "C55_lamb",
    "C55_noisy_sgd",
    "C55_radam",
    "C55_rmsprop",
    "C55_rmsprop_momentum",
    "C55_sgd_momentum",
    "C55_sgd_plain",
    "C55_sm3",
    "C55_yogi"
   ],
   "note": ""
  },
  {
   "property": "C56",
   "status": "proved",
   "theorems": [
    "C56_bounds",
    "C56_derivative",
    "C56_huber",
    "C56_l2"
   ],
   "note": ""
  },
  {
   "property": "C57",
   "status": "proved",
   "theorems": [
    "C57_distribution",
    "C57_rejects",
    "C57_smooth_labels"
   ],
   "note": ""
  },
  {
   "property": "C58",
   "status": "proved",
   "theorems": [
    "C58_accepts",
    "C58_properties",
    "C58_rejects",
    "C58_sigmoid_bce"
   ],
   "note": ""
  },
  {
   "property": "C59",
   "status": "proved",
   "theorems": [
    "C59_bounds",
    "C59_shift",
    "C59_softmax_ce"
   ],
   "note": ""
  },
  {
   "property": "C60",
   "status": "proved",
   "theorems": [
    "C60_range",
    "C60_scale",
    "C60_value"
   ],
   "note": ""
  },
  {
   "property": "C61",
   "status": "proved",
   "theorems": [
    "C61_concat",
    "C61_eq_zero",
    "C61_nonneg",
    "C61_regroup",
    "C61_smul",
    "C61_triangle"
   ],
   "note": ""
  },
  {
   "property": "C62",
   "status": "proved",
   "theorems": [
    "C62_converges",
    "C62_eigenvector",
    "C62_monotone",
    "C62_no_iterations",
    "C62_rayleigh",
    "C62_terminates",
    "C62_unit",
    "C62_value"
   ],
   "note": ""
  },
  {
   "property": "C63",
   "status": "partial",
   "theorems": [
    "C63_fails",
    "C63_inverse_root_partial",
    "C63_size_one",
    "C63_terminates"
   ],
   "note": "The repository's mat_power computes M^p only for p in {1,2,4,8} (p=3 gives M^4, p=16 gives M^8), so the invariant and result hold for those p (C63_inverse_root_partial) and fail otherwise (C63_fails). Termination and the 1x1 case are proved for every p."
  },
  {
   "property": "C64",
   "status": "proved",
   "theorems": [
    "C64_fisher_diag",
    "C64_hessian_diag",
    "C64_hvp",
    "C64_hvp_linear"
   ],
   "note": ""
  },
  {
   "property": "C65",
   "status": "proved",
   "theorems": [
    "C65_baseline_bias",
    "C65_baseline_no_effect",
    "C65_baseline_terms",
    "C65_decomposition",
    "C65_delta_score_function",
    "C65_delta_unbiased",
    "C65_unbiased",
    "C65_zero_variance"
   ],
   "note": ""
  },
  {
   "property": "C66",
   "status": "proved",
   "theorems": [
    "C66_minimises_variance",
    "C66_optimal"
   ],
   "note": ""
  },
  {
   "property": "C67",
   "status": "proved",
   "theorems": [
    "C67_exact",
    "C67_exact_gradient",
    "C67_expected",
    "C67_true_expectation"
   ],
   "note": ""
  },
  {
   "property": "C68",
   "status": "partial",
   "theorems": [
    "C68_converges_partial",
    "C68_ema",
    "C68_fails",
    "C68_first_step",
    "C68_overestimates_partial",
    "C68_range_partial",
    "C68_state"
   ],
   "note": "False of the code as stated: the de-biasing divides the stored value, so the correction compounds (C68_fails: constant c gives c, then c/(1-d^2)). Proved: exact recurrence (C68_state), first step, plain moving average when zero_debias=False (C68_ema), over-estimation by a bounded factor, range and convergence in the limit (_partial)."
  },
  {
   "property": "C69",
   "status": "proved",
   "theorems": [
    "C69_independent",
    "C69_jacobians",
    "C69_linear",
    "C69_linear_unbiased",
    "C69_mean",
    "C69_quadratic_std",
    "C69_quadratic_std_unbiased",
    "C69_std"
   ],
   "note": ""
  },
  {
   "property": "C70",
   "status": "proved",
   "theorems": [
    "C70_constant_unbiased",
    "C70_score_function"
   ],
   "note": ""
  },
  {
   "property": "C71",
   "status": "proved",
   "theorems": [
    "C71_pathwise"
   ],
   "note": ""
  },
  {
   "property": "C72",
   "status": "proved",
   "theorems": [
    "C72_prefix_error",
    "C72_resume",
    "C72_training"
   ],
   "note": ""
  },
  {
   "property": "C73",
   "status": "proved",
   "theorems": [
    "C73_aliases",
    "C73_local",
    "C73_relayout",
    "C73_scalar"
   ],
   "note": ""
  },
  {
   "property": "C74",
   "status": "proved",
   "theorems": [
    "C74_adam",
    "C74_adam_diagonal",
    "C74_belief",
    "C74_rms",
    "C74_rss",
    "C74_stddev",
    "C74_trust_ratio"
   ],
   "note": ""
  },
  {
   "property": "C75",
   "status": "proved",
   "theorems": [
    "C75_clip",
    "C75_global_norm_direction",
    "C75_global_norm_nonexpansive",
    "C75_global_norm_projection",
    "C75_nonnegative"
   ],
   "note": ""
  },
  {
   "property": "C76",
   "status": "proved",
   "theorems": [
    "C76_convex",
    "C76_descent",
    "C76_regret",
    "C76_regret_constant",
    "C76_strongly_convex"
   ],
   "note": ""
  },
  {
   "property": "C77",
   "status": "proved",
   "theorems": [
    "C77_regret",
    "C77_sublinear"
   ],
   "note": ""
  },
  {
   "property": "C78",
   "status": "proved",
   "theorems": [
    "C78_regression",
    "C78_sigmoid",
    "C78_softmax"
   ],
   "note": ""
  },
  {
   "property": "C79",
   "status": "proved",
   "theorems": [
    "C79_measure_valued_mean",
    "C79_measure_valued_scale",
    "C79_pathwise",
    "C79_score_function"
   ],
   "note": ""
  },
  {
   "property": "C80",
   "status": "proved",
   "theorems": [
    "C80_converges",
    "C80_gives_up",
    "C80_inverse"
   ],
   "note": ""
  },
  {
   "property": "C81",
   "status": "proved",
   "theorems": [
    "C81_global_norm",
    "C81_global_norm_mixed",
    "C81_promotion",
    "C81_sm3",
    "C81_sm3_unstable",
    "C81_stable"
   ],
   "note": ""
  },
  {
   "property": "C82",
   "status": "proved",
   "theorems": [
    "C82_accumulator_dtype",
    "C82_aliases",
    "C82_integer_gradients",
    "C82_keeps",
    "C82_settles"
   ],
   "note": ""
  },
  {
   "property": "C83",
   "status": "proved",
   "theorems": [
    "C83_aliases",
    "C83_carry",
    "C83_flatten",
    "C83_inject",
    "C83_mixed",
    "C83_params",
    "C83_sm3",
    "C83_wrappers",
    "C83_wrappers_reject"
   ],
   "note": ""
  },
  {
   "property": "C84",
   "status": "proved",
   "theorems": [
    "C84_clip",
    "C84_nonnegative",
    "C84_safe_norm"
   ],
   "note": ""
  },
  {
   "property": "C85",
   "status": "proved",
   "theorems": [
    "C85_adam",
    "C85_belief",
    "C85_rms",
    "C85_rss"
   ],
   "note": ""
  },
  {
   "property": "C86",
   "status": "proved",
   "theorems": [
    "C86_adam",
    "C86_clip_by_global_norm",
    "C86_rms",
    "C86_rss"
   ],
   "note": ""
  },
  {
   "property": "C87",
   "status": "proved",
   "theorems": [
    "C87_adagrad"
   ],
   "note": ""
  },
  {
   "property": "C88",
   "status": "proved",
   "theorems": [
    "C88_cosine",
    "C88_exponential",
    "C88_linear",
    "C88_piecewise_constant",
    "C88_polynomial",
    "C88_start_lost"
   ],
   "note": ""
  },
  {
   "property": "C89",
   "status": "proved",
   "theorems": [
    "C89_incremental_update",
    "C89_optimisers",
    "C89_rms_without_eps",
    "C89_training"
   ],
   "note": ""
  },
  {
   "property": "C90",
   "status": "proved",
   "theorems": [
    "C90_huber",
    "C90_l2",
    "C90_log_sigmoid",
    "C90_log_softmax",
    "C90_sigmoid_bce",
    "C90_softmax_ce"
   ],
   "note": ""
  },
  {
   "property": "C91",
   "status": "proved",
   "theorems": [
    "C91_dpsgd",
    "C91_same_seed",
    "C91_training"
   ],
   "note": ""
  },
  {
   "property": "C92",
   "status": "proved",
   "theorems": [
    "C92_adagrad_zero",
    "C92_adam_nan",
    "C92_optimisers",
    "C92_training"
   ],
   "note": ""
  },
  {
   "property": "C93",
   "status": "proved",
   "theorems": [
    "C93_apply_updates",
    "C93_flatten_hides",
    "C93_optimisers",
    "C93_strict",
    "C93_training_step",
    "C93_updates_follow_gradients",
    "C93_wrappers",
    "C93_wrong_length"
   ],
   "note": ""
  },
  {
   "property": "C94",
   "status": "proved",
   "theorems": [
    "C94_apply_updates",
    "C94_params_shape",
    "C94_shape_change"
   ],
   "note": ""
  },
  {
   "property": "C95",
   "status": "proved",
   "theorems": [
    "C95_heavy_ball",
    "C95_nesterov"
   ],
   "note": ""
  },
  {
   "property": "C96",
   "status": "proved",
   "theorems": [
    "C96_adagrad",
    "C96_heavy_ball",
    "C96_rmsprop"
   ],
   "note": ""
  },
  {
   "property": "C97",
   "status": "proved",
   "theorems": [
    "C97_convex",
    "C97_convex_smooth",
    "C97_dataset",
    "C97_minibatch",
    "C97_nonconvex",
    "C97_strongly_convex"
   ],
   "note": ""
  },
  {
   "property": "C98",
   "status": "proved",
   "theorems": [
    "C98_accuracy",
    "C98_crossentropy",
    "C98_dataset",
    "C98_haiku",
    "C98_lookahead_mnist",
    "C98_model_accuracy"
   ],
   "note": ""
  },
  {
   "property": "C99",
   "status": "proved",
   "theorems": [
    "C99_find_modules"
   ],
   "note": ""
  },
  {
   "property": "C100",
   "status": "proved",
   "theorems": [
    "C100_chain",
    "C100_chain_shaped",
    "C100_conditional",
    "C100_training",
    "C100_training_shaped",
    "C100_wrappers"
   ],
   "note": ""
  },
  {
   "property": "C101",
   "status": "proved",
   "theorems": [
    "C101_alias",
    "C101_alias_training",
    "C101_chain",
    "C101_constant_schedule",
    "C101_lookahead_one",
    "C101_lookahead_zero",
    "C101_neutral",
    "C101_wrappers"
   ],
   "note": ""
  },
  {
   "property": "C102",
   "status": "proved",
   "theorems": [
    "C102_adam_diverges",
    "C102_problem"
   ],
   "note": ""
  },
  {
   "property": "C103",
   "status": "proved",
   "theorems": [
    "C103_adam_not",
    "C103_chain",
    "C103_data_parallel",
    "C103_linear",
    "C103_sgd"
   ],
   "note": ""
  },
  {
   "property": "C104",
   "status": "proved",
   "theorems": [
    "C104_aliases",
    "C104_closed",
    "C104_components",
    "C104_lookahead",
    "C104_masked",
    "C104_masked_not",
    "C104_training"
   ],
   "note": ""
  },
  {
   "property": "C105",
   "status": "proved",
   "theorems": [
    "C105_add_noise_not",
    "C105_aliases",
    "C105_clip_by_global_norm",
    "C105_closed",
    "C105_components",
    "C105_training"
   ],
   "note": ""
  },
  {
   "property": "C106",
   "status": "proved",
   "theorems": [
    "C106_baseline_bias",
    "C106_unbiased_iff",
    "C106_weight"
   ],
   "note": ""
  },
  {
   "property": "C107",
   "status": "proved",
   "theorems": [
    "C107_pathwise",
    "C107_score_function"
   ],
   "note": ""
  },
  {
   "property": "C108",
   "status": "proved",
   "theorems": [
    "C108_adam",
    "C108_bind",
    "C108_call_style",
    "C108_missing_learning_rate",
    "C108_outcome"
   ],
   "note": ""
  },
  {
   "property": "C109",
   "status": "proved",
   "theorems": [
    "C109_adam",
    "C109_differs",
    "C109_injected_schedule"
   ],
   "note": ""
  },
  {
   "property": "C110",
   "status": "proved",
   "theorems": [
    "C110_adabelief_form",
    "C110_adabelief_unbounded",
    "C110_adagrad_form",
    "C110_adam_form",
    "C110_adamw_form",
    "C110_bounded",
    "C110_centered_unbounded",
    "C110_fallback",
    "C110_fromage_form",
    "C110_lamb_form",
    "C110_radam",
    "C110_radam_form",
    "C110_rmsprop_form",
    "C110_sgd_form",
    "C110_sm3",
    "C110_sm3_form",
    "C110_yogi_drifts",
    "C110_yogi_first"
   ],
   "note": ""
  },
  {
   "property": "C111",
   "status": "proved",
   "theorems": [
    "C111_adam",
    "C111_any_accuracy"
   ],
   "note": ""
  },
  {
   "property": "C112",
   "status": "proved",
   "theorems": [
    "C112_clip_correct",
    "C112_clip_nan",
    "C112_clip_value",
    "C112_trust_correct",
    "C112_trust_nan",
    "C112_trust_value"
   ],
   "note": ""
  },
  {
   "property": "C113",
   "status": "proved",
   "theorems": [
    "C113_float32",
    "C113_formats",
    "C113_sgd",
    "C113_stagnation"
   ],
   "note": ""
  },
  {
   "property": "C114",
   "status": "proved",
   "theorems": [
    "C114_lookahead_sgd",
    "C114_rate"
   ],
   "note": ""
  },
  {
   "property": "C115",
   "status": "proved",
   "theorems": [
    "C115_bound",
    "C115_limit",
    "C115_recurrence"
   ],
   "note": ""
  },
  {
   "property": "C116",
   "status": "proved",
   "theorems": [
    "C116_regret",
    "C116_slices",
    "C116_sublinear"
   ],
   "note": ""
  },
  {
   "property": "C117",
   "status": "proved",
   "theorems": [
    "C117_accumulation",
    "C117_optimisers",
    "C117_rate"
   ],
   "note": ""
  },
  {
   "property": "C118",
   "status": "proved",
   "theorems": [
    "C118_tuned",
    "C118_utility"
   ],
   "note": ""
  },
  {
   "property": "C119",
   "status": "proved",
   "theorems": [
    "C119_adam_unbounded",
    "C119_adamw",
    "C119_adamw_defaults",
    "C119_weight_decay"
   ],
   "note": ""
  },
  {
   "property": "C120",
   "status": "proved",
   "theorems": [
    "C120_convergence",
    "C120_step_bound"
   ],
   "note": ""
  },
  {
   "property": "C121",
   "status": "proved",
   "theorems": [
    "C121_adam_not",
    "C121_components",
    "C121_optimisers",
    "C121_training"
   ],
   "note": ""
  },
  {
   "property": "C122",
   "status": "proved",
   "theorems": [
    "C122_cosine",
    "C122_cosine_zero",
    "C122_kinks",
    "C122_regression",
    "C122_sigmoid",
    "C122_sigmoid_tangent",
    "C122_softmax"
   ],
   "note": ""
  },
  {
   "property": "C123",
   "status": "proved",
   "theorems": [
    "C123_budget",
    "C123_cosine",
    "C123_cosine_sum",
    "C123_exponential",
    "C123_exponential_sum",
    "C123_linear",
    "C123_linear_sum",
    "C123_travel"
   ],
   "note": ""
  },
  {
   "property": "C124",
   "status": "proved",
   "theorems": [
    "C124_adam",
    "C124_bfloat16",
    "C124_float32",
    "C124_model",
    "C124_trace"
   ],
   "note": ""
  },
  {
   "property": "C125",
   "status": "proved",
   "theorems": [
    "C125_clip_by_global_norm",
    "C125_float32",
    "C125_global_norm"
   ],
   "note": ""
  },
  {
   "property": "C126",
   "status": "proved",
   "theorems": [
    "C126_adam",
    "C126_adam_limit",
    "C126_adam_state",
    "C126_ema",
    "C126_rms",
    "C126_rss",
    "C126_target_lag",
    "C126_trace"
   ],
   "note": ""
  },
  {
   "property": "C127",
   "status": "proved",
   "theorems": [
    "C127_generalisation",
    "C127_huber",
    "C127_large_rate",
    "C127_mean",
    "C127_stability",
    "C127_strong"
   ],
   "note": ""
  },
  {
   "property": "C128",
   "status": "proved",
   "theorems": [
    "C128_aliases",
    "C128_reflection",
    "C128_training",
    "C128_yogi"
   ],
   "note": ""
  },
  {
   "property": "C129",
   "status": "proved",
   "theorems": [
    "C129_average",
    "C129_jensen",
    "C129_mean",
    "C129_moving",
    "C129_oscillation",
    "C129_rate",
    "C129_sgd",
    "C129_stochastic",
    "C129_stochastic_smooth"
   ],
   "note": ""
  },
  {
   "property": "C130",
   "status": "proved",
   "theorems": [
    "C130_apply_every",
    "C130_dp_batch",
    "C130_dpsgd",
    "C130_multi_steps",
    "C130_multi_steps_outs",
    "C130_rss",
    "C130_trace"
   ],
   "note": ""
  },
  {
   "property": "C131",
   "status": "proved",
   "theorems": [
    "C131_adam",
    "C131_float32"
   ],
   "note": ""
  },
  {
   "property": "C132",
   "status": "proved",
   "theorems": [
    "C132_deceived",
    "C132_rate",
    "C132_stopped"
   ],
   "note": ""
  },
  {
   "property": "C133",
   "status": "proved",
   "theorems": [
    "C133_regression",
    "C133_sigmoid",
    "C133_softmax"
   ],
   "note": ""
  },
  {
   "property": "C134",
   "status": "proved",
   "theorems": [
    "C134_logistic",
    "C134_regression",
    "C134_softmax"
   ],
   "note": ""
  },
  {
   "property": "C135",
   "status": "proved",
   "theorems": [
    "C135_cosine",
    "C135_exponential",
    "C135_interpolate",
    "C135_jumps",
    "C135_onecycle",
    "C135_polynomial",
    "C135_warmup_cosine"
   ],
   "note": ""
  },
  {
   "property": "C136",
   "status": "proved",
   "theorems": [
    "C136_adam",
    "C136_clipped_sgd",
    "C136_float32",
    "C136_rms",
    "C136_sgd",
    "C136_unscale"
   ],
   "note": ""
  },
  {
   "property": "C137",
   "status": "proved",
   "theorems": [
    "C137_ensemble",
    "C137_not_global_norm"
   ],
   "note": ""
  },
  {
   "property": "C138",
   "status": "proved",
   "theorems": [
    "C138_incremental_lag",
    "C138_incremental_limit",
    "C138_incremental_ramp",
    "C138_periodic_lag"
   ],
   "note": ""
  },
  {
   "property": "C139",
   "status": "proved",
   "theorems": [
    "C139_is_l2",
    "C139_logistic",
    "C139_regression",
    "C139_ridge",
    "C139_separable",
    "C139_softmax"
   ],
   "note": ""
  },
  {
   "property": "C140",
   "status": "proved",
   "theorems": [
    "C140_adam_uphill",
    "C140_aliases",
    "C140_apply",
    "C140_loss",
    "C140_momentum_uphill",
    "C140_preprocessed",
    "C140_sm3"
   ],
   "note": ""
  },
  {
   "property": "C141",
   "status": "proved",
   "theorems": [
    "C141_frozen",
    "C141_groups",
    "C141_order",
    "C141_training",
    "C141_works"
   ],
   "note": ""
  },
  {
   "property": "C142",
   "status": "proved",
   "theorems": [
    "C142_aliases",
    "C142_apply",
    "C142_clipped",
    "C142_underflow"
   ],
   "note": ""
  },
  {
   "property": "C143",
   "status": "proved",
   "theorems": [
    "C143_arithmetics",
    "C143_faults",
    "C143_gives_up",
    "C143_rate"
   ],
   "note": ""
  },
  {
   "property": "C144",
   "status": "proved",
   "theorems": [
    "C144_agc",
    "C144_fromage",
    "C144_lamb"
   ],
   "note": ""
  },
  {
   "property": "C145",
   "status": "proved",
   "theorems": [
    "C145_arithmetics",
    "C145_bad_batch",
    "C145_inside",
    "C145_outside",
    "C145_runs"
   ],
   "note": ""
  },
  {
   "property": "C146",
   "status": "proved",
   "theorems": [
    "C146_apply_every",
    "C146_bfloat16",
    "C146_float32",
    "C146_multi_steps",
    "C146_rounding"
   ],
   "note": ""
  },
  {
   "property": "C147",
   "status": "proved",
   "theorems": [
    "C147_labels",
    "C147_order",
    "C147_training",
    "C147_works"
   ],
   "note": ""
  },
  {
   "property": "C148",
   "status": "proved",
   "theorems": [
    "C148_direction",
    "C148_quadratic"
   ],
   "note": ""
  },
  {
   "property": "C149",
   "status": "proved",
   "theorems": [
    "C149_aliases",
    "C149_budget",
    "C149_cosine",
    "C149_frozen",
    "C149_rmsprop_momentum",
    "C149_rmsprop_moves"
   ],
   "note": ""
  },
  {
   "property": "C150",
   "status": "proved",
   "theorems": [
    "C150_effective_rate",
    "C150_single"
   ],
   "note": ""
  },
  {
   "property": "C151",
   "status": "proved",
   "theorems": [
    "C151_lazy",
    "C151_momentum",
    "C151_rmsprop"
   ],
   "note": ""
  },
  {
   "property": "C152",
   "status": "proved",
   "theorems": [
    "C152_adagrad",
    "C152_arithmetics",
    "C152_forever",
    "C152_global_norm",
    "C152_momentum_zero",
    "C152_training",
    "C152_zero_nans"
   ],
   "note": ""
  },
  {
   "property": "C153",
   "status": "proved",
   "theorems": [
    "C153_direction",
    "C153_momentum",
    "C153_plain",
    "C153_tuning"
   ],
   "note": ""
  },
  {
   "property": "C154",
   "status": "proved",
   "theorems": [
    "C154_adam",
    "C154_float",
    "C154_norm_grows",
    "C154_rmsprop",
    "C154_scale_invariant",
    "C154_sgd",
    "C154_units"
   ],
   "note": ""
  },
  {
   "property": "C155",
   "status": "proved",
   "theorems": [
    "C155_bounds",
    "C155_equilibrium",
    "C155_norm"
   ],
   "note": ""
  },
  {
   "property": "C156",
   "status": "proved",
   "theorems": [
    "C156_convex",
    "C156_flow",
    "C156_momentum",
    "C156_strong",
    "C156_total"
   ],
   "note": ""
  },
  {
   "property": "C157",
   "status": "proved",
   "theorems": [
    "C157_lag",
    "C157_tracking"
   ],
   "note": ""
  },
  {
   "property": "C158",
   "status": "proved",
   "theorems": [
    "C158_direction",
    "C158_edge",
    "C158_quadratic"
   ],
   "note": ""
  },
  {
   "property": "C159",
   "status": "proved",
   "theorems": [
    "C159_apply_every",
    "C159_ema",
    "C159_multi_steps",
    "C159_trace"
   ],
   "note": ""
  },
  {
   "property": "C160",
   "status": "proved",
   "theorems": [
    "C160_decay",
    "C160_floor",
    "C160_recursion"
   ],
   "note": ""
  },
  {
   "property": "C161",
   "status": "proved",
   "theorems": [
    "C161_floor",
    "C161_less_noise"
   ],
   "note": ""
  },
  {
   "property": "C162",
   "status": "proved",
   "theorems": [
    "C162_floor",
    "C162_reduction"
   ],
   "note": ""
  },
  {
   "property": "C163",
   "status": "proved",
   "theorems": [
    "C163_averaged",
    "C163_reduction"
   ],
   "note": ""
  },
  {
   "property": "C164",
   "status": "proved",
   "theorems": [
    "C164_floor"
   ],
   "note": ""
  },
  {
   "property": "C165",
   "status": "proved",
   "theorems": [
    "C165_against_heavy_ball",
    "C165_floor"
   ],
   "note": ""
  },
  {
   "property": "C166",
   "status": "proved",
   "theorems": [
    "C166_heavy_ball",
    "C166_nesterov"
   ],
   "note": ""
  },
  {
   "property": "C167",
   "status": "proved",
   "theorems": [
    "C167_accumulated",
    "C167_floor"
   ],
   "note": ""
  },
  {
   "property": "C168",
   "status": "proved",
   "theorems": [
    "C168_bias_and_noise",
    "C168_decay_helps"
   ],
   "note": ""
  },
  {
   "property": "C169",
   "status": "proved",
   "theorems": [
    "C169_adam_not",
    "C169_nearest",
    "C169_span"
   ],
   "note": ""
  },
  {
   "property": "C170",
   "status": "proved",
   "theorems": [
    "C170_balance",
    "C170_decay"
   ],
   "note": ""
  },
  {
   "property": "C171",
   "status": "proved",
   "theorems": [
    "C171_any_arithmetic",
    "C171_optimisers",
    "C171_tied"
   ],
   "note": ""
  }
 ]
}