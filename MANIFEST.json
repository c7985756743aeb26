{
 "claims": [
  {
   "property": "C01",
   "status": "proved",
   "theorems": [
    "Verif.C01_cube2map_pixels",
    "Verif.C01_map2cube_cube2map",
    "Verif.C01_cube2map_rejects"
   ],
   "note": ""
  },
  {
   "property": "C02",
   "status": "partial",
   "theorems": [
    "Verif.C02_cube2map_map2cube",
    "Verif.C02_guard_as_implemented",
    "Verif.C02_documented_guard_refuted",
    "Verif.C02_accepted_layout_crops",
    "Verif.C02_other_ranks_rejected",
    "Verif.C02_empty_layout_accepted"
   ],
   "note": "The documented guard is refuted for every layout dividing exactly one axis (C02_documented_guard_refuted); lossless round trip, exact guard and exact crop are proved."
  },
  {
   "property": "C03",
   "status": "proved",
   "theorems": [
    "Verif.C03_map2matrix_columns",
    "Verif.C03_matrix2map_map2matrix",
    "Verif.C03_roundtrip_pixels",
    "Verif.C03_roundtrip_integers",
    "Verif.C03_map2matrix_matrix2map",
    "Verif.C03_lossless_refuted_for_fractions",
    "Verif.C03_other_ranks_rejected",
    "Verif.C03_matrix2map_ignores_unit_axes"
   ],
   "note": "Round trip equals truncation to integers; exact on integers; refuted as lossless for any map with a fractional pixel."
  },
  {
   "property": "C04",
   "status": "proved",
   "theorems": [
    "Verif.C04_cube2matrix_columns",
    "Verif.C04_matrix2cube_cube2matrix",
    "Verif.C04_cube2matrix_matrix2cube",
    "Verif.C04_matrix2cube_rejects"
   ],
   "note": ""
  },
  {
   "property": "C05",
   "status": "proved",
   "theorems": [
    "Verif.C05_routes_agree",
    "Verif.C05_nonsquare_differs"
   ],
   "note": ""
  },
  {
   "property": "C06",
   "status": "proved",
   "theorems": [
    "Verif.C06_rotate_entries",
    "Verif.C06_rotate_involution",
    "Verif.C06_rotate_rejects",
    "Verif.C06_rotate_stack_entries",
    "Verif.C06_rotate_stack_involution",
    "Verif.C06_rotate_stack_empty"
   ],
   "note": ""
  },
  {
   "property": "C07",
   "status": "proved",
   "theorems": [
    "Verif.C07_pad2d_entries",
    "Verif.C07_pad2d_scalar_is_pair",
    "Verif.C07_pad2d_crop",
    "Verif.C07_pad2d_rejects",
    "Verif.C07_pad2d_other_lengths"
   ],
   "note": ""
  },
  {
   "property": "C08",
   "status": "proved",
   "theorems": [
    "Verif.C08_fancy_transpose_moves_axes",
    "Verif.C08_fancy_transpose_compose",
    "Verif.C08_fancy_transpose_full_turn",
    "Verif.C08_ftr_ftl_inverse"
   ],
   "note": ""
  },
  {
   "property": "C09",
   "status": "proved",
   "theorems": [
    "Verif.C09_notify_calls_each_once",
    "Verif.C09_notify_order",
    "Verif.C09_nested_notification_dropped",
    "Verif.C09_never_returns_True"
   ],
   "note": ""
  },
  {
   "property": "C10",
   "status": "partial",
   "theorems": [
    "Verif.C10_exception_leaves_lock",
    "Verif.C10_unknown_signal_locks",
    "Verif.C10_silenced_forever",
    "Verif.C10_later_notifications_reach_observers_refuted",
    "Verif.C10_reached_again_partial"
   ],
   "note": "The property is false of the code: the lock is not released when an observer raises (or the signal is unknown). Proved: the exact post-state, silence forever after (refutation), and the property for observers that do not raise (_partial)."
  },
  {
   "property": "C11",
   "status": "proved",
   "theorems": [
    "Verif.C11_add_idempotent",
    "Verif.C11_add_appends",
    "Verif.C11_add_rejects",
    "Verif.C11_no_duplicates_ever",
    "Verif.C11_registrations_persist"
   ],
   "note": ""
  },
  {
   "property": "C12",
   "status": "partial",
   "theorems": [
    "Verif.C12_remove_always_fails",
    "Verif.C12_private_remove_partial"
   ],
   "note": "The property is false of the code: remove_observer calls a method that does not exist and always raises AttributeError (refutation for all states). The private removal routine is correct (_partial)."
  },
  {
   "property": "C13",
   "status": "proved",
   "theorems": [
    "Verif.C13_histories_aligned",
    "Verif.C13_metric_exception_misaligns",
    "Verif.C13_retrieve_times",
    "Verif.C13_flag_iff_window_stable",
    "Verif.C13_flag_unchanged_before_window",
    "Verif.C13_degenerate_window_never_converges",
    "Verif.C13_no_early_stopping_no_flag",
    "Verif.C13_constant_kwargs_win"
   ],
   "note": ""
  },
  {
   "property": "C14",
   "status": "proved",
   "theorems": [
    "Verif.C14_stops_at_first_convergence",
    "Verif.C14_number_of_updates",
    "Verif.C14_runs_to_max_iter",
    "Verif.C14_never_exceeds_max_iter"
   ],
   "note": ""
  },
  {
   "property": "C15",
   "status": "partial",
   "theorems": [
    "Verif.C15_metrics_evaluated_every_iteration",
    "Verif.C15_period_respected_refuted",
    "Verif.C15_period_one_partial",
    "Verif.C15_never_without_period",
    "Verif.C15_period_zero_raises"
   ],
   "note": "The property is false of the code for periods >= 2 (a trailing comma makes the condition a tuple, always true): refutation for every period >= 2 and the exact schedule are proved; the documented schedule is proved for period 1 and None."
  },
  {
   "property": "C16",
   "status": "partial",
   "theorems": [
    "Verif.C16_flag_stops_next_iteration",
    "Verif.C16_restarted_run_single_update",
    "Verif.C16_flag_ignored_without_cost",
    "Verif.C16_flag_ignored_by_costOnly",
    "Verif.C16_flag_skips_cost",
    "Verif.C16_object_flag_stops",
    "Verif.C16_object_flag_ignored",
    "Verif.C16_rule_of_each_class"
   ],
   "note": "True for ForwardBackward, POGM, Condat and gradient descent with a cost object (proved); false with cost=None and in GenForwardBackward (proved refutations: the run always takes max_iter updates)."
  },
  {
   "property": "C17",
   "status": "proved",
   "theorems": [
    "Verif.C17_recorded_history",
    "Verif.C17_interval_none_never_evaluates",
    "Verif.C17_skipped_calls_do_not_evaluate",
    "Verif.C17_calls_are_counted",
    "Verif.C17_failed_evaluation_leaves_object",
    "Verif.C17_interval_zero_raises",
    "Verif.C17_cost_of_the_solution"
   ],
   "note": ""
  },
  {
   "property": "C18",
   "status": "proved",
   "theorems": [
    "Verif.C18_true_iff_full_window_passes",
    "Verif.C18_test_range_one",
    "Verif.C18_test_range_nonpos"
   ],
   "note": ""
  },
  {
   "property": "C19",
   "status": "proved",
   "theorems": [
    "Verif.C19_construction",
    "Verif.C19_construction_errors",
    "Verif.C19_total_is_sum",
    "Verif.C19_first_exception_propagates",
    "Verif.C19_no_operators"
   ],
   "note": ""
  },
  {
   "property": "C20",
   "status": "proved",
   "theorems": [
    "Verif.C20_matrix_adjoint",
    "Verif.C20_identity_adjoint"
   ],
   "note": ""
  },
  {
   "property": "C21",
   "status": "proved",
   "theorems": [
    "Verif.C21_weighted_adjoint",
    "Verif.C21_unit_weights_adjoint",
    "Verif.C21_mean_is_scaled_adjoint",
    "Verif.C21_mean_not_adjoint",
    "Verif.C21_constructor",
    "Verif.C21_constructor_errors"
   ],
   "note": "As stated: adjoint with unit weights, weighted adjoint, and the refutation for the unweighted mean (1/n of the adjoint) for every n >= 2."
  },
  {
   "property": "C22",
   "status": "proved",
   "theorems": [
    "Verif.C22_wavelet_convolve_adjoint",
    "Verif.C22_even_filters_not_adjoint"
   ],
   "note": "Odd filter sizes proved for all sizes; failure proved for every even filter height. scipy method; FFT convolution modelled as the exact zero-padded convolution."
  },
  {
   "property": "C23",
   "status": "proved",
   "theorems": [
    "Verif.C23_cost_expansion",
    "Verif.C23_cost_above_tangents",
    "Verif.C23_trans_op_op",
    "Verif.C23_stationary_iff_minimiser",
    "Verif.C23_gradient_lipschitz"
   ],
   "note": ""
  },
  {
   "property": "C24",
   "status": "proved",
   "theorems": [
    "Verif.C24_stored_data",
    "Verif.C24_caller_array_frozen",
    "Verif.C24_private_copy",
    "Verif.C24_wrong_type",
    "Verif.C24_scalar_refused",
    "Verif.C24_writeable_option_shares"
   ],
   "note": ""
  },
  {
   "property": "C25",
   "status": "proved",
   "theorems": [
    "Verif.C25_positivity_is_projection",
    "Verif.C25_positivity_idempotent",
    "Verif.C25_positivity_nonexpansive",
    "Verif.C25_positive_entries_unchanged"
   ],
   "note": ""
  },
  {
   "property": "C26",
   "status": "partial",
   "theorems": [
    "Verif.C26_nesting_and_clamping_partial",
    "Verif.C26_scalars_and_bad_types",
    "Verif.C26_negative_infinity_becomes_nan",
    "Verif.C26_python_leaves_raise"
   ],
   "note": "False of the code for -inf entries (become nan) and for ragged=True with Python-object leaves (AttributeError); both are proved. The partial theorem covers every nested array of numeric arrays without -inf."
  },
  {
   "property": "C27",
   "status": "proved",
   "theorems": [
    "Verif.C27_soft_is_prox_of_weighted_l1",
    "Verif.C27_returned_value_close_to_prox",
    "Verif.C27_soft_formula",
    "Verif.C27_soft_odd",
    "Verif.C27_soft_shrinks",
    "Verif.C27_soft_nonexpansive",
    "Verif.C27_sparse_threshold_is_prox_of_its_cost"
   ],
   "note": "Exact above the eps64 guard, within 2^-52+1e-15 per entry for all inputs; real and complex; SparseThreshold included."
  },
  {
   "property": "C28",
   "status": "proved",
   "theorems": [
    "Verif.C28_hard_keeps_or_kills",
    "Verif.C28_hard_is_l0_prox",
    "Verif.C28_hard_idempotent",
    "Verif.C28_invalid_type_rejected"
   ],
   "note": ""
  },
  {
   "property": "C29",
   "status": "proved",
   "theorems": [
    "Verif.C29_ridge_is_prox",
    "Verif.C29_nonidentity_linear_not_prox"
   ],
   "note": "Identity linear operator, as stated; a witness shows the claim fails for a non-identity linear operator."
  },
  {
   "property": "C30",
   "status": "proved",
   "theorems": [
    "Verif.C30_elastic_net_is_prox"
   ],
   "note": ""
  },
  {
   "property": "C31",
   "status": "proved",
   "theorems": [
    "Verif.C31_group_lasso_is_prox",
    "Verif.C31_group_lasso_near_prox",
    "Verif.C31_group_lasso_shrinks"
   ],
   "note": "Exact whenever group norms or thresholds reach the 2^-23 guard used by the code (or the threshold is 0)."
  },
  {
   "property": "C32",
   "status": "partial",
   "theorems": [
    "Verif.C32_weights_validated",
    "Verif.C32_two_dimensional_weights_not_checked",
    "Verif.C32_length_mismatch_rejected",
    "Verif.C32_op_is_prox_of_owl_norm",
    "Verif.C32_cost_value",
    "Verif.C32_cost_is_smallest_owl_is_largest",
    "Verif.C32_cost_is_owl_norm_partial",
    "Verif.C32_documented_example_is_not_the_norm",
    "Verif.C32_op_is_not_prox_of_cost"
   ],
   "note": "False of the code: cost sorts in increasing order (C32_documented_example_is_not_the_norm, exact relation in C32_cost_is_smallest_owl_is_largest), so op is not the prox of cost (C32_op_is_not_prox_of_cost). Proved: op is the unique prox of the true OWL norm for all weights, data and tie-breaking; validation of one-dimensional weights. Two-dimensional weights escape validation (refutation)."
  },
  {
   "property": "C33",
   "status": "partial",
   "theorems": [
    "Verif.C33_init_validates",
    "Verif.C33_op_never_raises_partial",
    "Verif.C33_signs_and_shrinks_partial",
    "Verif.C33_k_after_history_partial",
    "Verif.C33_configuration_kept_iff",
    "Verif.C33_earlier_call_changes_result",
    "Verif.C33_empty_data_breaks_object",
    "Verif.C33_after_empty_call_results_vanish"
   ],
   "note": "False of the code: op overwrites k permanently when the data are smaller (C33_earlier_call_changes_result; exact law over histories in C33_k_after_history_partial and C33_configuration_kept_iff), and a call on empty data leaves k=0 so that all later results vanish. Signs/shrinkage and totality of the search proved for all data."
  },
  {
   "property": "C34",
   "status": "proved",
   "theorems": [
    "Verif.C34_identity_is_prox_of_its_cost",
    "Verif.C34_unitary_composition_is_prox",
    "Verif.C34_isometry_not_enough"
   ],
   "note": ""
  },
  {
   "property": "C35",
   "status": "proved",
   "theorems": [
    "Verif.C35_op_acts_blockwise",
    "Verif.C35_missing_block_raises",
    "Verif.C35_cost_is_sum",
    "Verif.C35_combo_is_prox",
    "Verif.C35_constructor",
    "Verif.C35_constructor_keeps_order"
   ],
   "note": ""
  },
  {
   "property": "C36",
   "status": "partial",
   "theorems": [
    "Verif.C36_accepts_iff",
    "Verif.C36_unknown_strategy_typeError",
    "Verif.C36_valueError_partial",
    "Verif.C36_initial_state"
   ],
   "note": "Acceptance is characterised exactly; the claim that all refusals are ValueError is false: an unknown strategy name raises TypeError (proved), the other refusals raise ValueError (_partial)."
  },
  {
   "property": "C37",
   "status": "proved",
   "theorems": [
    "Verif.C37_constructed",
    "Verif.C37_lambda_ge_one",
    "Verif.C37_unbounded",
    "Verif.C37_bounded_below_four"
   ],
   "note": ""
  },
  {
   "property": "C38",
   "status": "partial",
   "theorems": [
    "Verif.C38_default_violated",
    "Verif.C38_documented_range_violated",
    "Verif.C38_acceleration_partial",
    "Verif.C38_acceleration_cd"
   ],
   "note": "False of the code for the default parameters and over the documented range (proved: the recursion uses p where the reference has p/2). Proved for p<=1/2, q<=(2-2p)^2, r<=4 (_partial) and for Chambolle-Dossal mode."
  },
  {
   "property": "C39",
   "status": "proved",
   "theorems": [
    "Verif.C39_closed_form",
    "Verif.C39_lambda_closed_form",
    "Verif.C39_second_relaxation_below_one",
    "Verif.C39_later_relaxations"
   ],
   "note": "Closed form proved, with the one-step lag of the code stated explicitly (the second relaxation is 1-1/a, below 1)."
  },
  {
   "property": "C40",
   "status": "proved",
   "theorems": [
    "Verif.C40_greedy_beta_range",
    "Verif.C40_greedy_lambda",
    "Verif.C40_adaptive_r",
    "Verif.C40_no_strategy",
    "Verif.C40_negative_xi_accepted",
    "Verif.C40_adaptive_restart_effect",
    "Verif.C40_greedy_safeguard",
    "Verif.C40_restart_drops_momentum"
   ],
   "note": ""
  },
  {
   "property": "C41",
   "status": "proved",
   "theorems": [
    "Verif.C41_fixed_points_are_minimisers"
   ],
   "note": ""
  },
  {
   "property": "C42",
   "status": "proved",
   "theorems": [
    "Verif.C42_rate",
    "Verif.C42_descent"
   ],
   "note": ""
  },
  {
   "property": "C43",
   "status": "proved",
   "theorems": [
    "Verif.C43_rate_regular",
    "Verif.C43_rate_classical",
    "Verif.C43_rate_cd"
   ],
   "note": "Run-level, for every observer/metric/cost behaviour; default parameters are outside the hypothesis (see C38)."
  },
  {
   "property": "C44",
   "status": "partial",
   "theorems": [
    "Verif.C44_x_new_is_prox_value",
    "Verif.C44_x_final_feasible_partial",
    "Verif.C44_no_iteration",
    "Verif.C44_x_final_infeasible"
   ],
   "note": "False of the code for the default accelerated settings: x_final is the extrapolated point and can violate the constraint (proved on a run of three updates). The proximal iterate is always a prox value; x_final is feasible for constant relaxation in [0,1] (_partial)."
  },
  {
   "property": "C45",
   "status": "partial",
   "theorems": [
    "Verif.C45_step_size",
    "Verif.C45_beta_update_ignored",
    "Verif.C45_user_updates_once_partial",
    "Verif.C45_no_updates",
    "Verif.C45_invalid_arguments",
    "Verif.C45_gradient_descent_ignores_step_size",
    "Verif.C45_metrics_need_linear",
    "Verif.C45_condat_construction",
    "Verif.C45_condat_updates"
   ],
   "note": "step_size precedence and once-per-iteration proved for user rules; under the default lambda_update='fista' the user's beta_update is silently ignored (proved). Gradient descent classes accept step_size and ignore it (proved)."
  },
  {
   "property": "C46",
   "status": "partial",
   "theorems": [
    "Verif.C46_default_weights_partial",
    "Verif.C46_default_weights_refused_in_binary64",
    "Verif.C46_user_weights"
   ],
   "note": "User weights: exact acceptance proved. Default weights sum to one in exact arithmetic (_partial) but with binary64 rounding the construction with six operators raises ValueError (proved, kernel computation on the rounded sum)."
  },
  {
   "property": "C47",
   "status": "proved",
   "theorems": [
    "Verif.C47_fixed_points_minimise",
    "Verif.C47_minimisers_are_fixed",
    "Verif.C47_mean_invariant",
    "Verif.C47_single_operator"
   ],
   "note": "Exact arithmetic, convex terms with exact prox."
  },
  {
   "property": "C48",
   "status": "proved",
   "theorems": [
    "Verif.C48_validation",
    "Verif.C48_parameters",
    "Verif.C48_solution_is_prox_value",
    "Verif.C48_composite_gradient"
   ],
   "note": ""
  },
  {
   "property": "C49",
   "status": "proved",
   "theorems": [
    "Verif.C49_fixed_iff_saddle",
    "Verif.C49_fixed_minimises",
    "Verif.C49_unscaled_prox"
   ],
   "note": "As stated, with the primal prox scaled as called; C49_unscaled_prox shows that a prox that ignores the scale gives a different minimiser."
  },
  {
   "property": "C50",
   "status": "proved",
   "theorems": [
    "Verif.C50_condat_counts",
    "Verif.C50_condat_counts_exact"
   ],
   "note": ""
  },
  {
   "property": "C51",
   "status": "partial",
   "theorems": [
    "Verif.C51_multiplier_has_no_effect",
    "Verif.C51_multiplier_accumulates_partial",
    "Verif.C51_stationary_multiplier",
    "Verif.C51_constraint_not_enforced",
    "Verif.C51_kept_solutions",
    "Verif.C51_kept_solutions_plus",
    "Verif.C51_limits",
    "Verif.C51_limits_plus"
   ],
   "note": "False of the code: the multiplier has no effect on u and v for any problem, and a concrete problem rests at an infeasible point (both proved). With exact optimizers, as documented, and operators with injective adjoints the iterates can converge to a solution only if it splits the constraint evenly, A u = B v = b/2 (C51_kept_solutions, C51_limits); with optimizers of the opposite sign only if its multiplier is tau u (C51_kept_solutions_plus, C51_limits_plus). Proved: the accumulation law (_partial)."
  },
  {
   "property": "C52",
   "status": "partial",
   "theorems": [
    "Verif.C52_recursion_partial",
    "Verif.C52_parameters_have_no_effect",
    "Verif.C52_negative_eta_is_plain_admm",
    "Verif.C52_zero_eta",
    "Verif.C52_cost_functions_unusable"
   ],
   "note": "False of the code: eta>0, tau and the initial v have no effect; restart unreachable; eta=0 raises; cost functions unusable (all proved). The exact recursion is proved (_partial)."
  },
  {
   "property": "C53",
   "status": "proved",
   "theorems": [
    "Verif.C53_vanilla_recursion",
    "Verif.C53_zero_epoch"
   ],
   "note": "Every history of indices and gradient functions, every prox, every step-size rule; epoch_size=0 raises (proved)."
  },
  {
   "property": "C54",
   "status": "proved",
   "theorems": [
    "Verif.C54_rmsprop_validation",
    "Verif.C54_rmsprop_out_of_range",
    "Verif.C54_ada_accumulator",
    "Verif.C54_ada_steps_nonincreasing",
    "Verif.C54_rmsprop_accumulator",
    "Verif.C54_rmsprop_bounded"
   ],
   "note": "Accumulators in closed form for every history; effective AdaGrad steps non-increasing; RMSprop validation is exactly [0,1] (documentation excludes the end points)."
  },
  {
   "property": "C55",
   "status": "partial",
   "theorems": [
    "Verif.C55_momentum_is_vanilla",
    "Verif.C55_momentum_between_resets_partial"
   ],
   "note": "False of the code: with the default epoch_size=1 momentum is reset at every update and the iterates equal vanilla descent (proved). Between resets the closed form holds (_partial)."
  },
  {
   "property": "C56",
   "status": "partial",
   "theorems": [
    "Verif.C56_adam_validation",
    "Verif.C56_divisors_positive",
    "Verif.C56_estimate_biased",
    "Verif.C56_first_update_unbiased",
    "Verif.C56_asymptotically_unbiased_partial"
   ],
   "note": "False of the code from the second update on, for every beta in (0,1) (proved). First update unbiased, divisors positive, bias vanishes asymptotically (_partial)."
  },
  {
   "property": "C57",
   "status": "proved",
   "theorems": [
    "Verif.C57_saga_direction"
   ],
   "note": "For every history of iterate calls and changing gradient functions, when the starting array can hold the gradients (C124)."
  },
  {
   "property": "C58",
   "status": "proved",
   "theorems": [
    "Verif.C58_closed_form",
    "Verif.C58_bounds",
    "Verif.C58_strict",
    "Verif.C58_wrong_shape",
    "Verif.C58_counter"
   ],
   "note": "Every sequence of reweightings; bounds and strictness; wrong shape raises."
  },
  {
   "property": "C59",
   "status": "partial",
   "theorems": [
    "Verif.C59_caller_array_modified",
    "Verif.C59_converted_untouched_partial"
   ],
   "note": "False of the code for floating-point weights: the caller's array is modified in place (proved). Integer and list inputs are converted first and stay untouched (_partial)."
  },
  {
   "property": "C60",
   "status": "proved",
   "theorems": [
    "Verif.C60_gram_schmidt",
    "Verif.C60_dependent_rows",
    "Verif.C60_options",
    "Verif.C60_complex_not_orthogonal"
   ],
   "note": "Real rows. Linearly dependent rows characterised; for complex rows the unconjugated np.inner loses orthogonality (proved)."
  },
  {
   "property": "C61",
   "status": "proved",
   "theorems": [
    "Verif.C61_quarter_turn_permutes",
    "Verif.C61_four_quarter_turns",
    "Verif.C61_odd_is_geometric",
    "Verif.C61_even_is_shifted",
    "Verif.C61_never_out_of_range",
    "Verif.C61_not_square"
   ],
   "note": "Odd sizes: geometric rotation. Even sizes: the turn is about a shifted centre with wrap-around, still a permutation."
  },
  {
   "property": "C62",
   "status": "proved",
   "theorems": [
    "Verif.C62_never_overestimates",
    "Verif.C62_operator_norm",
    "Verif.C62_returns",
    "Verif.C62_estimate",
    "Verif.C62_estimates_monotone",
    "Verif.C62_estimates_converge"
   ],
   "note": "Exact arithmetic; every estimate bounded by the operator norm, monotone and convergent for symmetric positive operators."
  },
  {
   "property": "C63",
   "status": "proved",
   "theorems": [
    "Verif.C63_mad_is_median_of_deviations",
    "Verif.C63_mad_affine",
    "Verif.C63_mad_perm",
    "Verif.C63_mad_robust",
    "Verif.C63_mse",
    "Verif.C63_mse_complex_not_an_error",
    "Verif.C63_psnr_wiki",
    "Verif.C63_psnr_methods_agree_on_square_images",
    "Verif.C63_psnr_invalid",
    "Verif.C63_psnr_stack",
    "Verif.C63_psnr_stack_value_error",
    "Verif.C63_psnr_stack_ignores_unpaired"
   ],
   "note": "Median specified by counting; affine laws, order invariance and robustness of mad; mse axioms (real data; complex data refuted); psnr closed forms; psnr_stack slice-wise, silently ignoring unpaired images."
  },
  {
   "property": "C64",
   "status": "proved",
   "theorems": [
    "Verif.C64_normalised_range",
    "Verif.C64_affine_invariant",
    "Verif.C64_affine_invariant_nonneg",
    "Verif.C64_signed_images_not_invariant",
    "Verif.C64_unmasked_formulas",
    "Verif.C64_constant_image_is_nan",
    "Verif.C64_ssim_formula",
    "Verif.C64_empty_images",
    "Verif.C64_bad_mask"
   ],
   "note": "For magnitudes; for signed images a shift does change the metrics (proved)."
  },
  {
   "property": "C65",
   "status": "partial",
   "theorems": [
    "Verif.C65_invalid_n_pc_rejected",
    "Verif.C65_non_matrix_rejected",
    "Verif.C65_hard_keeps_first_k_partial",
    "Verif.C65_at_least_as_good_as_rank_k",
    "Verif.C65_all_components",
    "Verif.C65_ties_keep_more_components",
    "Verif.C65_soft_keeps_fewer",
    "Verif.C65_threshold_takes_precedence",
    "Verif.C65_hard_threshold_selects",
    "Verif.C65_auto_zero_keeps_everything",
    "Verif.C65_independent_of_decomposition",
    "Verif.C65_n_pc_independent_of_decomposition"
   ],
   "note": "Exactly true only without ties and for hard thresholding (C65_hard_keeps_first_k_partial; optimality among rank-k matrices is C65_at_least_as_good_as_rank_k). Refuted for ties, for the default soft thresholding and when find_n_pc counts zero. The external SVD is assumed to return some decomposition; results are shown independent of which."
  },
  {
   "property": "C66",
   "status": "partial",
   "theorems": [
    "Verif.C66_terminates",
    "Verif.C66_returned_value",
    "Verif.C66_agrees_with_svd_thresh_partial",
    "Verif.C66_never_full_rank",
    "Verif.C66_default_loses_a_component",
    "Verif.C66_default_returns_at_once",
    "Verif.C66_retry_can_overshoot",
    "Verif.C66_zero_extra_never_returns",
    "Verif.C66_vectors_rejected"
   ],
   "note": "False in general: the routine never returns a full-rank matrix, can overshoot into ValueError, can loop forever with extra_vals=0, and rejects vectors. Agreement with svd_thresh is proved when the smallest singular value is at most the threshold (_partial). Termination proved for extra_vals >= 1."
  },
  {
   "property": "C67",
   "status": "proved",
   "theorems": [
    "Verif.C67_gaussian",
    "Verif.C67_gaussian_unnormalised",
    "Verif.C67_bad_scale",
    "Verif.C67_mex_hat",
    "Verif.C67_mex_hat_dir_even"
   ],
   "note": "Gaussian = Mathlib's normal density; Mexican hat = Ricker wavelet, zero mean and unit energy proved by integration; zero and negative scales covered (C67_bad_scale)."
  },
  {
   "property": "C68",
   "status": "proved",
   "theorems": [
    "Verif.C68_adjoint_pairs_pass",
    "Verif.C68_iff_transpose",
    "Verif.C68_mismatch_detected_almost_surely",
    "Verif.C68_complex_transpose_not_adjoint"
   ],
   "note": "Real linear operators: zero for all draws iff transpose; a mismatch is detected with probability one. For complex operators the accepted pairs are transposes, not adjoints (C68_complex_transpose_not_adjoint)."
  },
  {
   "property": "C69",
   "status": "proved",
   "theorems": [
    "Verif.C69_trim",
    "Verif.C69_trim_errors",
    "Verif.C69_trim_idempotent"
   ],
   "note": "Smallest covering block, idempotence and the error cases."
  },
  {
   "property": "C70",
   "status": "proved",
   "theorems": [
    "Verif.C70_convolve_stack_entries",
    "Verif.C70_convolve_dispatch",
    "Verif.C70_linear_in_data",
    "Verif.C70_linear_in_kernel"
   ],
   "note": ""
  },
  {
   "property": "C71",
   "status": "partial",
   "theorems": [
    "Verif.C71_regroup_2d",
    "Verif.C71_incomplete_group_ignored",
    "Verif.C71_regroup_3d",
    "Verif.C71_torch_roundtrip",
    "Verif.C71_roundtrip_adds_axis",
    "Verif.C71_split_concat",
    "Verif.C71_split_outcome",
    "Verif.C71_cupy_roundtrip_partial",
    "Verif.C71_cupy_never_real"
   ],
   "note": "Regrouping proved for every number of levels in 2D and, exactly under the key order wavedec3_keys, in 3D; splitting the concatenation proved for all layouts with the exact failure condition; full round trip of the Torch operator for real and complex data. Two defects recorded: unbatched data come back with an extra axis, and the CuPy operator turns real data into complex."
  },
  {
   "property": "C72",
   "status": "partial",
   "theorems": [
    "Verif.C72_survivors",
    "Verif.C72_handler_count",
    "Verif.C72_files_never_closed",
    "Verif.C72_close_keeps_handlers",
    "Verif.C72_single_set_up_partial",
    "Verif.C72_close_is_recorded",
    "Verif.C72_set_up_is_recorded"
   ],
   "note": "False of the code: C72_survivors gives the exact survivors for every history, C72_files_never_closed that no file is closed. Holds for a log set up once (C72_single_set_up_partial)."
  },
  {
   "property": "C73",
   "status": "proved",
   "theorems": [
    "Verif.C73_check_float",
    "Verif.C73_trunc",
    "Verif.C73_check_int",
    "Verif.C73_errors",
    "Verif.C73_identity",
    "Verif.C73_check_callable"
   ],
   "note": ""
  },
  {
   "property": "C74",
   "status": "proved",
   "theorems": [
    "Verif.C74_get_backend",
    "Verif.C74_array_module",
    "Verif.C74_change_backend",
    "Verif.C74_non_arrays_pass_through"
   ],
   "note": "The conversion routines of the libraries are parameters; values that are no arrays pass through unchanged (C74_non_arrays_pass_through)."
  },
  {
   "property": "C75",
   "status": "proved",
   "theorems": [
    "Verif.C75_is_executable",
    "Verif.C75_file_name"
   ],
   "note": "Faithful posixpath split/join and PATH splitting, specified independently."
  },
  {
   "property": "C76",
   "status": "proved",
   "theorems": [
    "Verif.C76_scalar_sigma",
    "Verif.C76_sequence_sigma",
    "Verif.C76_other_sigma",
    "Verif.C76_invalid_type"
   ],
   "note": ""
  },
  {
   "property": "C77",
   "status": "proved",
   "theorems": [
    "Verif.C77_stationary_iff_minimiser"
   ],
   "note": ""
  },
  {
   "property": "C78",
   "status": "partial",
   "theorems": [
    "Verif.C78_cost_not_squared",
    "Verif.C78_cost_on_feasible_partial",
    "Verif.C78_options_misrouted"
   ],
   "note": "False of the code: the norm is not squared and options are misrouted (proved). Agreement on feasible pairs proved (_partial)."
  },
  {
   "property": "C79",
   "status": "proved",
   "theorems": [
    "Verif.C79_condat_fejer",
    "Verif.C79_condat_never_away",
    "Verif.C79_condat_run",
    "Verif.C79_metric_condition",
    "Verif.C79_usual_condition"
   ],
   "note": "Constant parameters, rho below 2 (over-relaxation included), exact arithmetic."
  },
  {
   "property": "C80",
   "status": "partial",
   "theorems": [
    "Verif.C80_step_not_as_documented",
    "Verif.C80_generic_step"
   ],
   "note": "False of the code: exact characterisation of when the two formulas agree; generic and SAGA classes step with eta/epsilon."
  },
  {
   "property": "C81",
   "status": "partial",
   "theorems": [
    "Verif.C81_direction_is_scaled_sag",
    "Verif.C81_agrees_with_saga_iff"
   ],
   "note": "False of the code: the direction is n times the SAG direction; agreement with SAGA characterised exactly."
  },
  {
   "property": "C82",
   "status": "partial",
   "theorems": [
    "Verif.C82_spurious_stop",
    "Verif.C82_stopping_rule_partial"
   ],
   "note": "False of the code at the first iteration (proved); holds for every later stop (_partial)."
  },
  {
   "property": "C83",
   "status": "partial",
   "theorems": [
    "Verif.C83_seed_ignored"
   ],
   "note": "False of the code: the seed is ignored (proved)."
  },
  {
   "property": "C84",
   "status": "proved",
   "theorems": [
    "Verif.C84_gaussian_kernel"
   ],
   "note": "For any positive kernel astropy returns; astropy's kernel itself is a parameter. For astropy >= 5.2 norm='sum' relies on astropy's own normalisation."
  },
  {
   "property": "C85",
   "status": "partial",
   "theorems": [
    "Verif.C85_masked_pixels_matter",
    "Verif.C85_snr_reference_not_masked",
    "Verif.C85_masked_pixels_partial",
    "Verif.C85_psnr_renormalises"
   ],
   "note": "False of the code (three refutations proved). Proved for mse, psnr and nrmse when the hidden pixels do not change the range of magnitudes (_partial)."
  },
  {
   "property": "C86",
   "status": "partial",
   "theorems": [
    "Verif.C86_dir_is_not_gaussian_times_mex_hat",
    "Verif.C86_dir_unbounded"
   ],
   "note": "False of the code: both refutations are proved for every positive scale. What holds is evenness (C67_mex_hat_dir_even) and the exact value in C86_dir_unbounded."
  },
  {
   "property": "C87",
   "status": "partial",
   "theorems": [
    "Verif.C87_trimmed_convolution_is_shifted",
    "Verif.C87_symmetric_support_partial",
    "Verif.C87_trimming_changes_convolution"
   ],
   "note": "False of the code: exact shift proved, witness given; equality proved for filters with symmetric support (_partial)."
  },
  {
   "property": "C88",
   "status": "partial",
   "theorems": [
    "Verif.C88_execute",
    "Verif.C88_arguments_arrive_partial",
    "Verif.C88_string_options_are_words",
    "Verif.C88_path_with_blank_fails"
   ],
   "note": "False of the code for strings with whitespace (join/split round trip characterised exactly); proved for whitespace-free paths and word options (_partial)."
  },
  {
   "property": "C89",
   "status": "partial",
   "theorems": [
    "Verif.C89_refused_calls",
    "Verif.C89_success_leaves_nothing_partial",
    "Verif.C89_failure_leaks_files"
   ],
   "note": "Holds on success for every program that only writes its output file (_partial); two kinds of failure leak a file (refutation)."
  },
  {
   "property": "C90",
   "status": "partial",
   "theorems": [
    "Verif.C90_returns_the_filter_bank",
    "Verif.C90_empty_shape",
    "Verif.C90_trim_fails_on_different_sizes"
   ],
   "note": "Proved for trim=False; with trim=True and filters of different sizes the call raises ValueError (NumPy >= 1.24), refuting the documented object array."
  },
  {
   "property": "C91",
   "status": "partial",
   "theorems": [
    "Verif.C91_messages_repeated",
    "Verif.C91_once_partial",
    "Verif.C91_dotted_names_share"
   ],
   "note": "False of the code (duplicates for k set-ups, dotted names); holds with a single handler and no ancestors (_partial)."
  },
  {
   "property": "C92",
   "status": "partial",
   "theorems": [
    "Verif.C92_arrays_are_moved_partial",
    "Verif.C92_never_rejects"
   ],
   "note": "False of the code: C92_never_rejects. Holds for arrays (_partial)."
  },
  {
   "property": "C93",
   "status": "partial",
   "theorems": [
    "Verif.C93_conversions_partial",
    "Verif.C93_gpu_tensor_needs_cupy",
    "Verif.C93_cpu_tensor_gives_numpy",
    "Verif.C93_cupy_rejects_non_tensors"
   ],
   "note": "False of the code: C93_cpu_tensor_gives_numpy. The supported conversions are C93_conversions_partial."
  },
  {
   "property": "C94",
   "status": "proved",
   "theorems": [
    "Verif.C94_low_rank_op_is_prox_of_its_cost",
    "Verif.C94_cost_is_weighted_nuclear_norm",
    "Verif.C94_unknown_type_rejected"
   ],
   "note": "For every correct SVD routine; existence of one is proved. Rounding inside thresh is modelled where it matters."
  },
  {
   "property": "C95",
   "status": "proved",
   "theorems": [
    "Verif.C95_nuclear_norm_is_dual_norm",
    "Verif.C95_independent_of_decomposition",
    "Verif.C95_nuclear_norm_is_a_norm",
    "Verif.C95_unitarily_invariant"
   ],
   "note": "For every correct SVD routine."
  },
  {
   "property": "C96",
   "status": "partial",
   "theorems": [
    "Verif.C96_no_estimate_no_state",
    "Verif.C96_estimate_is_updated",
    "Verif.C96_rank_zero_means_none",
    "Verif.C96_zero_estimate_is_a_trap",
    "Verif.C96_trap_is_reachable"
   ],
   "note": "False of the code: C96_zero_estimate_is_a_trap and C96_trap_is_reachable. The state update itself is C96_estimate_is_updated; without an estimate no history changes the object."
  },
  {
   "property": "C97",
   "status": "partial",
   "theorems": [
    "Verif.C97_rejections",
    "Verif.C97_hard_value",
    "Verif.C97_low_rank_ngole_value",
    "Verif.C97_zero_threshold_identity",
    "Verif.C97_scalar_threshold_kept",
    "Verif.C97_array_threshold_overwritten",
    "Verif.C97_second_call_differs"
   ],
   "note": "The value theorem holds; repeatability is refuted for array thresholds (C97_array_threshold_overwritten, C97_second_call_differs)."
  },
  {
   "property": "C98",
   "status": "proved",
   "theorems": [
    "Verif.C98_non_square_rejected",
    "Verif.C98_counts_columns",
    "Verif.C98_lag_zero_is_squared_norm",
    "Verif.C98_monotone_and_bounded",
    "Verif.C98_can_be_zero"
   ],
   "note": "Exact arithmetic. C98_can_be_zero shows that the count may be zero, which svd_thresh then mishandles (C65_auto_zero_keeps_everything)."
  },
  {
   "property": "C99",
   "status": "partial",
   "theorems": [
    "Verif.C99_norm_for_k_one",
    "Verif.C99_norm_for_large_k",
    "Verif.C99_op_is_prox_partial",
    "Verif.C99_unregularised_op_is_prox_partial",
    "Verif.C99_extra_factor_not_honoured"
   ],
   "note": "Proved for extra_factor 1: the result is the unique prox with a budget equal to k up to d(beta+1)eps/m, exactly k when the machine epsilon is replaced by zero. False for extra_factor other than 1 (C99_extra_factor_not_honoured: theta is computed without the factor)."
  },
  {
   "property": "C100",
   "status": "partial",
   "theorems": [
    "Verif.C100_cost_bounds_partial",
    "Verif.C100_cost_on_flat_data",
    "Verif.C100_cost_for_k_one_is_doubled",
    "Verif.C100_cost_for_full_k",
    "Verif.C100_cost_is_no_multiple_of_the_norm",
    "Verif.C100_cost_depends_on_call_order"
   ],
   "note": "False of the code: the cost is twice the documented value for k=1 and is no multiple of the norm for k=2; raises IndexError for k larger than the data unless op ran first. Proved: cost exists for 1<=k<=d and lies between beta/2 |x|_1^2/k and beta times the squared norm, exact on flat data."
  },
  {
   "property": "C101",
   "status": "partial",
   "theorems": [
    "Verif.C101_mode_ignored",
    "Verif.C101_requested_mode_not_used",
    "Verif.C101_configuration_partial",
    "Verif.C101_unknown_backend_rejected",
    "Verif.C101_unknown_keyword"
   ],
   "note": "False of the code: the NumPy backend is built without mode, so every requested mode becomes symmetric (C101_mode_ignored). What does reach the backends is C101_configuration_partial."
  },
  {
   "property": "C102",
   "status": "partial",
   "theorems": [
    "Verif.C102_batches_always_raise",
    "Verif.C102_constructor_accepts_batches",
    "Verif.C102_single_batch_roundtrip_partial"
   ],
   "note": "False of the code for n_batch > 1: AttributeError on every call (verbose never set). The single-batch round trip is proved."
  },
  {
   "property": "C103",
   "status": "partial",
   "theorems": [
    "Verif.C103_adjoint_needs_a_call",
    "Verif.C103_same_layout_histories_partial",
    "Verif.C103_later_call_changes_adjoint"
   ],
   "note": "False of the code: the layout of the last op is used. Proved for histories of one layout; the exact failure condition is C71_split_outcome."
  },
  {
   "property": "C104",
   "status": "partial",
   "theorems": [
    "Verif.C104_forward_backward_resumes",
    "Verif.C104_gen_first_operator_partial",
    "Verif.C104_gen_forward_backward_derailed",
    "Verif.C104_gen_failure_state",
    "Verif.C104_condat_resumes",
    "Verif.C104_admm_resumes",
    "Verif.C104_pogm_first_update_partial",
    "Verif.C104_pogm_derailed",
    "Verif.C104_vanilla_resumes",
    "Verif.C104_ada_grad_derailed",
    "Verif.C104_failed_update_ends_run"
   ],
   "note": "Proved for ForwardBackward, Condat, ADMM and vanilla gradient descent; false of the code for GenForwardBackward (auxiliary variables already modified), POGM (z, xi already modified) and AdaGrad (accumulator already modified), each with a refutation; what holds for them is in the _partial theorems."
  },
  {
   "property": "C105",
   "status": "proved",
   "theorems": [
    "Verif.C105_metrics_record_every_update",
    "Verif.C105_published_results",
    "Verif.C105_forward_backward_sees",
    "Verif.C105_gen_forward_backward_sees",
    "Verif.C105_pogm_sees",
    "Verif.C105_condat_sees",
    "Verif.C105_admm_sees",
    "Verif.C105_gradient_descent_sees",
    "Verif.C105_construction"
   ],
   "note": "Over whole iterate calls with real observers and cost object; the _sees theorems say what each class passes to a metric. The metric period has no effect (see C15)."
  },
  {
   "property": "C106",
   "status": "partial",
   "theorems": [
    "Verif.C106_results_change_later",
    "Verif.C106_time_is_kept_partial"
   ],
   "note": "False of the code: index and values are the live lists of the observer while time is a copy; the refutation holds for every object and every later run."
  },
  {
   "property": "C107",
   "status": "partial",
   "theorems": [
    "Verif.C107_resume",
    "Verif.C107_indices_restart",
    "Verif.C107_classes_ignore_index",
    "Verif.C107_gradient_descent_epoch_one_partial",
    "Verif.C107_gradient_descent_differs"
   ],
   "note": "Proved for updates and metrics that do not use the iteration index, which covers all classes except gradient descent with epoch_size other than 1 (refuted). Recorded indices restart at zero."
  },
  {
   "property": "C108",
   "status": "partial",
   "theorems": [
    "Verif.C108_metrics_dead_after_failure",
    "Verif.C108_unlocked_without_failures_partial",
    "Verif.C108_silent_afterwards"
   ],
   "note": "False of the code: the lock of the observable stays set; universal refutation."
  },
  {
   "property": "C109",
   "status": "partial",
   "theorems": [
    "Verif.C109_zero_iterations_raise",
    "Verif.C109_zero_iterations_admm_gd",
    "Verif.C109_final_is_set_partial",
    "Verif.C109_admm_final"
   ],
   "note": "False of the code for max_iter = 0 in four families (AttributeError); proved for max_iter > 0 and for ADMM and gradient descent."
  },
  {
   "property": "C110",
   "status": "partial",
   "theorems": [
    "Verif.C110_rejected_operator_freezes_data",
    "Verif.C110_values_untouched_partial",
    "Verif.C110_rejected_data_changes_nothing"
   ],
   "note": "False of the code: the write flag of the data is cleared before the operators are checked (universal refutation). Values and all other arrays are untouched (_partial)."
  },
  {
   "property": "C111",
   "status": "partial",
   "theorems": [
    "Verif.C111_parent_uses_given_methods",
    "Verif.C111_basic_ignores_given_methods",
    "Verif.C111_basic_checks_ignored_methods",
    "Verif.C111_acceptance"
   ],
   "note": "Proved for GradParent; GradBasic checks both arguments and then ignores them (universal refutation)."
  },
  {
   "property": "C112",
   "status": "partial",
   "theorems": [
    "Verif.C112_grad_is_last_gradient_partial",
    "Verif.C112_real_data_type_drops_imaginary"
   ],
   "note": "Proved for data types other than a real one; with a real data type exactly the real part is stored (refutation with exact condition). Gradients are arrays of complex numbers."
  },
  {
   "property": "C113",
   "status": "partial",
   "theorems": [
    "Verif.C113_checked_attribute_always_callable_partial",
    "Verif.C113_positivity_accepts_anything",
    "Verif.C113_construction"
   ],
   "note": "Proved for attributes with the checking setter; refuted for Positivity, whose op method hides the setter."
  },
  {
   "property": "C114",
   "status": "partial",
   "theorems": [
    "Verif.C114_reports_partial",
    "Verif.C114_warnings_never_logged",
    "Verif.C114_log_triggers_python_warning"
   ],
   "note": "Terminal output and logged errors proved over all sessions; warnings never reach a log (universal refutation). Filters of the warnings module are not modelled."
  },
  {
   "property": "C115",
   "status": "proved",
   "theorems": [
    "Verif.C115_names_distinct",
    "Verif.C115_last_plot_kept"
   ],
   "note": "The figure is an arbitrary function of the costs; only file names and contents are modelled."
  },
  {
   "property": "C116",
   "status": "proved",
   "theorems": [
    "Verif.C116_genforwardbackward_converges",
    "Verif.C116_genforwardbackward_solves"
   ],
   "note": "Exact arithmetic, finite dimension. C116_genforwardbackward_solves needs only a minimiser, when at most one operator is a constraint; otherwise the existence of split subgradients is the usual qualification condition."
  },
  {
   "property": "C117",
   "status": "proved",
   "theorems": [
    "Verif.C117_forwardbackward_converges",
    "Verif.C117_bound_is_sharp"
   ],
   "note": "Exact arithmetic, finite dimension. The bound 2/L is shown to be sharp."
  },
  {
   "property": "C118",
   "status": "proved",
   "theorems": [
    "Verif.C118_condat_converges",
    "Verif.C118_condat_solves"
   ],
   "note": "Exact arithmetic, finite dimension; the factor 1/tau on the primal term is the one of C49. C118_condat_solves needs only a minimiser when the dual function is finite everywhere."
  },
  {
   "property": "C119",
   "status": "proved",
   "theorems": [
    "Verif.C119_chambolle_dossal_converges"
   ],
   "note": "Exact arithmetic, finite dimension."
  },
  {
   "property": "C120",
   "status": "proved",
   "theorems": [
    "Verif.C120_vanilla_converges",
    "Verif.C120_momentum_converges"
   ],
   "note": "Exact arithmetic, real data."
  },
  {
   "property": "C121",
   "status": "partial",
   "theorems": [
    "Verif.C121_forward_backward",
    "Verif.C121_condat",
    "Verif.C121_admm",
    "Verif.C121_gen_forward_backward",
    "Verif.C121_pogm_partial",
    "Verif.C121_pogm_overwrites_gradient",
    "Verif.C121_pogm_changes_kept_gradient",
    "Verif.C121_fast_admm_partial",
    "Verif.C121_fast_admm_overwrites_result",
    "Verif.C121_gradient_descent"
   ],
   "note": "Proved for ForwardBackward, GenForwardBackward, Condat, ADMM and all gradient descent classes. False for POGM, whose in-place copy writes into the array its gradient operator returned at construction (proved: the array really changes), and for FastADMM results when an optimiser returns its initial estimate (proved); both hold under the stated extra hypothesis (_partial)."
  },
  {
   "property": "C122",
   "status": "partial",
   "theorems": [
    "Verif.C122_forward_backward",
    "Verif.C122_condat",
    "Verif.C122_admm",
    "Verif.C122_gen_forward_backward",
    "Verif.C122_pogm_partial",
    "Verif.C122_pogm_stuck",
    "Verif.C122_fast_admm",
    "Verif.C122_gradient_descent"
   ],
   "note": "Proved for ForwardBackward, GenForwardBackward, Condat, ADMM, FastADMM and all gradient descent classes, by refinement of the value models. False for POGM when the gradient operator returns its argument (proved: the stored iterate never moves); holds when the first gradient is a new array (_partial)."
  },
  {
   "property": "C123",
   "status": "partial",
   "theorems": [
    "Verif.C123_condat_exact",
    "Verif.C123_condat_integer_start",
    "Verif.C123_condat_accepts_partial",
    "Verif.C123_forward_backward",
    "Verif.C123_gen_forward_backward_exact",
    "Verif.C123_gen_forward_backward_integer_start",
    "Verif.C123_gen_forward_backward_accepts_partial",
    "Verif.C123_pogm_exact",
    "Verif.C123_pogm_integer_start",
    "Verif.C123_pogm_real_gradient",
    "Verif.C123_pogm_accepts_partial",
    "Verif.C123_fast_admm_exact",
    "Verif.C123_fast_admm_integer_b",
    "Verif.C123_fast_admm_integer_start",
    "Verif.C123_fast_admm_accepts_partial",
    "Verif.C123_power_method_exact",
    "Verif.C123_power_method_integer_data_type",
    "Verif.C123_power_method_integer_operator",
    "Verif.C123_power_method_complex_operator",
    "Verif.C123_power_method_accepts_partial"
   ],
   "note": "Proved in full for ForwardBackward. For GenForwardBackward, POGM, Condat, FastADMM and PowerMethod every update that does not raise is proved exact, but integer starting arrays (and an integer b in FastADMM, a real gradient of a complex x in POGM, an integer data_type or operator, or a complex operator with the default data_type, in PowerMethod) are proved to raise TypeError; acceptance is proved for arrays of the kind the operators work in (_partial)."
  },
  {
   "property": "C124",
   "status": "partial",
   "theorems": [
    "Verif.C124_saga_exact_partial",
    "Verif.C124_saga_complex_start_partial",
    "Verif.C124_saga_direction_drifts",
    "Verif.C124_saga_integer_start",
    "Verif.C124_saga_real_start"
   ],
   "note": "False: the table has the data type of the starting array and conversion is silent. Proved: with a constant gradient the direction drifts by the lost part at every update (integer start: the direction grows without bound; real start, complex gradient: the imaginary part does). Holds when the starting array can hold every gradient, always for a complex one (_partial)."
  },
  {
   "property": "C125",
   "status": "proved",
   "theorems": [
    "Verif.C125_converging_cost_is_detected",
    "Verif.C125_session_stops",
    "Verif.C125_session_stops_with_metrics",
    "Verif.C125_forward_backward",
    "Verif.C125_fista",
    "Verif.C125_continuous_cost",
    "Verif.C125_condat",
    "Verif.C125_gen_forward_backward",
    "Verif.C125_zero_tolerance_never_stops"
   ],
   "note": "General theorem for any algorithm object and converging cost, with and without metrics; instances for ForwardBackward without acceleration, FISTA, GenForwardBackward and Condat from their convergence theorems. With tolerance zero a strictly decreasing cost is proved never to stop a run."
  },
  {
   "property": "C126",
   "status": "partial",
   "theorems": [
    "Verif.C126_quality_partial",
    "Verif.C126_stops_far_from_minimum"
   ],
   "note": "False: for every tolerance, test range and starting point there is a step size in the convergent range at which the run on x²/2 stops at the end of the first window having reduced the cost by as little as one likes (C126_stops_far_from_minimum). Proved for ForwardBackward without acceleration and a non-negative objective: the excess is at most max(1e-16/2, |x0-u| sqrt(2 tol cost(x1)/beta)) (_partial)."
  },
  {
   "property": "C127",
   "status": "partial",
   "theorems": [
    "Verif.C127_forward_backward_partial",
    "Verif.C127_approximate_operators_partial",
    "Verif.C127_starting_points_partial",
    "Verif.C127_linear_growth_attained",
    "Verif.C127_strongly_convex_partial",
    "Verif.C127_gen_forward_backward_partial",
    "Verif.C127_condat_partial",
    "Verif.C127_fista_amplifies",
    "Verif.C127_vanilla_partial"
   ],
   "note": "False with FISTA's acceleration: a constant error of the proximity operator moves the result of n updates by at least c n² times the error, c > 0 depending on the FISTA parameters only (C127_fista_amplifies). Proved without acceleration for ForwardBackward, GenForwardBackward (weighted norm), Condat (metric of the algorithm, relaxation below two) and VanillaGenericGradOpt (_partial); the linear bound is attained, and with strong convexity the errors do not even accumulate."
  },
  {
   "property": "C128",
   "status": "proved",
   "theorems": [
    "Verif.C128_forward_backward",
    "Verif.C128_objective",
    "Verif.C128_vanilla",
    "Verif.C128_rate_attained"
   ],
   "note": "ForwardBackward without acceleration and VanillaGenericGradOpt with epoch_size 1: existence and uniqueness of the minimiser and the rate max(|1-bμ|,|1-bL|), plus the objective values for b ≤ 1/L; the rate is attained on a quadratic."
  },
  {
   "property": "C129",
   "status": "proved",
   "theorems": [
    "Verif.C129_sparse",
    "Verif.C129_elastic_net",
    "Verif.C129_ridge",
    "Verif.C129_group_lasso",
    "Verif.C129_positivity",
    "Verif.C129_positivity_fista"
   ],
   "note": "Without acceleration: SparseThreshold (soft), ElasticNet, Ridge, GroupLASSO and Positivity, real and complex, rate ‖x0-u‖²/(2βn), with the distance to the point that meets it bounded by n√d(2⁻⁵²+10⁻¹⁵) for the thresholding operators, n√groups·2⁻²³ for GroupLASSO and 0 for Ridge and Positivity; Positivity also with the FISTA sequence (2‖x0-u‖²/(βn²))."
  },
  {
   "property": "C130",
   "status": "partial",
   "theorems": [
    "Verif.C130_diverges",
    "Verif.C130_enough_iterations_partial"
   ],
   "note": "False: for every extra_factor, tolerance and max_iter there are a self-adjoint operator and an open set of random starts for which the step makes gradient descent diverge from every starting point off one axis (C130_diverges). Proved (_partial) from some operator-dependent number of iterations on when early stopping is disabled: the step lies in [1/(e lam), 2/lam) and ForwardBackward converges for all data, convex regularisers and starting points."
  },
  {
   "property": "C131",
   "status": "proved",
   "theorems": [
    "Verif.C131_soft",
    "Verif.C131_hard_and_positive",
    "Verif.C131_shrinkage",
    "Verif.C131_reweight",
    "Verif.C131_normalised",
    "Verif.C131_accumulators",
    "Verif.C131_positivity_run",
    "Verif.C131_positivity_any_relaxation",
    "Verif.C131_momentum_cd",
    "Verif.C131_momentum_cd_value",
    "Verif.C131_momentum_regular"
   ],
   "note": "For every rounding function satisfying Verif.Rounding; binary64 is proved to be one, with relative error 2^-53 and gradual underflow. Overflow, division by zero and nan are excluded by the hypotheses. The bound [1,2] for the default momentum sequence holds for the first 1/(48u) - 1/3 updates, u the relative rounding error (more than 10^14 updates in double precision)."
  },
  {
   "property": "C132",
   "status": "proved",
   "theorems": [
    "Verif.C132_dot_accuracy",
    "Verif.C132_matrix_gradient",
    "Verif.C132_matrix_positivity",
    "Verif.C132_matrix_lasso",
    "Verif.C132_positivity",
    "Verif.C132_soft_accuracy",
    "Verif.C132_ridge_accuracy",
    "Verif.C132_sparse",
    "Verif.C132_ridge"
   ],
   "note": "Without momentum and relaxation (lambda = 1) on real arrays, for problems that have a minimiser. The error bound is n (1 + 25 eps)^n times (25 eps (|x*| + |x0 - x*| + c) + ...), eps a common bound of the relative errors of the arithmetic (10 u) and of the user's gradient. Also: accuracy of soft thresholding and of Ridge for every floating-point entry. For MatrixOperator the accuracy of the computed gradient is proved too, for every order of accumulation with or without fused multiply-add, so that nonnegative least squares and the lasso are covered from the entries of the matrix to the result. Momentum amplifies errors (C127 refutes such a bound for FISTA)."
  },
  {
   "property": "C133",
   "status": "proved",
   "theorems": [
    "Verif.C133_adagrad_gradients_summable",
    "Verif.C133_adagrad_converges",
    "Verif.C133_adagrad_least_squares",
    "Verif.C133_adagrad_projected_rate"
   ],
   "note": "Real arrays, exact arithmetic, constant eta. Convergence of the iterates without a regulariser (IdentityProx); with a regularisation step that moves no entry away from the minimiser (Positivity, projection on a box) the O(1/sqrt n) rate needs bounded iterates, as in the literature."
  },
  {
   "property": "C134",
   "status": "partial",
   "theorems": [
    "Verif.C134_rmsprop_never_settles",
    "Verif.C134_adam_never_settles",
    "Verif.C134_rmsprop_oscillates",
    "Verif.C134_rmsprop_small_steps_partial"
   ],
   "note": "False: with eta > 2 epsilon (the defaults are 1.0 and 1e-6) RMSprop, and ADAM with beta = 0, do not tend to the minimiser of half the squared norm unless they land on it exactly, and a run that jumps between two arrays for ever is given. Proved instead: when eta times the Lipschitz constant is below 2 epsilon, RMSprop's squared gradients are summable with an explicit bound, for every cost with Lipschitz gradient bounded below. ADAM with beta > 0 is not covered."
  },
  {
   "property": "C135",
   "status": "proved",
   "theorems": [
    "Verif.C135_condat_analysis",
    "Verif.C135_genforwardbackward_sparse"
   ],
   "note": "Constant parameters, exact arithmetic apart from the thresholding guard. Existence of a minimiser is assumed (it is proved for data operators bounded below). No factor 1/tau appears because Positivity is a constraint."
  },
  {
   "property": "C136",
   "status": "partial",
   "theorems": [
    "Verif.C136_forwardbackward_shape",
    "Verif.C136_forwardbackward_keeps_shape_iff",
    "Verif.C136_forwardbackward_silent_growth",
    "Verif.C136_forwardbackward_shape_partial",
    "Verif.C136_vanilla_silent_growth",
    "Verif.C136_genforwardbackward_keeps_shape",
    "Verif.C136_condat_keeps_shape",
    "Verif.C136_pogm_keeps_shape",
    "Verif.C136_pogm_buffers_keep_shape",
    "Verif.C136_genforwardbackward_rejects",
    "Verif.C136_condat_rejects",
    "Verif.C136_same_shape_agrees",
    "Verif.C136_genforwardbackward_same_shape",
    "Verif.C136_pogm_same_shape",
    "Verif.C136_condat_same_shape",
    "Verif.C136_vanilla_same_shape",
    "Verif.C136_adagrad_saga_keep_shape",
    "Verif.C136_adagrad_keeps_shape",
    "Verif.C136_adagrad_saga_reject",
    "Verif.C136_gradient_descent_silent_growth",
    "Verif.C136_admm_silent_growth",
    "Verif.C136_fastadmm_keeps_shape",
    "Verif.C136_fastadmm_rejects",
    "Verif.C136_gradient_descent_same_shape",
    "Verif.C136_admm_same_shape",
    "Verif.C136_pogm_rejects"
   ],
   "note": "False for ForwardBackward, ADMM and gradient descent: weights, data or a constraint of a shape such as (n,1) silently turn a solution of shape (n,) into one of shape (n,n) (C136_forwardbackward_silent_growth, C136_admm_silent_growth, and C136_gradient_descent_silent_growth for all gradient descent classes except AdaGrad and SAGA); the exact outcome for all shapes, denoising with GradBasic and SparseThreshold, is C136_forwardbackward_shape. Proved for GenForwardBackward for all operators, with the exact rejection condition; for AdaGrad and SAGA with proximity operators that keep shapes; for Condat (all operators), POGM (operators that never lose axes) and FastADMM (optimisers that never lose axes; v has the shape of b) up to additional leading axes of length one. NumPy broadcasting, in-place addition and copyto are modelled for arrays with at least one axis. C136_pogm_rejects is the exact rejection condition of POGM for denoising with SparseThreshold and weights with no more axes than the starting arrays."
  },
  {
   "property": "C137",
   "status": "proved",
   "theorems": [
    "Verif.C137_forwardbackward",
    "Verif.C137_pogm",
    "Verif.C137_genforwardbackward",
    "Verif.C137_condat",
    "Verif.C137_gradient_descent",
    "Verif.C137_operators",
    "Verif.C137_sparse_regression",
    "Verif.C137_same_as_euclidean",
    "Verif.C137_same_as_euclidean_gen_condat"
   ],
   "note": "On arrays of real or complex numbers in exact arithmetic, with vdot complex and NumPy's lexicographic comparison. C137_same_as_euclidean ties the array model to the model of the other properties."
  },
  {
   "property": "C138",
   "status": "partial",
   "theorems": [
    "Verif.C138_phase_forwardbackward",
    "Verif.C138_phase_other_algorithms",
    "Verif.C138_gradient_descent",
    "Verif.C138_phase_operators",
    "Verif.C138_phase_fails_soft",
    "Verif.C138_phase_soft_partial",
    "Verif.C138_conj_gen_condat",
    "Verif.C138_conj_forwardbackward_partial",
    "Verif.C138_conj_pogm_partial",
    "Verif.C138_conj_decision",
    "Verif.C138_conj_operators",
    "Verif.C138_conj_fails"
   ],
   "note": "A phase carries over for all algorithms and for all operators considered except soft thresholding, whose componentwise rounding breaks it (C138_phase_fails_soft) by at most 2e-15 per entry (C138_phase_soft_partial). Conjugation carries over for GenForwardBackward, Condat and gradient descent, and for ForwardBackward and POGM unless a restart product is a non-zero imaginary number (_partial); then exactly one of the two runs restarts (C138_conj_decision) and the results differ (C138_conj_fails)."
  },
  {
   "property": "C139",
   "status": "partial",
   "theorems": [
    "Verif.C139_imaginary_part_survives",
    "Verif.C139_other_entries_zero",
    "Verif.C139_nonneg_partial"
   ],
   "note": "False: entries with positive real part, and positive imaginary numbers, are returned with their imaginary part (C139_imaginary_part_survives). Proved: exact condition for a non-negative real result, non-negative real parts, idempotence."
  },
  {
   "property": "C140",
   "status": "proved",
   "theorems": [
    "Verif.C140_forwardbackward",
    "Verif.C140_other_algorithms",
    "Verif.C140_gradient_descent",
    "Verif.C140_operators",
    "Verif.C140_sparse_regression",
    "Verif.C140_ksupport",
    "Verif.C140_ksupport_cost",
    "Verif.C140_owl",
    "Verif.C140_low_rank"
   ],
   "note": "On arrays of real or complex numbers in exact arithmetic. Covers ForwardBackward, POGM, GenForwardBackward, Condat, the gradient-descent classes and all operators of the package; LowRankMatrix (standard, soft, no rank estimate) up to the rounding inside its soft thresholding."
  },
  {
   "property": "C141",
   "status": "partial",
   "theorems": [
    "Verif.C141_forwardbackward",
    "Verif.C141_other_algorithms",
    "Verif.C141_gradient_descent",
    "Verif.C141_adaptive_gradient_descent",
    "Verif.C141_adagrad_fixed_rate_fails",
    "Verif.C141_operators",
    "Verif.C141_soft_partial",
    "Verif.C141_soft_vanishes",
    "Verif.C141_sparse_regression_vanishes",
    "Verif.C141_groupLASSO_keeps_all",
    "Verif.C141_costs",
    "Verif.C141_test_partial",
    "Verif.C141_test_always_passes"
   ],
   "note": "True of every algorithm's updates, except that AdaGrad, RMSprop and ADAM need the learning rate and epsilon in the new units (C141_adagrad_fixed_rate_fails), and of MatrixOperator, GradBasic, hard thresholding, Ridge, Positivity. False of soft thresholding (C141_soft_vanishes, C141_sparse_regression_vanishes; within an absolute bound in C141_soft_partial), of GroupLASSO (C141_groupLASSO_keeps_all) and of the convergence test (C141_test_always_passes; exact above 5e-17 in C141_test_partial)."
  },
  {
   "property": "C142",
   "status": "partial",
   "theorems": [
    "Verif.C142_forwardbackward_partial",
    "Verif.C142_pogm_partial",
    "Verif.C142_gen_condat",
    "Verif.C142_gradient_descent",
    "Verif.C142_operators",
    "Verif.C142_restart_couples_images",
    "Verif.C142_pogm_couples_images"
   ],
   "note": "True of GenForwardBackward, Condat and gradient descent, of ForwardBackward without a restart strategy, and of POGM while the signs of its products agree (_partial). False with a restart strategy (C142_restart_couples_images), and of POGM for every step size and damping (C142_pogm_couples_images)."
  },
  {
   "property": "C143",
   "status": "proved",
   "theorems": [
    "Verif.C143_constant_relaxation_converges",
    "Verif.C143_constant_relaxation_rate",
    "Verif.C143_bound_is_sharp"
   ],
   "note": "Exact arithmetic; convergence of the iterates in finite dimension, the rate in any real inner product space. The update z = x_old + lambda (x_new - x_old) is inertia lambda - 1 about x_new, not averaging. lambda = 2 itself is not settled."
  },
  {
   "property": "C144",
   "status": "proved",
   "theorems": [
    "Verif.C144_momentum_never_above_start",
    "Verif.C144_momentum_gradients_vanish",
    "Verif.C144_momentum_rate",
    "Verif.C144_momentum_converges",
    "Verif.C144_too_large_step_fails"
   ],
   "note": "Real arrays, exact arithmetic, one gradient (constant observed data), no eta_update. C144_too_large_step_fails shows that at 2(1+beta)/L it is false; between the two bounds nothing is claimed."
  },
  {
   "property": "C145",
   "status": "proved",
   "theorems": [
    "Verif.C145_times_nondecreasing",
    "Verif.C145_clock_set_back"
   ],
   "note": "time.time() is an arbitrary sequence of readings. C145_clock_set_back shows negative times when the clock is set back."
  },
  {
   "property": "C146",
   "status": "proved",
   "theorems": [
    "Verif.C146_thresholds_keep_nan",
    "Verif.C146_group_nan",
    "Verif.C146_infinite_entries",
    "Verif.C146_finite_entries_agree",
    "Verif.C146_finite_group_agrees",
    "Verif.C146_nan_pixel_stays_nan",
    "Verif.C146_dense_operator_spreads_nan",
    "Verif.C146_infinite_datum",
    "Verif.C146_matrix_infinite_entry",
    "Verif.C146_infinite_observation",
    "Verif.C146_identity_operator_is_local",
    "Verif.C146_nan_disables_adaptive_restart",
    "Verif.C146_nan_disables_greedy_restart",
    "Verif.C146_finite_runs_agree",
    "Verif.C146_finite_gradients_agree",
    "Verif.C146_nonfinite_cost_never_converges",
    "Verif.C146_finite_cost_agrees",
    "Verif.C146_nan_data_nan_cost",
    "Verif.C146_nan_data_runs_all_iterations",
    "Verif.C146_thresholds_keep_inf",
    "Verif.C146_genforwardbackward_nan",
    "Verif.C146_pogm_nan",
    "Verif.C146_condat_nan",
    "Verif.C146_gradient_descent_nan"
   ],
   "note": "Numbers are reals extended with two infinities and NaN: no rounding, overflow or signed zeros; weights, matrices and algorithm parameters are finite; real data. C146_infinite_entries shows that Positivity turns minus infinity into NaN, not zero."
  },
  {
   "property": "C147",
   "status": "partial",
   "theorems": [
    "Verif.C147_genforwardbackward_finite",
    "Verif.C147_condat_finite",
    "Verif.C147_pogm_finite",
    "Verif.C147_gradient_descent_finite_partial",
    "Verif.C147_zero_epsilon_refuted",
    "Verif.C147_zero_epsilon_generic"
   ],
   "note": "False as stated: the gradient descent constructors accept epsilon = 0.0, and then AdaGrad, RMSprop and ADAM turn a pixel whose first gradient vanishes into NaN (C147_zero_epsilon_refuted), and the generic class and SAGA make every pixel non-finite at an update without the proximity step (C147_zero_epsilon_generic). Proved for epsilon > 0 (C147_gradient_descent_finite_partial), for POGM with beta > 0, for Condat with sigma kept non-zero, and for GenForwardBackward. Exact arithmetic: overflow is not modelled."
  },
  {
   "property": "C148",
   "status": "partial",
   "theorems": [
    "Verif.C148_agrees_iff",
    "Verif.C148_weights_vanish",
    "Verif.C148_first_reweighting_partial",
    "Verif.C148_second_reweighting_increases"
   ],
   "note": "False: reweight multiplies the current weights, as its own formula says, so they depend on all earlier data. C148_agrees_iff gives the exact condition (entry i of all earlier data is zero); C148_weights_vanish shows that weights of non-zero entries tend to zero under repetition; C148_second_reweighting_increases gives, for any x whose entries are zero or not small against the weights, a denoising problem whose second reweighted step increases the log-sum objective. Proved: the first reweighting is the step of the reference (C148_first_reweighting_partial). The weights of the reference are stated in Spec/LogSum.lean from the published method: the paper is not part of the repository. Exact arithmetic."
  },
  {
   "property": "C149",
   "status": "proved",
   "theorems": [
    "Verif.C149_lagrangian_gap",
    "Verif.C149_objective_rate",
    "Verif.C149_mean_of_iterates"
   ],
   "note": "Exact arithmetic and exact proximity operators on real inner-product spaces (the objective bound in finite dimension of the dual space). The averaged points are those before the relaxation, computed from the iterates; for rho = 1 they are the means of the iterates (C149_mean_of_iterates). No rate is claimed for the last iterate, and no reweighting takes place. As in C49 the primal term appears divided by tau because the code calls the proximity operator without the step size."
  },
  {
   "property": "C150",
   "status": "partial",
   "theorems": [
    "Verif.C150_integer_weights_no_effect",
    "Verif.C150_shared_weights_partial",
    "Verif.C150_integer_weights_plain_run"
   ],
   "note": "False when both objects are built from an array of integers: the reweighting object works on a floating-point copy, and a run with n reweightings ends in the state of n+1 plain runs with the original weights (C150_integer_weights_no_effect for every algorithm object; C150_integer_weights_plain_run for Condat itself). True when the proximity operator holds the attribute weights of the reweighting object or both were built from one array of floats: the exact weights of every block are given (C150_shared_weights_partial). The model assumes that nothing else writes to the weights. Exact arithmetic."
  },
  {
   "property": "C151",
   "status": "proved",
   "theorems": [
    "Verif.C151_state_from_updates",
    "Verif.C151_metrics_do_not_change_the_run"
   ],
   "note": "Comparison of an object built with metrics and one built without, over every session; the first theorem needs no condition on metrics, cost or exceptions. Metrics are functions of their arguments: a metric that writes into the arrays it receives is outside the model. Exact arithmetic for the recorded values, which the statement does not mention."
  },
  {
   "property": "C152",
   "status": "proved",
   "theorems": [
    "Verif.C152_forward_backward",
    "Verif.C152_small_change_certifies",
    "Verif.C152_relaxation_breaks_monotonicity",
    "Verif.C152_gen_forward_backward",
    "Verif.C152_condat",
    "Verif.C152_vanilla"
   ],
   "note": "Hilbert spaces of any dimension, exact arithmetic, exact proximity operators. The constants degenerate at the end of the step range. With relaxation above one the changes can increase (C152_relaxation_breaks_monotonicity), so the monotonicity does not extend to accelerated runs."
  },
  {
   "property": "C153",
   "status": "proved",
   "theorems": [
    "Verif.C153_false_nonzeros",
    "Verif.C153_exact"
   ],
   "note": "C153_false_nonzeros is for the operator as the package computes it (denominator guard and rounding to 15 decimals), in exact arithmetic otherwise; C153_exact for the exact proximity operator gives a bound independent of the number of updates."
  },
  {
   "property": "C154",
   "status": "proved",
   "theorems": [
    "Verif.C154_positivity",
    "Verif.C154_group_lasso",
    "Verif.C154_guard_keeps_false_nonzeros"
   ],
   "note": "Exact arithmetic. C154_guard_keeps_false_nonzeros shows for every problem of denoising type with weights below the guard that the condition on the thresholds cannot be dropped."
  },
  {
   "property": "C155",
   "status": "proved",
   "theorems": [
    "Verif.C155_gen_forward_backward",
    "Verif.C155_condat",
    "Verif.C155_condat_forward_backward",
    "Verif.C155_relaxations_differ",
    "Verif.C155_vanilla"
   ],
   "note": "Exact real arithmetic; VanillaGenericGradOpt on real arrays. C155_relaxations_differ gives the exact difference caused by the different meaning of the relaxation parameter."
  },
  {
   "property": "C156",
   "status": "proved",
   "theorems": [
    "Verif.C156_zero_is_kept",
    "Verif.C156_accelerated",
    "Verif.C156_correlated_entries_enter",
    "Verif.C156_float",
    "Verif.C156_positivity",
    "Verif.C156_group_lasso",
    "Verif.C156_group_minimiser",
    "Verif.C156_group_guard",
    "Verif.C156_group_converse"
   ],
   "note": "C156_zero_is_kept includes the guard and the 15-decimal rounding of thresh; C156_accelerated instantiates it with the FISTA rules; C156_float is in rounded arithmetic with any computed gradient. C156_positivity and C156_group_lasso are the same statement for Positivity and GroupLASSO; for GroupLASSO it needs the products of weight and step size to be zero or at least 2^-23, and C156_group_guard shows that below that the first update makes entries non-zero however large the weights are."
  },
  {
   "property": "C157",
   "status": "proved",
   "theorems": [
    "Verif.C157_fitted_values",
    "Verif.C157_plain_rate",
    "Verif.C157_fista_rate",
    "Verif.C157_limits",
    "Verif.C157_sparse",
    "Verif.C157_solutions_not_determined",
    "Verif.C157_condat",
    "Verif.C157_gen_forward_backward"
   ],
   "note": "Exact real arithmetic, except that C157_sparse includes the guard and rounding of thresh. C157_condat and C157_gen_forward_backward give the statement for the limits of the splitting algorithms. C157_solutions_not_determined shows that the solutions cannot replace the fitted values in the statement."
  },
  {
   "property": "C158",
   "status": "proved",
   "theorems": [
    "Verif.C158_threshold",
    "Verif.C158_operators",
    "Verif.C158_solutions",
    "Verif.C158_runs",
    "Verif.C158_limits"
   ],
   "note": "Exact real arithmetic including the guards and the decimal rounding; monotonicity of soft thresholding in rounded arithmetic is part of C131."
  }
 ]
}