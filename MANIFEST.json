{
 "claims": [
  {
   "property": "C01",
   "status": "proved",
   "theorems": [
    "Verif.Kalman.C01_covariances_posSemidef",
    "Verif.Kalman.C01_covariances_symm",
    "Verif.Kalman.C01_innovation_posDef",
    "Verif.Kalman.C01_innovCov_symm_iff"
   ],
   "note": ""
  },
  {
   "property": "C02",
   "status": "proved",
   "theorems": [
    "Verif.Kalman.C02_update_is_conditional"
   ],
   "note": ""
  },
  {
   "property": "C03",
   "status": "proved",
   "theorems": [
    "Verif.Kalman.C03_all_missing"
   ],
   "note": ""
  },
  {
   "property": "C04",
   "status": "proved",
   "theorems": [
    "Verif.Kalman.C04_missing_eq_deleted"
   ],
   "note": ""
  },
  {
   "property": "C05",
   "status": "proved",
   "theorems": [
    "Verif.Kalman.C05_loglik_missing",
    "Verif.Kalman.C05_loglik_constant",
    "Verif.Kalman.C05_loglik_single_series",
    "Verif.Kalman.C05_loglik_exact_iff"
   ],
   "note": ""
  },
  {
   "property": "C06",
   "status": "proved",
   "theorems": [
    "Verif.Kalman.C06_univariate_run",
    "Verif.Kalman.C06_univariate_eq_standard",
    "Verif.Kalman.C06_univariate_loglik",
    "Verif.Kalman.C06_univariate_skips_nan",
    "Verif.Kalman.C06_univariate_jitter"
   ],
   "note": ""
  },
  {
   "property": "C07",
   "status": "proved",
   "theorems": [
    "Verif.Kalman.C07_sqrt_step",
    "Verif.Kalman.C07_sqrt_run",
    "Verif.Kalman.C07_sqrt_all_missing"
   ],
   "note": ""
  },
  {
   "property": "C08",
   "status": "proved",
   "theorems": [
    "Verif.Kalman.C08_sqrt_loglik_single",
    "Verif.Kalman.C08_sqrt_loglik_exact",
    "Verif.Kalman.C08_sqrt_loglik_wrong",
    "Verif.Kalman.C08_quadratic_terms_differ"
   ],
   "note": ""
  },
  {
   "property": "C09",
   "status": "proved",
   "theorems": [
    "Verif.Kalman.Args.C09_filter_binding",
    "Verif.Kalman.Args.C09_smoother_binding",
    "Verif.Kalman.Args.C09_every_row_bound",
    "Verif.Kalman.Args.C09_wrong_length_rejected",
    "Verif.Kalman.Args.C09_wrong_ndim_rejected"
   ],
   "note": ""
  },
  {
   "property": "C10",
   "status": "proved",
   "theorems": [
    "Verif.Kalman.Args.C10_univariate_static",
    "Verif.Kalman.Args.C10_univariate_scrambled",
    "Verif.Kalman.Args.C10_univariate_right_only_if"
   ],
   "note": ""
  },
  {
   "property": "C11",
   "status": "proved",
   "theorems": [
    "Verif.Kalman.C11_no_lookahead",
    "Verif.Kalman.C11_forecast_ignores_current_values"
   ],
   "note": ""
  },
  {
   "property": "C12",
   "status": "proved",
   "theorems": [
    "Verif.Kalman.C12_output_lengths",
    "Verif.Kalman.C12_predicted_is_transition_of_filtered"
   ],
   "note": ""
  },
  {
   "property": "C13",
   "status": "proved",
   "theorems": [
    "Verif.Smoother.C13_smoother_static",
    "Verif.Smoother.C13_smoother_empty"
   ],
   "note": ""
  },
  {
   "property": "C14",
   "status": "proved",
   "theorems": [
    "Verif.Smoother.C14_smoother_vs_rts",
    "Verif.Smoother.C14_smoother_eq_rts_iff"
   ],
   "note": ""
  },
  {
   "property": "C15",
   "status": "proved",
   "theorems": [
    "Verif.Smoother.C15_smoother_uses_next_matrix",
    "Verif.Smoother.C15_smoother_misaligned"
   ],
   "note": ""
  },
  {
   "property": "C16",
   "status": "proved",
   "theorems": [
    "Verif.Smoother.C16_smoothed_posSemidef",
    "Verif.Smoother.C16_smoothed_le_step",
    "Verif.Smoother.C16_smoothed_le_filtered",
    "Verif.Smoother.C16_filtered_le_predicted",
    "Verif.Smoother.C16_filter_then_smooth"
   ],
   "note": ""
  },
  {
   "property": "C17",
   "status": "proved",
   "theorems": [
    "Verif.Simulate.C17_split_recovers",
    "Verif.Simulate.C17_draw_obeys",
    "Verif.Simulate.C17_initial_obs_omits_intercept"
   ],
   "note": ""
  },
  {
   "property": "C18",
   "status": "proved",
   "theorems": [
    "Verif.Simulate.C18_draw_length",
    "Verif.Simulate.C18_draw_exists_iff"
   ],
   "note": ""
  },
  {
   "property": "C19",
   "status": "proved",
   "theorems": [
    "Verif.Forecast.C19_forecast_periods",
    "Verif.Forecast.C19_forecast_negative_start",
    "Verif.Forecast.C19_forecast_default_start",
    "Verif.Forecast.C19_forecast_start_outside",
    "Verif.Forecast.C19_forecast_any_index"
   ],
   "note": ""
  },
  {
   "property": "C20",
   "status": "proved",
   "theorems": [
    "Verif.Forecast.C20_integer_end_exclusive",
    "Verif.Forecast.C20_date_end_inclusive",
    "Verif.Forecast.C20_integer_end_before_start",
    "Verif.Forecast.C20_date_periods"
   ],
   "note": ""
  },
  {
   "property": "C21",
   "status": "proved",
   "theorems": [
    "Verif.Simulate.C21_irf_superposition",
    "Verif.Simulate.C21_irf_initial_shock",
    "Verif.Simulate.C21_irf_linear",
    "Verif.Simulate.C21_irf_options"
   ],
   "note": ""
  },
  {
   "property": "C22",
   "status": "proved",
   "theorems": [
    "Verif.Representation.C22_read_back",
    "Verif.Representation.C22_initial_shapes",
    "Verif.Representation.C22_slice_write",
    "Verif.Representation.C22_slice_read_back",
    "Verif.Representation.C22_single_slice_roundtrip",
    "Verif.Representation.C22_slice_read",
    "Verif.Representation.C22_initial_cov_slice_first_row"
   ],
   "note": ""
  },
  {
   "property": "C23",
   "status": "proved",
   "theorems": [
    "Verif.Representation.C23_rejected_unchanged"
   ],
   "note": ""
  },
  {
   "property": "C24",
   "status": "proved",
   "theorems": [
    "Verif.Data.C24_mask_values",
    "Verif.Data.C24_mask_error_iff",
    "Verif.Data.C24_mask_recoverable"
   ],
   "note": ""
  },
  {
   "property": "C25",
   "status": "proved",
   "theorems": [
    "Verif.Data.C25_collision_unnoticed"
   ],
   "note": ""
  },
  {
   "property": "C26",
   "status": "proved",
   "theorems": [
    "Verif.Structural.C26_superposition",
    "Verif.Structural.C26_superposition_cov",
    "Verif.Structural.C26_measurement_error"
   ],
   "note": ""
  },
  {
   "property": "C27",
   "status": "proved",
   "theorems": [
    "Verif.Structural.C27_combine_assoc",
    "Verif.Structural.C27_names_assoc"
   ],
   "note": ""
  },
  {
   "property": "C28",
   "status": "proved",
   "theorems": [
    "Verif.Structural.C28_duplicate_rejected",
    "Verif.Structural.C28_right_biased"
   ],
   "note": ""
  },
  {
   "property": "C29",
   "status": "proved",
   "theorems": [
    "Verif.Structural.C29_seasonal_sum",
    "Verif.Structural.C29_seasonal_periodic"
   ],
   "note": ""
  },
  {
   "property": "C30",
   "status": "proved",
   "theorems": [
    "Verif.Structural.C30_frequency_closed_form",
    "Verif.Structural.C30_frequency_periodic",
    "Verif.Structural.C30_shock_variance"
   ],
   "note": ""
  },
  {
   "property": "C31",
   "status": "proved",
   "theorems": [
    "Verif.Structural.C31_cycle_closed_form",
    "Verif.Structural.C31_cycle_amplitude"
   ],
   "note": ""
  },
  {
   "property": "C32",
   "status": "proved",
   "theorems": [
    "Verif.Structural.C32_trend_polynomial",
    "Verif.Structural.C32_trend_low_orders",
    "Verif.Structural.C32_trend_shocks",
    "Verif.Structural.C32_trend_variance"
   ],
   "note": ""
  },
  {
   "property": "C33",
   "status": "proved",
   "theorems": [
    "Verif.Structural.C33_regression",
    "Verif.Structural.C33_coefficient_variance"
   ],
   "note": ""
  },
  {
   "property": "C34",
   "status": "proved",
   "theorems": [
    "Verif.Structural.C34_autoregressive",
    "Verif.Structural.C34_shock_variance"
   ],
   "note": ""
  },
  {
   "property": "C35",
   "status": "proved",
   "theorems": [
    "Verif.Sarima.C35_sarima_equation",
    "Verif.Sarima.C35_interpretable_equation"
   ],
   "note": ""
  },
  {
   "property": "C36",
   "status": "proved",
   "theorems": [
    "Verif.Sarima.C36_seasonal_polynomials",
    "Verif.Sarima.C36_rejected"
   ],
   "note": ""
  },
  {
   "property": "C37",
   "status": "proved",
   "theorems": [
    "Verif.Ets.C37_ets_names",
    "Verif.Sarima.C37_harvey_names",
    "Verif.Varmax.C37_varmax_names"
   ],
   "note": ""
  },
  {
   "property": "C38",
   "status": "proved",
   "theorems": [
    "Verif.Sarima.C38_interpretable_names"
   ],
   "note": ""
  },
  {
   "property": "C39",
   "status": "proved",
   "theorems": [
    "Verif.Varmax.C39_varma_equation"
   ],
   "note": ""
  },
  {
   "property": "C40",
   "status": "proved",
   "theorems": [
    "Verif.Ets.C40_ets_equations"
   ],
   "note": ""
  },
  {
   "property": "C41",
   "status": "proved",
   "theorems": [
    "Marginal.C41_domain",
    "Marginal.C41_sum_over_assignments"
   ],
   "note": ""
  },
  {
   "property": "C42",
   "status": "proved",
   "theorems": [
    "Marginal.C42_sum_over_joint_assignments",
    "Marginal.C42_order_independent"
   ],
   "note": ""
  },
  {
   "property": "C43",
   "status": "proved",
   "theorems": [
    "Marginal.C43_reported_dims_sound"
   ],
   "note": ""
  },
  {
   "property": "C44",
   "status": "proved",
   "theorems": [
    "Marginal.C44_reduction_of_axis_zero_accepted",
    "Marginal.C44_sum_mixes_entries",
    "Marginal.C44_wrong_logp"
   ],
   "note": ""
  },
  {
   "property": "C45",
   "status": "proved",
   "theorems": [
    "Marginal.C45_aligned_iff_self_inverse",
    "Marginal.C45_two_axes",
    "Marginal.C45_three_axes_wrong"
   ],
   "note": ""
  },
  {
   "property": "C46",
   "status": "proved",
   "theorems": [
    "Marginal.C46_sum_over_paths",
    "Marginal.C46_single_step_fails"
   ],
   "note": ""
  },
  {
   "property": "C47",
   "status": "proved",
   "theorems": [
    "Marginal.C47_conditional_of_covers",
    "Marginal.C47_sums_to_one",
    "Marginal.C47_single_variable",
    "Marginal.C47_several_variables",
    "Marginal.C47_draw_in_domain"
   ],
   "note": ""
  },
  {
   "property": "C48",
   "status": "proved",
   "theorems": [
    "MargState.C48_unknown_names_ignored",
    "MargState.C48_default_recovers_all"
   ],
   "note": ""
  },
  {
   "property": "C49",
   "status": "proved",
   "theorems": [
    "MargState.C49_stops_at_first_offender",
    "MargState.C49_unknown_name_changes_nothing",
    "MargState.C49_check_failure_leaves_all_removed"
   ],
   "note": ""
  },
  {
   "property": "C50",
   "status": "proved",
   "theorems": [
    "MarkovChain.C50_product_of_transitions",
    "MarkovChain.C50_normalised"
   ],
   "note": ""
  },
  {
   "property": "C51",
   "status": "proved",
   "theorems": [
    "MarkovChain.C51_generated_chain",
    "MarkovChain.C51_argument_checks"
   ],
   "note": ""
  },
  {
   "property": "C52",
   "status": "proved",
   "theorems": [
    "Builder.C52_load_save",
    "Builder.C52_other_class_rejected",
    "Builder.C52_array_not_serialisable"
   ],
   "note": ""
  },
  {
   "property": "C53",
   "status": "proved",
   "theorems": [
    "Builder.C53_top_level_tuple",
    "Builder.C53_top_level_array",
    "Builder.C53_list_in_sub_dictionary"
   ],
   "note": ""
  },
  {
   "property": "C54",
   "status": "proved",
   "theorems": [
    "Builder.C54_keys_ignored",
    "Builder.C54_field_boundary",
    "Builder.C54_swapped_keys_load",
    "Builder.C54_text_is_not_number"
   ],
   "note": ""
  },
  {
   "property": "C55",
   "status": "proved",
   "theorems": [
    "Builder.C55_stored_unchanged",
    "Builder.C55_arguments",
    "Builder.C55_stored_seed_ignored"
   ],
   "note": ""
  },
  {
   "property": "C56",
   "status": "proved",
   "theorems": [
    "Builder.C56_read_only",
    "Builder.C56_extend",
    "Builder.C56_groups_kept",
    "Builder.C56_model_data_replaced",
    "Builder.C56_predict_before_fit"
   ],
   "note": ""
  },
  {
   "property": "C57",
   "status": "proved",
   "theorems": [
    "Builder.C57_first_call",
    "Builder.C57_later_calls",
    "Builder.C57_not_repeatable"
   ],
   "note": ""
  },
  {
   "property": "C58",
   "status": "proved",
   "theorems": [
    "PriorFrom.C58_blocks",
    "PriorFrom.C58_unflatten",
    "PriorFrom.C58_blocks_cover",
    "PriorFrom.C58_unknown_variable",
    "PriorFrom.C58_zero_is_mean",
    "PriorFrom.C58_mean_block",
    "PriorFrom.C58_arguments",
    "PriorFrom.C58_keyword_forms",
    "PriorFrom.C58_covariance"
   ],
   "note": ""
  },
  {
   "property": "C59",
   "status": "proved",
   "theorems": [
    "Vip.C59_normal",
    "Vip.C59_normal_vector",
    "Vip.C59_exponential",
    "Vip.C59_extremes",
    "Vip.C59_accepted"
   ],
   "note": ""
  },
  {
   "property": "C60",
   "status": "proved",
   "theorems": [
    "Vip.C60_interior",
    "Vip.C60_boundary",
    "Vip.C60_overlap"
   ],
   "note": ""
  },
  {
   "property": "C61",
   "status": "proved",
   "theorems": [
    "R2d2.C61_mu_sigma",
    "R2d2.C61_masked",
    "R2d2.C61_centred_eq_noncentred",
    "R2d2.C61_second_moment",
    "R2d2.C61_total_variance",
    "R2d2.C61_default_weights",
    "R2d2.C61_positive_probability"
   ],
   "note": ""
  },
  {
   "property": "C62",
   "status": "proved",
   "theorems": [
    "Gev.C62_errors",
    "Gev.C62_support",
    "Gev.C62_cdf",
    "Gev.C62_above_support",
    "Gev.C62_not_monotone",
    "Gev.C62_sampler",
    "Gev.C62_derivative",
    "Gev.C62_mode",
    "Gev.C62_total_mass"
   ],
   "note": ""
  },
  {
   "property": "C63",
   "status": "proved",
   "theorems": [
    "GenPoisson.C63_errors",
    "GenPoisson.C63_pmf",
    "GenPoisson.C63_poisson",
    "GenPoisson.C63_not_normalised"
   ],
   "note": ""
  },
  {
   "property": "C64",
   "status": "proved",
   "theorems": [
    "Verif.Numerics.Cg.C64_frozen",
    "Verif.Numerics.Cg.C64_spd_converges",
    "Verif.Numerics.Cg.C64_residual",
    "Verif.Numerics.Cg.C64_safeguards",
    "Verif.Numerics.Cg.C64_default_tolerance",
    "Verif.Numerics.Cg.C64_accuracy",
    "Verif.Numerics.Cg.C64_raises_iff"
   ],
   "note": ""
  },
  {
   "property": "C65",
   "status": "proved",
   "theorems": [
    "Verif.Numerics.PivChol.C65_factor",
    "Verif.Numerics.PivChol.C65_error",
    "Verif.Numerics.PivChol.C65_full_rank"
   ],
   "note": ""
  },
  {
   "property": "C66",
   "status": "proved",
   "theorems": [
    "Verif.Laplace.C66_nearest_is_psd",
    "Verif.Laplace.C66_nearest",
    "Verif.Laplace.C66_covariance_psd",
    "Verif.Laplace.C66_inverse_hessian",
    "Verif.Laplace.C66_error_iff",
    "Verif.Laplace.C66_replacement",
    "Verif.Laplace.C66_semidefinite_raises",
    "Verif.Laplace.C66_weak_curvature",
    "Verif.Laplace.C66_not_l1_nearest",
    "Verif.Laplace.C66_needs_orthogonal_eigenvectors"
   ],
   "note": ""
  },
  {
   "property": "C67",
   "status": "proved",
   "theorems": [
    "Verif.Smc.C67_first_untempered_state",
    "Verif.Smc.C67_terminates_iff",
    "Verif.Smc.C67_final_exponent",
    "Verif.Smc.C67_nan_ends_the_run",
    "Verif.Smc.C67_diagnostics"
   ],
   "note": ""
  },
  {
   "property": "C68",
   "status": "proved",
   "theorems": [
    "Verif.Gp.C68_share_at_most_limit",
    "Verif.Gp.C68_limit_works_iff",
    "Verif.Gp.C68_limits_that_raise",
    "Verif.Gp.C68_explicit_count"
   ],
   "note": ""
  },
  {
   "property": "C69",
   "status": "proved",
   "theorems": [
    "Verif.Gp.C69_prior_interpolates",
    "Verif.Gp.C69_prior_law",
    "Verif.Gp.C69_conditional_at_prior_inputs",
    "Verif.Gp.C69_conditional_at_inducing_points",
    "Verif.Gp.C69_conditional_total_covariance",
    "Verif.Gp.C69_conditional_covariance",
    "Verif.Gp.C69_conditional_posDef"
   ],
   "note": ""
  },
  {
   "property": "C70",
   "status": "proved",
   "theorems": [
    "Verif.Hist.C70_midpoints",
    "Verif.Hist.C70_raises_iff",
    "Verif.Hist.C70_count",
    "Verif.Hist.C70_exact_without_min_count"
   ],
   "note": ""
  },
  {
   "property": "C71",
   "status": "proved",
   "theorems": [
    "Verif.Kalman.C71_sqrt_initial_cov",
    "Verif.Kalman.C71_sqrt_initial_cov_scalar"
   ],
   "note": ""
  },
  {
   "property": "C72",
   "status": "proved",
   "theorems": [
    "Verif.Kalman.C72_univariate_uses_fill_as_data",
    "Verif.Kalman.C72_univariate_fill_moves_mean"
   ],
   "note": ""
  },
  {
   "property": "C73",
   "status": "proved",
   "theorems": [
    "Verif.Kalman.C73_sqrt_partial_missing_no_factor"
   ],
   "note": ""
  },
  {
   "property": "C74",
   "status": "proved",
   "theorems": [
    "Verif.Kalman.C74_univariate_obs_is_last_series"
   ],
   "note": ""
  },
  {
   "property": "C75",
   "status": "proved",
   "theorems": [
    "Verif.Simulate.C75_initial_draws_share_noise",
    "Verif.Simulate.C75_not_independent"
   ],
   "note": ""
  },
  {
   "property": "C76",
   "status": "proved",
   "theorems": [
    "Verif.Simulate.C76_simulated_obs_uses_previous_slice"
   ],
   "note": ""
  },
  {
   "property": "C77",
   "status": "proved",
   "theorems": [
    "Verif.Simulate.C77_unconditional_lengths"
   ],
   "note": ""
  },
  {
   "property": "C78",
   "status": "proved",
   "theorems": [
    "Verif.Simulate.C78_conditional_obs_omits_intercept"
   ],
   "note": ""
  },
  {
   "property": "C79",
   "status": "proved",
   "theorems": [
    "Verif.Forecast.C79_scenario_index_needs_periods",
    "Verif.Forecast.C79_scenario_index_used"
   ],
   "note": ""
  },
  {
   "property": "C80",
   "status": "proved",
   "theorems": [
    "Verif.Forecast.C80_label_start_rejected"
   ],
   "note": ""
  },
  {
   "property": "C81",
   "status": "proved",
   "theorems": [
    "Verif.Simulate.C81_orthogonalized_scalar",
    "Verif.Simulate.C81_orthogonalized_symmetric_iff"
   ],
   "note": ""
  },
  {
   "property": "C82",
   "status": "proved",
   "theorems": [
    "Verif.Forecast.C82_columns_never_reordered",
    "Verif.Forecast.C82_wrong_columns_rejected",
    "Verif.Forecast.C82_wrong_width_rejected",
    "Verif.Forecast.C82_series"
   ],
   "note": ""
  },
  {
   "property": "C83",
   "status": "proved",
   "theorems": [
    "Verif.Forecast.C83_accepted_dict",
    "Verif.Forecast.C83_missing_variable_accepted"
   ],
   "note": ""
  },
  {
   "property": "C84",
   "status": "proved",
   "theorems": [
    "Verif.Data.C84_register_ok_iff"
   ],
   "note": ""
  },
  {
   "property": "C85",
   "status": "proved",
   "theorems": [
    "Verif.Data.C85_names_ignored"
   ],
   "note": ""
  },
  {
   "property": "C86",
   "status": "proved",
   "theorems": [
    "Verif.Representation.C86_wrong_size_stored",
    "Verif.Representation.C86_constructor_accepts"
   ],
   "note": ""
  },
  {
   "property": "C87",
   "status": "proved",
   "theorems": [
    "Verif.Representation.C87_symbolic_static"
   ],
   "note": ""
  },
  {
   "property": "C88",
   "status": "proved",
   "theorems": [
    "Verif.Representation.C88_copy_shares_shapes"
   ],
   "note": ""
  },
  {
   "property": "C89",
   "status": "proved",
   "theorems": [
    "Verif.Structural.C89_extraction"
   ],
   "note": ""
  },
  {
   "property": "C90",
   "status": "proved",
   "theorems": [
    "Verif.Structural.C90_prefix_vanishes"
   ],
   "note": ""
  },
  {
   "property": "C91",
   "status": "proved",
   "theorems": [
    "Verif.Structural.C91_build_mutates"
   ],
   "note": ""
  },
  {
   "property": "C92",
   "status": "proved",
   "theorems": [
    "Verif.Structural.C92_seasonal_pattern"
   ],
   "note": ""
  },
  {
   "property": "C93",
   "status": "proved",
   "theorems": [
    "Verif.Structural.C93_ar_param_shape"
   ],
   "note": ""
  },
  {
   "property": "C94",
   "status": "proved",
   "theorems": [
    "Verif.Structural.C94_trend_names",
    "Verif.Structural.C94_trend_shocks"
   ],
   "note": ""
  },
  {
   "property": "C95",
   "status": "proved",
   "theorems": [
    "Verif.Varmax.C95_sigma_obs_is_variance"
   ],
   "note": ""
  },
  {
   "property": "C96",
   "status": "proved",
   "theorems": [
    "Verif.Sarima.C96_differencing_singular"
   ],
   "note": ""
  },
  {
   "property": "C97",
   "status": "proved",
   "theorems": [
    "Verif.Ets.C97_order",
    "Verif.Ets.C97_damped_has_trend"
   ],
   "note": ""
  },
  {
   "property": "C98",
   "status": "proved",
   "theorems": [
    "Verif.Ets.C98_component_form"
   ],
   "note": ""
  },
  {
   "property": "C99",
   "status": "proved",
   "theorems": [
    "Marginal.C99_summed_axes",
    "Marginal.C99_axis_error",
    "Marginal.C99_wrong_axis"
   ],
   "note": ""
  },
  {
   "property": "C100",
   "status": "proved",
   "theorems": [
    "Marginal.C100_broadcast_accepted",
    "Marginal.C100_wrong_logp"
   ],
   "note": ""
  },
  {
   "property": "C101",
   "status": "proved",
   "theorems": [
    "Marginal.C101_recovered_probabilities_wrong"
   ],
   "note": ""
  },
  {
   "property": "C102",
   "status": "proved",
   "theorems": [
    "Marginal.C102_reported_dims",
    "Marginal.C102_wrong_logp"
   ],
   "note": ""
  },
  {
   "property": "C103",
   "status": "proved",
   "theorems": [
    "MargReg.C103_dims_return",
    "MargState.C103_by_name_always_fails",
    "MargState.C103_by_variable_restores",
    "MargState.C103_list",
    "MargState.C103_failure_keeps_earlier",
    "MargState.C103_round_trip"
   ],
   "note": ""
  },
  {
   "property": "C104",
   "status": "proved",
   "theorems": [
    "MargState.C104_string_is_split",
    "MargState.C104_function_accepts_name"
   ],
   "note": ""
  },
  {
   "property": "C105",
   "status": "proved",
   "theorems": [
    "MargState.C105_original_loses_dims"
   ],
   "note": ""
  },
  {
   "property": "C106",
   "status": "proved",
   "theorems": [
    "MargState.C106_recover_moves_dims"
   ],
   "note": ""
  },
  {
   "property": "C107",
   "status": "proved",
   "theorems": [
    "MarkovChain.C107_transitions_follow_the_draw",
    "MarkovChain.C107_greedy_when_draw_agrees",
    "MarkovChain.C107_support_point_impossible"
   ],
   "note": ""
  },
  {
   "property": "C108",
   "status": "proved",
   "theorems": [
    "Builder.C108_predict_overwrites",
    "Builder.C108_last_prediction_wins"
   ],
   "note": ""
  },
  {
   "property": "C109",
   "status": "proved",
   "theorems": [
    "Vip.C109_round_trip",
    "Vip.C109_set_get",
    "Vip.C109_wrong_shape",
    "Vip.C109_set_not_atomic",
    "Vip.C109_truncate_atomic",
    "Vip.C109_truncate",
    "Vip.C109_set_all"
   ],
   "note": ""
  },
  {
   "property": "C110",
   "status": "proved",
   "theorems": [
    "R2d2.C110_psi_error",
    "R2d2.C110_mask",
    "R2d2.C110_phi",
    "R2d2.C110_variance_explained_unchecked"
   ],
   "note": ""
  },
  {
   "property": "C111",
   "status": "proved",
   "theorems": [
    "Chi.C111_chi",
    "Chi.C111_chi_probability",
    "Chi.C111_maxwell",
    "Chi.C111_maxwell_positive",
    "Chi.C111_transforms"
   ],
   "note": ""
  },
  {
   "property": "C112",
   "status": "proved",
   "theorems": [
    "GenPoisson.C112_inverse_sampler",
    "GenPoisson.C112_sampler_leaves_support",
    "GenPoisson.C112_dispatch"
   ],
   "note": ""
  },
  {
   "property": "C113",
   "status": "proved",
   "theorems": [
    "Bnb.C113_pmf",
    "Bnb.C113_mixture",
    "Bnb.C113_draws_zero_prob",
    "Bnb.C113_logp_zero",
    "Bnb.C113_draws_disagree"
   ],
   "note": ""
  },
  {
   "property": "C114",
   "status": "proved",
   "theorems": [
    "Skellam.C114_difference_of_poisson",
    "Skellam.C114_errors",
    "Skellam.C114_zero_rate"
   ],
   "note": ""
  },
  {
   "property": "C115",
   "status": "proved",
   "theorems": [
    "Verif.Numerics.Cg.C115_orthogonal",
    "Verif.Numerics.Cg.C115_optimal",
    "Verif.Numerics.Cg.C115_finite_termination"
   ],
   "note": ""
  },
  {
   "property": "C116",
   "status": "proved",
   "theorems": [
    "Verif.Numerics.Cg.C116_lanczos"
   ],
   "note": ""
  },
  {
   "property": "C117",
   "status": "proved",
   "theorems": [
    "Verif.Numerics.Cg.C117_exact_guess",
    "Verif.Numerics.Cg.C117_zero_rhs",
    "Verif.Numerics.Cg.C117_zero_rhs_wrong",
    "Verif.Numerics.Cg.C117_vector_rhs",
    "Verif.Numerics.Cg.C117_vector_guess"
   ],
   "note": ""
  },
  {
   "property": "C118",
   "status": "proved",
   "theorems": [
    "Verif.Numerics.Cg.C118_small_systems_raise",
    "Verif.Numerics.Cg.C118_low_iteration_limit"
   ],
   "note": ""
  },
  {
   "property": "C119",
   "status": "proved",
   "theorems": [
    "Verif.Numerics.Cg.C119_preconditioner_shape"
   ],
   "note": ""
  },
  {
   "property": "C120",
   "status": "proved",
   "theorems": [
    "Verif.Numerics.PivChol.C120_default_raises",
    "Verif.Numerics.PivChol.C120_finite_limit"
   ],
   "note": ""
  },
  {
   "property": "C121",
   "status": "proved",
   "theorems": [
    "Verif.Laplace.C121_aligned_iff",
    "Verif.Laplace.C121_rows",
    "Verif.Laplace.C121_declaration_order",
    "Verif.Laplace.C121_swapped",
    "Verif.Laplace.C121_unconstrained",
    "Verif.Laplace.C121_unconstrained_needs_transformed"
   ],
   "note": ""
  },
  {
   "property": "C122",
   "status": "proved",
   "theorems": [
    "Verif.Laplace.C122_pieces",
    "Verif.Laplace.C122_names_right",
    "Verif.Laplace.C122_discrete_misnamed"
   ],
   "note": ""
  },
  {
   "property": "C123",
   "status": "proved",
   "theorems": [
    "Verif.Laplace.C123_discrete_rejected",
    "Verif.Laplace.C123_continuous_start"
   ],
   "note": ""
  },
  {
   "property": "C124",
   "status": "proved",
   "theorems": [
    "Verif.Laplace.C124_sample_shapes",
    "Verif.Laplace.C124_transformed_shapes"
   ],
   "note": ""
  },
  {
   "property": "C125",
   "status": "proved",
   "theorems": [
    "Verif.Laplace.C125_label_elements",
    "Verif.Laplace.C125_labels",
    "Verif.Laplace.C125_return_raw"
   ],
   "note": ""
  },
  {
   "property": "C126",
   "status": "proved",
   "theorems": [
    "Verif.Laplace.C126_defaults",
    "Verif.Laplace.C126_functions"
   ],
   "note": ""
  },
  {
   "property": "C127",
   "status": "proved",
   "theorems": [
    "Verif.Smc.C127_warning_condition_is_reversed"
   ],
   "note": ""
  },
  {
   "property": "C128",
   "status": "proved",
   "theorems": [
    "Verif.Smc.C128_kernel_accepted_iff",
    "Verif.Smc.C128_defaults_always_raise",
    "Verif.Smc.C128_kernel_values"
   ],
   "note": ""
  },
  {
   "property": "C129",
   "status": "proved",
   "theorems": [
    "Verif.Smc.C129_leaf_order",
    "Verif.Smc.C129_missing_variable",
    "Verif.Smc.C129_round_trip",
    "Verif.Smc.C129_trace_iff"
   ],
   "note": ""
  },
  {
   "property": "C130",
   "status": "proved",
   "theorems": [
    "Verif.Smc.C130_attribute_lookup",
    "Verif.Smc.C130_reserved_attributes",
    "Verif.Smc.C130_attributes"
   ],
   "note": ""
  },
  {
   "property": "C131",
   "status": "proved",
   "theorems": [
    "Verif.Hist.C131_where_values_are_counted",
    "Verif.Hist.C131_removed_values_are_misplaced"
   ],
   "note": ""
  },
  {
   "property": "C132",
   "status": "proved",
   "theorems": [
    "Verif.Hist.C132_total",
    "Verif.Hist.C132_bins",
    "Verif.Hist.C132_zero_inflation",
    "Verif.Hist.C132_raises_iff",
    "Verif.Hist.C132_dispatch"
   ],
   "note": ""
  },
  {
   "property": "C133",
   "status": "proved",
   "theorems": [
    "Verif.Gp.C133_inducing_iff"
   ],
   "note": ""
  },
  {
   "property": "C134",
   "status": "proved",
   "theorems": [
    "Verif.Gp.C134_prior_covariance",
    "Verif.Gp.C134_mean_function_ignored",
    "Verif.Gp.C134_conditional_at_prior_inputs",
    "Verif.Gp.C134_conditional_posDef"
   ],
   "note": ""
  },
  {
   "property": "C135",
   "status": "proved",
   "theorems": [
    "Verif.Spline.C135_knots",
    "Verif.Spline.C135_constants",
    "Verif.Spline.C135_stays_in_range",
    "Verif.Spline.C135_local",
    "Verif.Spline.C135_endpoints"
   ],
   "note": ""
  },
  {
   "property": "C136",
   "status": "proved",
   "theorems": [
    "Verif.Spline.C136_degree_one_interpolates",
    "Verif.Spline.C136_default_degree_does_not_interpolate",
    "Verif.Spline.C136_no_rescaling",
    "Verif.Spline.C136_call"
   ],
   "note": ""
  },
  {
   "property": "C137",
   "status": "proved",
   "theorems": [
    "Verif.Registry.C137_registry_contents",
    "Verif.Registry.C137_accept_iff",
    "Verif.Registry.C137_returns_placeholder"
   ],
   "note": ""
  },
  {
   "property": "C138",
   "status": "proved",
   "theorems": [
    "Verif.Registry.C138_build_iff",
    "Verif.Registry.C138_build_values",
    "Verif.Registry.C138_no_placeholder_left",
    "Verif.Registry.C138_missing_reported",
    "Verif.Registry.C138_excess_never",
    "Verif.Registry.C138_unpack_before_build"
   ],
   "note": ""
  },
  {
   "property": "C139",
   "status": "proved",
   "theorems": [
    "Verif.Registry.C139_build_history",
    "Verif.Registry.C139_failed_build_keeps_matrices",
    "Verif.Registry.C139_half_built",
    "Verif.Registry.C139_failed_build_replaces_data"
   ],
   "note": ""
  },
  {
   "property": "C140",
   "status": "proved",
   "theorems": [
    "Verif.Registry.C140_named_model_fails"
   ],
   "note": ""
  },
  {
   "property": "C141",
   "status": "proved",
   "theorems": [
    "Verif.Registry.C141_missing_data_keyError",
    "Verif.Registry.C141_missing_data_message_never"
   ],
   "note": ""
  },
  {
   "property": "C142",
   "status": "proved",
   "theorems": [
    "Verif.Registry.C142_before_build",
    "Verif.Registry.C142_rebuild"
   ],
   "note": ""
  },
  {
   "property": "C143",
   "status": "proved",
   "theorems": [
    "Verif.Registry.C143_filter_choice",
    "Verif.Registry.C143_single_never"
   ],
   "note": ""
  },
  {
   "property": "C144",
   "status": "proved",
   "theorems": [
    "Verif.Registry.C144_fill_value_forgotten",
    "Verif.Registry.C144_observed_becomes_missing",
    "Verif.Registry.C144_given_data"
   ],
   "note": ""
  },
  {
   "property": "C145",
   "status": "proved",
   "theorems": [
    "Verif.Params.Sarimax.C145_fast",
    "Verif.Params.Sarimax.C145_interpretable",
    "Verif.Params.Sarimax.C145_other_parameters",
    "Verif.Params.Sarimax.C145_dims_and_labels"
   ],
   "note": ""
  },
  {
   "property": "C146",
   "status": "proved",
   "theorems": [
    "Verif.Params.Varmax.C146_varmax",
    "Verif.Params.Varmax.C146_other_parameters"
   ],
   "note": ""
  },
  {
   "property": "C147",
   "status": "proved",
   "theorems": [
    "Verif.Params.Ets.C147_ets",
    "Verif.Params.Ets.C147_other_parameters",
    "Verif.Params.Ets.C147_extra_dims",
    "Verif.Params.Ets.C147_shock_names"
   ],
   "note": ""
  },
  {
   "property": "C148",
   "status": "proved",
   "theorems": [
    "Verif.Params.Structural.C148_level_trend",
    "Verif.Params.Structural.C148_measurement_error",
    "Verif.Params.Structural.C148_autoregressive",
    "Verif.Params.Structural.C148_time_seasonality",
    "Verif.Params.Structural.C148_frequency_seasonality",
    "Verif.Params.Structural.C148_cycle",
    "Verif.Params.Structural.C148_regression",
    "Verif.Params.Structural.C148_lag_labels",
    "Verif.Params.Structural.C148_cycle_parameters"
   ],
   "note": ""
  },
  {
   "property": "C149",
   "status": "proved",
   "theorems": [
    "Verif.Params.Structural.C149_sum",
    "Verif.Params.Structural.C149_build",
    "Verif.Params.Structural.C149_later_wins"
   ],
   "note": ""
  },
  {
   "property": "C150",
   "status": "proved",
   "theorems": [
    "Verif.Params.Structural.C150_two_regressions",
    "Verif.Params.Structural.C150_observed_clobbered",
    "Verif.Params.Structural.C150_no_dims_for_scalars"
   ],
   "note": ""
  },
  {
   "property": "C151",
   "status": "proved",
   "theorems": [
    "Verif.Printing.C151_row",
    "Verif.Printing.C151_rows",
    "Verif.Printing.C151_same_variables",
    "Verif.Printing.C151_succeeds_iff",
    "Verif.Printing.C151_expression",
    "Verif.Printing.C151_tilde_name"
   ],
   "note": ""
  },
  {
   "property": "C152",
   "status": "proved",
   "theorems": [
    "Verif.Printing.C152_split",
    "Verif.Printing.C152_unsplit",
    "Verif.Printing.C152_layout"
   ],
   "note": ""
  },
  {
   "property": "C153",
   "status": "proved",
   "theorems": [
    "Verif.Printing.C153_truncate",
    "Verif.Printing.C153_longer"
   ],
   "note": ""
  },
  {
   "property": "C154",
   "status": "proved",
   "theorems": [
    "Verif.Printing.C154_dims",
    "Verif.Printing.C154_unnamed_axis",
    "Verif.Printing.C154_repeated"
   ],
   "note": ""
  },
  {
   "property": "C155",
   "status": "proved",
   "theorems": [
    "Verif.Simulate.C155_matrices",
    "Verif.Simulate.C155_bad_names"
   ],
   "note": ""
  },
  {
   "property": "C156",
   "status": "proved",
   "theorems": [
    "Verif.Simulate.C156_signature",
    "Verif.Simulate.C156_unknown"
   ],
   "note": ""
  },
  {
   "property": "C157",
   "status": "proved",
   "theorems": [
    "Verif.Simulate.C157_split",
    "Verif.Simulate.C157_time_varying",
    "Verif.Simulate.C157_time_varying_H"
   ],
   "note": ""
  },
  {
   "property": "C158",
   "status": "proved",
   "theorems": [
    "Verif.Simulate.C158_value_ignored",
    "Verif.Simulate.C158_covs_checked",
    "Verif.Simulate.C158_batched"
   ],
   "note": ""
  },
  {
   "property": "C159",
   "status": "proved",
   "theorems": [
    "Verif.Simulate.C159_shape",
    "Verif.Simulate.C159_single",
    "Verif.Simulate.C159_steps",
    "Verif.Simulate.C159_no_draws"
   ],
   "note": ""
  },
  {
   "property": "C160",
   "status": "proved",
   "theorems": [
    "Verif.Builder.Linear.C160_accepts",
    "Verif.Builder.Linear.C160_single_row",
    "Verif.Builder.Linear.C160_accepts_iff",
    "Verif.Builder.Linear.C160_failure"
   ],
   "note": ""
  },
  {
   "property": "C161",
   "status": "proved",
   "theorems": [
    "Verif.Laplace.C161_layout",
    "Verif.Laplace.C161_start",
    "Verif.Laplace.C161_order_needed",
    "Verif.Laplace.C161_dispatch"
   ],
   "note": ""
  },
  {
   "property": "C162",
   "status": "proved",
   "theorems": [
    "Verif.Kalman.C162_prediction_errors",
    "Verif.Kalman.C162_filter_errors",
    "Verif.Kalman.C162_prediction_optimal",
    "Verif.Kalman.C162_filter_optimal"
   ],
   "note": ""
  },
  {
   "property": "C163",
   "status": "proved",
   "theorems": [
    "Verif.Kalman.C163_total_loglik",
    "Verif.Kalman.C163_innovations",
    "Verif.Kalman.C163_undetermined_iff",
    "Verif.Kalman.C163_reported_covariances"
   ],
   "note": ""
  },
  {
   "property": "C164",
   "status": "proved",
   "theorems": [
    "Verif.Kalman.C164_smoothing_errors",
    "Verif.Kalman.C164_smoother_optimal"
   ],
   "note": ""
  },
  {
   "property": "C165",
   "status": "proved",
   "theorems": [
    "Marginal.C165_finite_discrete",
    "Marginal.C165_time_axis_missed",
    "Marginal.C165_accepted",
    "Marginal.C165_constant_vectors_only",
    "Marginal.C165_wrong_logp"
   ],
   "note": ""
  },
  {
   "property": "C166",
   "status": "proved",
   "theorems": [
    "Verif.Structural.Extract.C166_refused_iff",
    "Verif.Structural.Extract.C166_scalar_variable",
    "Verif.Structural.Extract.C166_extraction",
    "Verif.Structural.Extract.C166_covariance_one_axis",
    "Verif.Structural.Extract.C166_covariance_wrong",
    "Verif.Structural.Extract.C166_parameter_taken_for_states"
   ],
   "note": ""
  },
  {
   "property": "C167",
   "status": "proved",
   "theorems": [
    "Verif.Structural.Conform.C167_design",
    "Verif.Structural.Conform.C167_stored_iff",
    "Verif.Structural.Conform.C167_static_vectors",
    "Verif.Structural.Conform.C167_initial_state",
    "Verif.Structural.Conform.C167_varying_vectors_refused",
    "Verif.Structural.Conform.C167_obs_cov",
    "Verif.Structural.Conform.C167_refused_iff",
    "Verif.Structural.Conform.C167_unchanged"
   ],
   "note": ""
  },
  {
   "property": "C168",
   "status": "proved",
   "theorems": [
    "Verif.Registry.C168_matrices",
    "Verif.Registry.C168_name_in_use",
    "Verif.Registry.C168_default_fails",
    "Verif.Registry.C168_default_fails_structural",
    "Verif.Registry.C168_key_error",
    "Verif.Registry.C168_other_variable",
    "Verif.Registry.C168_names_and_labels",
    "Verif.Registry.C168_group"
   ],
   "note": ""
  },
  {
   "property": "C169",
   "status": "proved",
   "theorems": [
    "Verif.Kalman.C169_prediction_limit",
    "Verif.Kalman.C169_filter_limit"
   ],
   "note": ""
  },
  {
   "property": "C170",
   "status": "proved",
   "theorems": [
    "Verif.Stationary.C170_fixed_point",
    "Verif.Stationary.C170_sum_of_past_shocks",
    "Verif.Stationary.C170_missing_row",
    "Verif.Stationary.C170_process_stationary",
    "Verif.Stationary.C170_only_stationary",
    "Verif.Stationary.C170_unstable_negative_variance",
    "Verif.Stationary.C170_stable_iff_eigenvalues"
   ],
   "note": ""
  },
  {
   "property": "C171",
   "status": "proved",
   "theorems": [
    "Verif.Sarima.C171_fast_stable_iff",
    "Verif.Sarima.C171_interpretable_stable_iff",
    "Verif.Sarima.C171_well_posed"
   ],
   "note": ""
  },
  {
   "property": "C172",
   "status": "proved",
   "theorems": [
    "Verif.Ets.C172_stable_iff",
    "Verif.Ets.C172_initial_covariance",
    "Verif.Ets.C172_model_not_stationary"
   ],
   "note": ""
  },
  {
   "property": "C173",
   "status": "proved",
   "theorems": [
    "Verif.Varmax.C173_stable_iff",
    "Verif.Varmax.C173_well_posed"
   ],
   "note": ""
  },
  {
   "property": "C174",
   "status": "proved",
   "theorems": [
    "Verif.Forecast.Obj.C174_numbers_never_change",
    "Verif.Forecast.Obj.C174_numbers_never_change_history",
    "Verif.Forecast.Obj.C174_other_frames_untouched",
    "Verif.Forecast.Obj.C174_dictionary_afterwards",
    "Verif.Forecast.Obj.C174_user_frames_reindexed",
    "Verif.Forecast.Obj.C174_model_gets_the_users_numbers",
    "Verif.Forecast.Obj.C174_wrong_length_refused",
    "Verif.Forecast.Obj.C174_frames_must_agree",
    "Verif.Forecast.Obj.C174_repeating_a_call",
    "Verif.Forecast.Obj.C174_scenario_index_is_the_previous_forecasts",
    "Verif.Forecast.Obj.C174_single_frame_reindexed",
    "Verif.Forecast.Obj.C174_failed_call_leaves_traces"
   ],
   "note": ""
  },
  {
   "property": "C175",
   "status": "proved",
   "theorems": [
    "Verif.Forecast.Obj.C175_frame_first",
    "Verif.Forecast.Obj.C175_array_first",
    "Verif.Forecast.Obj.C175_contrast_plain",
    "Verif.Forecast.Obj.C175_order_of_the_dictionary_matters",
    "Verif.Forecast.Obj.C175_dates_without_frequency",
    "Verif.Forecast.Obj.C175_dates_for_integer_data",
    "Verif.Forecast.Obj.C175_series_alone",
    "Verif.Forecast.Obj.C175_arrays_have_no_index"
   ],
   "note": ""
  },
  {
   "property": "C176",
   "status": "proved",
   "theorems": [
    "Vip.C176_posterior_preserved",
    "Vip.C176_accepts",
    "Vip.C176_observation_lost",
    "Vip.C176_initial_lambda"
   ],
   "note": ""
  },
  {
   "property": "C177",
   "status": "proved",
   "theorems": [
    "MarkovChain.C177_no_batched_P",
    "MarkovChain.C177_no_support_point_for_batches",
    "MarkovChain.C177_draws_are_separate_chains",
    "MarkovChain.C177_logp_shared_init",
    "MarkovChain.C177_logp_batched_init",
    "MarkovChain.C177_logp_batched_init_wrong",
    "MarkovChain.C177_logp_single_chain",
    "MarkovChain.C177_logp_batched_init_lags"
   ],
   "note": ""
  },
  {
   "property": "C178",
   "status": "proved",
   "theorems": [
    "MarkovChain.C178_every_coordinate_once",
    "MarkovChain.C178_order_is_a_permutation",
    "MarkovChain.C178_refusals"
   ],
   "note": ""
  },
  {
   "property": "C179",
   "status": "proved",
   "theorems": [
    "Lifecycle.C179_same_index",
    "Lifecycle.C179_restored_iff",
    "Lifecycle.C179_disjoint",
    "Lifecycle.C179_array_features",
    "Lifecycle.C179_repeated_labels",
    "Lifecycle.C179_plain_target",
    "Lifecycle.C179_empty_names"
   ],
   "note": ""
  },
  {
   "property": "C180",
   "status": "proved",
   "theorems": [
    "Lifecycle.C180_fit_forgets_history",
    "Lifecycle.C180_stored_results_kept",
    "Lifecycle.C180_sample_model_after_predict",
    "Lifecycle.C180_sample_model_after_prior",
    "Lifecycle.C180_set_params",
    "Lifecycle.C180_get_set",
    "Lifecycle.C180_nothing_before_fit"
   ],
   "note": ""
  },
  {
   "property": "C181",
   "status": "proved",
   "theorems": [
    "GenPoisson.C181_law",
    "GenPoisson.C181_terminates",
    "GenPoisson.C181_normalised",
    "GenPoisson.C181_elements"
   ],
   "note": ""
  },
  {
   "property": "C182",
   "status": "proved",
   "theorems": [
    "GenPoisson.C182_mean",
    "GenPoisson.C182_infinite_mean",
    "GenPoisson.C182_variance"
   ],
   "note": ""
  },
  {
   "property": "C183",
   "status": "proved",
   "theorems": [
    "Verif.Simulate.C183_mean",
    "Verif.Simulate.C183_covariance",
    "Verif.Simulate.C183_obs_covariance",
    "Verif.Simulate.C183_right_iff",
    "Verif.Simulate.C183_local_level",
    "Verif.Simulate.C183_forecast_rows"
   ],
   "note": ""
  },
  {
   "property": "C184",
   "status": "proved",
   "theorems": [
    "Verif.Simulate.C184_state_forecasts",
    "Verif.Simulate.C184_observation_forecasts",
    "Verif.Simulate.C184_spread",
    "Verif.Simulate.C184_smoothed_start_looks_ahead"
   ],
   "note": ""
  },
  {
   "property": "C185",
   "status": "proved",
   "theorems": [
    "Verif.Simulate.C185_each_date",
    "Verif.Simulate.C185_dates_unrelated",
    "Verif.Simulate.C185_true_dependence",
    "Verif.Simulate.C185_local_level"
   ],
   "note": ""
  },
  {
   "property": "C186",
   "status": "proved",
   "theorems": [
    "Verif.Sarima.C186_impulse",
    "Verif.Sarima.C186_exact_likelihood",
    "Verif.Sarima.C186_psi_unique",
    "Verif.Stationary.C186_autocovariance"
   ],
   "note": ""
  },
  {
   "property": "C187",
   "status": "proved",
   "theorems": [
    "Verif.Varmax.C187_impulse",
    "Verif.Varmax.C187_unique",
    "Verif.Varmax.C187_exact_likelihood"
   ],
   "note": ""
  },
  {
   "property": "C188",
   "status": "proved",
   "theorems": [
    "Verif.Kalman.C188_univariate_optimal",
    "Verif.Kalman.C188_offdiagonal_ignored",
    "Verif.Kalman.C188_correlated_not_optimal"
   ],
   "note": ""
  },
  {
   "property": "C189",
   "status": "proved",
   "theorems": [
    "Verif.Kalman.C189_prediction_law",
    "Verif.Kalman.C189_filter_law",
    "Verif.Kalman.C189_forecast_law",
    "Verif.Kalman.C189_smoother_law"
   ],
   "note": ""
  },
  {
   "property": "C190",
   "status": "proved",
   "theorems": [
    "Verif.Kalman.C190_data_density",
    "Verif.Kalman.C190_single_series",
    "Verif.Kalman.C190_total_mass"
   ],
   "note": ""
  },
  {
   "property": "C191",
   "status": "proved",
   "theorems": [
    "Verif.Kalman.C191_best_affine_is_conditional",
    "Verif.Kalman.C191_standard_filter",
    "Verif.Kalman.C191_univariate_filter"
   ],
   "note": ""
  },
  {
   "property": "C192",
   "status": "proved",
   "theorems": [
    "PriorFrom.C192_degenerate_iff",
    "PriorFrom.C192_succeeds_iff",
    "PriorFrom.C192_too_few_draws",
    "PriorFrom.C192_constant_sum_fails",
    "PriorFrom.C192_empty",
    "PriorFrom.C192_unknown_variable",
    "PriorFrom.C192_law"
   ],
   "note": ""
  },
  {
   "property": "C193",
   "status": "proved",
   "theorems": [
    "Verif.Sarima.C193_sarma_density",
    "Verif.Sarima.C193_exists"
   ],
   "note": ""
  },
  {
   "property": "C194",
   "status": "proved",
   "theorems": [
    "Verif.Stationary.C194_stationary_start",
    "Verif.Stationary.C194_density",
    "Verif.Stationary.C194_exists"
   ],
   "note": ""
  },
  {
   "property": "C195",
   "status": "proved",
   "theorems": [
    "Verif.Varmax.C195_varma_density",
    "Verif.Varmax.C195_exists"
   ],
   "note": ""
  },
  {
   "property": "C196",
   "status": "proved",
   "theorems": [
    "Verif.Kalman.C196_density",
    "Verif.Kalman.C196_complete"
   ],
   "note": ""
  },
  {
   "property": "C197",
   "status": "proved",
   "theorems": [
    "Verif.PostEstimation.C197_post_outputs",
    "Verif.PostEstimation.C197_jitter_irrelevant",
    "Verif.PostEstimation.C197_fit_uses_jitter",
    "Verif.PostEstimation.C197_difference",
    "Verif.PostEstimation.C197_agree_iff",
    "Verif.PostEstimation.C197_first_state"
   ],
   "note": ""
  },
  {
   "property": "C198",
   "status": "proved",
   "theorems": [
    "Verif.PostEstimation.C198_saved",
    "Verif.PostEstimation.C198_dims",
    "Verif.PostEstimation.C198_likelihood_unchanged",
    "Verif.PostEstimation.C198_no_data"
   ],
   "note": ""
  },
  {
   "property": "C199",
   "status": "proved",
   "theorems": [
    "Verif.PostEstimation.C199_filter_output",
    "Verif.PostEstimation.C199_group",
    "Verif.PostEstimation.C199_case",
    "Verif.PostEstimation.C199_compile_kwargs",
    "Verif.PostEstimation.C199_others",
    "Verif.PostEstimation.C199_irf"
   ],
   "note": ""
  },
  {
   "property": "C200",
   "status": "proved",
   "theorems": [
    "Verif.Kalman.C200_exists",
    "Verif.Kalman.C200_laws",
    "Verif.Kalman.C200_single_series",
    "Verif.Kalman.C200_single_series_density",
    "Verif.Kalman.C200_covariance_passed"
   ],
   "note": ""
  },
  {
   "property": "C201",
   "status": "proved",
   "theorems": [
    "Verif.Kalman.C201_prediction",
    "Verif.Kalman.C201_filter",
    "Verif.Kalman.C201_forecast",
    "Verif.Kalman.C201_intervals",
    "Verif.Kalman.C201_never_below_exact",
    "Verif.Kalman.C201_never_below_exact_errors"
   ],
   "note": ""
  },
  {
   "property": "C202",
   "status": "proved",
   "theorems": [
    "Verif.Params.Sarimax.C202_names",
    "Verif.Params.Sarimax.C202_documented",
    "Verif.Params.Sarimax.C202_distinct",
    "Verif.Params.Sarimax.C202_distinct_interpretable",
    "Verif.Params.Sarimax.C202_tenth_difference"
   ],
   "note": ""
  },
  {
   "property": "C203",
   "status": "proved",
   "theorems": [
    "Verif.Sarima.C203_differences",
    "Verif.Sarima.C203_seasonal",
    "Verif.Sarima.C203_star",
    "Verif.Sarima.C203_data_is_late",
    "Verif.Sarima.C203_interpretable"
   ],
   "note": ""
  },
  {
   "property": "C204",
   "status": "proved",
   "theorems": [
    "Verif.Varmax.C204_varmax_lags",
    "Verif.Varmax.C204_varmax_innovations",
    "Verif.Ets.C204_ets_names",
    "Verif.Ets.C204_ets_states",
    "Verif.Structural.C204_autoregressive"
   ],
   "note": ""
  },
  {
   "property": "C205",
   "status": "proved",
   "theorems": [
    "MargReg.C205_step",
    "MargReg.C205_marginalized_graph",
    "MargReg.C205_logp_inputs",
    "MargReg.C205_logp_vars",
    "MargReg.C205_logp_marginalized",
    "MargReg.C205_histories",
    "MargReg.C205_unmarginalize_resets",
    "MargReg.C205_name_taken"
   ],
   "note": ""
  },
  {
   "property": "C206",
   "status": "proved",
   "theorems": [
    "Builder.C206_predict_is_average",
    "Builder.C206_combined_order",
    "Builder.C206_nan_draws_skipped",
    "Builder.C206_within_draws",
    "Builder.C206_linear_model",
    "Builder.C206_missing_output",
    "Builder.C206_validation",
    "Builder.C206_before_fit",
    "Builder.C206_proba_default"
   ],
   "note": ""
  },
  {
   "property": "C207",
   "status": "proved",
   "theorems": [
    "Verif.Kalman.C207_filter",
    "Verif.Kalman.C207_column_order",
    "Verif.Smoother.C207_smoother"
   ],
   "note": ""
  },
  {
   "property": "C208",
   "status": "proved",
   "theorems": [
    "Verif.Kalman.C208_state_coordinates",
    "Verif.Kalman.C208_data_units",
    "Verif.Kalman.C208_jitter_depends_on_units"
   ],
   "note": ""
  },
  {
   "property": "C209",
   "status": "proved",
   "theorems": [
    "Verif.Kalman.C209_blocks",
    "Verif.Kalman.C209_total"
   ],
   "note": ""
  },
  {
   "property": "C210",
   "status": "proved",
   "theorems": [
    "Verif.Kalman.C210_gap",
    "Verif.Kalman.C210_closed_form",
    "Verif.Kalman.C210_observed_forecast"
   ],
   "note": ""
  },
  {
   "property": "C211",
   "status": "proved",
   "theorems": [
    "Verif.Structural.C211_commutes",
    "Verif.Structural.C211_any_order"
   ],
   "note": ""
  },
  {
   "property": "C212",
   "status": "proved",
   "theorems": [
    "Verif.Laplace.C212_change_of_variables",
    "Verif.Laplace.C212_gaussian_exact",
    "Verif.Laplace.C212_log_scale_biased",
    "Verif.Laplace.C212_lognormal"
   ],
   "note": ""
  },
  {
   "property": "C213",
   "status": "proved",
   "theorems": [
    "Marginal.C213_posterior_reproduced",
    "Marginal.C213_pairs_not_joint"
   ],
   "note": ""
  },
  {
   "property": "C214",
   "status": "proved",
   "theorems": [
    "Verif.Kalman.C214_jitter_is_measurement_error",
    "Verif.Kalman.C214_series_order",
    "Verif.Kalman.C214_likelihood_depends_on_order"
   ],
   "note": ""
  },
  {
   "property": "C215",
   "status": "proved",
   "theorems": [
    "Verif.Kalman.C215_never_overconfident",
    "Verif.Kalman.C215_intervals",
    "Verif.Kalman.C215_true_variances_can_be_too_small"
   ],
   "note": ""
  },
  {
   "property": "C216",
   "status": "proved",
   "theorems": [
    "Verif.Kalman.C216_more_data",
    "Verif.Kalman.C216_standard_exact",
    "Verif.Kalman.C216_standard_vaguer_start",
    "Verif.Kalman.C216_standard_more_data"
   ],
   "note": ""
  },
  {
   "property": "C217",
   "status": "proved",
   "theorems": [
    "Verif.Kalman.C217_tracked_iff",
    "Verif.Kalman.C217_initial_mean",
    "Verif.Kalman.C217_two_limits",
    "Verif.Kalman.C217_local_level",
    "Verif.Kalman.C217_stable_tracked",
    "Verif.Kalman.C217_settles",
    "Verif.Kalman.C217_only_if_tracked",
    "Verif.Kalman.C217_known_start",
    "Verif.Kalman.C217_stationary_start",
    "Verif.Kalman.C217_standard",
    "Verif.Kalman.C217_tracked_iff_visible"
   ],
   "note": ""
  },
  {
   "property": "C218",
   "status": "proved",
   "theorems": [
    "Verif.Stationary.C218_simulation",
    "Verif.Stationary.C218_forecast",
    "Verif.Stationary.C218_unrecorded",
    "Verif.Stationary.C218_impulse_response"
   ],
   "note": ""
  },
  {
   "property": "C219",
   "status": "proved",
   "theorems": [
    "Verif.Structural.Settle.C219_level_trend",
    "Verif.Structural.Settle.C219_time_seasonality",
    "Verif.Structural.Settle.C219_autoregressive",
    "Verif.Structural.Settle.C219_combine",
    "Verif.Structural.Settle.C219_settles",
    "Verif.Structural.Settle.C219_frequency_seasonality",
    "Verif.Structural.Settle.C219_cycle",
    "Verif.Structural.Settle.C219_hidden_stays",
    "Verif.Structural.Settle.C219_saturated_never_settles"
   ],
   "note": ""
  }
 ]
}