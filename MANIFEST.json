{
 "claims": [
  {
   "property": "C01",
   "status": "proved",
   "theorems": [
    "Pyblp.C01_errors",
    "Pyblp.C01_rows"
   ],
   "note": ""
  },
  {
   "property": "C02",
   "status": "proved",
   "theorems": [
    "Pyblp.C02_ownership",
    "Pyblp.C02_no_firms"
   ],
   "note": ""
  },
  {
   "property": "C03",
   "status": "proved",
   "theorems": [
    "Pyblp.C03_blp"
   ],
   "note": ""
  },
  {
   "property": "C04",
   "status": "partial",
   "theorems": [
    "Pyblp.C04_sd",
    "Pyblp.C04_quadratic",
    "Pyblp.C04_local",
    "Pyblp.C04_local_interact_partial",
    "Pyblp.C04_local_interact_refuted"
   ],
   "note": "Local interacted instruments use the opposite sign from the documentation (C04_local_interact_refuted); the other three versions match."
  },
  {
   "property": "C05",
   "status": "proved",
   "theorems": [
    "Pyblp.C05_columns",
    "Pyblp.C05_lookup",
    "Pyblp.C05_errors"
   ],
   "note": ""
  },
  {
   "property": "C06",
   "status": "proved",
   "theorems": [
    "Pyblp.C06_sum",
    "Pyblp.C06_unique",
    "Pyblp.C06_counts",
    "Pyblp.C06_mean",
    "Pyblp.C06_expand",
    "Pyblp.C06_expand_sum"
   ],
   "note": ""
  },
  {
   "property": "C07",
   "status": "proved",
   "theorems": [
    "Pyblp.C07_get_indices",
    "Pyblp.C07_keys_nodup",
    "Pyblp.C07_partition"
   ],
   "note": ""
  },
  {
   "property": "C08",
   "status": "proved",
   "theorems": [
    "Pyblp.C08_assembled",
    "Pyblp.C08_schedule"
   ],
   "note": ""
  },
  {
   "property": "C09",
   "status": "partial",
   "theorems": [
    "Pyblp.C09_product_partial",
    "Pyblp.C09_market",
    "Pyblp.C09_width",
    "Pyblp.C09_sorted",
    "Pyblp.C09_refuted"
   ],
   "note": "Holds unless there are as many products as markets and rows are not sorted by market; there it is false (C09_refuted)."
  },
  {
   "property": "C10",
   "status": "proved",
   "theorems": [
    "Pyblp.C10_order"
   ],
   "note": ""
  },
  {
   "property": "C11",
   "status": "partial",
   "theorems": [
    "Pyblp.C11_refuted",
    "Pyblp.C11_serial_partial",
    "Pyblp.C11_single_partial"
   ],
   "note": "False with a process pool (C11_refuted): one random stream is consumed in the order of completion."
  },
  {
   "property": "C12",
   "status": "proved",
   "theorems": [
    "Pyblp.C12_market",
    "Pyblp.C12_weights",
    "Pyblp.C12_raises"
   ],
   "note": ""
  },
  {
   "property": "C13",
   "status": "proved",
   "theorems": [
    "Pyblp.C13_released",
    "Pyblp.C13_serial_after",
    "Pyblp.C13_serial_handler",
    "Pyblp.C13_used_inside",
    "Pyblp.C13_nested_clears_outer"
   ],
   "note": "Leaving an inner context also clears the pool of an outer context (C13_nested_clears_outer)."
  },
  {
   "property": "C14",
   "status": "proved",
   "theorems": [
    "Pyblp.C14_simple",
    "Pyblp.C14_budget_exclusive",
    "Pyblp.C14_contraction"
   ],
   "note": "The budget is exclusive: convergence in exactly max_evaluations calls is reported as failure."
  },
  {
   "property": "C15",
   "status": "proved",
   "theorems": [
    "Pyblp.C15_squarem",
    "Pyblp.C15_step_bounds",
    "Pyblp.C15_bounds_ordered",
    "Pyblp.C15_bounds_update",
    "Pyblp.C15_affine"
   ],
   "note": ""
  },
  {
   "property": "C16",
   "status": "proved",
   "theorems": [
    "Pyblp.C16_return",
    "Pyblp.C16_finite"
   ],
   "note": ""
  },
  {
   "property": "C17",
   "status": "proved",
   "theorems": [
    "Pyblp.C17_probabilities",
    "Pyblp.C17_probabilities_interior",
    "Pyblp.C17_no_outside"
   ],
   "note": ""
  },
  {
   "property": "C18",
   "status": "proved",
   "theorems": [
    "Pyblp.C18_safe_eq_unsafe"
   ],
   "note": ""
  },
  {
   "property": "C19",
   "status": "proved",
   "theorems": [
    "Pyblp.C19_nested",
    "Pyblp.C19_zero_rho"
   ],
   "note": ""
  },
  {
   "property": "C20",
   "status": "proved",
   "theorems": [
    "Pyblp.C20_eliminate"
   ],
   "note": ""
  },
  {
   "property": "C21",
   "status": "proved",
   "theorems": [
    "Pyblp.C21_closed_form"
   ],
   "note": ""
  },
  {
   "property": "C22",
   "status": "proved",
   "theorems": [
    "Pyblp.C22_fixed_points"
   ],
   "note": ""
  },
  {
   "property": "C23",
   "status": "partial",
   "theorems": [
    "Pyblp.C23_unique",
    "Pyblp.C23_nonexpansive_partial",
    "Pyblp.C23_small_epsilon_refuted"
   ],
   "note": "Nonexpansiveness holds for epsilon_scale >= 1; for smaller scales it fails (C23_small_epsilon_refuted)."
  },
  {
   "property": "C24",
   "status": "partial",
   "theorems": [
    "Pyblp.C24_fp_type_partial",
    "Pyblp.C24_nonlinear_is_linear",
    "Pyblp.C24_refuted",
    "Pyblp.C24_same_iterates",
    "Pyblp.C24_same_iterates_nested"
   ],
   "note": "False of the code for the nonlinear types: 'linear' in fp_type is also true for 'nonlinear'."
  },
  {
   "property": "C25",
   "status": "proved",
   "theorems": [
    "Pyblp.C25_clip",
    "Pyblp.C25_contraction"
   ],
   "note": ""
  },
  {
   "property": "C26",
   "status": "proved",
   "theorems": [
    "Pyblp.C26_demand_jacobian",
    "Pyblp.C26_demand_hessian"
   ],
   "note": ""
  },
  {
   "property": "C27",
   "status": "proved",
   "theorems": [
    "Pyblp.C27_probabilities_by_xi_options",
    "Pyblp.C27_probabilities_by_xi",
    "Pyblp.C27_conditionals_by_xi",
    "Pyblp.C27_shares_by_xi"
   ],
   "note": ""
  },
  {
   "property": "C28",
   "status": "partial",
   "theorems": [
    "Pyblp.C28_contraction_jacobian_partial",
    "Pyblp.C28_epsilon_refuted",
    "Pyblp.C28_clipped_refuted"
   ],
   "note": "Proved for epsilon_scale = 1 and shares that are not clipped; false for every other scale (C28_epsilon_refuted) and where shares are clipped (C28_clipped_refuted)."
  },
  {
   "property": "C29",
   "status": "proved",
   "theorems": [
    "Pyblp.C29_profit_jacobian",
    "Pyblp.C29_profit_hessian",
    "Pyblp.C29_firm_gradient",
    "Pyblp.C29_firm_hessian"
   ],
   "note": ""
  },
  {
   "property": "C30",
   "status": "proved",
   "theorems": [
    "Pyblp.C30_costs",
    "Pyblp.C30_approximate_prices"
   ],
   "note": ""
  },
  {
   "property": "C31",
   "status": "partial",
   "theorems": [
    "Pyblp.C31_fixed_point_iff_foc",
    "Pyblp.C31_fixed_point_iff_costs_partial",
    "Pyblp.C31_asymmetric_refuted"
   ],
   "note": "Proved for symmetric ownership; false for asymmetric ownership (C31_asymmetric_refuted)."
  },
  {
   "property": "C32",
   "status": "partial",
   "theorems": [
    "Pyblp.C32_compute_prices_refuted",
    "Pyblp.C32_realization_partial"
   ],
   "note": "True of simulations (C32_realization_partial); false of compute_prices (C32_compute_prices_refuted)."
  },
  {
   "property": "C33",
   "status": "partial",
   "theorems": [
    "Pyblp.C33_rows_sum",
    "Pyblp.C33_documented_partial",
    "Pyblp.C33_documented_refuted"
   ],
   "note": "Rows sum to one always. The documented ratio is returned when utility derivatives do not differ between products; false otherwise (C33_documented_refuted)."
  },
  {
   "property": "C34",
   "status": "proved",
   "theorems": [
    "Pyblp.C34_long_run",
    "Pyblp.C34_nonneg"
   ],
   "note": ""
  },
  {
   "property": "C35",
   "status": "partial",
   "theorems": [
    "Pyblp.C35_elasticities",
    "Pyblp.C35_delta_elasticities_partial",
    "Pyblp.C35_logit",
    "Pyblp.C35_delta_epsilon_refuted",
    "Pyblp.C35_aggregate"
   ],
   "note": "Elasticities are right for named variables; for mean utilities they are right for epsilon_scale = 1 and false otherwise (C35_delta_epsilon_refuted)."
  },
  {
   "property": "C36",
   "status": "proved",
   "theorems": [
    "Pyblp.C36_bounds",
    "Pyblp.C36_monopoly",
    "Pyblp.C36_merger",
    "Pyblp.C36_not_documented_formula"
   ],
   "note": ""
  },
  {
   "property": "C37",
   "status": "partial",
   "theorems": [
    "Pyblp.C37_numerator",
    "Pyblp.C37_surplus_partial",
    "Pyblp.C37_elimination",
    "Pyblp.C37_epsilon_refuted",
    "Pyblp.C37_prices_refuted"
   ],
   "note": "The log-sum formula holds for epsilon_scale = 1 and is false of the demand system otherwise (C37_epsilon_refuted). Price derivatives are evaluated at unchanged prices although the documentation says at the given ones (C37_prices_refuted). Monotonicity in elimination always holds."
  },
  {
   "property": "C38",
   "status": "proved",
   "theorems": [
    "Pyblp.C38_elimination",
    "Pyblp.C38_commutation",
    "Pyblp.C38_duplication",
    "Pyblp.C38_lower",
    "Pyblp.C38_full",
    "Pyblp.C38_vech_lower"
   ],
   "note": ""
  },
  {
   "property": "C39",
   "status": "partial",
   "theorems": [
    "Pyblp.C39_refuted",
    "Pyblp.C39_refuted_diagonal",
    "Pyblp.C39_null_partial",
    "Pyblp.C39_value_error_partial",
    "Pyblp.C39_wrong_name",
    "Pyblp.C39_solve_partial"
   ],
   "note": "The property is false of the code: fallbacks that succeed are not reported (C39_refuted, C39_refuted_diagonal) and when every routine fails the report names the diagonal although null values are returned (C39_wrong_name). Proved: a report is made exactly when nothing was inverted."
  },
  {
   "property": "C40",
   "status": "proved",
   "theorems": [
    "Pyblp.C40_normal_equations",
    "Pyblp.C40_minimises",
    "Pyblp.C40_exactly_identified",
    "Pyblp.C40_residuals"
   ],
   "note": "W is symmetric positive semidefinite for minimisation; the quadratic form is that of aggregate moments (see C75_refuted for weights across aggregate and micro moments)."
  },
  {
   "property": "C41",
   "status": "proved",
   "theorems": [
    "Pyblp.C41_robust",
    "Pyblp.C41_clustered",
    "Pyblp.C41_unadjusted",
    "Pyblp.C41_psd",
    "Pyblp.C41_own_clusters"
   ],
   "note": ""
  },
  {
   "property": "C42",
   "status": "proved",
   "theorems": [
    "Pyblp.C42_symmetric",
    "Pyblp.C42_efficient",
    "Pyblp.C42_sandwich_psd",
    "Pyblp.C42_unadjusted_psd",
    "Pyblp.C42_updated_weights"
   ],
   "note": ""
  },
  {
   "property": "C43",
   "status": "proved",
   "theorems": [
    "Pyblp.C43_compress_expand",
    "Pyblp.C43_fixed",
    "Pyblp.C43_expand_compress",
    "Pyblp.C43_bounds_order"
   ],
   "note": ""
  },
  {
   "property": "C44",
   "status": "proved",
   "theorems": [
    "Pyblp.C44_estimated",
    "Pyblp.C44_concentrated",
    "Pyblp.C44_partition",
    "Pyblp.C44_order"
   ],
   "note": ""
  },
  {
   "property": "C45",
   "status": "proved",
   "theorems": [
    "Pyblp.C45_start_within",
    "Pyblp.C45_value_error",
    "Pyblp.C45_rejected",
    "Pyblp.C45_unsupported",
    "Pyblp.C45_supplied",
    "Pyblp.C45_default",
    "Pyblp.C45_accepted"
   ],
   "note": ""
  },
  {
   "property": "C46",
   "status": "proved",
   "theorems": [
    "Pyblp.C46_theta",
    "Pyblp.C46_fixed",
    "Pyblp.C46_beta",
    "Pyblp.C46_gamma",
    "Pyblp.C46_rows"
   ],
   "note": ""
  },
  {
   "property": "C47",
   "status": "proved",
   "theorems": [
    "Pyblp.C47_first_order",
    "Pyblp.C47_norm",
    "Pyblp.C47_hessian"
   ],
   "note": ""
  },
  {
   "property": "C48",
   "status": "proved",
   "theorems": [
    "Pyblp.C48_steps",
    "Pyblp.C48_optimized",
    "Pyblp.C48_count",
    "Pyblp.C48_chain",
    "Pyblp.C48_cumulative",
    "Pyblp.C48_initial_update"
   ],
   "note": ""
  },
  {
   "property": "C49",
   "status": "proved",
   "theorems": [
    "Pyblp.C49_clean",
    "Pyblp.C49_raise",
    "Pyblp.C49_revert",
    "Pyblp.C49_punish",
    "Pyblp.C49_no_alias",
    "Pyblp.C49_alias_refuted"
   ],
   "note": "The new objective is right, but with 'revert' an evaluation whose objective is not finite also scales the objective stored for the earlier evaluation in place (C49_alias_refuted)."
  },
  {
   "property": "C50",
   "status": "partial",
   "theorems": [
    "Pyblp.C50_finite",
    "Pyblp.C50_jacobians_partial",
    "Pyblp.C50_kept",
    "Pyblp.C50_reported",
    "Pyblp.C50_refuted"
   ],
   "note": "delta, micro moments, costs and the objective are finite in every history; Jacobians and gradients are if every evaluation computes them, and otherwise need not be (C50_refuted)."
  },
  {
   "property": "C51",
   "status": "proved",
   "theorems": [
    "Pyblp.C51_start"
   ],
   "note": ""
  },
  {
   "property": "C52",
   "status": "proved",
   "theorems": [
    "Pyblp.C52_innovations",
    "Pyblp.C52_differenced",
    "Pyblp.C52_derivative",
    "Pyblp.C52_cross_derivative"
   ],
   "note": ""
  },
  {
   "property": "C53",
   "status": "partial",
   "theorems": [
    "Pyblp.C53_terminates",
    "Pyblp.C53_autoregression_partial",
    "Pyblp.C53_stationary",
    "Pyblp.C53_cycle_refuted"
   ],
   "note": "Proved for panels in which no chain of lags is cyclic (the documented use) and shown to fail otherwise: C53_cycle_refuted gives lag data that is accepted although lags form a cycle, for which the AR(1) equation does not hold. C53_terminates has no hypothesis."
  },
  {
   "property": "C54",
   "status": "partial",
   "theorems": [
    "Pyblp.C54_demand_partial",
    "Pyblp.C54_supply_partial",
    "Pyblp.C54_nonlinear",
    "Pyblp.C54_retained",
    "Pyblp.C54_constant_refuted",
    "Pyblp.C54_no_supply"
   ],
   "note": "Proved for names of variables (C54_demand_partial, C54_supply_partial, C54_nonlinear, C54_retained). False for X1_name='1', which is accepted although nothing is replaced (C54_constant_refuted); X3_name without a supply side raises an AssertionError (C54_no_supply)."
  },
  {
   "property": "C55",
   "status": "partial",
   "theorems": [
    "Pyblp.C55_bounds_partial",
    "Pyblp.C55_fixed",
    "Pyblp.C55_estimated",
    "Pyblp.C55_concentrated_beta",
    "Pyblp.C55_concentrated_gamma",
    "Pyblp.C55_concentrated_unbounded",
    "Pyblp.C55_mean",
    "Pyblp.C55_index",
    "Pyblp.C55_reversed_refuted"
   ],
   "note": "Proved for estimated and fixed parameters and for concentrated-out ones with bounds in order (C55_bounds_partial, C55_fixed, C55_estimated, C55_concentrated_*). Reversed bounds of concentrated-out parameters are accepted and then violated (C55_reversed_refuted)."
  },
  {
   "property": "C56",
   "status": "partial",
   "theorems": [
    "Pyblp.C56_partition",
    "Pyblp.C56_contributions_partial",
    "Pyblp.C56_invalid",
    "Pyblp.C56_constant_denominator",
    "Pyblp.C56_varying_denominator",
    "Pyblp.C56_denominator_refuted"
   ],
   "note": "Proved for numerators, denominators, numerator Jacobians and covariances. Jacobians of denominators do depend on the number of chunks (C56_denominator_refuted): whether survey weights are constant is judged chunk by chunk."
  },
  {
   "property": "C57",
   "status": "proved",
   "theorems": [
    "Pyblp.C57_parts_psd",
    "Pyblp.C57_moments",
    "Pyblp.C57_parts",
    "Pyblp.C57_covariances"
   ],
   "note": ""
  },
  {
   "property": "C58",
   "status": "proved",
   "theorems": [
    "Pyblp.C58_once",
    "Pyblp.C58_order",
    "Pyblp.C58_names",
    "Pyblp.C58_arguments",
    "Pyblp.C58_gradient",
    "Pyblp.C58_jacobian",
    "Pyblp.C58_part_derivative"
   ],
   "note": ""
  },
  {
   "property": "C59",
   "status": "proved",
   "theorems": [
    "Pyblp.C59_product",
    "Pyblp.C59_product_size",
    "Pyblp.C59_product_functions",
    "Pyblp.C59_sparse_grid",
    "Pyblp.C59_smolyak_exact",
    "Pyblp.C59_sparse_grid_total",
    "Pyblp.C59_sparse_grid_exact",
    "Pyblp.C59_base_rule",
    "Pyblp.C59_product_exact",
    "Pyblp.C59_sparse_grid_distinct"
   ],
   "note": "One-dimensional rules are parameters of the theorems; that the tables of the code are such rules is C78."
  },
  {
   "property": "C60",
   "status": "proved",
   "theorems": [
    "Pyblp.C60_radical_inverse",
    "Pyblp.C60_unit_interval",
    "Pyblp.C60_positive",
    "Pyblp.C60_zero_refuted",
    "Pyblp.C60_stratified",
    "Pyblp.C60_markets",
    "Pyblp.C60_primes"
   ],
   "note": "C60_zero_refuted: with discard 0 and no scrambling the first value is 0, and its node is infinite. With scrambling, permutations are redrawn for each market, so markets are not parts of one scrambled sequence; the theorems hold for each fixed list of permutations. Rounding of sums is not modelled."
  },
  {
   "property": "C61",
   "status": "proved",
   "theorems": [
    "Pyblp.C61_enumerates"
   ],
   "note": ""
  },
  {
   "property": "C62",
   "status": "proved",
   "theorems": [
    "Pyblp.C62_error",
    "Pyblp.C62_noise",
    "Pyblp.C62_second_mean_value",
    "Pyblp.C62_second_limit",
    "Pyblp.C62_gradient",
    "Pyblp.C62_first",
    "Pyblp.C62_second",
    "Pyblp.C62_symmetric",
    "Pyblp.C62_hessian",
    "Pyblp.C62_limit"
   ],
   "note": ""
  },
  {
   "property": "C63",
   "status": "proved",
   "theorems": [
    "Pyblp.C63_accepted",
    "Pyblp.C63_rejected"
   ],
   "note": ""
  },
  {
   "property": "C64",
   "status": "partial",
   "theorems": [
    "Pyblp.C64_integers_partial",
    "Pyblp.C64_fraction_refuted",
    "Pyblp.C64_large_index"
   ],
   "note": "Proved for integer index arrays in range. C64_fraction_refuted: fractions are accepted and truncated. C64_large_index: an index above the number of products passes validation and fails only later with an IndexError."
  },
  {
   "property": "C65",
   "status": "proved",
   "theorems": [
    "Pyblp.C65_exact",
    "Pyblp.C65_pair",
    "Pyblp.C65_evaluations"
   ],
   "note": ""
  },
  {
   "property": "C66",
   "status": "proved",
   "theorems": [
    "Pyblp.C66_hansen",
    "Pyblp.C66_hansen_nonneg",
    "Pyblp.C66_distance",
    "Pyblp.C66_distance_rejected",
    "Pyblp.C66_distance_nonneg",
    "Pyblp.C66_lm",
    "Pyblp.C66_lm_gradient",
    "Pyblp.C66_lm_zero",
    "Pyblp.C66_wald",
    "Pyblp.C66_wald_invariant",
    "Pyblp.C66_wald_nonneg",
    "Pyblp.C66_wald_shapes"
   ],
   "note": ""
  },
  {
   "property": "C67",
   "status": "proved",
   "theorems": [
    "Pyblp.C67_first_occurrences",
    "Pyblp.C67_single",
    "Pyblp.C67_schedule"
   ],
   "note": ""
  },
  {
   "property": "C68",
   "status": "partial",
   "theorems": [
    "Pyblp.C68_data",
    "Pyblp.C68_markets",
    "Pyblp.C68_demographics_partial",
    "Pyblp.C68_too_few",
    "Pyblp.C68_sorted_partial",
    "Pyblp.C68_ids_refuted",
    "Pyblp.C68_ids_error",
    "Pyblp.C68_linear"
   ],
   "note": "Without an integration configuration the claim holds (C68_data). With one, demographics, nodes and weights are aligned for all data (C68_demographics_partial), but agent IDs and availability only for data sorted by market with exactly as many agents as nodes (C68_sorted_partial). C68_ids_refuted: for unsorted data, agent IDs and availability of one market are paired with demographics of another."
  },
  {
   "property": "C69",
   "status": "partial",
   "theorems": [
    "Pyblp.C69_normal_demand_variance",
    "Pyblp.C69_normal_demand_partial",
    "Pyblp.C69_normal_demand_refuted",
    "Pyblp.C69_normal_joint",
    "Pyblp.C69_empirical",
    "Pyblp.C69_empirical_variance"
   ],
   "note": "The claim is false of the code: without a supply side the variance is passed as a standard deviation, so drawn errors have the squared variance (C69_normal_demand_variance, C69_normal_demand_refuted). It holds exactly if the variance is zero or one (C69_normal_demand_partial), and with a supply side (C69_normal_joint) or the empirical method."
  },
  {
   "property": "C70",
   "status": "proved",
   "theorems": [
    "Pyblp.C70_update",
    "Pyblp.C70_round_trip",
    "Pyblp.C70_derivative"
   ],
   "note": ""
  },
  {
   "property": "C71",
   "status": "proved",
   "theorems": [
    "Pyblp.C71_reported",
    "Pyblp.C71_flat",
    "Pyblp.C71_old_numpy_refuted"
   ],
   "note": "C71_reported is for NumPy 2.0 and later, where leaving np.errstate restores the function called for problems. C71_old_numpy_refuted: for earlier versions, which setup allows, problems after a nested decorated call are lost. C71_flat holds for all versions."
  },
  {
   "property": "C72",
   "status": "proved",
   "theorems": [
    "Pyblp.C72_passthrough",
    "Pyblp.C72_symmetric"
   ],
   "note": ""
  },
  {
   "property": "C73",
   "status": "proved",
   "theorems": [
    "Pyblp.C73_precedence",
    "Pyblp.C73_stacked",
    "Pyblp.C73_first_unique",
    "Pyblp.C73_roundtrip",
    "Pyblp.C73_roundtrip_refuted",
    "Pyblp.C73_roundtrip_single"
   ],
   "note": "The proviso on names is needed (C73_roundtrip_refuted)."
  },
  {
   "property": "C74",
   "status": "proved",
   "theorems": [
    "Pyblp.C74_price_contraction_jacobian"
   ],
   "note": ""
  },
  {
   "property": "C75",
   "status": "partial",
   "theorems": [
    "Pyblp.C75_gradient_partial",
    "Pyblp.C75_converted",
    "Pyblp.C75_refuted"
   ],
   "note": "Proved when W has no weight on products of aggregate and micro moments (C75_gradient_partial) and for converted Jacobians (C75_converted); false otherwise (C75_refuted). Dynamic panels, in which X changes with phi, are not covered."
  },
  {
   "property": "C76",
   "status": "proved",
   "theorems": [
    "Pyblp.C76_sensitivity"
   ],
   "note": ""
  },
  {
   "property": "C77",
   "status": "proved",
   "theorems": [
    "Pyblp.C77_stratified",
    "Pyblp.C77_unit_interval"
   ],
   "note": ""
  },
  {
   "property": "C78",
   "status": "proved",
   "theorems": [
    "Pyblp.C78_levels",
    "Pyblp.C78_level_zero",
    "Pyblp.C78_nested",
    "Pyblp.C78_normal_moments",
    "Pyblp.C78_gauss",
    "Pyblp.C78_product"
   ],
   "note": "The tables are copied digit by digit into the model, as rationals; rounding to double precision is not modelled. The kernel checks the complete tables (decide +kernel), moments of the normal distribution are proved to be Mathlib's Gaussian integrals."
  },
  {
   "property": "C79",
   "status": "partial",
   "theorems": [
    "Pyblp.C79_endogenous_partial",
    "Pyblp.C79_exogenous_refuted"
   ],
   "note": "Holds after replace_endogenous (C79_endogenous_partial); false after replace_exogenous, when default instruments are built from characteristics before they were replaced (C79_exogenous_refuted)."
  },
  {
   "property": "C80",
   "status": "proved",
   "theorems": [
    "Pyblp.C80_delta",
    "Pyblp.C80_costs",
    "Pyblp.C80_average",
    "Pyblp.C80_demand",
    "Pyblp.C80_joint",
    "Pyblp.C80_expected_prices",
    "Pyblp.C80_dropped",
    "Pyblp.C80_dropped_given"
   ],
   "note": ""
  },
  {
   "property": "C81",
   "status": "partial",
   "theorems": [
    "Pyblp.C81_first",
    "Pyblp.C81_difference",
    "Pyblp.C81_sum",
    "Pyblp.C81_product",
    "Pyblp.C81_nonneg",
    "Pyblp.C81_random_utility",
    "Pyblp.C81_groups_partial",
    "Pyblp.C81_groups_alone",
    "Pyblp.C81_groups_refuted",
    "Pyblp.C81_nested_refuted",
    "Pyblp.C81_dataset",
    "Pyblp.C81_cells"
   ],
   "note": "Proved without IDs of eliminated products. Refuted: with eliminated product IDs, weights of (j, k) are multiplied by the probability of the whole group of j instead of that of j (C81_groups_refuted); with nesting, the documented product formula is not what is computed, but what is computed is the probability under random utility maximization (C81_nested_refuted, C81_random_utility)."
  },
  {
   "property": "C82",
   "status": "partial",
   "theorems": [
    "Pyblp.C82_cells",
    "Pyblp.C82_weights_partial",
    "Pyblp.C82_denominator_partial",
    "Pyblp.C82_groups_refuted"
   ],
   "note": "Proved without IDs of eliminated products, and, for the probabilities themselves, with them (C82_cells); C82_denominator_partial is for contributions of all agents computed at once (see C56_denominator_refuted for chunks). Refuted with IDs: contributions truncated at zero have derivatives that are not zero (C82_groups_refuted)."
  },
  {
   "property": "C83",
   "status": "proved",
   "theorems": [
    "Pyblp.C83_probabilities",
    "Pyblp.C83_conditionals",
    "Pyblp.C83_shares"
   ],
   "note": ""
  },
  {
   "property": "C84",
   "status": "proved",
   "theorems": [
    "Pyblp.C84_nonsingular",
    "Pyblp.C84_exists",
    "Pyblp.C84_xi_by_theta",
    "Pyblp.C84_total_probabilities_options",
    "Pyblp.C84_total_probabilities",
    "Pyblp.C84_total_conditionals",
    "Pyblp.C84_total_shares",
    "Pyblp.C84_xi_by_parameter"
   ],
   "note": ""
  },
  {
   "property": "C85",
   "status": "partial",
   "theorems": [
    "Pyblp.C85_markups",
    "Pyblp.C85_omega_by_theta",
    "Pyblp.C85_clipped_partial",
    "Pyblp.C85_clipped_refuted"
   ],
   "note": "Proved for all parameters if a marginal cost is inside of its bounds (C85_omega_by_theta), and for all but gamma if it is outside (C85_clipped_partial). Refuted for gamma if it is outside (C85_clipped_refuted): the code sets the whole row to zero although the derivative is minus the characteristic. Costs exactly at a bound are left out because there is no derivative."
  },
  {
   "property": "C86",
   "status": "proved",
   "theorems": [
    "Pyblp.C86_weights",
    "Pyblp.C86_simple",
    "Pyblp.C86_squarem",
    "Pyblp.C86_no_demand"
   ],
   "note": ""
  },
  {
   "property": "C87",
   "status": "partial",
   "theorems": [
    "Pyblp.C87_chunks_numerator",
    "Pyblp.C87_chunks_denominator",
    "Pyblp.C87_computed_partial",
    "Pyblp.C87_scores_partial",
    "Pyblp.C87_markets_refuted"
   ],
   "note": "Proved if there are observations from all markets of the dataset, products are not removed by ID and agents are not split into chunks (C87_scores_partial). C87_computed_partial says what is computed otherwise. With chunks, numerators, their derivatives and denominators are the same (C87_chunks_numerator, C87_chunks_denominator), but derivatives of denominators are not (C56_denominator_refuted). Refuted for data without observations from some market (C87_markets_refuted)."
  },
  {
   "property": "C88",
   "status": "partial",
   "theorems": [
    "Pyblp.C88_agents_refuted",
    "Pyblp.C88_integration",
    "Pyblp.C88_integration_valid",
    "Pyblp.C88_order",
    "Pyblp.C88_choices_partial",
    "Pyblp.C88_negative_refuted",
    "Pyblp.C88_rejected",
    "Pyblp.C88_agents"
   ],
   "note": "Proved (C88_order, C88_rejected, C88_agents), and for indices that are not negative (C88_choices_partial). Refuted for negative indices, which count from the end (C88_negative_refuted). With an integration configuration, observations are duplicated with their own data (C88_integration) and are valid (C88_integration_valid). compute_agent_scores always raises a TypeError if micro data are passed to it (C88_agents_refuted)."
  },
  {
   "property": "C89",
   "status": "partial",
   "theorems": [
    "Pyblp.C89_succeeds",
    "Pyblp.C89_support",
    "Pyblp.C89_probability",
    "Pyblp.C89_selected",
    "Pyblp.C89_weights_partial",
    "Pyblp.C89_seed_refuted"
   ],
   "note": "Proved (C89_succeeds, C89_support, C89_probability, C89_selected), with weights of C89_weights_partial (products are not removed by ID). Refuted for reproducibility when the dataset is restricted to some markets, which are iterated over in the order of a set (C89_seed_refuted)."
  },
  {
   "property": "C90",
   "status": "partial",
   "theorems": [
    "Pyblp.C90_demand",
    "Pyblp.C90_xi_recovered",
    "Pyblp.C90_costs",
    "Pyblp.C90_costs_recovered_partial",
    "Pyblp.C90_omega_recovered_partial",
    "Pyblp.C90_constant_refuted"
   ],
   "note": "Proved (C90_demand, C90_xi_recovered, C90_costs), and for symmetric ownership and exact fixed points (C90_costs_recovered_partial, C90_omega_recovered_partial). With the default constant_costs=True and shares in the formulation for costs, omega is not recovered (C90_constant_refuted)."
  },
  {
   "property": "C91",
   "status": "proved",
   "theorems": [
    "Pyblp.C91_delta_method",
    "Pyblp.C91_scalar"
   ],
   "note": "For any pseudo-inverse that meets the Moore-Penrose conditions, which one does for every size (isPinv_halfSymmetric)."
  },
  {
   "property": "C92",
   "status": "proved",
   "theorems": [
    "Pyblp.C92_absorbed",
    "Pyblp.C92_unadjusted",
    "Pyblp.C92_demeaned"
   ],
   "note": "PyHDFE's residualize is a parameter with the contract Spec.Residualizes, which C92_demeaned shows for one categorical variable. Not claimed for robust or clustered weights, under which the two problems differ."
  },
  {
   "property": "C93",
   "status": "partial",
   "theorems": [
    "Pyblp.C93_jacobian_partial",
    "Pyblp.C93_total",
    "Pyblp.C93_covariances",
    "Pyblp.C93_theta",
    "Pyblp.C93_refuted"
   ],
   "note": "Proved without covariance moments (C93_jacobian_partial, with phi estimated or not). With covariance moments it is false (C93_refuted): stored Jacobians of xi and omega have already been converted, so columns for theta are total derivatives (C93_total), reported covariances are those of linear parameters less their responses to theta (C93_covariances), and only those of theta are right (C93_theta)."
  },
  {
   "property": "C94",
   "status": "partial",
   "theorems": [
    "Pyblp.C94_objective",
    "Pyblp.C94_gradient_partial",
    "Pyblp.C94_covariance_moments",
    "Pyblp.C94_finite_differences",
    "Pyblp.C94_phi_ignored",
    "Pyblp.C94_refuted"
   ],
   "note": "Proved with analytic Jacobians and no weight on products of aggregate and micro moments (C94_gradient_partial, where the regression changes with phi), and with covariance moments for every weighting matrix (C94_covariance_moments). False with finite differences when elements of phi are estimated: zero is reported (C94_phi_ignored, C94_refuted)."
  },
  {
   "property": "C95",
   "status": "proved",
   "theorems": [
    "Pyblp.C95_steps",
    "Pyblp.C95_default",
    "Pyblp.C95_results"
   ],
   "note": "C95_steps and C95_default are about all steps of an estimation; C95_results is about what each step reports. Covariances of moments and default covariances have to be invertible: with collinearity, the code falls back on a pseudo-inverse, which is not invariant."
  },
  {
   "property": "C96",
   "status": "partial",
   "theorems": [
    "Pyblp.C96_differences_partial",
    "Pyblp.C96_limit_partial",
    "Pyblp.C96_refuted"
   ],
   "note": "Proved with moments in levels, or autocorrelations that are not estimated (C96_differences_partial, C96_limit_partial). False with estimated autocorrelations: evaluations at neighbouring parameters are given the regression initialised for the estimate, and a strict local maximum is reported with a positive Hessian (C96_refuted)."
  },
  {
   "property": "C97",
   "status": "partial",
   "theorems": [
    "Pyblp.C97_covariances",
    "Pyblp.C97_default",
    "Pyblp.C97_update",
    "Pyblp.C97_objective",
    "Pyblp.C97_linear_parameters",
    "Pyblp.C97_optimization",
    "Pyblp.C97_reported",
    "Pyblp.C97_standard_errors_partial"
   ],
   "note": "C97_default, C97_covariances, C97_update, C97_objective, C97_linear_parameters and C97_optimization specify weighting matrices, objectives and estimates of each step in full. C97_standard_errors_partial excludes covariance moments, with which the Jacobian behind standard errors is not that of the moments (C93_refuted)."
  },
  {
   "property": "C98",
   "status": "partial",
   "theorems": [
    "Pyblp.C98_sensitivity_partial",
    "Pyblp.C98_first_step",
    "Pyblp.C98_refuted"
   ],
   "note": "True except with unadjusted standard errors in the first step (C98_refuted: one-step GMM with the default weighting matrix and a supply side), where the matrix is that for another weighting matrix (C98_first_step)."
  },
  {
   "property": "C99",
   "status": "partial",
   "theorems": [
    "Pyblp.C99_efficiency",
    "Pyblp.C99_standard_errors_partial",
    "Pyblp.C99_first_step",
    "Pyblp.C99_refuted"
   ],
   "note": "C99_efficiency is the inequality, in full. Standard errors other than unadjusted ones are those of the estimates (C99_standard_errors_partial). Unadjusted ones in the first step are at most those of the estimates (C99_first_step), and can be smaller (C99_refuted: one-step GMM, default weighting matrix, a supply side)."
  },
  {
   "property": "C100",
   "status": "partial",
   "theorems": [
    "Pyblp.Formula.C100_matrix",
    "Pyblp.Formula.C100_override_partial",
    "Pyblp.Formula.C100_evaluate_partial",
    "Pyblp.Formula.C100_derivative_partial",
    "Pyblp.Formula.C100_delta_partial",
    "Pyblp.Formula.C100_cache",
    "Pyblp.Formula.C100_exactly",
    "Pyblp.Formula.C100_nested",
    "Pyblp.Formula.C100_refuted",
    "Pyblp.Formula.C100_refuted_twice"
   ],
   "note": "The matrix is what column names say for all formulas (C100_matrix). Values, changed values, derivatives of all orders and updated mean utilities agree for all terms that are nested in the terms coded before them and whose categorical variables are in no other of their factors. C100_nested: terms with at most one categorical factor, terms with all lower-order terms, and terms without any are nested. C100_exactly: agreement for all data holds if and only if the term is nested, so nothing is missing for interactions. Refuted for others (C100_refuted) and for variables used twice in a term (C100_refuted_twice)."
  },
  {
   "property": "C101",
   "status": "partial",
   "theorems": [
    "Pyblp.C101_lags_partial",
    "Pyblp.C101_refuted_lags",
    "Pyblp.C101_products_partial",
    "Pyblp.C101_demographics_partial",
    "Pyblp.C101_demographics_accepted",
    "Pyblp.C101_refuted_demographics"
   ],
   "note": "Acceptance is equivalent to validity when no lag is after the last row (C101_products_partial, C101_lags_partial); lags after it are accepted (C101_refuted_lags). Accepted demographics are finite and taken from the right columns when no value is missing (C101_demographics_partial, C101_demographics_accepted); missing values of ordinary demographics are accepted (C101_refuted_demographics)."
  },
  {
   "property": "C102",
   "status": "partial",
   "theorems": [
    "Pyblp.Formula.C102_problem",
    "Pyblp.Formula.C102_problem_exogenous",
    "Pyblp.Formula.C102_updated_demand",
    "Pyblp.Formula.C102_updated_supply_partial",
    "Pyblp.Formula.C102_updated",
    "Pyblp.Formula.C102_order",
    "Pyblp.Formula.C102_refuted"
   ],
   "note": "Problems: C102_problem, C102_problem_exogenous. Problems with optimal instruments: contents (C102_updated), demand (C102_updated_demand), order condition (C102_order). Supply only without shares in X3 (C102_updated_supply_partial), refuted otherwise (C102_refuted)."
  },
  {
   "property": "C103",
   "status": "partial",
   "theorems": [
    "Pyblp.C103_order",
    "Pyblp.C103_products",
    "Pyblp.C103_agents_partial",
    "Pyblp.C103_integration_partial",
    "Pyblp.C103_refuted_agents",
    "Pyblp.C103_refuted_rows"
   ],
   "note": "Product data are complete, given or drawn once, and independent of orders of sets (C103_products, C103_order). Agents are aligned without an integration configuration (C103_agents_partial) or with one and sorted agent data (C103_integration_partial). With an integration configuration and agent data in another order, agents get demographics of other markets (C103_refuted_agents), and more rows than nodes, which are documented to be fine, raise an error (C103_refuted_rows)."
  },
  {
   "property": "C104",
   "status": "partial",
   "theorems": [
    "Pyblp.C104_rho",
    "Pyblp.C104_beta",
    "Pyblp.C104_gamma_partial",
    "Pyblp.C104_phi",
    "Pyblp.C104_nonlinear",
    "Pyblp.C104_theta_labels_partial",
    "Pyblp.C104_refuted_gamma",
    "Pyblp.C104_refuted_rho",
    "Pyblp.C104_lines"
   ],
   "note": "Proved for rho, beta, phi, sigma, sigma squared and pi, for labels of theta other than of a single nesting parameter, and for the text of tables. Refuted: standard errors of gamma are shown or hidden according to which elements of beta are fixed (format_gamma passes BetaParameter), and the label in theta_labels of one nesting parameter for all groups is the ID of the first group."
  },
  {
   "property": "C105",
   "status": "partial",
   "theorems": [
    "Pyblp.C105_collinear",
    "Pyblp.C105_dependent",
    "Pyblp.C105_warnings",
    "Pyblp.C105_refuted_tolerances",
    "Pyblp.C105_labels",
    "Pyblp.C105_psd",
    "Pyblp.C105_disabled",
    "Pyblp.C105_stable_partial",
    "Pyblp.C105_refuted_unit_root",
    "Pyblp.C105_refuted_stable"
   ],
   "note": "Collinearity is exact when there are at least as many rows as columns (C105_collinear, C105_dependent, C105_warnings), instruments have the right labels (C105_labels), positive semidefinite matrices are exactly those that are accepted without tolerances (C105_psd), failures are reported (C105_disabled), and matrices with no eigenvalue outside of the unit circle are accepted (C105_stable_partial). Refuted: one zero collinearity tolerance disables the check (C105_refuted_tolerances), unit roots are accepted (C105_refuted_unit_root), and the tolerance for stability is a maximum and not the documented sum (C105_refuted_stable)."
  },
  {
   "property": "C106",
   "status": "partial",
   "theorems": [
    "Pyblp.C106_demand",
    "Pyblp.C106_prices",
    "Pyblp.C106_estimates",
    "Pyblp.C106_supply",
    "Pyblp.C106_results",
    "Pyblp.C106_costs_partial",
    "Pyblp.C106_observed_partial"
   ],
   "note": "Demand, observed prices, first order conditions and markets of bootstrapped results are as claimed (C106_demand, C106_prices, C106_estimates, C106_supply, C106_results). Marginal costs of a draw, and that observed prices are a fixed point at the estimates, are for symmetric ownership only (C106_costs_partial, C106_observed_partial), because of C31_asymmetric_refuted."
  },
  {
   "property": "C107",
   "status": "partial",
   "theorems": [
    "Pyblp.C107_select",
    "Pyblp.C107_shapes_all",
    "Pyblp.C107_shapes_one",
    "Pyblp.C107_arguments",
    "Pyblp.C107_argument_one",
    "Pyblp.C107_one_market_partial",
    "Pyblp.C107_one_market_row",
    "Pyblp.C107_draws",
    "Pyblp.C107_diagonals_partial",
    "Pyblp.C107_diagonal_means_partial"
   ],
   "note": "Selection, shapes, arguments, methods with one row for each market, and draws are as claimed (C107_select, C107_shapes_all, C107_shapes_one, C107_arguments, C107_argument_one, C107_one_market_row, C107_draws). Methods with one row for each product, diagonals and their means need that there are not as many products as markets, because of C09_refuted (C107_one_market_partial, C107_diagonals_partial, C107_diagonal_means_partial)."
  },
  {
   "property": "C108",
   "status": "proved",
   "theorems": [
    "Pyblp.C108_probabilities",
    "Pyblp.C108_nested_probabilities",
    "Pyblp.C108_given_delta",
    "Pyblp.C108_defaults",
    "Pyblp.C108_path",
    "Pyblp.C108_merger",
    "Pyblp.C108_no_merger",
    "Pyblp.C108_profits",
    "Pyblp.C108_unknown_firms"
   ],
   "note": "For ownership by firm IDs; other ownership is the subject of C30, C31 and C31_asymmetric_refuted."
  },
  {
   "property": "C109",
   "status": "proved",
   "theorems": [
    "Pyblp.C109_optimizer_counts",
    "Pyblp.C109_optimizer",
    "Pyblp.C109_knitro",
    "Pyblp.C109_root_counts",
    "Pyblp.C109_root",
    "Pyblp.C109_root_fixed_point"
   ],
   "note": "Objectives and contractions that depend only on values for statements about results; counts are for any."
  },
  {
   "property": "C110",
   "status": "partial",
   "theorems": [
    "Pyblp.C110_iteration",
    "Pyblp.C110_iteration_defaults",
    "Pyblp.C110_nan_refuted",
    "Pyblp.C110_optimization",
    "Pyblp.C110_integration",
    "Pyblp.C110_types",
    "Pyblp.C110_scale",
    "Pyblp.C110_fp_type"
   ],
   "note": "NaN is accepted where a nonnegative or positive float is asked for (C110_nan_refuted). Installation of Knitro is a parameter."
  },
  {
   "property": "C111",
   "status": "proved",
   "theorems": [
    "Pyblp.Formula.C111_accepted",
    "Pyblp.Formula.C111_absorbable",
    "Pyblp.Formula.C111_ids",
    "Pyblp.Formula.C111_demeaned"
   ],
   "note": "Patsy's parsing of the string is not modelled; its order of factors in a term is arbitrary."
  },
  {
   "property": "C112",
   "status": "partial",
   "theorems": [
    "Pyblp.C112_nodes",
    "Pyblp.C112_mu",
    "Pyblp.C112_single",
    "Pyblp.C112_rho",
    "Pyblp.C112_micro_partial",
    "Pyblp.C112_first_partial",
    "Pyblp.C112_first_refuted",
    "Pyblp.C112_micro_refuted"
   ],
   "note": "Columns of nodes, utilities, single coefficients and nesting parameters are as claimed (C112_nodes, C112_mu, C112_single, C112_rho). That only the first few columns are used holds if there are fewer columns of nodes than of sigma, or zeros come last (C112_first_partial), and is false otherwise (C112_first_refuted). Nodes of micro data are right if there are enough columns (C112_micro_partial); one column is accepted for several coefficients (C112_micro_refuted)."
  },
  {
   "property": "C113",
   "status": "proved",
   "theorems": [
    "Pyblp.C113_sampled",
    "Pyblp.C113_total",
    "Pyblp.C113_diagnostics",
    "Pyblp.C113_accepts",
    "Pyblp.C113_weights",
    "Pyblp.C113_problem"
   ],
   "note": "C113_sampled, C113_total, C113_diagnostics, C113_accepts, C113_weights, C113_problem. Choice probabilities are arbitrary functions of mean utilities, market and agent data; errors in probabilities (which are reported, and then NaNs are never accepted) and types of arguments are not modelled."
  },
  {
   "property": "C114",
   "status": "proved",
   "theorems": [
    "Pyblp.C114_rows",
    "Pyblp.C114_probabilities",
    "Pyblp.C114_delta",
    "Pyblp.C114_costs",
    "Pyblp.C114_prices",
    "Pyblp.C114_moments"
   ],
   "note": "C114_probabilities, C114_delta, C114_costs and C114_prices are equalities between the model's functions on a market and on the same market written down in another way (Spec.Relabeling: a bijection of products, a map of agents that preserves total weight, a bijection of groups). C114_rows lifts such equalities from markets to data with interleaved markets, through the loop that assembles results. C114_moments is the same for concentrated-out parameters, moments, objective, gradient and covariances. Arithmetic is exact: in floating point, sums in another order differ by rounding. Routines of SciPy and custom ones are outside of the claim. Firm IDs enter through the ownership matrix."
  },
  {
   "property": "C115",
   "status": "proved",
   "theorems": [
    "Pyblp.C115_demand",
    "Pyblp.C115_supply",
    "Pyblp.C115_prices"
   ],
   "note": "C115_demand, C115_supply and C115_prices compare the model's functions for two descriptions of the same preferences (Spec.InUnits). C115_prices assumes that derivatives of shares with respect to own prices are not zero: where one is zero, the code replaces a division by zero by a constant, which is not in units of prices. Arithmetic is exact. Routines of SciPy and custom ones are outside of the claim."
  },
  {
   "property": "C116",
   "status": "proved",
   "theorems": [
    "Pyblp.C116_steps",
    "Pyblp.C116_results",
    "Pyblp.C116_units",
    "Pyblp.C116_default",
    "Pyblp.C116_nonlinear"
   ],
   "note": "C116_steps, C116_results and C116_units are about Spec.rebased; C116_default adds C95's combinations of instruments. Linear parameters have to be identified (the matrix that is inverted to concentrate them out is invertible) and so do all parameters for covariances: with collinearity, the code uses pseudo-inverses, which depend on the basis. Inverses are exact. Parameters that are part of theta, such as those on prices when there is a supply side, are in the market-by-market part, which is a parameter of the model. C116_nonlinear is about one market and parameters per unit; an optimizer that searches over them takes other steps, so that its estimates are not claimed to be the same numbers."
  },
  {
   "property": "C117",
   "status": "proved",
   "theorems": [
    "Pyblp.C117_exists",
    "Pyblp.C117_converges",
    "Pyblp.C117_simple",
    "Pyblp.C117_distance",
    "Pyblp.C117_accuracy",
    "Pyblp.C117_reported",
    "Pyblp.C117_small_epsilon_cycles"
   ],
   "note": "C117_exists is an equivalence; C117_converges and C117_simple are about the linear contraction (which the nonlinear types also iterate over, see C24), C117_reported about reports of both routines. In exact arithmetic. Hypotheses: nonnegative weights, nesting parameters in [0, 1). Convergence is for the default infinity norm; without nesting it needs epsilon_scale at least one, and C117_small_epsilon_cycles shows a market with epsilon_scale = 1/4 in which simple iteration never converges."
  },
  {
   "property": "C118",
   "status": "proved",
   "theorems": [
    "Pyblp.C118_xi_jacobian",
    "Pyblp.C118_omega_jacobian",
    "Pyblp.C118_defined",
    "Pyblp.C118_gradient",
    "Pyblp.C118_demand_gradient",
    "Pyblp.C118_invertible",
    "Pyblp.C118_minimum",
    "Pyblp.C118_micro_jacobian",
    "Pyblp.C118_micro_gradient",
    "Pyblp.C118_micro_demand_gradient"
   ],
   "note": "C118_defined, C118_xi_jacobian, C118_omega_jacobian, C118_micro_jacobian, C118_gradient, C118_demand_gradient, C118_micro_gradient, C118_micro_demand_gradient, C118_invertible and C118_minimum. Composes C84, C85, C82, C58, C94, C117 and C23 over markets and through expand: an element of theta changes exactly the parameter at its location. Mean utilities are exact solutions. Micro contributions are computed in one chunk and agents are each offered something (C56_denominator_refuted and C82_groups_refuted are about more chunks and about product IDs). Without absorption of fixed effects. C94_refuted, C75_refuted and C85_clipped_refuted are about what is excluded."
  },
  {
   "property": "C119",
   "status": "partial",
   "theorems": [
    "Pyblp.C119_types",
    "Pyblp.C119_sides",
    "Pyblp.C119_absorbed",
    "Pyblp.C119_gradient_partial",
    "Pyblp.C119_covariance_moments",
    "Pyblp.C119_moments_jacobian_partial",
    "Pyblp.C119_total",
    "Pyblp.C119_whole_gradient_partial",
    "Pyblp.C119_refuted"
   ],
   "note": "C119_gradient_partial, C119_covariance_moments, C119_moments_jacobian_partial, C119_whole_gradient_partial (with C118, for all markets) and C119_types. C119_refuted: solve only rejects lagged moment types on a side from which fixed effects are absorbed, but with demand-side moments in innovations and an element of phi that relates them to lagged cost shocks, fixed effects absorbed on the supply side make the computed gradient wrong, because the Jacobian of costs is not residualized before it is lagged. PyHDFE is assumed to residualize exactly. Weight on products of aggregate and micro moments is excluded without covariance moments (C75_refuted). C119_sides: which arguments are accepted. C119_absorbed: adding absorbed fixed effects to the data changes nothing. C119_total: with covariance moments, columns of the Jacobian of moments for theta are total derivatives."
  },
  {
   "property": "C120",
   "status": "proved",
   "theorems": [
    "Pyblp.C120_given",
    "Pyblp.C120_covariances",
    "Pyblp.C120_drawn",
    "Pyblp.C120_succeeds",
    "Pyblp.C120_stationary",
    "Pyblp.C120_innovations"
   ],
   "note": "C120_given, C120_covariances, C120_drawn, C120_succeeds, C120_stationary, C120_innovations. Draws are random variables on any probability space that are uncorrelated with variance one; independent normal draws are shown to be such. Decompositions are parameters that are assumed to be correct for the two matrices at hand, and are shown to exist. Two things follow that the documentation does not say: variances of zero and correlations of one are accepted without lags, but with lags the Cholesky decomposition fails; and coefficients with eigenvalues on the unit circle pass the stability check (C105) but still fail, with a linear algebra error. Lags with cycles are excluded (C53_cycle_refuted)."
  },
  {
   "property": "C121",
   "status": "proved",
   "theorems": [
    "Pyblp.C121_mean_utilities",
    "Pyblp.C121_attained",
    "Pyblp.C121_demand_objective",
    "Pyblp.C121_objective",
    "Pyblp.C121_demand_gradient",
    "Pyblp.C121_gradient",
    "Pyblp.C121_minimum"
   ],
   "note": "C121_mean_utilities, C121_attained, C121_demand_objective, C121_objective, C121_demand_gradient, C121_gradient, C121_minimum. The relative tolerance is zero, as it is by default, and contractions are over mean utilities with the infinity norm. As in C117, everybody is offered everything and epsilon is not scaled down. Marginal costs are inside of their bounds at exact mean utilities. As in C118, there are no covariance moments. Micro moments may be any continuous function of mean utilities. The Jacobian of shares that is inverted has observed shares on its diagonal, as in the code, which are not those implied by reported mean utilities."
  },
  {
   "property": "C122",
   "status": "partial",
   "theorems": [
    "Pyblp.C122_exact",
    "Pyblp.C122_noticed",
    "Pyblp.C122_bad_plain",
    "Pyblp.C122_bad_nested_safe",
    "Pyblp.C122_bad_nested_unsafe",
    "Pyblp.C122_unsafe_nested_refuted",
    "Pyblp.C122_safe_plain",
    "Pyblp.C122_safe_nested",
    "Pyblp.C122_availability_refuted",
    "Pyblp.C122_group_rho_refuted"
   ],
   "note": "C122_noticed, C122_bad_plain, C122_bad_nested_safe, C122_safe_plain, C122_safe_nested, C122_exact. Three parts are false of the code. C122_unsafe_nested_refuted (and in general C122_bad_nested_unsafe): with nests and without overflow protection, infinite or NaN utilities silently remove the product's nest from the agent's choices, because non-finite numbers are replaced with zeros. C122_availability_refuted: with overflow protection and agent-specific availability, the reduction uses the best product even if it is not available, so 0 / 0 can result although all utilities are numbers. C122_group_rho_refuted: with overflow protection and nesting parameters that differ, terms that correct for the reduction overflow. C122_safe_nested is for one nesting parameter. Zeros have no sign and underflow is not an event (it is ignored by NumPy's default and is not one of the classes that are handled)."
  },
  {
   "property": "C123",
   "status": "proved",
   "theorems": [
    "Pyblp.C123_accepts",
    "Pyblp.C123_micro_weights",
    "Pyblp.C123_first_evaluation",
    "Pyblp.C123_first_failure",
    "Pyblp.C123_nonpositive_price_refuted"
   ],
   "note": "`C123_accepts` characterizes accepted arguments with a specification that is independent of the order of checks. `C123_micro_weights` is about the estimation model of C118 and `C123_first_evaluation` about evaluation histories of C49. `C123_first_failure` says what the first evaluation reverts to. `C123_nonpositive_price_refuted` is a finding: with log costs and a nonpositive price the initial costs are not finite themselves. Zero and NaN are accepted as error punishments although the error message asks for a positive number."
  },
  {
   "property": "C124",
   "status": "proved",
   "theorems": [
    "Pyblp.C124_delta",
    "Pyblp.C124_finite",
    "Pyblp.C124_no_jacobians",
    "Pyblp.C124_only_delta",
    "Pyblp.C124_costs",
    "Pyblp.C124_problem_costs",
    "Pyblp.C124_errors",
    "Pyblp.C124_omega_error",
    "Pyblp.C124_old_numpy_refuted"
   ],
   "note": "`C124_delta`, `C124_finite`, `C124_no_jacobians` and `C124_only_delta` say that results are as if computations were only known at what is reported. `C124_costs` is about costs and `C124_errors` and `C124_omega_error` are equivalences for each class of errors. `C124_old_numpy_refuted` is a finding: the package accepts NumPy before 2.0, for which errors of the outer computation are lost once a nested one was called, whatever program follows."
  },
  {
   "property": "C125",
   "status": "proved",
   "theorems": [
    "Pyblp.C125_markups",
    "Pyblp.C125_nash",
    "Pyblp.C125_exists_unique",
    "Pyblp.C125_converges",
    "Pyblp.C125_simple",
    "Pyblp.C125_merger_prices",
    "Pyblp.C125_merger_iterates",
    "Pyblp.C125_merger_profits",
    "Pyblp.C125_merger_shares",
    "Pyblp.C125_merger_surplus",
    "Pyblp.C125_costs",
    "Pyblp.C125_approximate"
   ],
   "note": "`Spec.PlainLogit` says what plain logit demand is, `Spec.NashEquilibrium` is about arbitrary changes of all prices of a firm. The iteration is not a contraction in any norm used here: convergence is proved by bounding deviations above and below the equilibrium. Real arithmetic: prices at which shares underflow are not covered."
  },
  {
   "property": "C126",
   "status": "proved",
   "theorems": [
    "Pyblp.C126_jacobian",
    "Pyblp.C126_elasticities",
    "Pyblp.C126_diversion",
    "Pyblp.C126_long_run",
    "Pyblp.C126_surplus",
    "Pyblp.C126_passthrough",
    "Pyblp.C126_nested_jacobian",
    "Pyblp.C126_nested_surplus",
    "Pyblp.C126_singleton_nests",
    "Pyblp.C126_no_random_coefficients"
   ],
   "note": "Formulas are stated with shares of the model of the code, whose own formula is C19. Consumer surplus of plain logit demand needs the default scale of epsilon (see C37_epsilon_refuted)."
  },
  {
   "property": "C127",
   "status": "proved",
   "theorems": [
    "Pyblp.C127_unbiased",
    "Pyblp.C127_accuracy",
    "Pyblp.C127_consistent",
    "Pyblp.C127_mean_utilities",
    "Pyblp.C127_inversion",
    "Pyblp.C127_counterfactual",
    "Pyblp.C127_independent"
   ],
   "note": "The random number generator is a stream of independent standard normal variables (an assumption about NumPy, of which the hypotheses are shown to be satisfiable). Without demographics and availability."
  },
  {
   "property": "C128",
   "status": "proved",
   "theorems": [
    "Pyblp.C128_demand",
    "Pyblp.C128_jacobian",
    "Pyblp.C128_elasticities",
    "Pyblp.C128_costs"
   ],
   "note": "The random number generator is a stream of independent standard normal variables. Without demographics and availability. Marginal costs are those before bounds are applied."
  },
  {
   "property": "C129",
   "status": "proved",
   "theorems": [
    "Pyblp.C129_consistent",
    "Pyblp.C129_standard_errors",
    "Pyblp.C129_normal",
    "Pyblp.C129_coverage"
   ],
   "note": "Without covariance moments, micro moments, fixed effects and resampled agents. Estimates need not be measurable: probabilities are outer measures. Numerical inverses are exact where inverses exist."
  },
  {
   "property": "C130",
   "status": "proved",
   "theorems": [
    "Pyblp.C130_hansen",
    "Pyblp.C130_wald",
    "Pyblp.C130_distance"
   ],
   "note": "Without covariance moments, micro moments, fixed effects and resampled agents, as C129. The Lagrange multiplier test is C131."
  },
  {
   "property": "C131",
   "status": "partial",
   "theorems": [
    "Pyblp.C131_zero",
    "Pyblp.C131_vanishes",
    "Pyblp.C131_chiSquared_refuted"
   ],
   "note": "False: derivatives are with respect to parameters of the restricted problem, so the statistic is zero for all data when parameters are linear and identified (C131_zero), with probability converging to one in large samples (C131_vanishes), and it is not asymptotically chi-squared (C131_chiSquared_refuted)."
  },
  {
   "property": "C132",
   "status": "partial",
   "theorems": [
    "Pyblp.Formula.C132_accepted",
    "Pyblp.Formula.C132_variables",
    "Pyblp.Formula.C132_type_error",
    "Pyblp.Formula.C132_simulation",
    "Pyblp.Formula.C132_simulation_type_refuted",
    "Pyblp.Formula.C132_simulation_type"
   ],
   "note": "True of problems. False of simulations, for sequences with elements that are neither formulations nor None: absorbed terms are looked for before types are checked, so an AttributeError is raised (C132_simulation_type_refuted; C132_simulation_type says which exceptions are raised)."
  },
  {
   "property": "C133",
   "status": "proved",
   "theorems": [
    "Pyblp.C133_nonlinear",
    "Pyblp.C133_linear"
   ],
   "note": "For moments without covariance and micro moments and without an initial update of weights. Optimizers that find minima and inversion of market shares are assumptions. The proof is by a uniform law of large numbers in the space of continuous functions, which is derived from the strong law, and ultrafilters."
  },
  {
   "property": "C134",
   "status": "proved",
   "theorems": [
    "Pyblp.C134_standard_errors",
    "Pyblp.C134_normal",
    "Pyblp.C134_coverage"
   ],
   "note": "For moments without covariance and micro moments, without an initial update of weights, and without parameters in phi. Optimizers that find minima and derivatives of recovered outcomes are assumptions."
  },
  {
   "property": "C135",
   "status": "proved",
   "theorems": [
    "Pyblp.C135_hansen",
    "Pyblp.C135_wald",
    "Pyblp.C135_distance"
   ],
   "note": "For moments without covariance and micro moments, without an initial update of weights, and without parameters in phi. C131 refutes this for run_lm_test."
  },
  {
   "property": "C136",
   "status": "proved",
   "theorems": [
    "Pyblp.C136_mean_utilities",
    "Pyblp.C136_minimum",
    "Pyblp.C136_nonlinear",
    "Pyblp.C136_linear",
    "Pyblp.C136_standard_errors",
    "Pyblp.C136_normal",
    "Pyblp.C136_coverage",
    "Pyblp.C136_hansen",
    "Pyblp.C136_wald"
   ],
   "note": "For demand without nesting, with bounded characteristics, nodes and demographics, everything offered to everybody, clusters that are markets, no initial update of weights, and exact inversions of shares and matrices. Conditions on instruments (validity, identification, rank) are about the population."
  },
  {
   "property": "C137",
   "status": "proved",
   "theorems": [
    "Pyblp.C137_draws",
    "Pyblp.C137_distribution",
    "Pyblp.C137_estimates",
    "Pyblp.C137_intervals"
   ],
   "note": "Conditions are those of C134 with invertible asymptotic covariances. Percentiles are those of the distribution of draws, or of infinitely many draws. Functions of parameters only: outputs that also depend on bootstrapped shares and mean utilities are covered by C138."
  },
  {
   "property": "C138",
   "status": "partial",
   "theorems": [
    "Pyblp.C138_coverage_partial",
    "Pyblp.C138_intervals_partial",
    "Pyblp.C138_elasticities_refuted"
   ],
   "note": "False of the code for outputs that depend on estimates in other ways than through drawn parameters. Draws keep estimated unobserved characteristics and change shares, while at estimates shares are observed ones, so the variance of bootstrapped outputs can be different from that of outputs. The exact limit of coverage is proved for all differentiable outputs, and it is right when the output only depends on draws."
  },
  {
   "property": "C139",
   "status": "proved",
   "theorems": [
    "Pyblp.C139_boxes",
    "Pyblp.C139_integrals"
   ],
   "note": "Digits below double precision are not used by the code, so boxes are those with edges above 2 ** -54. The quantile function at zero, which is minus infinity in the code, is any value at which the function is bounded."
  },
  {
   "property": "C140",
   "status": "proved",
   "theorems": [
    "Pyblp.C140_nodes",
    "Pyblp.C140_unbiased",
    "Pyblp.C140_variance"
   ],
   "note": "Random numbers are any on a probability space with uniform permutations and uniform numbers that are independent of each other. For the modified version uniform numbers of a dimension are the same."
  },
  {
   "property": "C141",
   "status": "proved",
   "theorems": [
    "Pyblp.C141_joint",
    "Pyblp.C141_demand"
   ],
   "note": "Exogenous variables are held fixed, so that expected values are conditional on them. Whether expected Jacobians are right depends on the method, see C69 and C80."
  },
  {
   "property": "C142",
   "status": "proved",
   "theorems": [
    "Pyblp.C142_mean",
    "Pyblp.C142_unbiased",
    "Pyblp.C142_variance",
    "Pyblp.C142_shares",
    "Pyblp.C142_accuracy",
    "Pyblp.C142_enough"
   ],
   "note": "For one market. The choice among accepted candidates need not be uniform: it is enough that it is independent of candidates and cutoffs. Probabilities of choosing inside goods are positive, as they are with logit demand."
  },
  {
   "property": "C143",
   "status": "proved",
   "theorems": [
    "Pyblp.C143_unbiased",
    "Pyblp.C143_covariance",
    "Pyblp.C143_consistent",
    "Pyblp.C143_normal",
    "Pyblp.C143_parts",
    "Pyblp.C143_moments"
   ],
   "note": "Values of rows are those of the agent and choices that rows stand for. Markets have as many products in the comparison with computed covariances, like in C57. Parts of the moment in C143_moments are of the dataset that is simulated."
  },
  {
   "property": "C144",
   "status": "proved",
   "theorems": [
    "Pyblp.C144_zero",
    "Pyblp.C144_derivative",
    "Pyblp.C144_optimal",
    "Pyblp.C144_attained",
    "Pyblp.C144_succeeds",
    "Pyblp.C144_simulated"
   ],
   "note": "Without an integration configuration, for which numerators and denominators use different nodes, and without micro data, for which there is always a TypeError (C88_agents_refuted). Entries that are not a number are replaced by zero, as the documentation suggests. ValidMarket is that of C87."
  },
  {
   "property": "C145",
   "status": "proved",
   "theorems": [
    "Pyblp.C145_marginal",
    "Pyblp.C145_area",
    "Pyblp.C145_elimination",
    "Pyblp.C145_demand",
    "Pyblp.C145_lost",
    "Pyblp.C145_bounds",
    "Pyblp.C145_law_of_demand"
   ],
   "note": "For epsilon_scale = 1 (C37_epsilon_refuted covers others). The documentation assumes away nonlinear income effects, which is the hypothesis that price derivatives of utility are the same for all products and prices."
  },
  {
   "property": "C146",
   "status": "proved",
   "theorems": [
    "Pyblp.C146_substitutes",
    "Pyblp.C146_strict",
    "Pyblp.C146_total",
    "Pyblp.C146_own",
    "Pyblp.C146_elasticities",
    "Pyblp.C146_diversion",
    "Pyblp.C146_markups",
    "Pyblp.C146_costs",
    "Pyblp.C146_equilibrium",
    "Pyblp.C146_fixed_point",
    "Pyblp.C146_ownership",
    "Pyblp.C146_merger"
   ],
   "note": "Spec.Falling is that utility falls in prices at the prices in question and every product is bought with positive probability. For diversion ratios, utility falls at the same rate for all products, which is needed for reported ratios to be the documented ones (C33)."
  },
  {
   "property": "C147",
   "status": "proved",
   "theorems": [
    "Pyblp.C147_implied_costs",
    "Pyblp.C147_supply_jacobian",
    "Pyblp.C147_equilibrium_costs",
    "Pyblp.C147_given_prices_refuted",
    "Pyblp.C147_demand",
    "Pyblp.C147_prices",
    "Pyblp.C147_plan",
    "Pyblp.C147_supply",
    "Pyblp.C147_schedules",
    "Pyblp.C147_jacobian",
    "Pyblp.C147_reversion",
    "Pyblp.C147_unbiased",
    "Pyblp.C147_variance",
    "Pyblp.C147_instruments",
    "Pyblp.C147_joint",
    "Pyblp.C147_empirical",
    "Pyblp.C147_approximate",
    "Pyblp.C147_draws"
   ],
   "note": "RealizationSchedule says which orders of building markets and writing results are possible: each market once, its building before its writing. Expectations are with respect to any law of the drawn errors, for independent draws. What the iteration does when it does not converge is not part of this. C147_given_prices_refuted: with logarithmic costs and given prices, supply-side Jacobians are divided by drawn marginal costs instead of those that explain given prices, which the statement excludes."
  },
  {
   "property": "C148",
   "status": "proved",
   "theorems": [
    "Pyblp.C148_gumbel",
    "Pyblp.C148_choice",
    "Pyblp.C148_shares",
    "Pyblp.C148_unique",
    "Pyblp.C148_second_choice",
    "Pyblp.C148_surplus",
    "Pyblp.C148_group_choice",
    "Pyblp.C148_pure_characteristics",
    "Pyblp.C148_large_scale",
    "Pyblp.C148_nested_choice",
    "Pyblp.C148_nested_unique",
    "Pyblp.C148_nested_second_choice",
    "Pyblp.C148_nested_surplus",
    "Pyblp.C148_nested_zero",
    "Pyblp.C148_nested_half"
   ],
   "note": "Availability is zero or one, as documented. Without nesting the law of tastes is a product of Gumbel laws (C148_gumbel has its distribution function). With nesting theorems are about any law with the generalized extreme value distribution function; such laws are shown to exist for nesting parameters of zero and of one half. Consumer surplus is for utilities that are linear in prices and a scale of one (see C37 for what goes wrong otherwise)."
  },
  {
   "property": "C149",
   "status": "partial",
   "theorems": [
    "Pyblp.C149_gradients",
    "Pyblp.C149_necessary",
    "Pyblp.C149_nested_partial",
    "Pyblp.C149_plain_partial",
    "Pyblp.C149_random_coefficients_refuted",
    "Pyblp.C149_eigenvalues",
    "Pyblp.C149_hessian_symmetric",
    "Pyblp.C149_second_order",
    "Pyblp.C149_second_order_necessary"
   ],
   "note": "That computed prices are best responses is proved for plain logit demand (C149_plain_partial) and for nested logit demand with nesting parameters that are not negative (C149_nested_partial), for firms with any number of products. It is false with random coefficients: C149_random_coefficients_refuted has a monopolist for whom the iteration stops at a price of four and first and strict second order conditions hold, but a price of 104 is more than five times as profitable. All other parts are proved for all demand, with costs that do not depend on shares."
  },
  {
   "property": "C150",
   "status": "proved",
   "theorems": [
    "Pyblp.C150_merger_outsiders",
    "Pyblp.C150_merger_all_prices",
    "Pyblp.C150_merger_gain",
    "Pyblp.C150_unique",
    "Pyblp.C150_unique_nash",
    "Pyblp.C150_exists_unique",
    "Pyblp.C150_exists_unique_nash",
    "Pyblp.C150_markups",
    "Pyblp.C150_merger_prices",
    "Pyblp.C150_merger_profits",
    "Pyblp.C150_merger_outside",
    "Pyblp.C150_merger_surplus",
    "Pyblp.C150_rises_from",
    "Pyblp.C150_rises",
    "Pyblp.C150_simple_from",
    "Pyblp.C150_simple",
    "Pyblp.C150_merger_rises",
    "Pyblp.C150_merger_simple"
   ],
   "note": "The iteration is the one of Model/Supply and the routine is the one of Model/Iteration. Convergence of iteration is claimed only if products of each firm are in one nest; existence, uniqueness and effects of mergers are proved for firms with products in any nests."
  },
  {
   "property": "C151",
   "status": "proved",
   "theorems": [
    "Pyblp.C151_prices",
    "Pyblp.C151_surplus",
    "Pyblp.C151_rivals",
    "Pyblp.C151_rivals_gain",
    "Pyblp.C151_rises",
    "Pyblp.C151_pass_through",
    "Pyblp.C151_all_prices",
    "Pyblp.C151_within_firm",
    "Pyblp.C151_plain_prices",
    "Pyblp.C151_plain_surplus",
    "Pyblp.C151_plain_pass_through",
    "Pyblp.C151_plain_all_prices"
   ],
   "note": "Prices are fixed points of the iteration of Model/Supply; C150 shows that there is exactly one for any costs and firms."
  },
  {
   "property": "C152",
   "status": "proved",
   "theorems": [
    "Pyblp.C152_all_prices",
    "Pyblp.C152_invertible",
    "Pyblp.C152_costs",
    "Pyblp.C152_markups",
    "Pyblp.C152_unchanged",
    "Pyblp.C152_ownership",
    "Pyblp.C152_approximate",
    "Pyblp.C152_efficiencies",
    "Pyblp.C152_merger"
   ],
   "note": "Eta, costs, approximate prices and the iteration for prices are those of Model/Supply. Convergence of iteration is claimed only if products of each firm are in one nest."
  },
  {
   "property": "C153",
   "status": "partial",
   "theorems": [
    "Pyblp.Formula.C153_shifters_partial",
    "Pyblp.Formula.C153_all",
    "Pyblp.Formula.C153_exogenous",
    "Pyblp.Formula.C153_distinct",
    "Pyblp.Formula.C153_supply_partial",
    "Pyblp.Formula.C153_demand_partial",
    "Pyblp.Formula.C153_columns",
    "Pyblp.Formula.C153_refuted",
    "Pyblp.Formula.C153_argument",
    "Pyblp.Formula.C153_default"
   ],
   "note": "C153_shifters_partial needs terms with the same factors to be written in the same order on both sides, and codes of factors without colons; C153_refuted shows that a:b on one side and b:a on the other gives shifters for both although the characteristic is not excluded. Categorical variables in shifters are not modelled."
  },
  {
   "property": "C154",
   "status": "partial",
   "theorems": [
    "Pyblp.C154_accepted",
    "Pyblp.C154_gradient_partial",
    "Pyblp.C154_single",
    "Pyblp.C154_refuted"
   ],
   "note": "C154_gradient_partial needs either both functions or neither; C154_refuted shows that a single part with compute_value but without compute_gradient is accepted with a gradient of one, although documentation says that the moment matches the part."
  },
  {
   "property": "C155",
   "status": "proved",
   "theorems": [
    "Pyblp.C155_prices",
    "Pyblp.C155_profits",
    "Pyblp.C155_shares",
    "Pyblp.C155_surplus",
    "Pyblp.C155_iterates",
    "Pyblp.C155_monopoly",
    "Pyblp.C155_nested_constant",
    "Pyblp.C155_nested_prices",
    "Pyblp.C155_nested_profits",
    "Pyblp.C155_nested_outside",
    "Pyblp.C155_nested_surplus",
    "Pyblp.C155_nested_iterates",
    "Pyblp.C155_nested_simple"
   ],
   "note": "Prices are fixed points of the modelled iteration, which are the equilibria (C125, C149). The market without some products is any market with the same consumers and the remaining products."
  },
  {
   "property": "C156",
   "status": "proved",
   "theorems": [
    "Pyblp.C156_shares",
    "Pyblp.C156_equilibria",
    "Pyblp.C156_prices",
    "Pyblp.C156_surplus",
    "Pyblp.C156_rivals",
    "Pyblp.C156_rivals_lose",
    "Pyblp.C156_plain_equilibria",
    "Pyblp.C156_plain_prices",
    "Pyblp.C156_plain_profits",
    "Pyblp.C156_plain_rivals_lose",
    "Pyblp.C156_plain_surplus"
   ],
   "note": "Prices are fixed points of the modelled iteration, which are the equilibria (C149, C150). Changes of mean utilities replace delta in the model of demand."
  },
  {
   "property": "C157",
   "status": "proved",
   "theorems": [
    "Pyblp.C157_norms",
    "Pyblp.C157_first_order",
    "Pyblp.C157_max_eigenvalue",
    "Pyblp.C157_min_eigenvalue",
    "Pyblp.C157_second_order",
    "Pyblp.C157_failures",
    "Pyblp.C157_totals",
    "Pyblp.C157_hidden_refuted"
   ],
   "note": "Numbers are as in floating point with infinities and NaN; comparisons follow Python and NumPy. The routine for eigenvalues either gives real numbers or fails. C157_hidden_refuted shows that a NaN norm is not visible in the summary."
  }
 ]
}