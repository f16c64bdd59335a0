Pyblp.C01_errors: propext, Classical.choice, Quot.sound
Pyblp.C01_rows: propext, Classical.choice, Quot.sound
Pyblp.C02_ownership: propext, Classical.choice, Quot.sound
Pyblp.C02_no_firms: propext, Classical.choice, Quot.sound
Pyblp.C03_blp: propext, Classical.choice, Quot.sound
Pyblp.C04_sd: propext, Classical.choice, Quot.sound
Pyblp.C04_quadratic: propext, Classical.choice, Quot.sound
Pyblp.C04_local: propext, Classical.choice, Quot.sound
Pyblp.C04_local_interact_partial: propext, Classical.choice, Quot.sound
Pyblp.C04_local_interact_refuted: propext, Classical.choice, Quot.sound
Pyblp.C05_columns: propext, Classical.choice, Quot.sound
Pyblp.C05_lookup: propext, Classical.choice, Quot.sound
Pyblp.C05_errors: propext, Quot.sound
Pyblp.C06_sum: propext, Classical.choice, Quot.sound
Pyblp.C06_unique: propext, Classical.choice, Quot.sound
Pyblp.C06_counts: propext, Classical.choice, Quot.sound
Pyblp.C06_mean: propext, Classical.choice, Quot.sound
Pyblp.C06_expand: propext, Classical.choice, Quot.sound
Pyblp.C06_expand_sum: propext, Classical.choice, Quot.sound
Pyblp.C07_get_indices: propext, Classical.choice, Quot.sound
Pyblp.C07_keys_nodup: propext, Classical.choice, Quot.sound
Pyblp.C07_partition: propext, Classical.choice, Quot.sound
Pyblp.C08_assembled: propext, Classical.choice, Quot.sound
Pyblp.C08_schedule: propext, Classical.choice, Quot.sound
Pyblp.C09_product_partial: propext, Classical.choice, Quot.sound
Pyblp.C09_market: propext, Classical.choice, Quot.sound
Pyblp.C09_width: propext, Classical.choice, Quot.sound
Pyblp.C09_sorted: propext, Classical.choice, Quot.sound
Pyblp.C09_refuted: propext, Classical.choice, Quot.sound
Pyblp.C10_order: propext, Classical.choice, Quot.sound
Pyblp.C11_refuted: propext, Classical.choice, Quot.sound
Pyblp.C11_serial_partial: propext, Classical.choice, Quot.sound
Pyblp.C11_single_partial: propext, Classical.choice, Quot.sound
Pyblp.C12_market: propext, Classical.choice, Quot.sound
Pyblp.C12_weights: propext, Classical.choice, Quot.sound
Pyblp.C12_raises: propext, Classical.choice, Quot.sound
Pyblp.C13_released: propext, Quot.sound
Pyblp.C13_serial_after: propext, Quot.sound
Pyblp.C13_serial_handler: Quot.sound
Pyblp.C13_used_inside: propext, Quot.sound
Pyblp.C13_nested_clears_outer: none
Pyblp.C14_simple: propext, Classical.choice, Quot.sound
Pyblp.C14_budget_exclusive: propext, Classical.choice, Quot.sound
Pyblp.C14_contraction: propext, Classical.choice, Quot.sound
Pyblp.C15_squarem: propext, Classical.choice, Quot.sound
Pyblp.C15_step_bounds: propext, Classical.choice, Quot.sound
Pyblp.C15_bounds_ordered: propext, Classical.choice, Quot.sound
Pyblp.C15_bounds_update: propext, Classical.choice, Quot.sound
Pyblp.C15_affine: propext, Classical.choice, Quot.sound
Pyblp.C16_return: propext, Classical.choice, Quot.sound
Pyblp.C16_finite: propext, Classical.choice, Quot.sound
Pyblp.C17_probabilities: propext, Classical.choice, Quot.sound
Pyblp.C17_probabilities_interior: propext, Classical.choice, Quot.sound
Pyblp.C17_no_outside: propext, Classical.choice, Quot.sound
Pyblp.C18_safe_eq_unsafe: propext, Classical.choice, Quot.sound
Pyblp.C19_nested: propext, Classical.choice, Quot.sound
Pyblp.C19_zero_rho: propext, Classical.choice, Quot.sound
Pyblp.C20_eliminate: propext, Classical.choice, Quot.sound
Pyblp.C21_closed_form: propext, Classical.choice, Quot.sound
Pyblp.C22_fixed_points: propext, Classical.choice, Quot.sound
Pyblp.C23_unique: propext, Classical.choice, Quot.sound
Pyblp.C23_nonexpansive_partial: propext, Classical.choice, Quot.sound
Pyblp.C23_small_epsilon_refuted: propext, Classical.choice, Quot.sound
Pyblp.C24_fp_type_partial: propext, Classical.choice, Quot.sound
Pyblp.C24_nonlinear_is_linear: propext, Classical.choice, Quot.sound
Pyblp.C24_refuted: propext, Classical.choice, Quot.sound
Pyblp.C24_same_iterates: propext, Classical.choice, Quot.sound
Pyblp.C24_same_iterates_nested: propext, Classical.choice, Quot.sound
Pyblp.C25_clip: propext, Classical.choice, Quot.sound
Pyblp.C25_contraction: propext, Classical.choice, Quot.sound
Pyblp.C26_demand_jacobian: propext, Classical.choice, Quot.sound
Pyblp.C26_demand_hessian: propext, Classical.choice, Quot.sound
Pyblp.C27_probabilities_by_xi_options: propext, Classical.choice, Quot.sound
Pyblp.C27_probabilities_by_xi: propext, Classical.choice, Quot.sound
Pyblp.C27_conditionals_by_xi: propext, Classical.choice, Quot.sound
Pyblp.C27_shares_by_xi: propext, Classical.choice, Quot.sound
Pyblp.C28_contraction_jacobian_partial: propext, Classical.choice, Quot.sound
Pyblp.C28_epsilon_refuted: propext, Classical.choice, Quot.sound
Pyblp.C28_clipped_refuted: propext, Classical.choice, Quot.sound
Pyblp.C29_profit_jacobian: propext, Classical.choice, Quot.sound
Pyblp.C29_profit_hessian: propext, Classical.choice, Quot.sound
Pyblp.C29_firm_gradient: propext, Classical.choice, Quot.sound
Pyblp.C29_firm_hessian: propext, Classical.choice, Quot.sound
Pyblp.C30_costs: propext, Classical.choice, Quot.sound
Pyblp.C30_approximate_prices: propext, Classical.choice, Quot.sound
Pyblp.C31_fixed_point_iff_foc: propext, Classical.choice, Quot.sound
Pyblp.C31_fixed_point_iff_costs_partial: propext, Classical.choice, Quot.sound
Pyblp.C31_asymmetric_refuted: propext, Classical.choice, Quot.sound
Pyblp.C32_compute_prices_refuted: propext
Pyblp.C32_realization_partial: propext
Pyblp.C33_rows_sum: propext, Classical.choice, Quot.sound
Pyblp.C33_documented_partial: propext, Classical.choice, Quot.sound
Pyblp.C33_documented_refuted: propext, Classical.choice, Quot.sound
Pyblp.C34_long_run: propext, Classical.choice, Quot.sound
Pyblp.C34_nonneg: propext, Classical.choice, Quot.sound
Pyblp.C35_elasticities: propext, Classical.choice, Quot.sound
Pyblp.C35_delta_elasticities_partial: propext, Classical.choice, Quot.sound
Pyblp.C35_logit: propext, Classical.choice, Quot.sound
Pyblp.C35_delta_epsilon_refuted: propext, Classical.choice, Quot.sound
Pyblp.C35_aggregate: propext, Classical.choice, Quot.sound
Pyblp.C36_bounds: propext, Classical.choice, Quot.sound
Pyblp.C36_monopoly: propext, Classical.choice, Quot.sound
Pyblp.C36_merger: propext, Classical.choice, Quot.sound
Pyblp.C36_not_documented_formula: propext, Classical.choice, Quot.sound
Pyblp.C37_numerator: propext, Classical.choice, Quot.sound
Pyblp.C37_surplus_partial: propext, Classical.choice, Quot.sound
Pyblp.C37_elimination: propext, Classical.choice, Quot.sound
Pyblp.C37_epsilon_refuted: propext, Classical.choice, Quot.sound
Pyblp.C37_prices_refuted: propext, Classical.choice, Quot.sound
Pyblp.C38_elimination: propext, Classical.choice, Quot.sound
Pyblp.C38_commutation: propext, Classical.choice, Quot.sound
Pyblp.C38_duplication: propext, Classical.choice, Quot.sound
Pyblp.C38_lower: propext, Classical.choice, Quot.sound
Pyblp.C38_full: propext, Classical.choice, Quot.sound
Pyblp.C38_vech_lower: propext, Classical.choice, Quot.sound
Pyblp.C39_refuted: none
Pyblp.C39_refuted_diagonal: none
Pyblp.C39_null_partial: propext
Pyblp.C39_value_error_partial: none
Pyblp.C39_wrong_name: none
Pyblp.C39_solve_partial: propext
Pyblp.C40_normal_equations: propext, Classical.choice, Quot.sound
Pyblp.C40_minimises: propext, Classical.choice, Quot.sound
Pyblp.C40_exactly_identified: propext, Classical.choice, Quot.sound
Pyblp.C40_residuals: propext, Classical.choice, Quot.sound
Pyblp.C41_robust: propext, Classical.choice, Quot.sound
Pyblp.C41_clustered: propext, Classical.choice, Quot.sound
Pyblp.C41_unadjusted: propext, Classical.choice, Quot.sound
Pyblp.C41_psd: propext, Classical.choice, Quot.sound
Pyblp.C41_own_clusters: propext, Classical.choice, Quot.sound
Pyblp.C42_symmetric: propext, Classical.choice, Quot.sound
Pyblp.C42_efficient: propext, Classical.choice, Quot.sound
Pyblp.C42_sandwich_psd: propext, Classical.choice, Quot.sound
Pyblp.C42_unadjusted_psd: propext, Classical.choice, Quot.sound
Pyblp.C42_updated_weights: propext, Classical.choice, Quot.sound
Pyblp.C43_compress_expand: propext, Classical.choice, Quot.sound
Pyblp.C43_fixed: propext, Classical.choice, Quot.sound
Pyblp.C43_expand_compress: propext, Classical.choice, Quot.sound
Pyblp.C43_bounds_order: propext, Classical.choice, Quot.sound
Pyblp.C44_estimated: propext, Classical.choice, Quot.sound
Pyblp.C44_concentrated: propext, Classical.choice, Quot.sound
Pyblp.C44_partition: propext, Classical.choice, Quot.sound
Pyblp.C44_order: propext, Classical.choice, Quot.sound
Pyblp.C45_start_within: propext, Classical.choice, Quot.sound
Pyblp.C45_value_error: propext, Classical.choice, Quot.sound
Pyblp.C45_rejected: propext, Classical.choice, Quot.sound
Pyblp.C45_unsupported: propext, Classical.choice, Quot.sound
Pyblp.C45_supplied: propext, Classical.choice, Quot.sound
Pyblp.C45_default: propext, Classical.choice, Quot.sound
Pyblp.C45_accepted: propext, Classical.choice, Quot.sound
Pyblp.C46_theta: propext, Classical.choice, Quot.sound
Pyblp.C46_fixed: propext, Classical.choice, Quot.sound
Pyblp.C46_beta: propext, Classical.choice, Quot.sound
Pyblp.C46_gamma: propext, Classical.choice, Quot.sound
Pyblp.C46_rows: propext, Classical.choice, Quot.sound
Pyblp.C47_first_order: propext, Classical.choice, Quot.sound
Pyblp.C47_norm: propext, Classical.choice, Quot.sound
Pyblp.C47_hessian: propext, Classical.choice, Quot.sound
Pyblp.C48_steps: propext, Classical.choice, Quot.sound
Pyblp.C48_optimized: propext, Quot.sound
Pyblp.C48_count: propext, Classical.choice, Quot.sound
Pyblp.C48_chain: propext, Classical.choice, Quot.sound
Pyblp.C48_cumulative: propext, Classical.choice, Quot.sound
Pyblp.C48_initial_update: propext, Quot.sound
Pyblp.C49_clean: propext, Classical.choice, Quot.sound
Pyblp.C49_raise: propext, Classical.choice, Quot.sound
Pyblp.C49_revert: propext, Classical.choice, Quot.sound
Pyblp.C49_punish: propext, Classical.choice, Quot.sound
Pyblp.C49_no_alias: propext, Classical.choice, Quot.sound
Pyblp.C49_alias_refuted: propext, Classical.choice, Quot.sound
Pyblp.C50_finite: propext, Classical.choice, Quot.sound
Pyblp.C50_jacobians_partial: propext, Classical.choice, Quot.sound
Pyblp.C50_kept: propext, Classical.choice, Quot.sound
Pyblp.C50_reported: propext, Classical.choice, Quot.sound
Pyblp.C50_refuted: propext, Classical.choice, Quot.sound
Pyblp.C51_start: propext, Classical.choice, Quot.sound
Pyblp.C52_innovations: propext, Classical.choice, Quot.sound
Pyblp.C52_differenced: propext, Classical.choice, Quot.sound
Pyblp.C52_derivative: propext, Classical.choice, Quot.sound
Pyblp.C52_cross_derivative: propext, Classical.choice, Quot.sound
Pyblp.C53_terminates: propext, Classical.choice, Quot.sound
Pyblp.C53_autoregression_partial: propext, Classical.choice, Quot.sound
Pyblp.C53_stationary: propext, Classical.choice, Quot.sound
Pyblp.C53_cycle_refuted: propext, Classical.choice, Quot.sound
Pyblp.C54_demand_partial: propext, Classical.choice, Quot.sound
Pyblp.C54_supply_partial: propext, Classical.choice, Quot.sound
Pyblp.C54_nonlinear: propext, Classical.choice, Quot.sound
Pyblp.C54_retained: propext, Classical.choice, Quot.sound
Pyblp.C54_constant_refuted: propext, Classical.choice, Quot.sound
Pyblp.C54_no_supply: propext, Classical.choice, Quot.sound
Pyblp.C55_bounds_partial: propext, Classical.choice, Quot.sound
Pyblp.C55_fixed: propext, Classical.choice, Quot.sound
Pyblp.C55_estimated: propext, Classical.choice, Quot.sound
Pyblp.C55_concentrated_beta: propext, Classical.choice, Quot.sound
Pyblp.C55_concentrated_gamma: propext, Classical.choice, Quot.sound
Pyblp.C55_concentrated_unbounded: propext, Classical.choice, Quot.sound
Pyblp.C55_mean: propext, Classical.choice, Quot.sound
Pyblp.C55_index: propext, Classical.choice, Quot.sound
Pyblp.C55_reversed_refuted: propext, Classical.choice, Quot.sound
Pyblp.C56_partition: propext, Quot.sound
Pyblp.C56_contributions_partial: propext, Classical.choice, Quot.sound
Pyblp.C56_invalid: propext, Classical.choice, Quot.sound
Pyblp.C56_constant_denominator: propext, Classical.choice, Quot.sound
Pyblp.C56_varying_denominator: propext, Classical.choice, Quot.sound
Pyblp.C56_denominator_refuted: propext, Classical.choice, Quot.sound
Pyblp.C57_parts_psd: propext, Classical.choice, Quot.sound
Pyblp.C57_moments: propext, Classical.choice, Quot.sound
Pyblp.C57_parts: propext, Classical.choice, Quot.sound
Pyblp.C57_covariances: propext, Classical.choice, Quot.sound
Pyblp.C58_once: propext, Quot.sound
Pyblp.C58_order: propext, Classical.choice, Quot.sound
Pyblp.C58_names: propext, Classical.choice, Quot.sound
Pyblp.C58_arguments: propext, Classical.choice, Quot.sound
Pyblp.C58_gradient: propext, Classical.choice, Quot.sound
Pyblp.C58_jacobian: propext, Classical.choice, Quot.sound
Pyblp.C58_part_derivative: propext, Classical.choice, Quot.sound
Pyblp.C59_product: propext, Classical.choice, Quot.sound
Pyblp.C59_product_size: propext, Classical.choice, Quot.sound
Pyblp.C59_product_functions: propext, Classical.choice, Quot.sound
Pyblp.C59_sparse_grid: propext, Classical.choice, Quot.sound
Pyblp.C59_smolyak_exact: propext, Classical.choice, Quot.sound
Pyblp.C59_sparse_grid_total: propext, Classical.choice, Quot.sound
Pyblp.C59_sparse_grid_exact: propext, Classical.choice, Quot.sound
Pyblp.C59_base_rule: propext, Classical.choice, Quot.sound
Pyblp.C59_product_exact: propext, Classical.choice, Quot.sound
Pyblp.C59_sparse_grid_distinct: propext, Classical.choice, Quot.sound
Pyblp.C60_radical_inverse: propext, Classical.choice, Quot.sound
Pyblp.C60_unit_interval: propext, Classical.choice, Quot.sound
Pyblp.C60_positive: propext, Classical.choice, Quot.sound
Pyblp.C60_zero_refuted: propext, Classical.choice, Quot.sound
Pyblp.C60_stratified: propext, Classical.choice, Quot.sound
Pyblp.C60_markets: propext, Classical.choice, Quot.sound
Pyblp.C60_primes: propext, Classical.choice, Quot.sound
Pyblp.C61_enumerates: propext, Classical.choice, Quot.sound
Pyblp.C62_error: propext, Classical.choice, Quot.sound
Pyblp.C62_noise: propext, Classical.choice, Quot.sound
Pyblp.C62_second_mean_value: propext, Classical.choice, Quot.sound
Pyblp.C62_second_limit: propext, Classical.choice, Quot.sound
Pyblp.C62_gradient: propext, Classical.choice, Quot.sound
Pyblp.C62_first: propext, Classical.choice, Quot.sound
Pyblp.C62_second: propext, Classical.choice, Quot.sound
Pyblp.C62_symmetric: propext, Classical.choice, Quot.sound
Pyblp.C62_hessian: propext, Classical.choice, Quot.sound
Pyblp.C62_limit: propext, Classical.choice, Quot.sound
Pyblp.C63_accepted: propext, Classical.choice, Quot.sound
Pyblp.C63_rejected: propext, Classical.choice, Quot.sound
Pyblp.C64_integers_partial: propext, Classical.choice, Quot.sound
Pyblp.C64_fraction_refuted: propext, Classical.choice, Quot.sound
Pyblp.C64_large_index: propext, Classical.choice, Quot.sound
Pyblp.C65_exact: propext, Classical.choice, Quot.sound
Pyblp.C65_pair: propext, Classical.choice, Quot.sound
Pyblp.C65_evaluations: propext, Classical.choice, Quot.sound
Pyblp.C66_hansen: propext, Classical.choice, Quot.sound
Pyblp.C66_hansen_nonneg: propext, Classical.choice, Quot.sound
Pyblp.C66_distance: propext, Classical.choice, Quot.sound
Pyblp.C66_distance_rejected: propext, Classical.choice, Quot.sound
Pyblp.C66_distance_nonneg: propext, Classical.choice, Quot.sound
Pyblp.C66_lm: propext, Classical.choice, Quot.sound
Pyblp.C66_lm_gradient: propext, Classical.choice, Quot.sound
Pyblp.C66_lm_zero: propext, Classical.choice, Quot.sound
Pyblp.C66_wald: propext, Classical.choice, Quot.sound
Pyblp.C66_wald_invariant: propext, Classical.choice, Quot.sound
Pyblp.C66_wald_nonneg: propext, Classical.choice, Quot.sound
Pyblp.C66_wald_shapes: propext
Pyblp.C67_first_occurrences: propext, Classical.choice, Quot.sound
Pyblp.C67_single: propext
Pyblp.C67_schedule: propext, Classical.choice, Quot.sound
Pyblp.C68_data: propext, Classical.choice, Quot.sound
Pyblp.C68_markets: propext, Classical.choice, Quot.sound
Pyblp.C68_demographics_partial: propext, Classical.choice, Quot.sound
Pyblp.C68_too_few: propext, Classical.choice, Quot.sound
Pyblp.C68_sorted_partial: propext, Classical.choice, Quot.sound
Pyblp.C68_ids_refuted: propext, Classical.choice, Quot.sound
Pyblp.C68_ids_error: propext, Classical.choice, Quot.sound
Pyblp.C68_linear: propext, Classical.choice, Quot.sound
Pyblp.C69_normal_demand_variance: propext, Classical.choice, Quot.sound
Pyblp.C69_normal_demand_partial: propext, Classical.choice, Quot.sound
Pyblp.C69_normal_demand_refuted: propext, Classical.choice, Quot.sound
Pyblp.C69_normal_joint: propext, Classical.choice, Quot.sound
Pyblp.C69_empirical: propext, Classical.choice, Quot.sound
Pyblp.C69_empirical_variance: propext, Classical.choice, Quot.sound
Pyblp.C70_update: propext, Classical.choice, Quot.sound
Pyblp.C70_round_trip: propext, Classical.choice, Quot.sound
Pyblp.C70_derivative: propext, Classical.choice, Quot.sound
Pyblp.C71_reported: propext, Classical.choice, Quot.sound
Pyblp.C71_flat: propext, Classical.choice, Quot.sound
Pyblp.C71_old_numpy_refuted: propext, Classical.choice, Quot.sound
Pyblp.C72_passthrough: propext, Classical.choice, Quot.sound
Pyblp.C72_symmetric: propext, Classical.choice, Quot.sound
Pyblp.C73_precedence: propext, Quot.sound
Pyblp.C73_stacked: propext, Classical.choice, Quot.sound
Pyblp.C73_first_unique: propext
Pyblp.C73_roundtrip: propext, Classical.choice, Quot.sound
Pyblp.C73_roundtrip_refuted: propext, Classical.choice, Quot.sound
Pyblp.C73_roundtrip_single: propext, Classical.choice, Quot.sound
Pyblp.C74_price_contraction_jacobian: propext, Classical.choice, Quot.sound
Pyblp.C75_gradient_partial: propext, Classical.choice, Quot.sound
Pyblp.C75_converted: propext, Classical.choice, Quot.sound
Pyblp.C75_refuted: propext, Classical.choice, Quot.sound
Pyblp.C76_sensitivity: propext, Classical.choice, Quot.sound
Pyblp.C77_stratified: propext, Classical.choice, Quot.sound
Pyblp.C77_unit_interval: propext, Classical.choice, Quot.sound
Pyblp.C78_levels: propext, Classical.choice, Quot.sound
Pyblp.C78_level_zero: propext, Classical.choice, Quot.sound
Pyblp.C78_nested: propext, Classical.choice, Quot.sound
Pyblp.C78_normal_moments: propext, Classical.choice, Quot.sound
Pyblp.C78_gauss: propext, Classical.choice, Quot.sound
Pyblp.C78_product: propext, Classical.choice, Quot.sound
Pyblp.C79_endogenous_partial: propext, Classical.choice, Quot.sound
Pyblp.C79_exogenous_refuted: propext, Classical.choice, Quot.sound
Pyblp.C80_delta: propext, Classical.choice, Quot.sound
Pyblp.C80_costs: propext, Classical.choice, Quot.sound
Pyblp.C80_average: propext, Classical.choice, Quot.sound
Pyblp.C80_demand: propext, Classical.choice, Quot.sound
Pyblp.C80_joint: propext, Classical.choice, Quot.sound
Pyblp.C80_expected_prices: propext, Classical.choice, Quot.sound
Pyblp.C80_dropped: propext, Quot.sound
Pyblp.C80_dropped_given: propext, Classical.choice, Quot.sound
Pyblp.C81_first: propext, Classical.choice, Quot.sound
Pyblp.C81_difference: propext, Classical.choice, Quot.sound
Pyblp.C81_sum: propext, Classical.choice, Quot.sound
Pyblp.C81_product: propext, Classical.choice, Quot.sound
Pyblp.C81_nonneg: propext, Classical.choice, Quot.sound
Pyblp.C81_random_utility: propext, Classical.choice, Quot.sound
Pyblp.C81_groups_partial: propext, Classical.choice, Quot.sound
Pyblp.C81_groups_alone: propext, Classical.choice, Quot.sound
Pyblp.C81_groups_refuted: propext, Classical.choice, Quot.sound
Pyblp.C81_nested_refuted: propext, Classical.choice, Quot.sound
Pyblp.C81_dataset: propext, Classical.choice, Quot.sound
Pyblp.C81_cells: propext, Classical.choice, Quot.sound
Pyblp.C82_cells: propext, Classical.choice, Quot.sound
Pyblp.C82_weights_partial: propext, Classical.choice, Quot.sound
Pyblp.C82_denominator_partial: propext, Classical.choice, Quot.sound
Pyblp.C82_groups_refuted: propext, Classical.choice, Quot.sound
Pyblp.C83_probabilities: propext, Classical.choice, Quot.sound
Pyblp.C83_conditionals: propext, Classical.choice, Quot.sound
Pyblp.C83_shares: propext, Classical.choice, Quot.sound
Pyblp.C84_nonsingular: propext, Classical.choice, Quot.sound
Pyblp.C84_exists: propext, Classical.choice, Quot.sound
Pyblp.C84_xi_by_theta: propext, Classical.choice, Quot.sound
Pyblp.C84_total_probabilities_options: propext, Classical.choice, Quot.sound
Pyblp.C84_total_probabilities: propext, Classical.choice, Quot.sound
Pyblp.C84_total_conditionals: propext, Classical.choice, Quot.sound
Pyblp.C84_total_shares: propext, Classical.choice, Quot.sound
Pyblp.C84_xi_by_parameter: propext, Classical.choice, Quot.sound
Pyblp.C85_markups: propext, Classical.choice, Quot.sound
Pyblp.C85_omega_by_theta: propext, Classical.choice, Quot.sound
Pyblp.C85_clipped_partial: propext, Classical.choice, Quot.sound
Pyblp.C85_clipped_refuted: propext, Classical.choice, Quot.sound
Pyblp.C86_weights: propext, Classical.choice, Quot.sound
Pyblp.C86_simple: propext, Classical.choice, Quot.sound
Pyblp.C86_squarem: propext, Classical.choice, Quot.sound
Pyblp.C86_no_demand: propext, Classical.choice, Quot.sound
Pyblp.C87_chunks_numerator: propext, Classical.choice, Quot.sound
Pyblp.C87_chunks_denominator: propext, Classical.choice, Quot.sound
Pyblp.C87_computed_partial: propext, Classical.choice, Quot.sound
Pyblp.C87_scores_partial: propext, Classical.choice, Quot.sound
Pyblp.C87_markets_refuted: propext, Classical.choice, Quot.sound
Pyblp.C88_agents_refuted: propext
Pyblp.C88_integration: propext, Classical.choice, Quot.sound
Pyblp.C88_integration_valid: propext, Classical.choice, Quot.sound
Pyblp.C88_order: propext, Classical.choice, Quot.sound
Pyblp.C88_choices_partial: propext, Classical.choice, Quot.sound
Pyblp.C88_negative_refuted: propext, Classical.choice, Quot.sound
Pyblp.C88_rejected: propext, Classical.choice, Quot.sound
Pyblp.C88_agents: propext, Classical.choice, Quot.sound
Pyblp.C89_succeeds: propext, Classical.choice, Quot.sound
Pyblp.C89_support: propext, Classical.choice, Quot.sound
Pyblp.C89_probability: propext, Classical.choice, Quot.sound
Pyblp.C89_selected: propext, Classical.choice, Quot.sound
Pyblp.C89_weights_partial: propext, Classical.choice, Quot.sound
Pyblp.C89_seed_refuted: propext, Classical.choice, Quot.sound
Pyblp.C90_demand: propext, Classical.choice, Quot.sound
Pyblp.C90_xi_recovered: propext, Classical.choice, Quot.sound
Pyblp.C90_costs: propext, Classical.choice, Quot.sound
Pyblp.C90_costs_recovered_partial: propext, Classical.choice, Quot.sound
Pyblp.C90_omega_recovered_partial: propext, Classical.choice, Quot.sound
Pyblp.C90_constant_refuted: propext, Classical.choice, Quot.sound
Pyblp.C91_delta_method: propext, Classical.choice, Quot.sound
Pyblp.C91_scalar: propext, Classical.choice, Quot.sound
Pyblp.C92_absorbed: propext, Classical.choice, Quot.sound
Pyblp.C92_unadjusted: propext, Classical.choice, Quot.sound
Pyblp.C92_demeaned: propext, Classical.choice, Quot.sound
Pyblp.C93_jacobian_partial: propext, Classical.choice, Quot.sound
Pyblp.C93_total: propext, Classical.choice, Quot.sound
Pyblp.C93_covariances: propext, Classical.choice, Quot.sound
Pyblp.C93_theta: propext, Classical.choice, Quot.sound
Pyblp.C93_refuted: propext, Classical.choice, Quot.sound
Pyblp.C94_objective: propext, Classical.choice, Quot.sound
Pyblp.C94_gradient_partial: propext, Classical.choice, Quot.sound
Pyblp.C94_covariance_moments: propext, Classical.choice, Quot.sound
Pyblp.C94_finite_differences: propext, Classical.choice, Quot.sound
Pyblp.C94_phi_ignored: propext, Classical.choice, Quot.sound
Pyblp.C94_refuted: propext, Classical.choice, Quot.sound
Pyblp.C95_steps: propext, Classical.choice, Quot.sound
Pyblp.C95_default: propext, Classical.choice, Quot.sound
Pyblp.C95_results: propext, Classical.choice, Quot.sound
Pyblp.C96_differences_partial: propext, Classical.choice, Quot.sound
Pyblp.C96_limit_partial: propext, Classical.choice, Quot.sound
Pyblp.C96_refuted: propext, Classical.choice, Quot.sound
Pyblp.C97_covariances: propext, Classical.choice, Quot.sound
Pyblp.C97_default: propext, Classical.choice, Quot.sound
Pyblp.C97_update: propext, Classical.choice, Quot.sound
Pyblp.C97_objective: propext, Classical.choice, Quot.sound
Pyblp.C97_linear_parameters: propext, Classical.choice, Quot.sound
Pyblp.C97_optimization: propext, Classical.choice, Quot.sound
Pyblp.C97_reported: propext, Classical.choice, Quot.sound
Pyblp.C97_standard_errors_partial: propext, Classical.choice, Quot.sound
Pyblp.C98_sensitivity_partial: propext, Classical.choice, Quot.sound
Pyblp.C98_first_step: propext, Classical.choice, Quot.sound
Pyblp.C98_refuted: propext, Classical.choice, Quot.sound
Pyblp.C99_efficiency: propext, Classical.choice, Quot.sound
Pyblp.C99_standard_errors_partial: propext, Classical.choice, Quot.sound
Pyblp.C99_first_step: propext, Classical.choice, Quot.sound
Pyblp.C99_refuted: propext, Classical.choice, Quot.sound
Pyblp.Formula.C100_matrix: propext, Classical.choice, Quot.sound
Pyblp.Formula.C100_override_partial: propext, Classical.choice, Quot.sound
Pyblp.Formula.C100_evaluate_partial: propext, Classical.choice, Quot.sound
Pyblp.Formula.C100_derivative_partial: propext, Classical.choice, Quot.sound
Pyblp.Formula.C100_delta_partial: propext, Classical.choice, Quot.sound
Pyblp.Formula.C100_cache: propext, Quot.sound
Pyblp.Formula.C100_exactly: propext, Classical.choice, Quot.sound
Pyblp.Formula.C100_nested: propext, Classical.choice, Quot.sound
Pyblp.Formula.C100_refuted: propext, Classical.choice, Quot.sound
Pyblp.Formula.C100_refuted_twice: propext, Classical.choice, Quot.sound
Pyblp.C101_lags_partial: propext, Classical.choice, Quot.sound
Pyblp.C101_refuted_lags: propext, Classical.choice, Quot.sound
Pyblp.C101_products_partial: propext, Classical.choice, Quot.sound
Pyblp.C101_demographics_partial: propext, Classical.choice, Quot.sound
Pyblp.C101_demographics_accepted: propext, Classical.choice, Quot.sound
Pyblp.C101_refuted_demographics: propext, Classical.choice, Quot.sound
Pyblp.Formula.C102_problem: propext, Classical.choice, Quot.sound
Pyblp.Formula.C102_problem_exogenous: propext, Classical.choice, Quot.sound
Pyblp.Formula.C102_updated_demand: propext, Classical.choice, Quot.sound
Pyblp.Formula.C102_updated_supply_partial: propext, Classical.choice, Quot.sound
Pyblp.Formula.C102_updated: propext, Classical.choice, Quot.sound
Pyblp.Formula.C102_order: propext, Classical.choice, Quot.sound
Pyblp.Formula.C102_refuted: propext, Classical.choice, Quot.sound
Pyblp.C103_order: propext, Classical.choice, Quot.sound
Pyblp.C103_products: propext, Classical.choice, Quot.sound
Pyblp.C103_agents_partial: propext, Classical.choice, Quot.sound
Pyblp.C103_integration_partial: propext, Classical.choice, Quot.sound
Pyblp.C103_refuted_agents: propext, Classical.choice, Quot.sound
Pyblp.C103_refuted_rows: propext, Classical.choice, Quot.sound
Pyblp.C104_rho: propext, Classical.choice, Quot.sound
Pyblp.C104_beta: propext, Classical.choice, Quot.sound
Pyblp.C104_gamma_partial: propext, Classical.choice, Quot.sound
Pyblp.C104_phi: propext, Classical.choice, Quot.sound
Pyblp.C104_nonlinear: propext, Classical.choice, Quot.sound
Pyblp.C104_theta_labels_partial: propext, Classical.choice, Quot.sound
Pyblp.C104_refuted_gamma: propext, Classical.choice, Quot.sound
Pyblp.C104_refuted_rho: propext, Classical.choice, Quot.sound
Pyblp.C104_lines: propext, Classical.choice, Quot.sound
Pyblp.C105_collinear: propext, Classical.choice, Quot.sound
Pyblp.C105_dependent: propext, Classical.choice, Quot.sound
Pyblp.C105_warnings: propext, Classical.choice, Quot.sound
Pyblp.C105_refuted_tolerances: propext, Classical.choice, Quot.sound
Pyblp.C105_labels: propext, Classical.choice, Quot.sound
Pyblp.C105_psd: propext, Classical.choice, Quot.sound
Pyblp.C105_disabled: propext, Classical.choice, Quot.sound
Pyblp.C105_stable_partial: propext, Classical.choice, Quot.sound
Pyblp.C105_refuted_unit_root: propext, Classical.choice, Quot.sound
Pyblp.C105_refuted_stable: propext, Classical.choice, Quot.sound
Pyblp.C106_demand: propext, Classical.choice, Quot.sound
Pyblp.C106_prices: propext, Classical.choice, Quot.sound
Pyblp.C106_estimates: propext, Classical.choice, Quot.sound
Pyblp.C106_supply: propext, Classical.choice, Quot.sound
Pyblp.C106_results: propext, Classical.choice, Quot.sound
Pyblp.C106_costs_partial: propext, Classical.choice, Quot.sound
Pyblp.C106_observed_partial: propext, Classical.choice, Quot.sound
Pyblp.C107_select: propext, Classical.choice, Quot.sound
Pyblp.C107_shapes_all: propext, Classical.choice, Quot.sound
Pyblp.C107_shapes_one: propext, Classical.choice, Quot.sound
Pyblp.C107_arguments: propext, Classical.choice, Quot.sound
Pyblp.C107_argument_one: propext, Quot.sound
Pyblp.C107_one_market_partial: propext, Classical.choice, Quot.sound
Pyblp.C107_one_market_row: propext, Classical.choice, Quot.sound
Pyblp.C107_draws: propext, Classical.choice, Quot.sound
Pyblp.C107_diagonals_partial: propext, Classical.choice, Quot.sound
Pyblp.C107_diagonal_means_partial: propext, Classical.choice, Quot.sound
Pyblp.C108_probabilities: propext, Classical.choice, Quot.sound
Pyblp.C108_nested_probabilities: propext, Classical.choice, Quot.sound
Pyblp.C108_given_delta: propext, Classical.choice, Quot.sound
Pyblp.C108_defaults: propext, Classical.choice, Quot.sound
Pyblp.C108_path: propext, Classical.choice, Quot.sound
Pyblp.C108_merger: propext, Classical.choice, Quot.sound
Pyblp.C108_no_merger: propext, Classical.choice, Quot.sound
Pyblp.C108_profits: propext, Classical.choice, Quot.sound
Pyblp.C108_unknown_firms: propext, Classical.choice, Quot.sound
Pyblp.C109_optimizer_counts: propext, Classical.choice, Quot.sound
Pyblp.C109_optimizer: propext, Classical.choice, Quot.sound
Pyblp.C109_knitro: propext, Classical.choice, Quot.sound
Pyblp.C109_root_counts: propext, Classical.choice, Quot.sound
Pyblp.C109_root: propext, Classical.choice, Quot.sound
Pyblp.C109_root_fixed_point: propext, Classical.choice, Quot.sound
Pyblp.C110_iteration: propext, Classical.choice, Quot.sound
Pyblp.C110_iteration_defaults: propext, Classical.choice, Quot.sound
Pyblp.C110_nan_refuted: propext, Classical.choice, Quot.sound
Pyblp.C110_optimization: propext, Classical.choice, Quot.sound
Pyblp.C110_integration: propext, Classical.choice, Quot.sound
Pyblp.C110_types: propext, Classical.choice, Quot.sound
Pyblp.C110_scale: propext, Classical.choice, Quot.sound
Pyblp.C110_fp_type: propext, Classical.choice, Quot.sound
Pyblp.Formula.C111_accepted: propext, Classical.choice, Quot.sound
Pyblp.Formula.C111_absorbable: propext, Classical.choice, Quot.sound
Pyblp.Formula.C111_ids: propext, Classical.choice, Quot.sound
Pyblp.Formula.C111_demeaned: propext, Classical.choice, Quot.sound
Pyblp.C112_nodes: propext, Classical.choice, Quot.sound
Pyblp.C112_mu: propext, Classical.choice, Quot.sound
Pyblp.C112_single: propext, Classical.choice, Quot.sound
Pyblp.C112_rho: propext, Classical.choice, Quot.sound
Pyblp.C112_micro_partial: propext, Classical.choice, Quot.sound
Pyblp.C112_first_partial: propext, Classical.choice, Quot.sound
Pyblp.C112_first_refuted: propext, Classical.choice, Quot.sound
Pyblp.C112_micro_refuted: propext, Classical.choice, Quot.sound
Pyblp.C113_sampled: propext, Classical.choice, Quot.sound
Pyblp.C113_total: propext, Classical.choice, Quot.sound
Pyblp.C113_diagnostics: propext, Classical.choice, Quot.sound
Pyblp.C113_accepts: propext, Classical.choice, Quot.sound
Pyblp.C113_weights: propext, Classical.choice, Quot.sound
Pyblp.C113_problem: propext, Classical.choice, Quot.sound
Pyblp.C114_rows: propext, Classical.choice, Quot.sound
Pyblp.C114_probabilities: propext, Classical.choice, Quot.sound
Pyblp.C114_delta: propext, Classical.choice, Quot.sound
Pyblp.C114_costs: propext, Classical.choice, Quot.sound
Pyblp.C114_prices: propext, Classical.choice, Quot.sound
Pyblp.C114_moments: propext, Classical.choice, Quot.sound
Pyblp.C115_demand: propext, Classical.choice, Quot.sound
Pyblp.C115_supply: propext, Classical.choice, Quot.sound
Pyblp.C115_prices: propext, Classical.choice, Quot.sound
Pyblp.C116_steps: propext, Classical.choice, Quot.sound
Pyblp.C116_results: propext, Classical.choice, Quot.sound
Pyblp.C116_units: propext, Classical.choice, Quot.sound
Pyblp.C116_default: propext, Classical.choice, Quot.sound
Pyblp.C116_nonlinear: propext, Classical.choice, Quot.sound
Pyblp.C117_exists: propext, Classical.choice, Quot.sound
Pyblp.C117_converges: propext, Classical.choice, Quot.sound
Pyblp.C117_simple: propext, Classical.choice, Quot.sound
Pyblp.C117_distance: propext, Classical.choice, Quot.sound
Pyblp.C117_accuracy: propext, Classical.choice, Quot.sound
Pyblp.C117_reported: propext, Classical.choice, Quot.sound
Pyblp.C117_small_epsilon_cycles: propext, Classical.choice, Quot.sound
Pyblp.C118_xi_jacobian: propext, Classical.choice, Quot.sound
Pyblp.C118_omega_jacobian: propext, Classical.choice, Quot.sound
Pyblp.C118_defined: propext, Classical.choice, Quot.sound
Pyblp.C118_gradient: propext, Classical.choice, Quot.sound
Pyblp.C118_demand_gradient: propext, Classical.choice, Quot.sound
Pyblp.C118_invertible: propext, Classical.choice, Quot.sound
Pyblp.C118_minimum: propext, Classical.choice, Quot.sound
Pyblp.C118_micro_jacobian: propext, Classical.choice, Quot.sound
Pyblp.C118_micro_gradient: propext, Classical.choice, Quot.sound
Pyblp.C118_micro_demand_gradient: propext, Classical.choice, Quot.sound
Pyblp.C119_types: propext, Classical.choice, Quot.sound
Pyblp.C119_sides: propext, Classical.choice, Quot.sound
Pyblp.C119_absorbed: propext, Classical.choice, Quot.sound
Pyblp.C119_gradient_partial: propext, Classical.choice, Quot.sound
Pyblp.C119_covariance_moments: propext, Classical.choice, Quot.sound
Pyblp.C119_moments_jacobian_partial: propext, Classical.choice, Quot.sound
Pyblp.C119_total: propext, Classical.choice, Quot.sound
Pyblp.C119_whole_gradient_partial: propext, Classical.choice, Quot.sound
Pyblp.C119_refuted: propext, Classical.choice, Quot.sound
Pyblp.C120_given: propext, Classical.choice, Quot.sound
Pyblp.C120_covariances: propext, Classical.choice, Quot.sound
Pyblp.C120_drawn: propext, Classical.choice, Quot.sound
Pyblp.C120_succeeds: propext, Classical.choice, Quot.sound
Pyblp.C120_stationary: propext, Classical.choice, Quot.sound
Pyblp.C120_innovations: propext, Classical.choice, Quot.sound
Pyblp.C121_mean_utilities: propext, Classical.choice, Quot.sound
Pyblp.C121_attained: propext, Classical.choice, Quot.sound
Pyblp.C121_demand_objective: propext, Classical.choice, Quot.sound
Pyblp.C121_objective: propext, Classical.choice, Quot.sound
Pyblp.C121_demand_gradient: propext, Classical.choice, Quot.sound
Pyblp.C121_gradient: propext, Classical.choice, Quot.sound
Pyblp.C121_minimum: propext, Classical.choice, Quot.sound
Pyblp.C122_exact: propext, Classical.choice, Quot.sound
Pyblp.C122_noticed: propext, Classical.choice, Quot.sound
Pyblp.C122_bad_plain: propext, Classical.choice, Quot.sound
Pyblp.C122_bad_nested_safe: propext, Classical.choice, Quot.sound
Pyblp.C122_bad_nested_unsafe: propext, Classical.choice, Quot.sound
Pyblp.C122_unsafe_nested_refuted: propext, Classical.choice, Quot.sound
Pyblp.C122_safe_plain: propext, Classical.choice, Quot.sound
Pyblp.C122_safe_nested: propext, Classical.choice, Quot.sound
Pyblp.C122_availability_refuted: propext, Classical.choice, Quot.sound
Pyblp.C122_group_rho_refuted: propext, Classical.choice, Quot.sound
Pyblp.C123_accepts: propext, Classical.choice, Quot.sound
Pyblp.C123_micro_weights: propext, Classical.choice, Quot.sound
Pyblp.C123_first_evaluation: propext, Classical.choice, Quot.sound
Pyblp.C123_first_failure: propext, Classical.choice, Quot.sound
Pyblp.C123_nonpositive_price_refuted: propext, Classical.choice, Quot.sound
Pyblp.C124_delta: propext, Classical.choice, Quot.sound
Pyblp.C124_finite: propext, Classical.choice, Quot.sound
Pyblp.C124_no_jacobians: propext, Classical.choice, Quot.sound
Pyblp.C124_only_delta: propext, Classical.choice, Quot.sound
Pyblp.C124_costs: propext, Classical.choice, Quot.sound
Pyblp.C124_problem_costs: propext, Classical.choice, Quot.sound
Pyblp.C124_errors: propext, Classical.choice, Quot.sound
Pyblp.C124_omega_error: propext, Classical.choice, Quot.sound
Pyblp.C124_old_numpy_refuted: propext, Classical.choice, Quot.sound
Pyblp.C125_markups: propext, Classical.choice, Quot.sound
Pyblp.C125_nash: propext, Classical.choice, Quot.sound
Pyblp.C125_exists_unique: propext, Classical.choice, Quot.sound
Pyblp.C125_converges: propext, Classical.choice, Quot.sound
Pyblp.C125_simple: propext, Classical.choice, Quot.sound
Pyblp.C125_merger_prices: propext, Classical.choice, Quot.sound
Pyblp.C125_merger_iterates: propext, Classical.choice, Quot.sound
Pyblp.C125_merger_profits: propext, Classical.choice, Quot.sound
Pyblp.C125_merger_shares: propext, Classical.choice, Quot.sound
Pyblp.C125_merger_surplus: propext, Classical.choice, Quot.sound
Pyblp.C125_costs: propext, Classical.choice, Quot.sound
Pyblp.C125_approximate: propext, Classical.choice, Quot.sound
Pyblp.C126_jacobian: propext, Classical.choice, Quot.sound
Pyblp.C126_elasticities: propext, Classical.choice, Quot.sound
Pyblp.C126_diversion: propext, Classical.choice, Quot.sound
Pyblp.C126_long_run: propext, Classical.choice, Quot.sound
Pyblp.C126_surplus: propext, Classical.choice, Quot.sound
Pyblp.C126_passthrough: propext, Classical.choice, Quot.sound
Pyblp.C126_nested_jacobian: propext, Classical.choice, Quot.sound
Pyblp.C126_nested_surplus: propext, Classical.choice, Quot.sound
Pyblp.C126_singleton_nests: propext, Classical.choice, Quot.sound
Pyblp.C126_no_random_coefficients: propext, Classical.choice, Quot.sound
Pyblp.C127_unbiased: propext, Classical.choice, Quot.sound
Pyblp.C127_accuracy: propext, Classical.choice, Quot.sound
Pyblp.C127_consistent: propext, Classical.choice, Quot.sound
Pyblp.C127_mean_utilities: propext, Classical.choice, Quot.sound
Pyblp.C127_inversion: propext, Classical.choice, Quot.sound
Pyblp.C127_counterfactual: propext, Classical.choice, Quot.sound
Pyblp.C127_independent: propext, Classical.choice, Quot.sound
Pyblp.C128_demand: propext, Classical.choice, Quot.sound
Pyblp.C128_jacobian: propext, Classical.choice, Quot.sound
Pyblp.C128_elasticities: propext, Classical.choice, Quot.sound
Pyblp.C128_costs: propext, Classical.choice, Quot.sound
Pyblp.C129_consistent: propext, Classical.choice, Quot.sound
Pyblp.C129_standard_errors: propext, Classical.choice, Quot.sound
Pyblp.C129_normal: propext, Classical.choice, Quot.sound
Pyblp.C129_coverage: propext, Classical.choice, Quot.sound
Pyblp.C130_hansen: propext, Classical.choice, Quot.sound
Pyblp.C130_wald: propext, Classical.choice, Quot.sound
Pyblp.C130_distance: propext, Classical.choice, Quot.sound
Pyblp.C131_zero: propext, Classical.choice, Quot.sound
Pyblp.C131_vanishes: propext, Classical.choice, Quot.sound
Pyblp.C131_chiSquared_refuted: propext, Classical.choice, Quot.sound
Pyblp.Formula.C132_accepted: propext, Classical.choice, Quot.sound
Pyblp.Formula.C132_variables: propext, Classical.choice, Quot.sound
Pyblp.Formula.C132_type_error: propext, Classical.choice, Quot.sound
Pyblp.Formula.C132_simulation: propext, Classical.choice, Quot.sound
Pyblp.Formula.C132_simulation_type_refuted: propext, Classical.choice, Quot.sound
Pyblp.Formula.C132_simulation_type: propext, Classical.choice, Quot.sound
Pyblp.C133_nonlinear: propext, Classical.choice, Quot.sound
Pyblp.C133_linear: propext, Classical.choice, Quot.sound
Pyblp.C134_standard_errors: propext, Classical.choice, Quot.sound
Pyblp.C134_normal: propext, Classical.choice, Quot.sound
Pyblp.C134_coverage: propext, Classical.choice, Quot.sound
Pyblp.C135_hansen: propext, Classical.choice, Quot.sound
Pyblp.C135_wald: propext, Classical.choice, Quot.sound
Pyblp.C135_distance: propext, Classical.choice, Quot.sound
Pyblp.C136_mean_utilities: propext, Classical.choice, Quot.sound
Pyblp.C136_minimum: propext, Classical.choice, Quot.sound
Pyblp.C136_nonlinear: propext, Classical.choice, Quot.sound
Pyblp.C136_linear: propext, Classical.choice, Quot.sound
Pyblp.C136_standard_errors: propext, Classical.choice, Quot.sound
Pyblp.C136_normal: propext, Classical.choice, Quot.sound
Pyblp.C136_coverage: propext, Classical.choice, Quot.sound
Pyblp.C136_hansen: propext, Classical.choice, Quot.sound
Pyblp.C136_wald: propext, Classical.choice, Quot.sound
Pyblp.C137_draws: propext, Classical.choice, Quot.sound
Pyblp.C137_distribution: propext, Classical.choice, Quot.sound
Pyblp.C137_estimates: propext, Classical.choice, Quot.sound
Pyblp.C137_intervals: propext, Classical.choice, Quot.sound
Pyblp.C138_coverage_partial: propext, Classical.choice, Quot.sound
Pyblp.C138_intervals_partial: propext, Classical.choice, Quot.sound
Pyblp.C138_elasticities_refuted: propext, Classical.choice, Quot.sound
Pyblp.C139_boxes: propext, Classical.choice, Quot.sound
Pyblp.C139_integrals: propext, Classical.choice, Quot.sound
Pyblp.C140_nodes: propext, Classical.choice, Quot.sound
Pyblp.C140_unbiased: propext, Classical.choice, Quot.sound
Pyblp.C140_variance: propext, Classical.choice, Quot.sound
Pyblp.C141_joint: propext, Classical.choice, Quot.sound
Pyblp.C141_demand: propext, Classical.choice, Quot.sound
Pyblp.C142_mean: propext, Classical.choice, Quot.sound
Pyblp.C142_unbiased: propext, Classical.choice, Quot.sound
Pyblp.C142_variance: propext, Classical.choice, Quot.sound
Pyblp.C142_shares: propext, Classical.choice, Quot.sound
Pyblp.C142_accuracy: propext, Classical.choice, Quot.sound
Pyblp.C142_enough: propext, Classical.choice, Quot.sound
Pyblp.C143_unbiased: propext, Classical.choice, Quot.sound
Pyblp.C143_covariance: propext, Classical.choice, Quot.sound
Pyblp.C143_consistent: propext, Classical.choice, Quot.sound
Pyblp.C143_normal: propext, Classical.choice, Quot.sound
Pyblp.C143_parts: propext, Classical.choice, Quot.sound
Pyblp.C143_moments: propext, Classical.choice, Quot.sound
Pyblp.C144_zero: propext, Classical.choice, Quot.sound
Pyblp.C144_derivative: propext, Classical.choice, Quot.sound
Pyblp.C144_optimal: propext, Classical.choice, Quot.sound
Pyblp.C144_attained: propext, Classical.choice, Quot.sound
Pyblp.C144_succeeds: propext, Classical.choice, Quot.sound
Pyblp.C144_simulated: propext, Classical.choice, Quot.sound
Pyblp.C145_marginal: propext, Classical.choice, Quot.sound
Pyblp.C145_area: propext, Classical.choice, Quot.sound
Pyblp.C145_elimination: propext, Classical.choice, Quot.sound
Pyblp.C145_demand: propext, Classical.choice, Quot.sound
Pyblp.C145_lost: propext, Classical.choice, Quot.sound
Pyblp.C145_bounds: propext, Classical.choice, Quot.sound
Pyblp.C145_law_of_demand: propext, Classical.choice, Quot.sound
Pyblp.C146_substitutes: propext, Classical.choice, Quot.sound
Pyblp.C146_strict: propext, Classical.choice, Quot.sound
Pyblp.C146_total: propext, Classical.choice, Quot.sound
Pyblp.C146_own: propext, Classical.choice, Quot.sound
Pyblp.C146_elasticities: propext, Classical.choice, Quot.sound
Pyblp.C146_diversion: propext, Classical.choice, Quot.sound
Pyblp.C146_markups: propext, Classical.choice, Quot.sound
Pyblp.C146_costs: propext, Classical.choice, Quot.sound
Pyblp.C146_equilibrium: propext, Classical.choice, Quot.sound
Pyblp.C146_fixed_point: propext, Classical.choice, Quot.sound
Pyblp.C146_ownership: propext, Classical.choice, Quot.sound
Pyblp.C146_merger: propext, Classical.choice, Quot.sound
Pyblp.C147_implied_costs: propext, Classical.choice, Quot.sound
Pyblp.C147_supply_jacobian: propext, Classical.choice, Quot.sound
Pyblp.C147_equilibrium_costs: propext, Classical.choice, Quot.sound
Pyblp.C147_given_prices_refuted: propext, Classical.choice, Quot.sound
Pyblp.C147_demand: propext, Classical.choice, Quot.sound
Pyblp.C147_prices: propext, Classical.choice, Quot.sound
Pyblp.C147_plan: propext, Classical.choice, Quot.sound
Pyblp.C147_supply: propext, Classical.choice, Quot.sound
Pyblp.C147_schedules: propext, Classical.choice, Quot.sound
Pyblp.C147_jacobian: propext, Classical.choice, Quot.sound
Pyblp.C147_reversion: propext, Classical.choice, Quot.sound
Pyblp.C147_unbiased: propext, Classical.choice, Quot.sound
Pyblp.C147_variance: propext, Classical.choice, Quot.sound
Pyblp.C147_instruments: propext, Classical.choice, Quot.sound
Pyblp.C147_joint: propext, Classical.choice, Quot.sound
Pyblp.C147_empirical: propext, Classical.choice, Quot.sound
Pyblp.C147_approximate: propext, Classical.choice, Quot.sound
Pyblp.C147_draws: propext, Quot.sound
Pyblp.C148_gumbel: propext, Classical.choice, Quot.sound
Pyblp.C148_choice: propext, Classical.choice, Quot.sound
Pyblp.C148_shares: propext, Classical.choice, Quot.sound
Pyblp.C148_unique: propext, Classical.choice, Quot.sound
Pyblp.C148_second_choice: propext, Classical.choice, Quot.sound
Pyblp.C148_surplus: propext, Classical.choice, Quot.sound
Pyblp.C148_group_choice: propext, Classical.choice, Quot.sound
Pyblp.C148_pure_characteristics: propext, Classical.choice, Quot.sound
Pyblp.C148_large_scale: propext, Classical.choice, Quot.sound
Pyblp.C148_nested_choice: propext, Classical.choice, Quot.sound
Pyblp.C148_nested_unique: propext, Classical.choice, Quot.sound
Pyblp.C148_nested_second_choice: propext, Classical.choice, Quot.sound
Pyblp.C148_nested_surplus: propext, Classical.choice, Quot.sound
Pyblp.C148_nested_zero: propext, Classical.choice, Quot.sound
Pyblp.C148_nested_half: propext, Classical.choice, Quot.sound
Pyblp.C149_gradients: propext, Classical.choice, Quot.sound
Pyblp.C149_necessary: propext, Classical.choice, Quot.sound
Pyblp.C149_nested_partial: propext, Classical.choice, Quot.sound
Pyblp.C149_plain_partial: propext, Classical.choice, Quot.sound
Pyblp.C149_random_coefficients_refuted: propext, Classical.choice, Quot.sound
Pyblp.C149_eigenvalues: propext, Classical.choice, Quot.sound
Pyblp.C149_hessian_symmetric: propext, Classical.choice, Quot.sound
Pyblp.C149_second_order: propext, Classical.choice, Quot.sound
Pyblp.C149_second_order_necessary: propext, Classical.choice, Quot.sound
Pyblp.C150_merger_outsiders: propext, Classical.choice, Quot.sound
Pyblp.C150_merger_all_prices: propext, Classical.choice, Quot.sound
Pyblp.C150_merger_gain: propext, Classical.choice, Quot.sound
Pyblp.C150_unique: propext, Classical.choice, Quot.sound
Pyblp.C150_unique_nash: propext, Classical.choice, Quot.sound
Pyblp.C150_exists_unique: propext, Classical.choice, Quot.sound
Pyblp.C150_exists_unique_nash: propext, Classical.choice, Quot.sound
Pyblp.C150_markups: propext, Classical.choice, Quot.sound
Pyblp.C150_merger_prices: propext, Classical.choice, Quot.sound
Pyblp.C150_merger_profits: propext, Classical.choice, Quot.sound
Pyblp.C150_merger_outside: propext, Classical.choice, Quot.sound
Pyblp.C150_merger_surplus: propext, Classical.choice, Quot.sound
Pyblp.C150_rises_from: propext, Classical.choice, Quot.sound
Pyblp.C150_rises: propext, Classical.choice, Quot.sound
Pyblp.C150_simple_from: propext, Classical.choice, Quot.sound
Pyblp.C150_simple: propext, Classical.choice, Quot.sound
Pyblp.C150_merger_rises: propext, Classical.choice, Quot.sound
Pyblp.C150_merger_simple: propext, Classical.choice, Quot.sound
Pyblp.C151_prices: propext, Classical.choice, Quot.sound
Pyblp.C151_surplus: propext, Classical.choice, Quot.sound
Pyblp.C151_rivals: propext, Classical.choice, Quot.sound
Pyblp.C151_rivals_gain: propext, Classical.choice, Quot.sound
Pyblp.C151_rises: propext, Classical.choice, Quot.sound
Pyblp.C151_pass_through: propext, Classical.choice, Quot.sound
Pyblp.C151_all_prices: propext, Classical.choice, Quot.sound
Pyblp.C151_within_firm: propext, Classical.choice, Quot.sound
Pyblp.C151_plain_prices: propext, Classical.choice, Quot.sound
Pyblp.C151_plain_surplus: propext, Classical.choice, Quot.sound
Pyblp.C151_plain_pass_through: propext, Classical.choice, Quot.sound
Pyblp.C151_plain_all_prices: propext, Classical.choice, Quot.sound
Pyblp.C152_all_prices: propext, Classical.choice, Quot.sound
Pyblp.C152_invertible: propext, Classical.choice, Quot.sound
Pyblp.C152_costs: propext, Classical.choice, Quot.sound
Pyblp.C152_markups: propext, Classical.choice, Quot.sound
Pyblp.C152_unchanged: propext, Classical.choice, Quot.sound
Pyblp.C152_ownership: propext, Classical.choice, Quot.sound
Pyblp.C152_approximate: propext, Classical.choice, Quot.sound
Pyblp.C152_efficiencies: propext, Classical.choice, Quot.sound
Pyblp.C152_merger: propext, Classical.choice, Quot.sound
Pyblp.Formula.C153_shifters_partial: propext, Classical.choice, Quot.sound
Pyblp.Formula.C153_all: propext, Classical.choice, Quot.sound
Pyblp.Formula.C153_exogenous: propext, Classical.choice, Quot.sound
Pyblp.Formula.C153_distinct: propext, Quot.sound
Pyblp.Formula.C153_supply_partial: propext, Classical.choice, Quot.sound
Pyblp.Formula.C153_demand_partial: propext, Classical.choice, Quot.sound
Pyblp.Formula.C153_columns: propext, Classical.choice, Quot.sound
Pyblp.Formula.C153_refuted: propext, Classical.choice, Quot.sound
Pyblp.Formula.C153_argument: propext, Quot.sound
Pyblp.Formula.C153_default: propext, Quot.sound
Pyblp.C154_accepted: propext, Classical.choice, Quot.sound
Pyblp.C154_gradient_partial: propext, Classical.choice, Quot.sound
Pyblp.C154_single: propext, Classical.choice, Quot.sound
Pyblp.C154_refuted: propext, Classical.choice, Quot.sound
Pyblp.C155_prices: propext, Classical.choice, Quot.sound
Pyblp.C155_profits: propext, Classical.choice, Quot.sound
Pyblp.C155_shares: propext, Classical.choice, Quot.sound
Pyblp.C155_surplus: propext, Classical.choice, Quot.sound
Pyblp.C155_iterates: propext, Classical.choice, Quot.sound
Pyblp.C155_monopoly: propext, Classical.choice, Quot.sound
Pyblp.C155_nested_constant: propext, Classical.choice, Quot.sound
Pyblp.C155_nested_prices: propext, Classical.choice, Quot.sound
Pyblp.C155_nested_profits: propext, Classical.choice, Quot.sound
Pyblp.C155_nested_outside: propext, Classical.choice, Quot.sound
Pyblp.C155_nested_surplus: propext, Classical.choice, Quot.sound
Pyblp.C155_nested_iterates: propext, Classical.choice, Quot.sound
Pyblp.C155_nested_simple: propext, Classical.choice, Quot.sound
Pyblp.C156_shares: propext, Classical.choice, Quot.sound
Pyblp.C156_equilibria: propext, Classical.choice, Quot.sound
Pyblp.C156_prices: propext, Classical.choice, Quot.sound
Pyblp.C156_surplus: propext, Classical.choice, Quot.sound
Pyblp.C156_rivals: propext, Classical.choice, Quot.sound
Pyblp.C156_rivals_lose: propext, Classical.choice, Quot.sound
Pyblp.C156_plain_equilibria: propext, Classical.choice, Quot.sound
Pyblp.C156_plain_prices: propext, Classical.choice, Quot.sound
Pyblp.C156_plain_profits: propext, Classical.choice, Quot.sound
Pyblp.C156_plain_rivals_lose: propext, Classical.choice, Quot.sound
Pyblp.C156_plain_surplus: propext, Classical.choice, Quot.sound
Pyblp.C157_norms: propext, Classical.choice, Quot.sound
Pyblp.C157_first_order: propext, Classical.choice, Quot.sound
Pyblp.C157_max_eigenvalue: propext, Classical.choice, Quot.sound
Pyblp.C157_min_eigenvalue: propext, Classical.choice, Quot.sound
Pyblp.C157_second_order: propext, Classical.choice, Quot.sound
Pyblp.C157_failures: propext, Classical.choice, Quot.sound
Pyblp.C157_totals: propext
Pyblp.C157_hidden_refuted: propext, Classical.choice, Quot.sound
