# Axioms per theorem (output of `#print axioms`, written by tools/axioms.py)

| theorem | axioms |
|---|---|
| `Verif.Props.C01_ints` | propext, Classical.choice, Quot.sound |
| `Verif.Props.C01_floats` | propext, Classical.choice, Quot.sound |
| `Verif.Props.C01_rejects_with_ValueError` | propext, Classical.choice, Quot.sound |
| `Verif.Props.C01_non_integer_rejected` | propext, Classical.choice, Quot.sound |
| `Verif.Props.C02_check_domain_iff` | propext, Quot.sound |
| `Verif.Props.C02_check_domain_rejects` | propext, Quot.sound |
| `Verif.Props.C02_tau_poles` | propext, Classical.choice, Quot.sound |
| `Verif.Props.C02_kernel_domains` | propext, Quot.sound |
| `Verif.Props.C02_check_range_iff` | propext, Quot.sound |
| `Verif.Props.C02_check_range_rejects` | propext, Quot.sound |
| `Verif.Props.C02_nan_rejected` | propext, Quot.sound |
| `Verif.Props.C03_last_dim` | propext, Quot.sound |
| `Verif.Props.C03_first_dim` | propext, Quot.sound |
| `Verif.Props.C03_errors` | propext |
| `Verif.Props.C03_index_injective` | propext, Quot.sound |
| `Verif.Props.C04_negation` | propext, Classical.choice, Quot.sound |
| `Verif.Props.C04_last_access` | propext, Quot.sound |
| `Verif.Props.C04_immediate_partial` | propext, Classical.choice, Quot.sound |
| `Verif.Props.C04_single_object_partial` | propext, Classical.choice, Quot.sound |
| `Verif.Props.C05_find_all_discrete` | propext, Classical.choice, Quot.sound |
| `Verif.Props.C05_sign_product` | propext, Classical.choice, Quot.sound |
| `Verif.Props.C05_bisect` | propext, Classical.choice, Quot.sound |
| `Verif.Props.C05_invalid_type` | propext, Classical.choice, Quot.sound |
| `Verif.Props.C06_bisect_terminates` | propext, Classical.choice, Quot.sound |
| `Verif.Props.C06_find_all_cont` | propext, Classical.choice, Quot.sound |
| `Verif.Props.C06_true_root` | propext, Classical.choice, Quot.sound |
| `Verif.Props.C07_inside` | propext, Classical.choice, Quot.sound |
| `Verif.Props.C07_peak` | propext, Quot.sound |
| `Verif.Props.C07_peak_is_max` | propext, Quot.sound |
| `Verif.Props.C07_narrow` | propext, Quot.sound |
| `Verif.Props.C07_local` | propext, Classical.choice, Quot.sound |
| `Verif.Props.C08_crossing_value` | propext, Classical.choice, Quot.sound |
| `Verif.Props.C08_negation` | propext, Classical.choice, Quot.sound |
| `Verif.Props.C08_ascending_partial` | propext, Classical.choice, Quot.sound |
| `Verif.Props.C08_short_grid` | propext, Quot.sound |
| `Verif.Props.C08_unit_grid_ascending` | propext, Classical.choice, Quot.sound |
| `Verif.Props.C08_members` | propext, Classical.choice, Quot.sound |
| `Verif.Props.C08_unit_grid_exact` | propext, Classical.choice, Quot.sound |
| `Verif.Props.C09_eval` | propext, Classical.choice, Quot.sound |
| `Verif.Props.C09_ctor_rejects` | propext, Classical.choice, Quot.sound |
| `Verif.Props.C09_no_segments` | propext, Classical.choice, Quot.sound |
| `Verif.Props.C09_zero_width_nan` | propext, Classical.choice, Quot.sound |
| `Verif.Props.C10_poly_select` | propext, Classical.choice, Quot.sound |
| `Verif.Props.C10_poly_value` | propext, Classical.choice, Quot.sound |
| `Verif.Props.C10_select_select` | propext, Classical.choice, Quot.sound |
| `Verif.Props.C10_select_deriv` | propext, Classical.choice, Quot.sound |
| `Verif.Props.C10_ft_select` | propext, Classical.choice, Quot.sound |
| `Verif.Props.C10_ft_select_noasymp_partial` | propext, Classical.choice, Quot.sound |
| `Verif.Props.C10_any_select_raises` | propext, Classical.choice, Quot.sound |
| `Verif.Props.C11_deriv` | propext, Classical.choice, Quot.sound |
| `Verif.Props.C11_deriv_right` | propext, Classical.choice, Quot.sound |
| `Verif.Props.C11_parity` | propext, Classical.choice, Quot.sound |
| `Verif.Props.C11_knots` | propext, Classical.choice, Quot.sound |
| `Verif.Props.C11_parity_true` | propext, Classical.choice, Quot.sound |
| `Verif.Props.C12_plain` | propext, Classical.choice, Quot.sound |
| `Verif.Props.C12_even` | propext, Classical.choice, Quot.sound |
| `Verif.Props.C12_odd` | propext, Classical.choice, Quot.sound |
| `Verif.Props.C12_even_midpoint_twice` | propext, Classical.choice, Quot.sound |
| `Verif.Props.C13_refine` | propext, Classical.choice, Quot.sound |
| `Verif.Props.C13_count` | propext, Classical.choice, Quot.sound |
| `Verif.Props.C14_inner` | propext, Classical.choice, Quot.sound |
| `Verif.Props.C14_call` | propext, Classical.choice, Quot.sound |
| `Verif.Props.C14_tau` | propext, Classical.choice, Quot.sound |
| `Verif.Props.C15_shift` | propext, Classical.choice, Quot.sound |
| `Verif.Props.C15_phase` | propext, Classical.choice, Quot.sound |
| `Verif.Props.C15_float_branch` | propext, Classical.choice, Quot.sound |
| `Verif.Props.C16_series` | propext, Classical.choice, Quot.sound |
| `Verif.Props.C16_zero` | propext, Classical.choice, Quot.sound |
| `Verif.Props.C16_error` | propext, Classical.choice, Quot.sound |
| `Verif.Props.C16_exact` | propext, Classical.choice, Quot.sound |
| `Verif.Props.C16_exact_smooth` | propext, Classical.choice, Quot.sound |
| `Verif.Props.C17_even_or_below_partial` | propext, Classical.choice, Quot.sound |
| `Verif.Props.C17_negation` | propext, Classical.choice, Quot.sound |
| `Verif.Props.C18_conj` | propext, Classical.choice, Quot.sound |
| `Verif.Props.C18_reflect` | propext, Classical.choice, Quot.sound |
| `Verif.Props.C18_part` | propext, Classical.choice, Quot.sound |
| `Verif.Props.C19_symmetrize` | propext, Classical.choice, Quot.sound |
| `Verif.Props.C19_strict` | propext, Classical.choice, Quot.sound |
| `Verif.Props.C20_sign_changes` | propext, Classical.choice, Quot.sound |
| `Verif.Props.C20_bosonic_fallback` | propext, Classical.choice, Quot.sound |
| `Verif.Props.C20_fermionic_fallback_partial` | propext, Classical.choice, Quot.sound |
| `Verif.Props.C20_fallback_errors` | propext, Classical.choice, Quot.sound |
| `Verif.Props.C20_fenced` | propext, Classical.choice, Quot.sound |
| `Verif.Props.C20_fallback_repeats` | propext, Classical.choice, Quot.sound |
| `Verif.Props.C20_fallback_raises` | propext, Classical.choice, Quot.sound |
| `Verif.Props.C20_fallback_empty` | propext, Classical.choice, Quot.sound |
| `Verif.Props.C20_located` | propext, Classical.choice, Quot.sound |
| `Verif.Props.C21_fence` | propext, Classical.choice, Quot.sound |
| `Verif.Props.C21_symmetric_partial` | propext, Classical.choice, Quot.sound |
| `Verif.Props.C21_asymmetric` | propext, Classical.choice, Quot.sound |
| `Verif.Props.C21_negation` | propext, Classical.choice, Quot.sound |
| `Verif.Props.C22_regular` | propext, Classical.choice, Quot.sound |
| `Verif.Props.C22_fallback` | propext, Classical.choice, Quot.sound |
| `Verif.Props.C22_tau` | propext, Classical.choice, Quot.sound |
| `Verif.Props.C22_omega` | propext, Classical.choice, Quot.sound |
| `Verif.Props.C22_domain` | propext, Classical.choice, Quot.sound |
| `Verif.Props.C22_no_extrema` | propext, Classical.choice, Quot.sound |
| `Verif.Props.C22_edges` | propext, Classical.choice, Quot.sound |
| `Verif.Props.C23_reseat` | propext, Classical.choice, Quot.sound |
| `Verif.Props.C23_scale` | propext, Classical.choice, Quot.sound |
| `Verif.Props.C23_join` | propext, Classical.choice, Quot.sound |
| `Verif.Props.C23_piecewise` | propext, Classical.choice, Quot.sound |
| `Verif.Props.C23_single_edge` | propext, Classical.choice, Quot.sound |
| `Verif.Props.C24_join` | propext, Classical.choice, Quot.sound |
| `Verif.Props.C24_piecewise` | propext, Classical.choice, Quot.sound |
| `Verif.Props.C25_recurrence` | propext, Classical.choice, Quot.sound |
| `Verif.Props.C25_weights_sum` | propext, Classical.choice, Quot.sound |
| `Verif.Props.C25_legendre` | propext, Classical.choice, Quot.sound |
| `Verif.Props.C25_exists` | propext, Classical.choice, Quot.sound |
| `Verif.Props.C26_polyvalderiv` | propext, Classical.choice, Quot.sound |
| `Verif.Props.C26_empty` | propext, Classical.choice, Quot.sound |
| `Verif.Props.C26_legendre` | propext, Classical.choice, Quot.sound |
| `Verif.Props.C27_steps_partial` | propext, Classical.choice, Quot.sound |
| `Verif.Props.C27_nonconvergence_raises` | propext, Classical.choice, Quot.sound |
| `Verif.Props.C27_refused` | propext, Classical.choice, Quot.sound |
| `Verif.Props.C27_exact_raises` | propext, Classical.choice, Quot.sound |
| `Verif.Props.C27_legendre_one` | propext, Classical.choice, Quot.sound |
| `Verif.Props.C28_collocation` | propext, Classical.choice, Quot.sound |
| `Verif.Props.C28_polynomial` | propext, Classical.choice, Quot.sound |
| `Verif.Props.C28_zero` | propext, Classical.choice, Quot.sound |
| `Verif.Props.C28_gauss` | propext, Classical.choice, Quot.sound |
| `Verif.Props.C29_kronrod31` | propext, Classical.choice, Quot.sound |
| `Verif.Props.C29_gauss15` | propext, Classical.choice, Quot.sound |
| `Verif.Props.C29_vsel` | propext, Classical.choice, Quot.sound |
| `Verif.Props.C29_table` | propext, Classical.choice, Quot.sound |
| `Verif.Props.C29_reseat` | propext, Classical.choice, Quot.sound |
| `Verif.Props.C29_scale` | propext, Classical.choice, Quot.sound |
| `Verif.Props.C30_domain` | propext, Classical.choice, Quot.sound |
| `Verif.Props.C30_logistic` | propext, Classical.choice, Quot.sound |
| `Verif.Props.C30_properties` | propext, Classical.choice, Quot.sound |
| `Verif.Props.C30_no_overflow` | propext, Classical.choice, Quot.sound |
| `Verif.Props.C31_bose_partial` | propext, Classical.choice, Quot.sound |
| `Verif.Props.C31_scalar_raises` | propext, Classical.choice, Quot.sound |
| `Verif.Props.C31_properties` | propext, Classical.choice, Quot.sound |
| `Verif.Props.C31_docstring_sign` | propext, Classical.choice, Quot.sound |
| `Verif.Props.C31_no_overflow` | propext, Classical.choice, Quot.sound |
| `Verif.Props.C32_logistic_partial` | propext, Classical.choice, Quot.sound |
| `Verif.Props.C32_bose_partial` | propext, Classical.choice, Quot.sound |
| `Verif.Props.C32_needs_xplus` | propext, Classical.choice, Quot.sound |
| `Verif.Props.C32_needs_xplus_odd` | propext, Classical.choice, Quot.sound |
| `Verif.Props.C32_scalar_raises` | propext, Classical.choice, Quot.sound |
| `Verif.Props.C32_sign` | propext, Classical.choice, Quot.sound |
| `Verif.Props.C32_not_symmetric` | propext, Classical.choice, Quot.sound |
| `Verif.Props.C32_determines` | propext, Classical.choice, Quot.sound |
| `Verif.Props.C33_grids` | propext, Classical.choice, Quot.sound |
| `Verif.Props.C33_bad_lambda` | propext, Classical.choice, Quot.sound |
| `Verif.Props.C33_half` | propext, Classical.choice, Quot.sound |
| `Verif.Props.C33_half_grids` | propext, Classical.choice, Quot.sound |
| `Verif.Props.C33_asymmetric` | propext, Classical.choice, Quot.sound |
| `Verif.Props.C33_nsvals` | propext, Classical.choice, Quot.sound |
| `Verif.Props.C33_spacings` | propext, Classical.choice, Quot.sound |
| `Verif.Props.C33_nsvals_value` | propext, Classical.choice, Quot.sound |
| `Verif.Props.C34_truncate` | propext, Classical.choice, Quot.sound |
| `Verif.Props.C34_invalid` | propext, Classical.choice, Quot.sound |
| `Verif.Props.C34_float_limit` | propext, Classical.choice, Quot.sound |
| `Verif.Props.C35_part` | propext, Classical.choice, Quot.sound |
| `Verif.Props.C35_negative` | propext, Classical.choice, Quot.sound |
| `Verif.Props.C35_errors` | propext, Classical.choice, Quot.sound |
| `Verif.Props.C36_functions` | propext, Classical.choice, Quot.sound |
| `Verif.Props.C36_sampling` | propext, Classical.choice, Quot.sound |
| `Verif.Props.C36_goodRule` | propext, Classical.choice, Quot.sound |
| `Verif.Props.C37_extend` | propext, Classical.choice, Quot.sound |
| `Verif.Props.C37_recombine` | propext, Classical.choice, Quot.sound |
| `Verif.Props.C37_values` | propext, Classical.choice, Quot.sound |
| `Verif.Props.C37_grid` | propext, Classical.choice, Quot.sound |
| `Verif.Props.C37_shapes` | propext, Classical.choice, Quot.sound |
| `Verif.Props.C38_canonicalize` | propext, Classical.choice, Quot.sound |
| `Verif.Props.C38_vanishing` | propext, Classical.choice, Quot.sound |
| `Verif.Props.C39_logistic` | propext, Classical.choice, Quot.sound |
| `Verif.Props.C39_bose` | propext, Classical.choice, Quot.sound |
| `Verif.Props.C39_range` | propext, Classical.choice, Quot.sound |
| `Verif.Props.C39_orthonormal` | propext, Classical.choice, Quot.sound |
| `Verif.Props.C40_significance` | propext, Classical.choice, Quot.sound |
| `Verif.Props.C41_slice` | propext, Classical.choice, Quot.sound |
| `Verif.Props.C41_slice_partial` | propext, Classical.choice, Quot.sound |
| `Verif.Props.C41_refused` | propext, Classical.choice, Quot.sound |
| `Verif.Props.C41_empty` | propext, Classical.choice, Quot.sound |
| `Verif.Props.C41_negative` | propext, Classical.choice, Quot.sound |
| `Verif.Props.C41_negation` | propext, Classical.choice, Quot.sound |
| `Verif.Props.C42_rescale` | propext, Classical.choice, Quot.sound |
| `Verif.Props.C42_size_partial` | propext, Classical.choice, Quot.sound |
| `Verif.Props.C42_negation` | propext, Classical.choice, Quot.sound |
| `Verif.Props.C43_fit` | propext, Classical.choice, Quot.sound |
| `Verif.Props.C43_roundtrip` | propext, Classical.choice, Quot.sound |
| `Verif.Props.C44_fit` | propext, Classical.choice, Quot.sound |
| `Verif.Props.C44_roundtrip` | propext, Classical.choice, Quot.sound |
| `Verif.Props.C44_zero_row` | propext, Classical.choice, Quot.sound |
| `Verif.Props.C45_evaluate` | propext, Classical.choice, Quot.sound |
| `Verif.Props.C45_errors` | propext, Classical.choice, Quot.sound |
| `Verif.Props.C45_default_partial` | propext, Classical.choice, Quot.sound |
| `Verif.Props.C45_negation` | propext, Classical.choice, Quot.sound |
| `Verif.Props.C45_silent` | propext, Classical.choice, Quot.sound |
| `Verif.Props.C46_tau` | propext, Classical.choice, Quot.sound |
| `Verif.Props.C46_ndim` | propext, Classical.choice, Quot.sound |
| `Verif.Props.C46_matsubara` | propext, Classical.choice, Quot.sound |
| `Verif.Props.C46_matsubara_fit` | propext, Classical.choice, Quot.sound |
| `Verif.Props.C46_matsubara_partial` | propext, Classical.choice, Quot.sound |
| `Verif.Props.C46_swapped` | propext, Classical.choice, Quot.sound |
| `Verif.Props.C46_negation` | propext, Classical.choice, Quot.sound |
| `Verif.Props.C47_values` | propext, Classical.choice, Quot.sound |
| `Verif.Props.C47_succeeds` | propext, Quot.sound |
| `Verif.Props.C47_index_partial` | propext, Classical.choice, Quot.sound |
| `Verif.Props.C47_index_negative` | propext, Quot.sound |
| `Verif.Props.C47_negation` | propext, Quot.sound |
| `Verif.Props.C47_slice` | propext, Classical.choice, Quot.sound |
| `Verif.Props.C47_basis` | propext, Classical.choice, Quot.sound |
| `Verif.Props.C47_basis_slice` | propext, Classical.choice, Quot.sound |
| `Verif.Props.C47_basis_refused` | propext, Classical.choice, Quot.sound |
| `Verif.Props.C47_poly_item` | propext, Classical.choice, Quot.sound |
| `Verif.Props.C48_create` | propext, Classical.choice, Quot.sound |
| `Verif.Props.C48_const_call` | propext, Classical.choice, Quot.sound |
| `Verif.Props.C48_linear_call` | propext, Classical.choice, Quot.sound |
| `Verif.Props.C48_norm` | propext, Classical.choice, Quot.sound |
| `Verif.Props.C48_const_hat_partial` | propext, Classical.choice, Quot.sound |
| `Verif.Props.C48_const_hat_broken` | propext, Classical.choice, Quot.sound |
| `Verif.Props.C48_linear_hat_partial` | propext, Classical.choice, Quot.sound |
| `Verif.Props.C48_linear_hat_scalar` | propext, Classical.choice, Quot.sound |
| `Verif.Props.C48_hat_negation` | propext, Classical.choice, Quot.sound |
| `Verif.Props.C48_const_deriv` | propext, Classical.choice, Quot.sound |
| `Verif.Props.C48_linear_deriv_partial` | propext, Classical.choice, Quot.sound |
| `Verif.Props.C48_linear_deriv_negation` | propext, Classical.choice, Quot.sound |
| `Verif.Props.C48_bosonic_only` | propext, Classical.choice, Quot.sound |
| `Verif.Props.C48_matsubara` | propext, Classical.choice, Quot.sound |
| `Verif.Props.C48_beta_nan` | propext, Quot.sound |
| `Verif.Props.C48_fourier_pairs` | propext, Classical.choice, Quot.sound |
| `Verif.Props.C49_negation` | propext, Classical.choice, Quot.sound |
| `Verif.Props.C49_forwarded_partial` | propext, Classical.choice, Quot.sound |
| `Verif.Props.C49_sampling` | propext, Classical.choice, Quot.sound |
| `Verif.Props.C49_significance` | propext, Classical.choice, Quot.sound |
| `Verif.Props.C49_conditioned` | propext, Classical.choice, Quot.sound |
| `Verif.Props.C50_tau_partial` | propext, Classical.choice, Quot.sound |
| `Verif.Props.C50_tau_range` | propext, Classical.choice, Quot.sound |
| `Verif.Props.C50_tau_negation` | propext, Classical.choice, Quot.sound |
| `Verif.Props.C50_no_poles` | propext, Classical.choice, Quot.sound |
| `Verif.Props.C50_fermion` | propext, Classical.choice, Quot.sound |
| `Verif.Props.C50_boson_partial` | propext, Classical.choice, Quot.sound |
| `Verif.Props.C50_boson_negation` | propext, Classical.choice, Quot.sound |
| `Verif.Props.C51_to_IR` | propext, Classical.choice, Quot.sound |
| `Verif.Props.C51_from_IR` | propext, Classical.choice, Quot.sound |
| `Verif.Props.C51_kernel` | propext, Classical.choice, Quot.sound |
| `Verif.Props.C52_strategies` | propext, Classical.choice, Quot.sound |
| `Verif.Props.C52_status` | propext, Classical.choice, Quot.sound |
| `Verif.Props.C52_unknown_partial` | propext, Classical.choice, Quot.sound |
| `Verif.Props.C52_unknown_negation` | propext, Classical.choice, Quot.sound |
| `Verif.Props.C52_hint` | propext, Classical.choice, Quot.sound |
| `Verif.Props.C52_complex_default` | propext, Classical.choice, Quot.sound |
| `Verif.Props.C53_meets_request` | propext, Classical.choice, Quot.sound |
| `Verif.Props.C53_choices` | propext, Classical.choice, Quot.sound |
| `Verif.Props.C53_nan` | propext, Classical.choice, Quot.sound |
| `Verif.Props.C53_documented_negation` | propext, Classical.choice, Quot.sound |
| `Verif.Props.C53_documented_partial` | propext, Classical.choice, Quot.sound |
| `Verif.Props.C54_params` | propext, Quot.sound |
| `Verif.Props.C54_init_partial` | propext, Classical.choice, Quot.sound |
| `Verif.Props.C54_keyError` | propext, Classical.choice, Quot.sound |
| `Verif.Props.C54_no_lambda` | propext, Classical.choice, Quot.sound |
| `Verif.Props.C54_zero_cutoff` | propext, Classical.choice, Quot.sound |
| `Verif.Props.C54_negation` | propext, Classical.choice, Quot.sound |
| `Verif.Props.C54_weight_func` | propext, Classical.choice, Quot.sound |
| `Verif.Props.C55_pair` | propext, Classical.choice, Quot.sound |
| `Verif.Props.C55_exists` | propext, Classical.choice, Quot.sound |
| `Verif.Props.C56_accounts` | propext, Classical.choice, Quot.sound |
| `Verif.Props.C56_overlap` | propext, Classical.choice, Quot.sound |
| `Verif.Props.C56_too_many` | propext, Classical.choice, Quot.sound |
| `Verif.Props.C56_outside` | propext, Classical.choice, Quot.sound |
| `Verif.Props.C56_exact` | propext, Classical.choice, Quot.sound |
| `Verif.Props.C56_zero` | propext, Classical.choice, Quot.sound |
| `Verif.Props.C57_runs` | propext, Classical.choice, Quot.sound |
| `Verif.Props.C57_no_samples` | propext, Classical.choice, Quot.sound |
| `Verif.Props.C57_sign_partial` | propext, Classical.choice, Quot.sound |
| `Verif.Props.C57_sign_negation` | propext, Classical.choice, Quot.sound |
| `Verif.Props.C57_full` | propext, Classical.choice, Quot.sound |
| `Verif.Props.C57_full_empty` | propext |
| `Verif.Props.C57_sampling` | propext, Classical.choice, Quot.sound |
| `Verif.Props.C57_matsubara` | propext, Classical.choice, Quot.sound |
| `Verif.Props.C57_statistics` | propext, Classical.choice, Quot.sound |
| `Verif.Props.C57_whichl` | propext, Classical.choice, Quot.sound |
| `Verif.Props.C58_find_roots` | propext, Classical.choice, Quot.sound |
| `Verif.Props.C58_root` | propext, Classical.choice, Quot.sound |
| `Verif.Props.C58_grid` | propext, Classical.choice, Quot.sound |
| `Verif.Props.C58_complete` | propext, Classical.choice, Quot.sound |
| `Verif.Props.C58_missed` | propext, Classical.choice, Quot.sound |
| `Verif.Props.C58_x` | propext, Classical.choice, Quot.sound |
| `Verif.Props.C58_y` | propext, Classical.choice, Quot.sound |
| `Verif.Props.C59_uhat` | propext, Classical.choice, Quot.sound |
| `Verif.Props.C60_warning` | propext, Classical.choice, Quot.sound |
| `Verif.Props.C60_finite_temp` | propext, Classical.choice, Quot.sound |
| `Verif.Props.C60_dlr` | propext, Classical.choice, Quot.sound |
| `Verif.Props.C60_augmented` | propext, Classical.choice, Quot.sound |
| `Verif.Props.C61_check` | propext, Classical.choice, Quot.sound |
| `Verif.Props.C61_refuse` | propext, Classical.choice, Quot.sound |
| `Verif.Props.C61_refuse_split` | propext, Classical.choice, Quot.sound |
| `Verif.Props.C61_accept` | propext, Classical.choice, Quot.sound |
| `Verif.Props.C61_accept_split` | propext, Classical.choice, Quot.sound |
| `Verif.Props.C61_values_negation` | propext, Classical.choice, Quot.sound |
| `Verif.Props.C62_logistic` | propext, Classical.choice, Quot.sound |
| `Verif.Props.C62_bose` | propext, Classical.choice, Quot.sound |
| `Verif.Props.C62_units` | propext, Classical.choice, Quot.sound |
| `Verif.Props.C62_singular` | propext, Classical.choice, Quot.sound |
| `Verif.Props.C63_matsubara` | propext, Classical.choice, Quot.sound |
| `Verif.Props.C63_refuse` | propext, Classical.choice, Quot.sound |
| `Verif.Props.C63_tau` | propext, Classical.choice, Quot.sound |
| `Verif.Props.C63_default` | propext, Classical.choice, Quot.sound |
| `Verif.Props.C64_tau` | propext, Classical.choice, Quot.sound |
| `Verif.Props.C64_omega` | propext, Classical.choice, Quot.sound |
| `Verif.Props.C64_matsubara` | propext, Classical.choice, Quot.sound |
| `Verif.Props.C64_positive_half` | propext, Classical.choice, Quot.sound |
| `Verif.Props.C65_centrosymm` | propext, Classical.choice, Quot.sound |
| `Verif.Props.C65_sampling` | propext, Classical.choice, Quot.sound |
| `Verif.Props.C65_logistic` | propext, Classical.choice, Quot.sound |
| `Verif.Props.C65_bose` | propext, Classical.choice, Quot.sound |
| `Verif.Props.C65_libs` | propext, Classical.choice, Quot.sound |
| `Verif.Props.C66_logistic` | propext, Classical.choice, Quot.sound |
| `Verif.Props.C66_bose` | propext, Classical.choice, Quot.sound |
| `Verif.Props.C67_statistics` | propext, Classical.choice, Quot.sound |
| `Verif.Props.C67_values` | propext, Classical.choice, Quot.sound |
| `Verif.Props.C67_errors` | propext, Classical.choice, Quot.sound |
| `Verif.Props.C67_unl` | propext, Classical.choice, Quot.sound |
| `Verif.Props.C67_sampling` | propext, Classical.choice, Quot.sound |
| `Verif.Props.C67_negative` | propext, Classical.choice, Quot.sound |
| `Verif.Props.C67_fermion` | propext, Classical.choice, Quot.sound |
| `Verif.Props.C67_boson` | propext, Classical.choice, Quot.sound |
| `Verif.Props.C67_accuracy` | propext, Classical.choice, Quot.sound |
| `Verif.Props.C68_tau` | propext, Classical.choice, Quot.sound |
| `Verif.Props.C68_matsubara` | propext, Classical.choice, Quot.sound |
| `Verif.Props.C68_transform` | propext, Classical.choice, Quot.sound |
| `Verif.Props.C69_full` | propext, Classical.choice, Quot.sound |
| `Verif.Props.C69_split` | propext, Classical.choice, Quot.sound |
| `Verif.Props.C69_pole` | propext, Classical.choice, Quot.sound |
| `Verif.Props.C69_pole_value` | propext, Classical.choice, Quot.sound |
| `Verif.Props.C69_pole_matsubara` | propext, Classical.choice, Quot.sound |
| `Verif.Props.C70_attributes` | propext, Classical.choice, Quot.sound |
| `Verif.Props.C70_exists` | propext, Classical.choice, Quot.sound |
| `Verif.Props.C70_transform` | propext, Classical.choice, Quot.sound |
| `Verif.Props.C71_augmented_default` | propext, Classical.choice, Quot.sound |
| `Verif.Props.C71_dlr_tau` | propext, Classical.choice, Quot.sound |
| `Verif.Props.C71_dlr_matsubara` | propext, Classical.choice, Quot.sound |
| `Verif.Props.C71_dlr_zero` | propext, Classical.choice, Quot.sound |
| `Verif.Props.C71_dlr_parity_negation` | propext, Classical.choice, Quot.sound |
| `Verif.Props.C71_dlr_default` | propext, Classical.choice, Quot.sound |
| `Verif.Props.C71_const_linear` | propext, Classical.choice, Quot.sound |
| `Verif.Props.C71_vertex` | propext, Classical.choice, Quot.sound |
| `Verif.Props.C72_norm` | propext, Classical.choice, Quot.sound |
| `Verif.Props.C72_parseval` | propext, Classical.choice, Quot.sound |
| `Verif.Props.C72_tau` | propext, Classical.choice, Quot.sound |
| `Verif.Props.C72_matsubara` | propext, Classical.choice, Quot.sound |
| `Verif.Props.C72_positive` | propext, Classical.choice, Quot.sound |
| `Verif.Props.C72_needed` | propext, Classical.choice, Quot.sound |
| `Verif.Props.C72_needed_matsubara` | propext, Classical.choice, Quot.sound |
| `Verif.Props.C72_needed_positive` | propext, Classical.choice, Quot.sound |
| `Verif.Props.C72_bound` | propext, Classical.choice, Quot.sound |
| `Verif.Props.C72_bound_matsubara` | propext, Classical.choice, Quot.sound |
| `Verif.Props.C73_tau` | propext, Classical.choice, Quot.sound |
| `Verif.Props.C73_matsubara` | propext, Classical.choice, Quot.sound |
| `Verif.Props.C73_positive` | propext, Classical.choice, Quot.sound |
| `Verif.Props.C74_error` | propext, Classical.choice, Quot.sound |
| `Verif.Props.C74_bound` | propext, Classical.choice, Quot.sound |
| `Verif.Props.C74_exact` | propext, Classical.choice, Quot.sound |
| `Verif.Props.C74_sampling` | propext, Classical.choice, Quot.sound |
| `Verif.Props.C74_inexact` | propext, Classical.choice, Quot.sound |
| `Verif.Props.C74_parity_needed` | propext, Classical.choice, Quot.sound |
| `Verif.Props.C75_exact` | propext, Classical.choice, Quot.sound |
| `Verif.Props.C75_exact_objects` | propext, Classical.choice, Quot.sound |
| `Verif.Props.C75_exact_reduced` | propext, Classical.choice, Quot.sound |
| `Verif.Props.C75_logistic` | propext, Classical.choice, Quot.sound |
| `Verif.Props.C75_logistic_plain` | propext, Classical.choice, Quot.sound |
| `Verif.Props.C75_needs_x_plus` | propext, Classical.choice, Quot.sound |
| `Verif.Props.C75_bose` | propext, Classical.choice, Quot.sound |
| `Verif.Props.C75_logistic_reduced` | propext, Classical.choice, Quot.sound |
| `Verif.Props.C75_bose_reduced` | propext, Classical.choice, Quot.sound |
| `Verif.Props.C75_logistic_odd` | propext, Classical.choice, Quot.sound |
| `Verif.Props.C75_bose_odd` | propext, Classical.choice, Quot.sound |
| `Verif.Props.C75_cancellation` | propext, Classical.choice, Quot.sound |
| `Verif.Props.C76_exact` | propext, Classical.choice, Quot.sound |
| `Verif.Props.C76_exact_matrix` | propext, Classical.choice, Quot.sound |
| `Verif.Props.C76_exact_reduced` | propext, Classical.choice, Quot.sound |
| `Verif.Props.C76_exact_grid` | propext, Classical.choice, Quot.sound |
| `Verif.Props.C76_piecewise` | propext, Classical.choice, Quot.sound |
| `Verif.Props.C76_logistic` | propext, Classical.choice, Quot.sound |
| `Verif.Props.C76_logistic_even` | propext, Classical.choice, Quot.sound |
| `Verif.Props.C76_logistic_odd` | propext, Classical.choice, Quot.sound |
| `Verif.Props.C76_bose` | propext, Classical.choice, Quot.sound |
| `Verif.Props.C76_bose_even` | propext, Classical.choice, Quot.sound |
| `Verif.Props.C76_bose_odd` | propext, Classical.choice, Quot.sound |
| `Verif.Props.C76_sampling` | propext, Classical.choice, Quot.sound |
| `Verif.Props.C76_sampling_bose` | propext, Classical.choice, Quot.sound |
| `Verif.Props.C77_weyl` | propext, Classical.choice, Quot.sound |
| `Verif.Props.C77_weyl_sharp` | propext, Classical.choice, Quot.sound |
| `Verif.Props.C77_truncate` | propext, Classical.choice, Quot.sound |
| `Verif.Props.C77_sampling` | propext, Classical.choice, Quot.sound |
| `Verif.Props.C78_vectors` | propext, Classical.choice, Quot.sound |
| `Verif.Props.C78_degenerate` | propext, Classical.choice, Quot.sound |
| `Verif.Props.C78_sampling` | propext, Classical.choice, Quot.sound |
| `Verif.Props.C79_exact` | propext, Classical.choice, Quot.sound |
| `Verif.Props.C79_call` | propext, Classical.choice, Quot.sound |
| `Verif.Props.C79_outside` | propext, Classical.choice, Quot.sound |
| `Verif.Props.C79_default_dx` | propext, Classical.choice, Quot.sound |
| `Verif.Props.C79_basis_u` | propext, Classical.choice, Quot.sound |
| `Verif.Props.C79_basis_v` | propext, Classical.choice, Quot.sound |
| `Verif.Props.C79_short_segment` | propext, Classical.choice, Quot.sound |
| `Verif.Props.C80_exact` | propext, Classical.choice, Quot.sound |
| `Verif.Props.C80_dot` | propext, Classical.choice, Quot.sound |
| `Verif.Props.C80_full` | propext, Classical.choice, Quot.sound |
| `Verif.Props.C80_split` | propext, Classical.choice, Quot.sound |
| `Verif.Props.C81_exact` | propext, Classical.choice, Quot.sound |
| `Verif.Props.C81_bisect` | propext, Classical.choice, Quot.sound |
| `Verif.Props.C81_find_all` | propext, Classical.choice, Quot.sound |
| `Verif.Props.C81_accuracy` | propext, Classical.choice, Quot.sound |
| `Verif.Props.C81_poly` | propext, Classical.choice, Quot.sound |
| `Verif.Props.C81_tiny` | propext, Classical.choice, Quot.sound |
| `Verif.Props.C82_exact` | propext, Classical.choice, Quot.sound |
| `Verif.Props.C82_tau` | propext, Classical.choice, Quot.sound |
| `Verif.Props.C82_matsubara` | propext, Classical.choice, Quot.sound |
| `Verif.Props.C82_positive` | propext, Classical.choice, Quot.sound |
| `Verif.Props.C82_transform` | propext, Classical.choice, Quot.sound |
| `Verif.Props.C82_poly` | propext, Classical.choice, Quot.sound |
| `Verif.Props.C83_expansion` | propext, Classical.choice, Quot.sound |
| `Verif.Props.C83_centrosymm` | propext, Classical.choice, Quot.sound |
| `Verif.Props.C83_sampling` | propext, Classical.choice, Quot.sound |
| `Verif.Props.C83_logistic_near` | propext, Classical.choice, Quot.sound |
| `Verif.Props.C83_hints` | propext, Classical.choice, Quot.sound |
| `Verif.Props.C83_logistic` | propext, Classical.choice, Quot.sound |
| `Verif.Props.C84_greens` | propext, Classical.choice, Quot.sound |
| `Verif.Props.C84_matsubara` | propext, Classical.choice, Quot.sound |
| `Verif.Props.C84_logistic` | propext, Classical.choice, Quot.sound |
| `Verif.Props.C85_values` | propext, Classical.choice, Quot.sound |
| `Verif.Props.C85_centrosymm` | propext, Classical.choice, Quot.sound |
| `Verif.Props.C85_sampling` | propext, Classical.choice, Quot.sound |
| `Verif.Props.C85_logistic` | propext, Classical.choice, Quot.sound |
| `Verif.Props.C85_basis` | propext, Classical.choice, Quot.sound |
| `Verif.Props.C86_hints` | propext, Classical.choice, Quot.sound |
| `Verif.Props.C86_bose` | propext, Classical.choice, Quot.sound |
| `Verif.Props.C86_basis` | propext, Classical.choice, Quot.sound |
| `Verif.Props.C87_point` | propext, Classical.choice, Quot.sound |
| `Verif.Props.C87_greens` | propext, Classical.choice, Quot.sound |
| `Verif.Props.C87_matsubara` | propext, Classical.choice, Quot.sound |
| `Verif.Props.C87_basis` | propext, Classical.choice, Quot.sound |
| `Verif.Props.C87_dlr` | propext, Classical.choice, Quot.sound |
| `Verif.Props.C88_hints` | propext, Classical.choice, Quot.sound |
| `Verif.Props.C88_logistic` | propext, Classical.choice, Quot.sound |
| `Verif.Props.C88_basis` | propext, Classical.choice, Quot.sound |
| `Verif.Props.C89_exact` | propext, Classical.choice, Quot.sound |
| `Verif.Props.C89_centrosymm` | propext, Classical.choice, Quot.sound |
| `Verif.Props.C89_values` | propext, Classical.choice, Quot.sound |
| `Verif.Props.C89_logistic` | propext, Classical.choice, Quot.sound |
| `Verif.Props.C89_basis` | propext, Classical.choice, Quot.sound |
| `Verif.Props.C90_exact` | propext, Classical.choice, Quot.sound |
| `Verif.Props.C90_values` | propext, Classical.choice, Quot.sound |
| `Verif.Props.C90_bose` | propext, Classical.choice, Quot.sound |
| `Verif.Props.C90_basis` | propext, Classical.choice, Quot.sound |
| `Verif.Props.C91_basis` | propext, Classical.choice, Quot.sound |
| `Verif.Props.C91_large` | propext, Classical.choice, Quot.sound |
| `Verif.Props.C91_dlr` | propext, Classical.choice, Quot.sound |
| `Verif.Props.C92_basis` | propext, Classical.choice, Quot.sound |
| `Verif.Props.C92_rounded` | propext, Classical.choice, Quot.sound |
| `Verif.Props.C93_tau` | propext, Classical.choice, Quot.sound |
| `Verif.Props.C93_matsubara` | propext, Classical.choice, Quot.sound |
| `Verif.Props.C93_points` | propext, Classical.choice, Quot.sound |
| `Verif.Props.C94_roundtrip` | propext, Classical.choice, Quot.sound |
| `Verif.Props.C94_poles` | propext, Classical.choice, Quot.sound |
| `Verif.Props.C94_greens` | propext, Classical.choice, Quot.sound |
| `Verif.Props.C94_matsubara` | propext, Classical.choice, Quot.sound |
