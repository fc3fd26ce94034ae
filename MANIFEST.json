{
 "claims": [
  {
   "property": "C01",
   "status": "proved",
   "theorems": [
    "Verif.Props.C01_ints",
    "Verif.Props.C01_floats",
    "Verif.Props.C01_rejects_with_ValueError",
    "Verif.Props.C01_non_integer_rejected"
   ],
   "note": "check_reduced_matsubara accepts exactly the arrays of integers (of the requested parity) and returns them unchanged as integers; everything else raises ValueError. Floats are IEEE values, integer range 64 bit."
  },
  {
   "property": "C02",
   "status": "proved",
   "theorems": [
    "Verif.Props.C02_check_domain_iff",
    "Verif.Props.C02_check_domain_rejects",
    "Verif.Props.C02_tau_poles",
    "Verif.Props.C02_kernel_domains",
    "Verif.Props.C02_check_range_iff",
    "Verif.Props.C02_check_range_rejects",
    "Verif.Props.C02_nan_rejected"
   ],
   "note": "check_range, _check_domain and the DLR tau check over IEEE values: accepted iff every element is a number in the closed domain. DLR functions raise RuntimeError (ValueError for NaN)."
  },
  {
   "property": "C03",
   "status": "proved",
   "theorems": [
    "Verif.Props.C03_last_dim",
    "Verif.Props.C03_first_dim",
    "Verif.Props.C03_errors",
    "Verif.Props.C03_index_injective"
   ],
   "note": "For every shape, ravel/reshape lifting is element-wise; both last_dim variants, errors passed on."
  },
  {
   "property": "C04",
   "status": "partial",
   "theorems": [
    "Verif.Props.C04_negation",
    "Verif.Props.C04_last_access",
    "Verif.Props.C04_immediate_partial",
    "Verif.Props.C04_single_object_partial"
   ],
   "note": "The claim is false of the code (C04_negation: the shared descriptor stores the last accessed instance). C04_last_access characterises all histories; the full claim is proved for immediate calls and for a single object."
  },
  {
   "property": "C05",
   "status": "proved",
   "theorems": [
    "Verif.Props.C05_find_all_discrete",
    "Verif.Props.C05_sign_product",
    "Verif.Props.C05_bisect",
    "Verif.Props.C05_invalid_type"
   ],
   "note": "Termination, soundness, completeness and order of find_all(type='discrete') for every function and strictly increasing grid, including signed zeros."
  },
  {
   "property": "C06",
   "status": "proved",
   "theorems": [
    "Verif.Props.C06_bisect_terminates",
    "Verif.Props.C06_find_all_cont",
    "Verif.Props.C06_true_root"
   ],
   "note": "Termination and correctness of the vectorised continuous bisection in exact arithmetic over any Archimedean ordered field; true root within the tolerance over the reals (intermediate value theorem)."
  },
  {
   "property": "C07",
   "status": "proved",
   "theorems": [
    "Verif.Props.C07_inside",
    "Verif.Props.C07_peak",
    "Verif.Props.C07_peak_is_max",
    "Verif.Props.C07_narrow",
    "Verif.Props.C07_local"
   ],
   "note": "Total by well-founded recursion; inside the bracket; exact peak for unimodal magnitude; local-peak property without unimodality."
  },
  {
   "property": "C08",
   "status": "partial",
   "theorems": [
    "Verif.Props.C08_crossing_value",
    "Verif.Props.C08_negation",
    "Verif.Props.C08_ascending_partial",
    "Verif.Props.C08_short_grid",
    "Verif.Props.C08_unit_grid_ascending",
    "Verif.Props.C08_members",
    "Verif.Props.C08_unit_grid_exact"
   ],
   "note": "The claim is false of the code (C08_negation: overlapping brackets on coarse grids cross). Proved when adjacent secant changes only occur at unit spacing, in particular on unit grids."
  },
  {
   "property": "C09",
   "status": "proved",
   "theorems": [
    "Verif.Props.C09_eval",
    "Verif.Props.C09_ctor_rejects",
    "Verif.Props.C09_no_segments",
    "Verif.Props.C09_zero_width_nan"
   ],
   "note": "Constructor plus evaluation for any strictly increasing knots; exact arithmetic. Zero-width segments (allowed by the constructor) give NaN: C09_zero_width_nan."
  },
  {
   "property": "C10",
   "status": "partial",
   "theorems": [
    "Verif.Props.C10_poly_select",
    "Verif.Props.C10_poly_value",
    "Verif.Props.C10_select_select",
    "Verif.Props.C10_select_deriv",
    "Verif.Props.C10_ft_select",
    "Verif.Props.C10_ft_select_noasymp_partial",
    "Verif.Props.C10_any_select_raises"
   ],
   "note": "Selection commutes with evaluation, derivative and transform, except freq='any' without n_asymp, where uhat[l] raises KeyError (C10_any_select_raises)."
  },
  {
   "property": "C11",
   "status": "proved",
   "theorems": [
    "Verif.Props.C11_deriv",
    "Verif.Props.C11_deriv_right",
    "Verif.Props.C11_parity",
    "Verif.Props.C11_knots",
    "Verif.Props.C11_parity_true"
   ],
   "note": "numpy legder proved to be the derivative of Legendre series; interior of segments, every order."
  },
  {
   "property": "C12",
   "status": "proved",
   "theorems": [
    "Verif.Props.C12_plain",
    "Verif.Props.C12_even",
    "Verif.Props.C12_odd",
    "Verif.Props.C12_even_midpoint_twice"
   ],
   "note": "Even functions with a root exactly at the midpoint list it twice (C12_even_midpoint_twice), which the claim allows."
  },
  {
   "property": "C13",
   "status": "proved",
   "theorems": [
    "Verif.Props.C13_refine",
    "Verif.Props.C13_count"
   ],
   "note": "All alpha >= 1, all strictly increasing grids."
  },
  {
   "property": "C14",
   "status": "proved",
   "theorems": [
    "Verif.Props.C14_inner",
    "Verif.Props.C14_call",
    "Verif.Props.C14_tau"
   ],
   "note": "Exact arithmetic; scipy spherical_jn is modelled by its closed form/recurrence. C14_tau gives the scaling to imaginary time."
  },
  {
   "property": "C15",
   "status": "proved",
   "theorems": [
    "Verif.Props.C15_shift",
    "Verif.Props.C15_phase",
    "Verif.Props.C15_float_branch"
   ],
   "note": "Integer branch for all n. C15_float_branch shows that the (unreachable) float branch has a wrong phase for non-integers."
  },
  {
   "property": "C16",
   "status": "proved",
   "theorems": [
    "Verif.Props.C16_series",
    "Verif.Props.C16_zero",
    "Verif.Props.C16_error",
    "Verif.Props.C16_exact",
    "Verif.Props.C16_exact_smooth"
   ],
   "note": "The power model reproduces the boundary derivative sums; its error is exactly the interior-knot jump terms plus the remainder; exact for smooth piecewise polynomials."
  },
  {
   "property": "C17",
   "status": "partial",
   "theorems": [
    "Verif.Props.C17_even_or_below_partial",
    "Verif.Props.C17_negation"
   ],
   "note": "False in general (C17_negation); true for even order or below the asymptotic threshold."
  },
  {
   "property": "C18",
   "status": "proved",
   "theorems": [
    "Verif.Props.C18_conj",
    "Verif.Props.C18_reflect",
    "Verif.Props.C18_part"
   ],
   "note": "Conjugation and reflection symmetry, and which part is nonzero."
  },
  {
   "property": "C19",
   "status": "proved",
   "theorems": [
    "Verif.Props.C19_symmetrize",
    "Verif.Props.C19_strict"
   ],
   "note": "Symmetrisation of Matsubara frequencies."
  },
  {
   "property": "C20",
   "status": "partial",
   "theorems": [
    "Verif.Props.C20_sign_changes",
    "Verif.Props.C20_bosonic_fallback",
    "Verif.Props.C20_fermionic_fallback_partial",
    "Verif.Props.C20_fallback_errors",
    "Verif.Props.C20_fenced",
    "Verif.Props.C20_fallback_repeats",
    "Verif.Props.C20_fallback_raises",
    "Verif.Props.C20_fallback_empty",
    "Verif.Props.C20_located"
   ],
   "note": "Regular (sign-change) branch proved. Fall-back branch: bosonic points are good when extrema ascend; witnesses for repeated frequencies, ValueError and IndexError (C20_fallback_repeats, _raises, _empty)."
  },
  {
   "property": "C21",
   "status": "partial",
   "theorems": [
    "Verif.Props.C21_fence",
    "Verif.Props.C21_symmetric_partial",
    "Verif.Props.C21_asymmetric",
    "Verif.Props.C21_negation"
   ],
   "note": "False for 20-39 points (C21_negation); symmetric otherwise."
  },
  {
   "property": "C22",
   "status": "partial",
   "theorems": [
    "Verif.Props.C22_regular",
    "Verif.Props.C22_fallback",
    "Verif.Props.C22_tau",
    "Verif.Props.C22_omega",
    "Verif.Props.C22_domain",
    "Verif.Props.C22_no_extrema",
    "Verif.Props.C22_edges"
   ],
   "note": "Points, symmetry and count proved; false provisos kept as witnesses: no extrema gives no points, and a derivative vanishing at an interval edge yields edge points"
  },
  {
   "property": "C23",
   "status": "proved",
   "theorems": [
    "Verif.Props.C23_reseat",
    "Verif.Props.C23_scale",
    "Verif.Props.C23_join",
    "Verif.Props.C23_piecewise",
    "Verif.Props.C23_single_edge"
   ],
   "note": "reseat, scale, join, piecewise preserve exactness; single edge raises"
  },
  {
   "property": "C24",
   "status": "proved",
   "theorems": [
    "Verif.Props.C24_join",
    "Verif.Props.C24_piecewise"
   ],
   "note": "join/piecewise raise exactly on disconnected or unordered input"
  },
  {
   "property": "C25",
   "status": "proved",
   "theorems": [
    "Verif.Props.C25_recurrence",
    "Verif.Props.C25_weights_sum",
    "Verif.Props.C25_legendre",
    "Verif.Props.C25_exists"
   ],
   "note": "Exactness to degree 2n-1 for arbitrary solver/rounding whenever the final nodes are the roots; positive weights; existence for every order; weight sum in every case"
  },
  {
   "property": "C26",
   "status": "proved",
   "theorems": [
    "Verif.Props.C26_polyvalderiv",
    "Verif.Props.C26_empty",
    "Verif.Props.C26_legendre"
   ],
   "note": "value and derivative of the monic orthogonal polynomials, and Legendre specialisation"
  },
  {
   "property": "C27",
   "status": "partial",
   "theorems": [
    "Verif.Props.C27_steps_partial",
    "Verif.Props.C27_nonconvergence_raises",
    "Verif.Props.C27_refused",
    "Verif.Props.C27_exact_raises",
    "Verif.Props.C27_legendre_one"
   ],
   "note": "False as stated: non-convergence raises AttributeError (bad format string); at most five steps proved"
  },
  {
   "property": "C28",
   "status": "proved",
   "theorems": [
    "Verif.Props.C28_collocation",
    "Verif.Props.C28_polynomial",
    "Verif.Props.C28_zero",
    "Verif.Props.C28_gauss"
   ],
   "note": ""
  },
  {
   "property": "C29",
   "status": "proved",
   "theorems": [
    "Verif.Props.C29_kronrod31",
    "Verif.Props.C29_gauss15",
    "Verif.Props.C29_vsel",
    "Verif.Props.C29_table",
    "Verif.Props.C29_reseat",
    "Verif.Props.C29_scale"
   ],
   "note": "complete table checked by kernel arithmetic over the rationals; binary rounding of the decimals not modelled"
  },
  {
   "property": "C30",
   "status": "proved",
   "theorems": [
    "Verif.Props.C30_domain",
    "Verif.Props.C30_logistic",
    "Verif.Props.C30_properties",
    "Verif.Props.C30_no_overflow"
   ],
   "note": ""
  },
  {
   "property": "C31",
   "status": "partial",
   "theorems": [
    "Verif.Props.C31_bose_partial",
    "Verif.Props.C31_scalar_raises",
    "Verif.Props.C31_properties",
    "Verif.Props.C31_docstring_sign",
    "Verif.Props.C31_no_overflow"
   ],
   "note": "Formula, limit, positivity, symmetry proved for array y; scalar y raises TypeError (C31_scalar_raises)"
  },
  {
   "property": "C32",
   "status": "partial",
   "theorems": [
    "Verif.Props.C32_logistic_partial",
    "Verif.Props.C32_bose_partial",
    "Verif.Props.C32_needs_xplus",
    "Verif.Props.C32_needs_xplus_odd",
    "Verif.Props.C32_scalar_raises",
    "Verif.Props.C32_sign",
    "Verif.Props.C32_not_symmetric",
    "Verif.Props.C32_determines"
   ],
   "note": "Proved for array calls with explicit x_plus; without x_plus, or with two scalars for the odd kernels, the call raises TypeError"
  },
  {
   "property": "C33",
   "status": "proved",
   "theorems": [
    "Verif.Props.C33_grids",
    "Verif.Props.C33_bad_lambda",
    "Verif.Props.C33_half",
    "Verif.Props.C33_half_grids",
    "Verif.Props.C33_asymmetric",
    "Verif.Props.C33_nsvals",
    "Verif.Props.C33_spacings",
    "Verif.Props.C33_nsvals_value"
   ],
   "note": ""
  },
  {
   "property": "C34",
   "status": "proved",
   "theorems": [
    "Verif.Props.C34_truncate",
    "Verif.Props.C34_invalid",
    "Verif.Props.C34_float_limit"
   ],
   "note": "For integer or absent n_sv; C34_float_limit: a finite float n_sv (which the signature allows) makes the partition index a float and raises."
  },
  {
   "property": "C35",
   "status": "proved",
   "theorems": [
    "Verif.Props.C35_part",
    "Verif.Props.C35_negative",
    "Verif.Props.C35_errors"
   ],
   "note": "C35_negative: a negative max_size behaves like a Python slice bound and is not rejected."
  },
  {
   "property": "C36",
   "status": "proved",
   "theorems": [
    "Verif.Props.C36_functions",
    "Verif.Props.C36_sampling",
    "Verif.Props.C36_goodRule"
   ],
   "note": ""
  },
  {
   "property": "C37",
   "status": "proved",
   "theorems": [
    "Verif.Props.C37_extend",
    "Verif.Props.C37_recombine",
    "Verif.Props.C37_values",
    "Verif.Props.C37_grid",
    "Verif.Props.C37_shapes"
   ],
   "note": "Parity holds away from the segment boundaries, where evaluation takes the right segment."
  },
  {
   "property": "C38",
   "status": "proved",
   "theorems": [
    "Verif.Props.C38_canonicalize",
    "Verif.Props.C38_vanishing"
   ],
   "note": "C38_vanishing: where u(1) = 0 the division gives NaN."
  },
  {
   "property": "C39",
   "status": "proved",
   "theorems": [
    "Verif.Props.C39_logistic",
    "Verif.Props.C39_bose",
    "Verif.Props.C39_range",
    "Verif.Props.C39_orthonormal"
   ],
   "note": "Relative to the contract of the expansion (Good, Describes). For the regularised Bose kernel the code gives wmax^(-2) times the physical kernel (C39_bose), which the claim does not mention."
  },
  {
   "property": "C40",
   "status": "proved",
   "theorems": [
    "Verif.Props.C40_significance"
   ],
   "note": ""
  },
  {
   "property": "C41",
   "status": "partial",
   "theorems": [
    "Verif.Props.C41_slice",
    "Verif.Props.C41_slice_partial",
    "Verif.Props.C41_refused",
    "Verif.Props.C41_empty",
    "Verif.Props.C41_negative",
    "Verif.Props.C41_negation"
   ],
   "note": "False of the code: basis[:n] can enlarge a basis (it slices the stored SVE again), basis[:0] raises IndexError, negative stops count from the stored expansion (C41_negation, C41_empty, C41_negative). Proved when the stored expansion is not cut by max_size."
  },
  {
   "property": "C42",
   "status": "partial",
   "theorems": [
    "Verif.Props.C42_rescale",
    "Verif.Props.C42_size_partial",
    "Verif.Props.C42_negation"
   ],
   "note": "False of the code: rescale re-derives the size from eps (C42_negation). Proved: the same dimensionless functions, never fails the lambda check under rounding, same size if no max_size had been given."
  },
  {
   "property": "C43",
   "status": "proved",
   "theorems": [
    "Verif.Props.C43_fit",
    "Verif.Props.C43_roundtrip"
   ],
   "note": "for every matrix, array, axis and SVD routine meeting its contract (existence of such a routine is proved)"
  },
  {
   "property": "C44",
   "status": "proved",
   "theorems": [
    "Verif.Props.C44_fit",
    "Verif.Props.C44_roundtrip",
    "Verif.Props.C44_zero_row"
   ],
   "note": "least squares over real coefficients; hypothesis that the zero-frequency row is real is shown for bosonic IR bases (C44_zero_row)"
  },
  {
   "property": "C45",
   "status": "partial",
   "theorems": [
    "Verif.Props.C45_evaluate",
    "Verif.Props.C45_errors",
    "Verif.Props.C45_default_partial",
    "Verif.Props.C45_negation",
    "Verif.Props.C45_silent"
   ],
   "note": "explicit axes proved for all ranks; the documented default (last axis) is false of the code for rank >= 2 (C45_negation, C45_silent): axis=None transforms the last but one axis"
  },
  {
   "property": "C46",
   "status": "partial",
   "theorems": [
    "Verif.Props.C46_tau",
    "Verif.Props.C46_ndim",
    "Verif.Props.C46_matsubara",
    "Verif.Props.C46_matsubara_fit",
    "Verif.Props.C46_matsubara_partial",
    "Verif.Props.C46_swapped",
    "Verif.Props.C46_negation"
   ],
   "note": "imaginary time proved for every order; Matsubara points are sorted by the code, so claim is false for unsorted points (C46_negation, C46_swapped), proved for increasing ones and characterised in general"
  },
  {
   "property": "C47",
   "status": "partial",
   "theorems": [
    "Verif.Props.C47_values",
    "Verif.Props.C47_succeeds",
    "Verif.Props.C47_index_partial",
    "Verif.Props.C47_index_negative",
    "Verif.Props.C47_negation",
    "Verif.Props.C47_slice",
    "Verif.Props.C47_basis",
    "Verif.Props.C47_basis_slice",
    "Verif.Props.C47_basis_refused",
    "Verif.Props.C47_poly_item"
   ],
   "note": "Values, size, slices and non-negative indices proved for all inputs; the claim for negative indices is false (negation proved: they count from the end of the augmentations)."
  },
  {
   "property": "C48",
   "status": "partial",
   "theorems": [
    "Verif.Props.C48_create",
    "Verif.Props.C48_const_call",
    "Verif.Props.C48_linear_call",
    "Verif.Props.C48_norm",
    "Verif.Props.C48_const_hat_partial",
    "Verif.Props.C48_const_hat_broken",
    "Verif.Props.C48_linear_hat_partial",
    "Verif.Props.C48_linear_hat_scalar",
    "Verif.Props.C48_hat_negation",
    "Verif.Props.C48_const_deriv",
    "Verif.Props.C48_linear_deriv_partial",
    "Verif.Props.C48_linear_deriv_negation",
    "Verif.Props.C48_bosonic_only",
    "Verif.Props.C48_matsubara",
    "Verif.Props.C48_beta_nan",
    "Verif.Props.C48_fourier_pairs"
   ],
   "note": "Unit norm, Fourier pairs, derivatives and refusal of non-bosonic bases proved; false for zero-dimensional n (TauLinear.hat), for numpy without np.complex (TauConst.hat) and for integer tau (TauLinear.deriv): negations proved."
  },
  {
   "property": "C49",
   "status": "partial",
   "theorems": [
    "Verif.Props.C49_negation",
    "Verif.Props.C49_forwarded_partial",
    "Verif.Props.C49_sampling",
    "Verif.Props.C49_significance",
    "Verif.Props.C49_conditioned"
   ],
   "note": "statistics, xmax and deriv do not behave as claimed for any augmented basis (negation proved for all); xmin, beta, wmax, lambda_, accuracy and sampling points do."
  },
  {
   "property": "C50",
   "status": "partial",
   "theorems": [
    "Verif.Props.C50_tau_partial",
    "Verif.Props.C50_tau_range",
    "Verif.Props.C50_tau_negation",
    "Verif.Props.C50_no_poles",
    "Verif.Props.C50_fermion",
    "Verif.Props.C50_boson_partial",
    "Verif.Props.C50_boson_negation"
   ],
   "note": "u and uhat are the stated pole functions and Fourier pairs for all poles, times and frequencies of matching parity, except when all poles are zero (ValueError, C50_tau_negation) and for a bosonic pole at zero at frequency zero (not finite, C50_boson_negation)."
  },
  {
   "property": "C51",
   "status": "proved",
   "theorems": [
    "Verif.Props.C51_to_IR",
    "Verif.Props.C51_from_IR",
    "Verif.Props.C51_kernel"
   ],
   "note": "Under the contract of the SVD routines; the error of to_IR is bounded by the error of the IR expansion of the kernel times the sum of the moduli of the coefficients."
  },
  {
   "property": "C52",
   "status": "partial",
   "theorems": [
    "Verif.Props.C52_strategies",
    "Verif.Props.C52_status",
    "Verif.Props.C52_unknown_partial",
    "Verif.Props.C52_unknown_negation",
    "Verif.Props.C52_hint",
    "Verif.Props.C52_complex_default"
   ],
   "note": "All strategies give an SVD of the matrix under the contract of the LAPACK/double-double routines. Unknown strategies are refused except for double-double input, where the strategy is ignored (C52_unknown_negation)."
  },
  {
   "property": "C53",
   "status": "partial",
   "theorems": [
    "Verif.Props.C53_meets_request",
    "Verif.Props.C53_choices",
    "Verif.Props.C53_nan",
    "Verif.Props.C53_documented_negation",
    "Verif.Props.C53_documented_partial"
   ],
   "note": "The chosen type meets the request; the docstring relation between accuracy, cutoff and epsilon is false (C53_documented_negation), the part that holds is C53_documented_partial."
  },
  {
   "property": "C54",
   "status": "partial",
   "theorems": [
    "Verif.Props.C54_params",
    "Verif.Props.C54_init_partial",
    "Verif.Props.C54_keyError",
    "Verif.Props.C54_no_lambda",
    "Verif.Props.C54_zero_cutoff",
    "Verif.Props.C54_negation",
    "Verif.Props.C54_weight_func"
   ],
   "note": "False of the code for '' and 'BF' (KeyError; C54_negation), weight_func accepts '' and 'FB'."
  },
  {
   "property": "C55",
   "status": "proved",
   "theorems": [
    "Verif.Props.C55_pair",
    "Verif.Props.C55_exists"
   ],
   "note": ""
  },
  {
   "property": "C56",
   "status": "proved",
   "theorems": [
    "Verif.Props.C56_accounts",
    "Verif.Props.C56_overlap",
    "Verif.Props.C56_too_many",
    "Verif.Props.C56_outside",
    "Verif.Props.C56_exact",
    "Verif.Props.C56_zero"
   ],
   "note": "For every integrand, tolerance and limits. The result is the 15-point sum; more than 2000 initial segments raise TypeError (C56_too_many) and an integrand whose 15-point sums vanish always ends in a warning (C56_zero)."
  },
  {
   "property": "C57",
   "status": "partial",
   "theorems": [
    "Verif.Props.C57_runs",
    "Verif.Props.C57_no_samples",
    "Verif.Props.C57_sign_partial",
    "Verif.Props.C57_sign_negation",
    "Verif.Props.C57_full",
    "Verif.Props.C57_full_empty",
    "Verif.Props.C57_sampling",
    "Verif.Props.C57_matsubara",
    "Verif.Props.C57_statistics",
    "Verif.Props.C57_whichl"
   ],
   "note": "Strictly increasing, mirror symmetric, zero for bosons, exactly one point (the first largest magnitude) per piece between strict sign changes: proved for every sampled function, every probe grid. These pieces are the sign-definite runs when no sample is exactly zero (C57_sign_partial); with an exact zero between two runs one run gets no point, shown by C57_sign_negation."
  },
  {
   "property": "C58",
   "status": "proved",
   "theorems": [
    "Verif.Props.C58_find_roots",
    "Verif.Props.C58_root",
    "Verif.Props.C58_grid",
    "Verif.Props.C58_complete",
    "Verif.Props.C58_missed",
    "Verif.Props.C58_x",
    "Verif.Props.C58_y"
   ],
   "note": "Termination, one bracketed root per strict sign change on the grid, interleaving for x and y, counts and mirror symmetry; within half the tolerance of a true root for a continuous function. Real arithmetic: rounding in the bisection is not modelled."
  },
  {
   "property": "C59",
   "status": "proved",
   "theorems": [
    "Verif.Props.C59_uhat"
   ],
   "note": ""
  },
  {
   "property": "C60",
   "status": "proved",
   "theorems": [
    "Verif.Props.C60_warning",
    "Verif.Props.C60_finite_temp",
    "Verif.Props.C60_dlr",
    "Verif.Props.C60_augmented"
   ],
   "note": "zero matrix: fit raises IndexError, stated in the theorem"
  },
  {
   "property": "C61",
   "status": "proved",
   "theorems": [
    "Verif.Props.C61_check",
    "Verif.Props.C61_refuse",
    "Verif.Props.C61_refuse_split",
    "Verif.Props.C61_accept",
    "Verif.Props.C61_accept_split",
    "Verif.Props.C61_values_negation"
   ],
   "note": "Shapes, order, columns and product, for complex and split form. The dtype checks of the split form are part of the type of the triple.  Values are not checked by the code: C61_values_negation."
  },
  {
   "property": "C62",
   "status": "proved",
   "theorems": [
    "Verif.Props.C62_logistic",
    "Verif.Props.C62_bose",
    "Verif.Props.C62_units",
    "Verif.Props.C62_singular"
   ],
   "note": "Regularised Bose kernel: array y and |lambda*y| >= 1e-200, as stated (C31); the kernel diverges at y = 0: C62_singular."
  },
  {
   "property": "C63",
   "status": "proved",
   "theorems": [
    "Verif.Props.C63_matsubara",
    "Verif.Props.C63_refuse",
    "Verif.Props.C63_tau",
    "Verif.Props.C63_default"
   ],
   "note": "Values of the basis at the points are given by any partial function; acceptance, order, matrix and errors."
  },
  {
   "property": "C64",
   "status": "proved",
   "theorems": [
    "Verif.Props.C64_tau",
    "Verif.Props.C64_omega",
    "Verif.Props.C64_matsubara",
    "Verif.Props.C64_positive_half"
   ],
   "note": "Functions of the expansion have definite parity (Matsubara) or parity 0, 1, -1 (tau, omega), as the SVE returns them. The fall-back branch of the Matsubara points is C20."
  },
  {
   "property": "C65",
   "status": "proved",
   "theorems": [
    "Verif.Props.C65_centrosymm",
    "Verif.Props.C65_sampling",
    "Verif.Props.C65_logistic",
    "Verif.Props.C65_bose",
    "Verif.Props.C65_libs"
   ],
   "note": "External routines (SVD libraries, argsort, Gauss-Legendre rules) enter with contracts, shown satisfiable; C65_logistic and C65_bose show that both kernels meet the hypotheses, C65_libs that correct libraries do. Exact arithmetic."
  },
  {
   "property": "C66",
   "status": "proved",
   "theorems": [
    "Verif.Props.C66_logistic",
    "Verif.Props.C66_bose"
   ],
   "note": "The contracts of C65 for SVD libraries, argsort and Gauss-Legendre rules; the product beta*wmax is assumed to be computed exactly, all other arithmetic is exact in the model. That no singular function vanishes at 1 is not proved: it is the alternative in the conclusion."
  },
  {
   "property": "C67",
   "status": "proved",
   "theorems": [
    "Verif.Props.C67_statistics",
    "Verif.Props.C67_values",
    "Verif.Props.C67_errors",
    "Verif.Props.C67_unl",
    "Verif.Props.C67_sampling",
    "Verif.Props.C67_negative",
    "Verif.Props.C67_fermion",
    "Verif.Props.C67_boson",
    "Verif.Props.C67_accuracy"
   ],
   "note": "load for both statistics, methods by index, Fourier convention, sampling; a negative whichl with an odd number of functions fails the assertion (C67_negative), and the documented accuracy 1e-9 is 1e-8 (C67_accuracy)"
  },
  {
   "property": "C68",
   "status": "proved",
   "theorems": [
    "Verif.Props.C68_tau",
    "Verif.Props.C68_matsubara",
    "Verif.Props.C68_transform"
   ],
   "note": "For frequencies below the asymptotic region (40 Lambda); the SVD is a parameter with a contract."
  },
  {
   "property": "C69",
   "status": "proved",
   "theorems": [
    "Verif.Props.C69_full",
    "Verif.Props.C69_split",
    "Verif.Props.C69_pole",
    "Verif.Props.C69_pole_value",
    "Verif.Props.C69_pole_matsubara"
   ],
   "note": "The accuracy of the truncated expansion and the lower bound of the sampling matrix are hypotheses."
  },
  {
   "property": "C70",
   "status": "proved",
   "theorems": [
    "Verif.Props.C70_attributes",
    "Verif.Props.C70_exists",
    "Verif.Props.C70_transform"
   ],
   "note": "C70_transform: the default frequencies are assumed to lie below the asymptotic region, where uhat is the transform of u."
  },
  {
   "property": "C71",
   "status": "proved",
   "theorems": [
    "Verif.Props.C71_augmented_default",
    "Verif.Props.C71_dlr_tau",
    "Verif.Props.C71_dlr_matsubara",
    "Verif.Props.C71_dlr_zero",
    "Verif.Props.C71_dlr_parity_negation",
    "Verif.Props.C71_dlr_default",
    "Verif.Props.C71_const_linear",
    "Verif.Props.C71_vertex"
   ],
   "note": "Frequencies of augmented bases below the asymptotic region; NaN in the sampling matrix is modelled as refusal."
  },
  {
   "property": "C72",
   "status": "proved",
   "theorems": [
    "Verif.Props.C72_norm",
    "Verif.Props.C72_parseval",
    "Verif.Props.C72_tau",
    "Verif.Props.C72_matsubara",
    "Verif.Props.C72_positive",
    "Verif.Props.C72_needed",
    "Verif.Props.C72_needed_matsubara",
    "Verif.Props.C72_needed_positive",
    "Verif.Props.C72_bound",
    "Verif.Props.C72_bound_matsubara"
   ],
   "note": "existence of lossless points, Parseval, lower bounds on the number of points"
  },
  {
   "property": "C73",
   "status": "proved",
   "theorems": [
    "Verif.Props.C73_tau",
    "Verif.Props.C73_matsubara",
    "Verif.Props.C73_positive"
   ],
   "note": "iff: lossless for enough distinct points and distinct poles, otherwise coefficients are lost; times, Matsubara frequencies, positive_only"
  },
  {
   "property": "C74",
   "status": "proved",
   "theorems": [
    "Verif.Props.C74_error",
    "Verif.Props.C74_bound",
    "Verif.Props.C74_exact",
    "Verif.Props.C74_sampling",
    "Verif.Props.C74_inexact",
    "Verif.Props.C74_parity_needed"
   ],
   "note": "Parities and jumps are hypotheses on the functions of the basis; exact arithmetic. C74_inexact and C74_parity_needed show that both matter."
  },
  {
   "property": "C75",
   "status": "proved",
   "theorems": [
    "Verif.Props.C75_exact",
    "Verif.Props.C75_exact_objects",
    "Verif.Props.C75_exact_reduced",
    "Verif.Props.C75_logistic",
    "Verif.Props.C75_logistic_plain",
    "Verif.Props.C75_needs_x_plus",
    "Verif.Props.C75_bose",
    "Verif.Props.C75_logistic_reduced",
    "Verif.Props.C75_bose_reduced",
    "Verif.Props.C75_logistic_odd",
    "Verif.Props.C75_bose_odd",
    "Verif.Props.C75_cancellation"
   ],
   "note": "For every arithmetic satisfying Arith.Ok u eta. C75_cancellation proves that the odd logistic kernel has no relative accuracy for large lambda*y and small x; C75_needs_x_plus that x_plus/x_minus are needed for an error without factor lambda. Overflow is not modelled."
  },
  {
   "property": "C76",
   "status": "proved",
   "theorems": [
    "Verif.Props.C76_exact",
    "Verif.Props.C76_exact_matrix",
    "Verif.Props.C76_exact_reduced",
    "Verif.Props.C76_exact_grid",
    "Verif.Props.C76_piecewise",
    "Verif.Props.C76_logistic",
    "Verif.Props.C76_logistic_even",
    "Verif.Props.C76_logistic_odd",
    "Verif.Props.C76_bose",
    "Verif.Props.C76_bose_even",
    "Verif.Props.C76_bose_odd",
    "Verif.Props.C76_sampling",
    "Verif.Props.C76_sampling_bose"
   ],
   "note": "All arithmetics, rules and segments as in the statement; the accuracy of the rule on [-1, 1] is a hypothesis."
  },
  {
   "property": "C77",
   "status": "proved",
   "theorems": [
    "Verif.Props.C77_weyl",
    "Verif.Props.C77_weyl_sharp",
    "Verif.Props.C77_truncate",
    "Verif.Props.C77_sampling"
   ],
   "note": "Backward stability of the SVD is a hypothesis."
  },
  {
   "property": "C78",
   "status": "proved",
   "theorems": [
    "Verif.Props.C78_vectors",
    "Verif.Props.C78_degenerate",
    "Verif.Props.C78_sampling"
   ],
   "note": "Backward stability of the SVD is a hypothesis; without separation the negation is proved."
  },
  {
   "property": "C79",
   "status": "proved",
   "theorems": [
    "Verif.Props.C79_exact",
    "Verif.Props.C79_call",
    "Verif.Props.C79_outside",
    "Verif.Props.C79_default_dx",
    "Verif.Props.C79_basis_u",
    "Verif.Props.C79_basis_v",
    "Verif.Props.C79_short_segment"
   ],
   "note": "Backward error analysis of the Clenshaw recurrence: the loop is exact for perturbed coefficients; the intermediate values are bounded by the growth of solutions of the Legendre recurrence, which is proved from a non-increasing quadratic form (also |P_n| <= 1)."
  },
  {
   "property": "C80",
   "status": "proved",
   "theorems": [
    "Verif.Props.C80_exact",
    "Verif.Props.C80_dot",
    "Verif.Props.C80_full",
    "Verif.Props.C80_split"
   ],
   "note": "Rounding errors of evaluate and fit for any order of summation and any SVD with a stated backward error; overflow is not modelled."
  },
  {
   "property": "C81",
   "status": "proved",
   "theorems": [
    "Verif.Props.C81_exact",
    "Verif.Props.C81_bisect",
    "Verif.Props.C81_find_all",
    "Verif.Props.C81_accuracy",
    "Verif.Props.C81_poly",
    "Verif.Props.C81_tiny"
   ],
   "note": "Termination and accuracy of the bisection in binary floating-point arithmetic with rounding to nearest, for normal magnitudes; for tiny magnitudes non-termination is proved (C81_tiny)."
  },
  {
   "property": "C82",
   "status": "proved",
   "theorems": [
    "Verif.Props.C82_exact",
    "Verif.Props.C82_tau",
    "Verif.Props.C82_matsubara",
    "Verif.Props.C82_positive",
    "Verif.Props.C82_transform",
    "Verif.Props.C82_poly"
   ],
   "note": "C82_tau, C82_matsubara, C82_positive: construction, evaluation and fit with all errors; C82_transform: from one set of points to another; C82_poly: the error of the basis functions; C82_exact: reduction to the model without rounding."
  },
  {
   "property": "C83",
   "status": "proved",
   "theorems": [
    "Verif.Props.C83_expansion",
    "Verif.Props.C83_centrosymm",
    "Verif.Props.C83_sampling",
    "Verif.Props.C83_logistic_near",
    "Verif.Props.C83_hints",
    "Verif.Props.C83_logistic"
   ],
   "note": "General bound for both strategies; numbers for the logistic kernel with 10 <= lambda <= 10^6. The regularised Bose kernel is covered by the general bound only."
  },
  {
   "property": "C84",
   "status": "proved",
   "theorems": [
    "Verif.Props.C84_greens",
    "Verif.Props.C84_matsubara",
    "Verif.Props.C84_logistic"
   ],
   "note": "Logistic kernel, 10 <= beta wmax <= 10^6; square integrable spectral functions."
  },
  {
   "property": "C85",
   "status": "proved",
   "theorems": [
    "Verif.Props.C85_values",
    "Verif.Props.C85_centrosymm",
    "Verif.Props.C85_sampling",
    "Verif.Props.C85_logistic",
    "Verif.Props.C85_basis"
   ],
   "note": "Factors with exactly orthonormal columns, product within delta of the matrix (relative, Frobenius)."
  },
  {
   "property": "C86",
   "status": "proved",
   "theorems": [
    "Verif.Props.C86_hints",
    "Verif.Props.C86_bose",
    "Verif.Props.C86_basis"
   ],
   "note": "All cut-offs up to 10^12. Analytic continuation with the removable singularity at y = 0, Cauchy estimates on discs around the hinted segments. Inexact decompositions as in C85."
  },
  {
   "property": "C87",
   "status": "proved",
   "theorems": [
    "Verif.Props.C87_point",
    "Verif.Props.C87_greens",
    "Verif.Props.C87_matsubara",
    "Verif.Props.C87_basis",
    "Verif.Props.C87_dlr"
   ],
   "note": "Pointwise error of the expansion for the logistic kernel with 10 <= beta*wmax <= 10^6, for any backward error of the decompositions; Green functions at every time and to_IR of the DLR. The rest of the arithmetic is exact."
  },
  {
   "property": "C88",
   "status": "proved",
   "theorems": [
    "Verif.Props.C88_hints",
    "Verif.Props.C88_logistic",
    "Verif.Props.C88_basis"
   ],
   "note": "Cut-offs from 10 to 10^9 and to 10^14, each with its own tail. Same method and assumptions as C83, C85 and C87."
  },
  {
   "property": "C89",
   "status": "proved",
   "theorems": [
    "Verif.Props.C89_exact",
    "Verif.Props.C89_centrosymm",
    "Verif.Props.C89_values",
    "Verif.Props.C89_logistic",
    "Verif.Props.C89_basis"
   ],
   "note": "The nodes and weights of the quadrature, and the factors sqrt(w) of the matrix, are exact here (their rounding: C76); the Bose kernel is C90."
  },
  {
   "property": "C90",
   "status": "proved",
   "theorems": [
    "Verif.Props.C90_exact",
    "Verif.Props.C90_values",
    "Verif.Props.C90_bose",
    "Verif.Props.C90_basis"
   ],
   "note": "Nodes, weights and square roots of weights are exact; the underflow condition limits the cut-off to about 5e5 in double precision."
  },
  {
   "property": "C91",
   "status": "proved",
   "theorems": [
    "Verif.Props.C91_basis",
    "Verif.Props.C91_large",
    "Verif.Props.C91_dlr"
   ],
   "note": "Nodes, weights and square roots of weights are exact (as C89); so are the evaluations of the basis functions (their rounding: C79)."
  },
  {
   "property": "C92",
   "status": "proved",
   "theorems": [
    "Verif.Props.C92_basis",
    "Verif.Props.C92_rounded"
   ],
   "note": "For the exact and the rounded kernel; lam <= 1e12. Only the kernel values are rounded; the SVD enters through its backward error."
  },
  {
   "property": "C93",
   "status": "proved",
   "theorems": [
    "Verif.Props.C93_tau",
    "Verif.Props.C93_matsubara",
    "Verif.Props.C93_points"
   ],
   "note": "For any points with a lower bound of the sampling matrix; such times exist for every basis (C93_points). That the default points provide one is not part of the claim."
  },
  {
   "property": "C94",
   "status": "proved",
   "theorems": [
    "Verif.Props.C94_roundtrip",
    "Verif.Props.C94_poles",
    "Verif.Props.C94_greens",
    "Verif.Props.C94_matsubara"
   ],
   "note": "For any poles that determine the functions v; such poles exist for every basis (C94_poles). That the default poles are of this kind is not part of the claim."
  }
 ]
}