{
 "claims": [
  {
   "property": "C01",
   "status": "proved",
   "theorems": [
    "Doa.Props.C01_ula_geometry",
    "Doa.Props.C01_ula_coarray"
   ],
   "note": ""
  },
  {
   "property": "C02",
   "status": "proved",
   "theorems": [
    "Doa.Props.C02_nested",
    "Doa.Props.C02_nested_positions"
   ],
   "note": ""
  },
  {
   "property": "C03",
   "status": "proved",
   "theorems": [
    "Doa.Props.C03_coprime_raises_iff",
    "Doa.Props.C03_coprime_elements",
    "Doa.Props.C03_coprime_swap",
    "Doa.Props.C03_coprime_positions"
   ],
   "note": ""
  },
  {
   "property": "C04",
   "status": "proved",
   "theorems": [
    "Doa.Props.C04_central_2m",
    "Doa.Props.C04_central_m"
   ],
   "note": ""
  },
  {
   "property": "C05",
   "status": "partial",
   "theorems": [
    "Doa.Props.C05_mrla_partial",
    "Doa.Props.C05_mrla_rejects",
    "Doa.Props.C05_n20_rejected",
    "Doa.Props.C05_mrla_positions"
   ],
   "note": "The constructor rejects n = 20 although the preset table and the documentation list it (C05_n20_rejected); everything else holds for 1..19."
  },
  {
   "property": "C06",
   "status": "partial",
   "theorems": [
    "Doa.Props.C06_uca_geometry",
    "Doa.Props.C06_uca_distinct",
    "Doa.Props.C06_uca_kwargs_dropped"
   ],
   "note": "Geometry and distinctness proved; the keyword arguments are accepted and dropped by the constructor (C06_uca_kwargs_dropped refutes that part)."
  },
  {
   "property": "C07",
   "status": "proved",
   "theorems": [
    "Doa.Props.C07_ura"
   ],
   "note": ""
  },
  {
   "property": "C08",
   "status": "proved",
   "theorems": [
    "Doa.Props.C08_placement",
    "Doa.Props.C08_errors",
    "Doa.Props.C08_scalar_eq_list",
    "Doa.Props.C08_attributes",
    "Doa.Props.C08_names"
   ],
   "note": ""
  },
  {
   "property": "C09",
   "status": "proved",
   "theorems": [
    "Doa.Props.C09_invariant",
    "Doa.Props.C09_accepts",
    "Doa.Props.C09_exceptions"
   ],
   "note": "The list form of GainErrors/PhaseErrors raises AttributeError (typo in the code) and a non-square coupling matrix is accepted by the constructor of MutualCoupling; both are modelled, see DESIGN.md."
  },
  {
   "property": "C10",
   "status": "proved",
   "theorems": [
    "Doa.Props.C10_copy",
    "Doa.Props.C10_isolation"
   ],
   "note": ""
  },
  {
   "property": "C11",
   "status": "proved",
   "theorems": [
    "Doa.Props.C11_modes"
   ],
   "note": ""
  },
  {
   "property": "C12",
   "status": "proved",
   "theorems": [
    "Doa.Props.C12_closed_form",
    "Doa.Props.C12_order",
    "Doa.Props.C12_order_matters"
   ],
   "note": ""
  },
  {
   "property": "C13",
   "status": "proved",
   "theorems": [
    "Doa.Props.C13_actual_locations"
   ],
   "note": ""
  },
  {
   "property": "C14",
   "status": "partial",
   "theorems": [
    "Doa.Props.C14_as_unit_1d",
    "Doa.Props.C14_as_unit_2d",
    "Doa.Props.C14_convert_angles_value",
    "Doa.Props.C14_as_unit_1d_unknown",
    "Doa.Props.C14_as_unit_near",
    "Doa.Props.C14_convert_angles_partial",
    "Doa.Props.C14_convert_angles_not_invertible"
   ],
   "note": "as_unit round trips proved in full; the documented invertibility range (-pi, pi) of convert_angles is refuted (C14_convert_angles_not_invertible), the true range is proved."
  },
  {
   "property": "C15",
   "status": "proved",
   "theorems": [
    "Doa.Props.C15_unit_independent_1d",
    "Doa.Props.C15_unit_independent_2d"
   ],
   "note": ""
  },
  {
   "property": "C16",
   "status": "proved",
   "theorems": [
    "Doa.Props.C16_derivative",
    "Doa.Props.C16_endfire"
   ],
   "note": ""
  },
  {
   "property": "C17",
   "status": "proved",
   "theorems": [
    "Doa.Props.C17_far_field_agree"
   ],
   "note": ""
  },
  {
   "property": "C18",
   "status": "proved",
   "theorems": [
    "Doa.Props.C18_embedding",
    "Doa.Props.C18_modulus",
    "Doa.Props.C18_translation"
   ],
   "note": ""
  },
  {
   "property": "C19",
   "status": "proved",
   "theorems": [
    "Doa.Props.C19_near_field_delays",
    "Doa.Props.C19_reference_swap",
    "Doa.Props.C19_far_field_limit"
   ],
   "note": ""
  },
  {
   "property": "C20",
   "status": "proved",
   "theorems": [
    "Doa.Props.C20_cart2spherical"
   ],
   "note": ""
  },
  {
   "property": "C21",
   "status": "proved",
   "theorems": [
    "Doa.Props.C21_from_z"
   ],
   "note": ""
  },
  {
   "property": "C22",
   "status": "partial",
   "theorems": [
    "Doa.Props.C22_near_field",
    "Doa.Props.C22_init_1d_partial",
    "Doa.Props.C22_out_of_range_1d_typeError",
    "Doa.Props.C22_init_2d"
   ],
   "note": "Accepted inputs are characterised exactly; the ValueError part is refuted for 1-D out-of-range locations, which raise TypeError (C22_out_of_range_1d_typeError)."
  },
  {
   "property": "C23",
   "status": "proved",
   "theorems": [
    "Doa.Props.C23_getitem",
    "Doa.Props.C23_slices",
    "Doa.Props.C23_errors",
    "Doa.Props.C23_independent"
   ],
   "note": ""
  },
  {
   "property": "C24",
   "status": "proved",
   "theorems": [
    "Doa.Props.C24_location_differences",
    "Doa.Props.C24_weights"
   ],
   "note": ""
  },
  {
   "property": "C25",
   "status": "proved",
   "theorems": [
    "Doa.Props.C25_aligned"
   ],
   "note": ""
  },
  {
   "property": "C26",
   "status": "proved",
   "theorems": [
    "Doa.Props.C26_central",
    "Doa.Props.C26_central_pos"
   ],
   "note": ""
  },
  {
   "property": "C27",
   "status": "proved",
   "theorems": [
    "Doa.Props.C27_selection"
   ],
   "note": ""
  },
  {
   "property": "C28",
   "status": "proved",
   "theorems": [
    "Doa.Props.C28_acm",
    "Doa.Props.C28_empty"
   ],
   "note": ""
  },
  {
   "property": "C29",
   "status": "partial",
   "theorems": [
    "Doa.Props.C29_virtual_ula_partial",
    "Doa.Props.C29_negative_basis"
   ],
   "note": "Proved for arrays whose stored d0 is the signed spacing (every scalar/list d0) and that have a name or get one; a negative 1x1 basis gives a mirrored virtual ULA (C29_negative_basis) and an unnamed array raises TypeError."
  },
  {
   "property": "C30",
   "status": "proved",
   "theorems": [
    "Doa.Props.C30_unique_rows_cover",
    "Doa.Props.C30_unique_rows_exact",
    "Doa.Props.C30_unique_rows_sorted",
    "Doa.Props.C30_unique_rows_edge",
    "Doa.Props.C30_unique_differences",
    "Doa.Props.C30_differences_cover"
   ],
   "note": ""
  },
  {
   "property": "C31",
   "status": "proved",
   "theorems": [
    "Doa.Props.C31_cartesian",
    "Doa.Props.C31_ravel_unravel",
    "Doa.Props.C31_ura_indices",
    "Doa.Props.C31_grid_point_2d",
    "Doa.Props.C31_grid_point_1d"
   ],
   "note": ""
  },
  {
   "property": "C32",
   "status": "proved",
   "theorems": [
    "Doa.Props.C32_khatri_rao_raises",
    "Doa.Props.C32_khatri_rao_columns",
    "Doa.Props.C32_vec",
    "Doa.Props.C32_vec_identity"
   ],
   "note": ""
  },
  {
   "property": "C33",
   "status": "proved",
   "theorems": [
    "Doa.Props.C33_projm",
    "Doa.Props.C33_projm_pinv",
    "Doa.Props.C33_projm_agree",
    "Doa.Props.C33_pinv_penrose"
   ],
   "note": ""
  },
  {
   "property": "C34",
   "status": "proved",
   "theorems": [
    "Doa.Props.C34_grid_1d",
    "Doa.Props.C34_default_1d",
    "Doa.Props.C34_grid_2d",
    "Doa.Props.C34_default_2d",
    "Doa.Props.C34_unknown_unit"
   ],
   "note": ""
  },
  {
   "property": "C35",
   "status": "partial",
   "theorems": [
    "Doa.Props.C35_segments_unusable",
    "Doa.Props.C35_segments_overwritten",
    "Doa.Props.C35_single_segment_partial"
   ],
   "note": "Refuted in general: offset is never advanced (C35_segments_overwritten) and the (n,1) location array is rejected by the source placement (C35_segments_unusable). Only the points of a single segment are as documented."
  },
  {
   "property": "C36",
   "status": "proved",
   "theorems": [
    "Doa.Props.C36_refined_axes",
    "Doa.Props.C36_contains_point",
    "Doa.Props.C36_errors"
   ],
   "note": ""
  },
  {
   "property": "C37",
   "status": "proved",
   "theorems": [
    "Doa.Props.C37_largest_peaks",
    "Doa.Props.C37_default_peak_finder",
    "Doa.Props.C37_peaks_1d_interior",
    "Doa.Props.C37_peaks_2d"
   ],
   "note": ""
  },
  {
   "property": "C38",
   "status": "proved",
   "theorems": [
    "Doa.Props.C38_caching_transparent"
   ],
   "note": ""
  },
  {
   "property": "C39",
   "status": "proved",
   "theorems": [
    "Doa.Props.C39_repeatable",
    "Doa.Props.C39_grid_unchanged",
    "Doa.Props.C39_returned_independent"
   ],
   "note": ""
  },
  {
   "property": "C40",
   "status": "proved",
   "theorems": [
    "Doa.Props.C40_refined_estimates",
    "Doa.Props.C40_no_iterations"
   ],
   "note": ""
  },
  {
   "property": "C41",
   "status": "partial",
   "theorems": [
    "Doa.Props.C41_near_field_not_instantiable",
    "Doa.Props.C41_refined_grids_partial"
   ],
   "note": "Proved for the far-field grids; NearField2DSearchGrid raises TypeError on instantiation because it overrides create_refined_grids_at instead of create_refined_grid_at (C41_near_field_not_instantiable)."
  },
  {
   "property": "C42",
   "status": "partial",
   "theorems": [
    "Doa.Props.C42_perturbation_arguments",
    "Doa.Props.C42_detector_scalar",
    "Doa.Props.C42_sparse_column",
    "Doa.Props.C42_sparse_shape",
    "Doa.Props.C42_covariance_guard_partial",
    "Doa.Props.C42_nonsquare_accepted",
    "Doa.Props.C42_n_resolvable",
    "Doa.Props.C42_estimators"
   ],
   "note": "ensure_covariance_size checks R.shape[0] twice, so a non-square covariance with the right number of rows is accepted (C42_nonsquare_accepted); the row guard and the resolvable-source guards are proved. SparseCovarianceMatching with known noise broadcasts a single column in place of the covariance (C42_sparse_column) and raises ValueError for every other wrong number of columns (C42_sparse_shape)."
  },
  {
   "property": "C43",
   "status": "proved",
   "theorems": [
    "Doa.Props.C43_calibrated",
    "Doa.Props.C43_unknown_ignored",
    "Doa.Props.C43_calibrated_ula",
    "Doa.Props.C43_music_2d",
    "Doa.Props.C43_noise_subspace",
    "Doa.Props.C43_music_spectrum",
    "Doa.Props.C43_music_recovers",
    "Doa.Props.C43_music_ula",
    "Doa.Props.C43_music_ura"
   ],
   "note": ""
  },
  {
   "property": "C44",
   "status": "proved",
   "theorems": [
    "Doa.Props.C44_no_spurious",
    "Doa.Props.C44_min_norm_ula",
    "Doa.Props.C44_min_norm_vector",
    "Doa.Props.C44_min_norm_spectrum",
    "Doa.Props.C44_first_row_ula"
   ],
   "note": ""
  },
  {
   "property": "C45",
   "status": "proved",
   "theorems": [
    "Doa.Props.C45_coefficients",
    "Doa.Props.C45_values",
    "Doa.Props.C45_circle_roots",
    "Doa.Props.C45_root_pairs"
   ],
   "note": ""
  },
  {
   "property": "C46",
   "status": "partial",
   "theorems": [
    "Doa.Props.C46_selection_partial",
    "Doa.Props.C46_violated",
    "Doa.Props.C46_estimate_partial",
    "Doa.Props.C46_guards",
    "Doa.Props.C46_exact_covariance",
    "Doa.Props.C46_wrong_doa",
    "Doa.Props.C46_partner"
   ],
   "note": "Proved when every circle root occurs exactly twice or not at all: the selection (C46_selection_partial), the whole estimator including default spacing, unit, order and validity (C46_estimate_partial) and the guards (C46_guards). Circle roots should be counted once but both copies are dropped (C46_violated), because the loop does not check that a root was already discarded; with an exact ULA covariance this discards exactly the roots of the sources (C46_exact_covariance), and one broadside source on three sensors is reported at endfire (C46_wrong_doa)."
  },
  {
   "property": "C47",
   "status": "partial",
   "theorems": [
    "Doa.Props.C47_guards_partial",
    "Doa.Props.C47_rotation_partial",
    "Doa.Props.C47_esprit_partial",
    "Doa.Props.C47_single_source",
    "Doa.Props.C47_default_weights_wrong"
   ],
   "note": "Exact recovery proved end to end for LS and TLS without row weights and with weights on non-overlapping subarrays, and for one source (LS and TLS) with any positive weights (C47_single_source). For overlapping subarrays the weights are applied twice to shared rows (in-place on views) and the claim is refuted for the default arguments (C47_default_weights_wrong)."
  },
  {
   "property": "C48",
   "status": "proved",
   "theorems": [
    "Doa.Props.C48_bartlett",
    "Doa.Props.C48_mvdr",
    "Doa.Props.C48_guards"
   ],
   "note": ""
  },
  {
   "property": "C49",
   "status": "proved",
   "theorems": [
    "Doa.Props.C49_guard",
    "Doa.Props.C49_smooth",
    "Doa.Props.C49_structure",
    "Doa.Props.C49_decorrelates"
   ],
   "note": ""
  },
  {
   "property": "C50",
   "status": "proved",
   "theorems": [
    "Doa.Props.C50_statistic",
    "Doa.Props.C50_minimiser",
    "Doa.Props.C50_no_overestimate",
    "Doa.Props.C50_consistent",
    "Doa.Props.C50_covariance"
   ],
   "note": ""
  },
  {
   "property": "C51",
   "status": "proved",
   "theorems": [
    "Doa.Props.C51_result",
    "Doa.Props.C51_ideal",
    "Doa.Props.C51_covariance",
    "Doa.Props.C51_scale_dependent"
   ],
   "note": ""
  },
  {
   "property": "C52",
   "status": "proved",
   "theorems": [
    "Doa.Props.C52_default_row_weights"
   ],
   "note": ""
  },
  {
   "property": "C53",
   "status": "proved",
   "theorems": [
    "Doa.Props.C53_estimate",
    "Doa.Props.C53_guards",
    "Doa.Props.C53_int_guess",
    "Doa.Props.C53_in_range",
    "Doa.Props.C53_user_views",
    "Doa.Props.C53_last_estimates",
    "Doa.Props.C53_last_after_success"
   ],
   "note": ""
  },
  {
   "property": "C54",
   "status": "partial",
   "theorems": [
    "Doa.Props.C54_cml_value",
    "Doa.Props.C54_cml_minimum",
    "Doa.Props.C54_cml_unique",
    "Doa.Props.C54_wsf",
    "Doa.Props.C54_aml_minimum",
    "Doa.Props.C54_aml_unique",
    "Doa.Props.C54_ula",
    "Doa.Props.C54_aml_ambiguous",
    "Doa.Props.C54_nll_partial",
    "Doa.Props.C54_nll_infinite"
   ],
   "note": "CML, WSF and AML objectives characterised fully; for the stochastic ML objective the code returns inf when det S < 1 (C54_nll_infinite), so only the part with nonnegative log-determinant holds (C54_nll_partial). AML uniqueness needs 2k < m (C54_aml_ambiguous)."
  },
  {
   "property": "C55",
   "status": "proved",
   "theorems": [
    "Doa.Props.C55_linear_model",
    "Doa.Props.C55_recovers",
    "Doa.Props.C55_ula_identifiable",
    "Doa.Props.C55_guards",
    "Doa.Props.C55_ula"
   ],
   "note": ""
  },
  {
   "property": "C56",
   "status": "partial",
   "theorems": [
    "Doa.Props.C56_accepts",
    "Doa.Props.C56_covariance",
    "Doa.Props.C56_random_phase_partial",
    "Doa.Props.C56_scalar_amplitude_violated"
   ],
   "note": "Proved for ComplexStochasticSignal and vector amplitudes of RandomPhaseSignal; refuted for scalar amplitudes (np.full arguments swapped, C56_scalar_amplitude_violated)."
  },
  {
   "property": "C57",
   "status": "proved",
   "theorems": [
    "Doa.Props.C57_snapshots",
    "Doa.Props.C57_errors",
    "Doa.Props.C57_noise_broadcast",
    "Doa.Props.C57_covariance",
    "Doa.Props.C57_expected_covariance"
   ],
   "note": "Also shown: a noise generator of dimension 1 is broadcast to all sensors instead of being rejected (C57_noise_broadcast)."
  },
  {
   "property": "C58",
   "status": "proved",
   "theorems": [
    "Doa.Props.C58_symmetric",
    "Doa.Props.C58_scaling",
    "Doa.Props.C58_positive",
    "Doa.Props.C58_returns",
    "Doa.Props.C58_sto_information",
    "Doa.Props.C58_det_information",
    "Doa.Props.C58_ula",
    "Doa.Props.C58_modes",
    "Doa.Props.C58_source_type",
    "Doa.Props.C58_power_formats"
   ],
   "note": ""
  },
  {
   "property": "C59",
   "status": "partial",
   "theorems": [
    "Doa.Props.C59_information_partial",
    "Doa.Props.C59_real_partial",
    "Doa.Props.C59_single_partial",
    "Doa.Props.C59_violated"
   ],
   "note": "Every block of the inverted matrix except the power-power block is the Fisher information (C59_information_partial), and the result is the bound for one source or real cross terms (C59_single_partial, C59_real_partial). Refuted in general: FIM_pp uses the real part of a square instead of a squared modulus, and for two sources on a 3-element ULA the reported value lies strictly below the bound (C59_violated)."
  },
  {
   "property": "C60",
   "status": "partial",
   "theorems": [
    "Doa.Props.C60_noise_free_partial",
    "Doa.Props.C60_violated",
    "Doa.Props.C60_first_order_partial",
    "Doa.Props.C60_modes",
    "Doa.Props.C60_scaling",
    "Doa.Props.C60_covariance",
    "Doa.Props.C60_guards",
    "Doa.Props.C60_too_many",
    "Doa.Props.C60_formula",
    "Doa.Props.C60_estimates_partial"
   ],
   "note": "Proved for every array/source/power/noise: output modes, guards (perturbed arrays, k >= v), 1/n scaling, symmetry and positive semidefiniteness, the closed form as the covariance of the first-order MUSIC errors on the augmented covariance (C60_formula), and its meaning as the derivative of the coarray MUSIC estimate for half-wavelength base spacing (C60_first_order_partial, C60_noise_free_partial); such estimate paths exist (C60_estimates_partial). The claim that the array's own base spacing is used is false of the code (lambda/2 hard-coded) and refuted with a concrete array (C60_violated)."
  },
  {
   "property": "C61",
   "status": "proved",
   "theorems": [
    "Doa.Props.C61_matrix",
    "Doa.Props.C61_vector",
    "Doa.Props.C61_reduce"
   ],
   "note": ""
  },
  {
   "property": "C62",
   "status": "partial",
   "theorems": [
    "Doa.Props.C62_normalize",
    "Doa.Props.C62_accepts",
    "Doa.Props.C62_curves",
    "Doa.Props.C62_axes_partial",
    "Doa.Props.C62_axes_violated",
    "Doa.Props.C62_new_axes",
    "Doa.Props.C62_rejected_but_drawn",
    "Doa.Props.C62_dispatch",
    "Doa.Props.C62_image",
    "Doa.Props.C62_registration_partial",
    "Doa.Props.C62_registration_violated",
    "Doa.Props.C62_nominal",
    "Doa.Props.C62_coarray_points",
    "Doa.Props.C62_location_errors_never_shown",
    "Doa.Props.C62_location_errors_violated",
    "Doa.Props.C62_aspect_ranges",
    "Doa.Props.C62_aspect_contains_partial",
    "Doa.Props.C62_aspect_violated"
   ],
   "note": "Curve data, normalisation, acceptance, dispatch, nominal markers, coarray points proved. Full claim is false of the code and refuted by theorems: spectra are drawn on pyplot's current axes rather than the given ones (C62_axes_violated), image registration is wrong on a non-uniform axis (C62_registration_violated), location errors are never displayed (C62_location_errors_violated), the equal-aspect helper can leave points outside the view (C62_aspect_violated). What holds under the matching extra hypothesis is proved in the _partial theorems."
  },
  {
   "property": "C63",
   "status": "proved",
   "theorems": [
    "Doa.Props.C63_init",
    "Doa.Props.C63_solve",
    "Doa.Props.C63_memoryless",
    "Doa.Props.C63_penalized_unique",
    "Doa.Props.C63_bad_arguments",
    "Doa.Props.C63_solve_l21",
    "Doa.Props.C63_example"
   ],
   "note": ""
  },
  {
   "property": "C64",
   "status": "proved",
   "theorems": [
    "Doa.Props.C64_too_many",
    "Doa.Props.C64_modes",
    "Doa.Props.C64_scaling",
    "Doa.Props.C64_covariance",
    "Doa.Props.C64_returns",
    "Doa.Props.C64_first_order"
   ],
   "note": ""
  },
  {
   "property": "C65",
   "status": "partial",
   "theorems": [
    "Doa.Props.C65_element_locations",
    "Doa.Props.C65_actual_locations_alias"
   ],
   "note": "Proved for element_locations; refuted for actual_element_locations, which returns the internal buffer when there are no location errors (C65_actual_locations_alias)."
  },
  {
   "property": "C66",
   "status": "proved",
   "theorems": [
    "Doa.Props.C66_l1_svd"
   ],
   "note": ""
  },
  {
   "property": "C67",
   "status": "proved",
   "theorems": [
    "Doa.Props.C67_guards",
    "Doa.Props.C67_recovers"
   ],
   "note": ""
  },
  {
   "property": "C68",
   "status": "partial",
   "theorems": [
    "Doa.Props.C68_failure_1d_partial",
    "Doa.Props.C68_failure_2d"
   ],
   "note": "Holds on 1-D grids (C68_failure_1d_partial); violated by the code on 2-D grids (C68_failure_2d): the all-zero spectrum makes every grid point a peak."
  },
  {
   "property": "C69",
   "status": "proved",
   "theorems": [
    "Doa.Props.C69_ordering",
    "Doa.Props.C69_ula"
   ],
   "note": ""
  },
  {
   "property": "C70",
   "status": "proved",
   "theorems": [
    "Doa.Props.C70_coarray_music",
    "Doa.Props.C70_coarray_esprit"
   ],
   "note": ""
  },
  {
   "property": "C71",
   "status": "proved",
   "theorems": [
    "Doa.Props.C71_units"
   ],
   "note": ""
  },
  {
   "property": "C72",
   "status": "partial",
   "theorems": [
    "Doa.Props.C72_translation_partial",
    "Doa.Props.C72_uncorrelated_partial",
    "Doa.Props.C72_stouc_single_partial",
    "Doa.Props.C72_stouc_violated"
   ],
   "note": "Proved for crb_sto, crb_det and ecov_music on every array, displacement and source covariance (C72_translation_partial; same arguments for uncorrelated sources, C72_uncorrelated_partial), and for crb_stouc with one source. False of crb_stouc in general and refuted: moving the origin of a 3-element ULA to its middle sensor changes the returned bound (C72_stouc_violated), a consequence of the FIM_pp defect of C59."
  },
  {
   "property": "C73",
   "status": "proved",
   "theorems": [
    "Doa.Props.C73_sto",
    "Doa.Props.C73_det",
    "Doa.Props.C73_music",
    "Doa.Props.C73_snr",
    "Doa.Props.C73_coarray_snr",
    "Doa.Props.C73_no_snapshots"
   ],
   "note": ""
  },
  {
   "property": "C74",
   "status": "proved",
   "theorems": [
    "Doa.Props.C74_sensors",
    "Doa.Props.C74_sources",
    "Doa.Props.C74_coarray_sources",
    "Doa.Props.C74_coarray_sensors"
   ],
   "note": ""
  },
  {
   "property": "C75",
   "status": "proved",
   "theorems": [
    "Doa.Props.C75_consistent",
    "Doa.Props.C75_constructor",
    "Doa.Props.C75_copies",
    "Doa.Props.C75_dictionary"
   ],
   "note": ""
  },
  {
   "property": "C76",
   "status": "proved",
   "theorems": [
    "Doa.Props.C76_music",
    "Doa.Props.C76_esprit"
   ],
   "note": ""
  },
  {
   "property": "C77",
   "status": "proved",
   "theorems": [
    "Doa.Props.C77_one_dimensional",
    "Doa.Props.C77_two_dimensional",
    "Doa.Props.C77_ula",
    "Doa.Props.C77_ura"
   ],
   "note": ""
  },
  {
   "property": "C78",
   "status": "proved",
   "theorems": [
    "Doa.Props.C78_far_field",
    "Doa.Props.C78_near_field",
    "Doa.Props.C78_derivatives",
    "Doa.Props.C78_flatten"
   ],
   "note": ""
  },
  {
   "property": "C79",
   "status": "proved",
   "theorems": [
    "Doa.Props.C79_steering",
    "Doa.Props.C79_bounds",
    "Doa.Props.C79_coarray"
   ],
   "note": ""
  },
  {
   "property": "C80",
   "status": "proved",
   "theorems": [
    "Doa.Props.C80_in_plane",
    "Doa.Props.C80_cone",
    "Doa.Props.C80_up_down",
    "Doa.Props.C80_mirror",
    "Doa.Props.C80_grating_lobes"
   ],
   "note": ""
  },
  {
   "property": "C81",
   "status": "proved",
   "theorems": [
    "Doa.Props.C81_order",
    "Doa.Props.C81_bartlett",
    "Doa.Props.C81_mvdr",
    "Doa.Props.C81_subspace",
    "Doa.Props.C81_root_music",
    "Doa.Props.C81_esprit",
    "Doa.Props.C81_source_number",
    "Doa.Props.C81_root_music_any"
   ],
   "note": ""
  },
  {
   "property": "C82",
   "status": "proved",
   "theorems": [
    "Doa.Props.C82_beamformers",
    "Doa.Props.C82_subspace",
    "Doa.Props.C82_length_unit"
   ],
   "note": ""
  },
  {
   "property": "C83",
   "status": "proved",
   "theorems": [
    "Doa.Props.C83_noise_subspace",
    "Doa.Props.C83_music",
    "Doa.Props.C83_music_2d",
    "Doa.Props.C83_min_norm_ula",
    "Doa.Props.C83_beamformers",
    "Doa.Props.C83_beamformers_one",
    "Doa.Props.C83_beamformers_ula",
    "Doa.Props.C83_music_ula",
    "Doa.Props.C83_music_ura"
   ],
   "note": ""
  },
  {
   "property": "C84",
   "status": "proved",
   "theorems": [
    "Doa.Props.C84_sample_covariance",
    "Doa.Props.C84_probability",
    "Doa.Props.C84_almost_surely",
    "Doa.Props.C84_music",
    "Doa.Props.C84_music_2d",
    "Doa.Props.C84_music_ula",
    "Doa.Props.C84_music_ura",
    "Doa.Props.C84_min_norm_ula",
    "Doa.Props.C84_beamformers_ula"
   ],
   "note": ""
  },
  {
   "property": "C85",
   "status": "proved",
   "theorems": [
    "Doa.Props.C85_esprit",
    "Doa.Props.C85_consistent"
   ],
   "note": ""
  },
  {
   "property": "C86",
   "status": "proved",
   "theorems": [
    "Doa.Props.C86_esprit",
    "Doa.Props.C86_music",
    "Doa.Props.C86_esprit_consistent",
    "Doa.Props.C86_music_consistent"
   ],
   "note": ""
  },
  {
   "property": "C87",
   "status": "proved",
   "theorems": [
    "Doa.Props.C87_root_music",
    "Doa.Props.C87_consistent",
    "Doa.Props.C87_coarray"
   ],
   "note": ""
  },
  {
   "property": "C88",
   "status": "proved",
   "theorems": [
    "Doa.Props.C88_rate",
    "Doa.Props.C88_property"
   ],
   "note": ""
  },
  {
   "property": "C89",
   "status": "proved",
   "theorems": [
    "Doa.Props.C89_no_underestimate",
    "Doa.Props.C89_mdl",
    "Doa.Props.C89_sorte",
    "Doa.Props.C89_mdl_consistent",
    "Doa.Props.C89_aic_consistent",
    "Doa.Props.C89_sorte_consistent",
    "Doa.Props.C89_ula",
    "Doa.Props.C89_needs_small_deviation"
   ],
   "note": ""
  },
  {
   "property": "C90",
   "status": "proved",
   "theorems": [
    "Doa.Props.C90_steering",
    "Doa.Props.C90_accuracy"
   ],
   "note": ""
  },
  {
   "property": "C91",
   "status": "partial",
   "theorems": [
    "Doa.Props.C91_dimensions_partial",
    "Doa.Props.C91_output_size_partial",
    "Doa.Props.C91_vector_sensors_violated"
   ],
   "note": "Proved for every history of array operations: actual_ndim, and size, ndim, output_size of copies; output_size is the number of measured values for scalar sensors. The documented output size of vector sensor arrays is false of the code (output_size always returns size) and refuted for every non-empty array of vector sensors (C91_vector_sensors_violated)."
  },
  {
   "property": "C92",
   "status": "partial",
   "theorems": [
    "Doa.Props.C92_from_z_partial",
    "Doa.Props.C92_half_wavelength",
    "Doa.Props.C92_esprit_violated",
    "Doa.Props.C92_endfire_violated"
   ],
   "note": "Proved: the exact outcome of from_z for every list of complex numbers, unit and positive spacing (C92_from_z_partial), and that spacings of at least half a wavelength never fail (C92_half_wavelength). Refuted for finer sampling: in radians and degrees the placement returned contains NaN instead of an exception being raised, and ESPRIT passes it on as a resolved estimate (C92_esprit_violated), for sources at endfire on covariances arbitrarily close to the exact one (C92_endfire_violated)."
  },
  {
   "property": "C93",
   "status": "proved",
   "theorems": [
    "Doa.Props.C93_eigenvalues",
    "Doa.Props.C93_rank",
    "Doa.Props.C93_noise_free",
    "Doa.Props.C93_few_snapshots",
    "Doa.Props.C93_few_snapshots_violated",
    "Doa.Props.C93_negative",
    "Doa.Props.C93_rounding_violated"
   ],
   "note": ""
  },
  {
   "property": "C94",
   "status": "proved",
   "theorems": [
    "Doa.Props.C94_det",
    "Doa.Props.C94_sto",
    "Doa.Props.C94_music"
   ],
   "note": ""
  },
  {
   "property": "C95",
   "status": "proved",
   "theorems": [
    "Doa.Props.C95_monotone",
    "Doa.Props.C95_value",
    "Doa.Props.C95_bounds",
    "Doa.Props.C95_uncorrelated",
    "Doa.Props.C95_resolves",
    "Doa.Props.C95_ula",
    "Doa.Props.C95_snapshots"
   ],
   "note": ""
  },
  {
   "property": "C96",
   "status": "partial",
   "theorems": [
    "Doa.Props.C96_snapshots",
    "Doa.Props.C96_noise_violated",
    "Doa.Props.C96_sample_covariance",
    "Doa.Props.C96_estimation_violated",
    "Doa.Props.C96_no_input_violated",
    "Doa.Props.C96_single_sensor_violated",
    "Doa.Props.C96_bounds"
   ],
   "note": "Proved: the flattened snapshots and their covariance, its almost sure convergence to the model, RuntimeError of the bounds. That the estimators can be used with such arrays is false of the code and refuted for every array of vector sensors (C96_estimation_violated, C96_no_input_violated, C96_single_sensor_violated, C96_noise_violated). For MVDR, Bartlett, MUSIC and Min-Norm only the shapes are followed, up to the exception."
  },
  {
   "property": "C97",
   "status": "partial",
   "theorems": [
    "Doa.Props.C97_integer_axes",
    "Doa.Props.C97_integer_axes_violated"
   ],
   "note": "The code violates the claim: refined locations are written into the integer array of the estimates and lose their fractional part (C97_integer_axes_violated: the refined estimate is worse than the unrefined one). Proved instead, for all integer grids, spectra and histories: the result is that of the float grid rounded towards zero (C97_integer_axes); unrefined calls agree."
  },
  {
   "property": "C98",
   "status": "proved",
   "theorems": [
    "Doa.Props.C98_stable",
    "Doa.Props.C98_estimate",
    "Doa.Props.C98_consistent"
   ],
   "note": ""
  },
  {
   "property": "C99",
   "status": "proved",
   "theorems": [
    "Doa.Props.C99_nonexpansive",
    "Doa.Props.C99_music",
    "Doa.Props.C99_esprit",
    "Doa.Props.C99_consistent"
   ],
   "note": ""
  },
  {
   "property": "C100",
   "status": "proved",
   "theorems": [
    "Doa.Props.C100_unambiguous",
    "Doa.Props.C100_two_dimensional",
    "Doa.Props.C100_one_dimensional",
    "Doa.Props.C100_cyclic",
    "Doa.Props.C100_spacing_needed"
   ],
   "note": ""
  },
  {
   "property": "C101",
   "status": "proved",
   "theorems": [
    "Doa.Props.C101_music",
    "Doa.Props.C101_beamformers",
    "Doa.Props.C101_nested",
    "Doa.Props.C101_coprime",
    "Doa.Props.C101_mrla",
    "Doa.Props.C101_run_needed"
   ],
   "note": ""
  },
  {
   "property": "C102",
   "status": "proved",
   "theorems": [
    "Doa.Props.C102_one_dimensional",
    "Doa.Props.C102_two_dimensional",
    "Doa.Props.C102_circular",
    "Doa.Props.C102_linear"
   ],
   "note": ""
  },
  {
   "property": "C103",
   "status": "proved",
   "theorems": [
    "Doa.Props.C103_toeplitz",
    "Doa.Props.C103_uncorrelated",
    "Doa.Props.C103_bartlett"
   ],
   "note": ""
  },
  {
   "property": "C104",
   "status": "proved",
   "theorems": [
    "Doa.Props.C104_steering",
    "Doa.Props.C104_covariance",
    "Doa.Props.C104_beamformers",
    "Doa.Props.C104_subspace",
    "Doa.Props.C104_real",
    "Doa.Props.C104_linear",
    "Doa.Props.C104_bounds",
    "Doa.Props.C104_augmentation",
    "Doa.Props.C104_coarray_bound",
    "Doa.Props.C104_esprit",
    "Doa.Props.C104_root_music",
    "Doa.Props.C104_boundary_violated"
   ],
   "note": ""
  },
  {
   "property": "C105",
   "status": "proved",
   "theorems": [
    "Doa.Props.C105_spectrum",
    "Doa.Props.C105_unresolved",
    "Doa.Props.C105_snapshots",
    "Doa.Props.C105_mvdr",
    "Doa.Props.C105_orthogonal"
   ],
   "note": ""
  },
  {
   "property": "C106",
   "status": "proved",
   "theorems": [
    "Doa.Props.C106_chain",
    "Doa.Props.C106_esprit",
    "Doa.Props.C106_root_music",
    "Doa.Props.C106_music"
   ],
   "note": ""
  },
  {
   "property": "C107",
   "status": "proved",
   "theorems": [
    "Doa.Props.C107_too_few",
    "Doa.Props.C107_counts",
    "Doa.Props.C107_locates"
   ],
   "note": ""
  },
  {
   "property": "C108",
   "status": "proved",
   "theorems": [
    "Doa.Props.C108_rank",
    "Doa.Props.C108_smoothed",
    "Doa.Props.C108_locates"
   ],
   "note": ""
  },
  {
   "property": "C109",
   "status": "proved",
   "theorems": [
    "Doa.Props.C109_same_data",
    "Doa.Props.C109_esprit",
    "Doa.Props.C109_music",
    "Doa.Props.C109_only_ramps",
    "Doa.Props.C109_wrong_scale",
    "Doa.Props.C109_stretch",
    "Doa.Props.C109_stretch_atoms",
    "Doa.Props.C109_stretch_esprit"
   ],
   "note": ""
  },
  {
   "property": "C110",
   "status": "proved",
   "theorems": [
    "Doa.Props.C110_ls",
    "Doa.Props.C110_tls",
    "Doa.Props.C110_tls_found",
    "Doa.Props.C110_estimate",
    "Doa.Props.C110_weighted"
   ],
   "note": ""
  }
 ]
}