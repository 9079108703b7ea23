{
 "C05": {
  "status": "partial",
  "note": "The constructor rejects n = 20 although the preset table and the documentation list it (C05_n20_rejected); everything else holds for 1..19."
 },
 "C06": {
  "status": "partial",
  "note": "Geometry and distinctness proved; the keyword arguments are accepted and dropped by the constructor (C06_uca_kwargs_dropped refutes that part)."
 },
 "C65": {
  "status": "partial",
  "note": "Proved for element_locations; refuted for actual_element_locations, which returns the internal buffer when there are no location errors (C65_actual_locations_alias)."
 },
 "C09": {
  "note": "The list form of GainErrors/PhaseErrors raises AttributeError (typo in the code) and a non-square coupling matrix is accepted by the constructor of MutualCoupling; both are modelled, see DESIGN.md."
 },
 "C14": {
  "status": "partial",
  "note": "as_unit round trips proved in full; the documented invertibility range (-pi, pi) of convert_angles is refuted (C14_convert_angles_not_invertible), the true range is proved."
 },
 "C22": {
  "status": "partial",
  "note": "Accepted inputs are characterised exactly; the ValueError part is refuted for 1-D out-of-range locations, which raise TypeError (C22_out_of_range_1d_typeError)."
 },
 "C29": {
  "status": "partial",
  "note": "Proved for arrays whose stored d0 is the signed spacing (every scalar/list d0) and that have a name or get one; a negative 1x1 basis gives a mirrored virtual ULA (C29_negative_basis) and an unnamed array raises TypeError."
 },
 "C35": {
  "status": "partial",
  "note": "Refuted in general: offset is never advanced (C35_segments_overwritten) and the (n,1) location array is rejected by the source placement (C35_segments_unusable). Only the points of a single segment are as documented."
 },
 "C41": {
  "status": "partial",
  "note": "Proved for the far-field grids; NearField2DSearchGrid raises TypeError on instantiation because it overrides create_refined_grids_at instead of create_refined_grid_at (C41_near_field_not_instantiable)."
 },
 "C42": {
  "status": "partial",
  "note": "ensure_covariance_size checks R.shape[0] twice, so a non-square covariance with the right number of rows is accepted (C42_nonsquare_accepted); the row guard and the resolvable-source guards are proved. SparseCovarianceMatching with known noise broadcasts a single column in place of the covariance (C42_sparse_column) and raises ValueError for every other wrong number of columns (C42_sparse_shape)."
 },
 "C46": {
  "status": "partial",
  "note": "Proved when every circle root occurs exactly twice or not at all: the selection (C46_selection_partial), the whole estimator including default spacing, unit, order and validity (C46_estimate_partial) and the guards (C46_guards). Circle roots should be counted once but both copies are dropped (C46_violated), because the loop does not check that a root was already discarded; with an exact ULA covariance this discards exactly the roots of the sources (C46_exact_covariance), and one broadside source on three sensors is reported at endfire (C46_wrong_doa)."
 },
 "C47": {
  "status": "partial",
  "note": "Exact recovery proved end to end for LS and TLS without row weights and with weights on non-overlapping subarrays, and for one source (LS and TLS) with any positive weights (C47_single_source). For overlapping subarrays the weights are applied twice to shared rows (in-place on views) and the claim is refuted for the default arguments (C47_default_weights_wrong)."
 },
 "C54": {
  "status": "partial",
  "note": "CML, WSF and AML objectives characterised fully; for the stochastic ML objective the code returns inf when det S < 1 (C54_nll_infinite), so only the part with nonnegative log-determinant holds (C54_nll_partial). AML uniqueness needs 2k < m (C54_aml_ambiguous)."
 },
 "C68": {
  "status": "partial",
  "note": "Holds on 1-D grids (C68_failure_1d_partial); violated by the code on 2-D grids (C68_failure_2d): the all-zero spectrum makes every grid point a peak."
 },
 "C56": {
  "status": "partial",
  "note": "Proved for ComplexStochasticSignal and vector amplitudes of RandomPhaseSignal; refuted for scalar amplitudes (np.full arguments swapped, C56_scalar_amplitude_violated)."
 },
 "C57": {
  "note": "Also shown: a noise generator of dimension 1 is broadcast to all sensors instead of being rejected (C57_noise_broadcast)."
 },
 "C59": {
  "status": "partial",
  "note": "Every block of the inverted matrix except the power-power block is the Fisher information (C59_information_partial), and the result is the bound for one source or real cross terms (C59_single_partial, C59_real_partial). Refuted in general: FIM_pp uses the real part of a square instead of a squared modulus, and for two sources on a 3-element ULA the reported value lies strictly below the bound (C59_violated)."
 },
 "C62": {
  "status": "partial",
  "note": "Curve data, normalisation, acceptance, dispatch, nominal markers, coarray points proved. Full claim is false of the code and refuted by theorems: spectra are drawn on pyplot's current axes rather than the given ones (C62_axes_violated), image registration is wrong on a non-uniform axis (C62_registration_violated), location errors are never displayed (C62_location_errors_violated), the equal-aspect helper can leave points outside the view (C62_aspect_violated). What holds under the matching extra hypothesis is proved in the _partial theorems."
 },
 "C60": {
  "status": "partial",
  "note": "Proved for every array/source/power/noise: output modes, guards (perturbed arrays, k >= v), 1/n scaling, symmetry and positive semidefiniteness, the closed form as the covariance of the first-order MUSIC errors on the augmented covariance (C60_formula), and its meaning as the derivative of the coarray MUSIC estimate for half-wavelength base spacing (C60_first_order_partial, C60_noise_free_partial); such estimate paths exist (C60_estimates_partial). The claim that the array's own base spacing is used is false of the code (lambda/2 hard-coded) and refuted with a concrete array (C60_violated)."
 },
 "C72": {
  "status": "partial",
  "note": "Proved for crb_sto, crb_det and ecov_music on every array, displacement and source covariance (C72_translation_partial; same arguments for uncorrelated sources, C72_uncorrelated_partial), and for crb_stouc with one source. False of crb_stouc in general and refuted: moving the origin of a 3-element ULA to its middle sensor changes the returned bound (C72_stouc_violated), a consequence of the FIM_pp defect of C59."
 },
 "C91": {
  "status": "partial",
  "note": "Proved for every history of array operations: actual_ndim, and size, ndim, output_size of copies; output_size is the number of measured values for scalar sensors. The documented output size of vector sensor arrays is false of the code (output_size always returns size) and refuted for every non-empty array of vector sensors (C91_vector_sensors_violated)."
 },
 "C92": {
  "status": "partial",
  "note": "Proved: the exact outcome of from_z for every list of complex numbers, unit and positive spacing (C92_from_z_partial), and that spacings of at least half a wavelength never fail (C92_half_wavelength). Refuted for finer sampling: in radians and degrees the placement returned contains NaN instead of an exception being raised, and ESPRIT passes it on as a resolved estimate (C92_esprit_violated), for sources at endfire on covariances arbitrarily close to the exact one (C92_endfire_violated)."
 },
 "C96": {
  "status": "partial",
  "note": "Proved: the flattened snapshots and their covariance, its almost sure convergence to the model, RuntimeError of the bounds. That the estimators can be used with such arrays is false of the code and refuted for every array of vector sensors (C96_estimation_violated, C96_no_input_violated, C96_single_sensor_violated, C96_noise_violated). For MVDR, Bartlett, MUSIC and Min-Norm only the shapes are followed, up to the exception."
 },
 "C97": {
  "status": "partial",
  "note": "The code violates the claim: refined locations are written into the integer array of the estimates and lose their fractional part (C97_integer_axes_violated: the refined estimate is worse than the unrefined one). Proved instead, for all integer grids, spectra and histories: the result is that of the float grid rounded towards zero (C97_integer_axes); unrefined calls agree."
 }
}