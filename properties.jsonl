{"id": "C01", "title": "ULA geometry and coarray", "statement": "UniformLinearArray(n, d0) has n elements, the i-th at i*d0 on the x-axis; its weight function is w(d) = n - |d| for |d| < n and 0 otherwise, and its central coarray ULA has size 2n-1 (n when the negative part is excluded).", "quantifier": "every n >= 1, every spacing d0, every integer difference d", "why_tests_cant": "Sizes are unbounded; a test fixes one size.", "anchors": ["doatools/model/arrays.py:UniformLinearArray", "doatools/model/coarray.py:WeightFunction1D"]}
{"id": "C02", "title": "Nested array is hole-free", "statement": "NestedArray(n1, n2, d0) has n1+n2 pairwise distinct elements and its difference coarray has no holes: every lag 0 <= d < n2*(n1+1) occurs, no larger lag occurs, so get_central_ula_size() = 2*n2*(n1+1)-1.", "quantifier": "every n1 >= 0 and n2 >= 1, every lag", "why_tests_cant": "Sizes are unbounded; a test fixes one size.", "anchors": ["doatools/model/arrays.py:NestedArray", "doatools/model/coarray.py:WeightFunction1D.get_central_ula_size"]}
{"id": "C03", "title": "Co-prime array construction contract", "statement": "CoPrimeArray(m, n, ...) raises ValueError exactly when gcd(m,n) != 1 or the lower-cased mode is not 'm'/'2m'; otherwise its elements are pairwise distinct, there are n'+2m'-1 (mode '2m') or n'+m'-1 (mode 'm') of them with (m',n') the sorted pair, and CoPrimeArray(m,n) and CoPrimeArray(n,m) have the same elements.", "quantifier": "every pair of positive integers and every mode string", "why_tests_cant": "Infinite family of pairs; coincidences between the two subarrays depend on number theory, not on samples.", "anchors": ["doatools/model/arrays.py:CoPrimeArray"]}
{"id": "C04", "title": "Co-prime array central ULA", "statement": "For a co-prime pair 1 <= m <= n the central coarray ULA is exactly the lags |d| <= m*n+m-1 in mode '2m', and |d| <= m+n-1 in mode 'm' (m >= 2): every such lag is present and the next one is a hole.", "quantifier": "every co-prime pair m <= n", "why_tests_cant": "Existence of a representation of each lag and the first hole are Bezout-type facts over all pairs.", "anchors": ["doatools/model/arrays.py:CoPrimeArray", "doatools/model/coarray.py:WeightFunction1D.get_central_ula_size"]}
{"id": "C05", "title": "MRLA presets", "statement": "MinimumRedundancyLinearArray(n, d0) accepts exactly the documented n in 1..20; the resulting array has n distinct elements and a hole-free difference coarray reaching its aperture.", "quantifier": "every integer n", "why_tests_cant": "Requires every preset and every out-of-range n, including the boundary n = 20.", "anchors": ["doatools/model/arrays.py:MinimumRedundancyLinearArray", "doatools/model/arrays.py:_MRLA_PRESETS"]}
{"id": "C06", "title": "UCA geometry", "statement": "UniformCircularArray(n, r) has n elements, the i-th at angle 2*pi*i/n on the circle of radius r centred at the origin; elements are pairwise distinct for r > 0; options of ArrayDesign passed as keyword arguments (perturbations, element) are honoured.", "quantifier": "every n >= 1 and radius r, every keyword options", "why_tests_cant": "Sizes are unbounded; a test fixes one size.", "anchors": ["doatools/model/arrays.py:UniformCircularArray"]}
{"id": "C07", "title": "URA geometry", "statement": "UniformRectangularArray(m, n, d0) has m*n pairwise distinct grid elements; element number i*n+j sits at (i*d0x, j*d0y), for scalar and two-element d0.", "quantifier": "all m, n, i < m, j < n and spacings", "why_tests_cant": "Sizes are unbounded; a test fixes one size.", "anchors": ["doatools/model/arrays.py:UniformRectangularArray", "doatools/utils/math.py:cartesian"]}
{"id": "C08", "title": "Grid-based placement and its argument errors", "statement": "A GridBasedArrayDesign places the element with grid index (i1..id) at i1*v1+...+id*vd, where v are the rows of bases (or d0 times the axis unit vectors); a scalar d0 equals the constant list; construction succeeds exactly when the length of d0 / row count of bases matches the number of index columns and the resulting dimension is at most 3. The created array reports the indices, bases, spacings (for explicit bases the Euclidean lengths) and name it was created with.", "quantifier": "all index matrices, spacings and bases", "why_tests_cant": "All shapes and values, including mismatched ones.", "anchors": ["doatools/model/arrays.py:GridBasedArrayDesign", "doatools/model/arrays.py:ArrayDesign.__init__"]}
{"id": "C09", "title": "Perturbation bookkeeping invariant", "statement": "In every array obtainable through the constructor, get_perturbed_copy and get_perturbation_free_copy, there is at most one perturbation per type and every stored perturbation is applicable to the array (size match; scalar element for gain/phase/coupling). Constructing with two perturbations of one type raises.", "quantifier": "every finite history of constructor and copy operations with arbitrary perturbation lists", "why_tests_cant": "Histories are unbounded.", "anchors": ["doatools/model/arrays.py:ArrayDesign._add_perturbation_from_list", "doatools/model/arrays.py:ArrayDesign.get_perturbed_copy", "doatools/model/perturbations.py"]}
{"id": "C10", "title": "Perturbed copies merge by type and leave the original alone", "statement": "a.get_perturbed_copy(ps): for each type the last perturbation of that type in ps if any, otherwise the one of a, and locations, element and (unless a new name is given) name are those of a; get_perturbation_free_copy has none. Neither changes what a or any earlier copy returns, also when the call raises.", "quantifier": "every array, every list of perturbations, every history of further copies", "why_tests_cant": "Aliasing of the shared dictionary shows up only along particular histories.", "anchors": ["doatools/model/arrays.py:ArrayDesign.get_perturbed_copy", "doatools/model/arrays.py:ArrayDesign.get_perturbation_free_copy"]}
{"id": "C11", "title": "'none', 'known' and 'all' perturbation modes", "statement": "steering_matrix(perturbations='none') equals the steering matrix of the perturbation-free copy; 'known' equals 'all' on the array that keeps only the perturbations flagged known; 'all' uses every perturbation; any other string raises ValueError.", "quantifier": "all arrays, perturbation sets, flags, sources, wavelengths", "why_tests_cant": "Combination of four types, flags and orders with arbitrary parameters.", "anchors": ["doatools/model/arrays.py:ArrayDesign.steering_matrix"]}
{"id": "C12", "title": "Closed form and order-dependence of perturbations", "statement": "With all four perturbations, the steering matrix is C*diag(exp(j phi))*diag(1+g)*A0(d+e) when coupling was added last; gain and phase errors commute with each other and location errors commute with everything; the derivative matrices are transformed by the same factor.", "quantifier": "all perturbation parameters, all insertion orders", "why_tests_cant": "Order of insertion and all parameter values.", "anchors": ["doatools/model/perturbations.py", "doatools/model/arrays.py:ArrayDesign.steering_matrix"]}
{"id": "C13", "title": "Location errors of any dimension", "statement": "actual_element_locations has max(array dim, error dim) columns and equals the coordinate-wise sum with missing coordinates read as 0; the nominal locations are not changed.", "quantifier": "all element counts, dims 1..3 of array and error, all values", "why_tests_cant": "All dimension pairs and values.", "anchors": ["doatools/model/perturbations.py:LocationErrors.perturb_sensor_locations", "doatools/model/arrays.py:ArrayDesign.actual_element_locations"]}
{"id": "C14", "title": "Unit conversion round trip", "statement": "For a FarField1DSourcePlacement valid in its unit, as_unit(u).as_unit(original) returns the original locations, as_unit never fails for u in rad/deg/sin, and the converted locations are in the valid range of u; likewise rad/deg for FarField2D. Unknown units raise KeyError (1-D). A NearField2DSourcePlacement converts only to 'm', to itself, and raises ValueError for any other unit. convert_angles is invertible on the ranges its documentation states.", "quantifier": "all valid locations, all unit pairs", "why_tests_cant": "A continuum of angles, with the boundary angles included.", "anchors": ["doatools/utils/conversion.py:convert_angles", "doatools/model/sources.py:FarField1DSourcePlacement.as_unit", "doatools/model/sources.py:FarField2DSourcePlacement.as_unit"]}
{"id": "C15", "title": "Phase delays do not depend on the unit", "statement": "The phase delay matrix (and hence the steering matrix) of a 1D far-field placement is the same for its rad, deg and sin representations, for 1D, 2D and 3D sensor locations; likewise rad/deg for 2D far-field placements.", "quantifier": "all sensor locations, wavelengths, valid DOAs", "why_tests_cant": "Continuum of inputs.", "anchors": ["doatools/model/sources.py:FarField1DSourcePlacement.phase_delay_matrix", "doatools/model/sources.py:FarField2DSourcePlacement.phase_delay_matrix"]}
{"id": "C16", "title": "Derivative matrices are derivatives", "statement": "Whenever compute_derivatives=True succeeds for 1-D far-field sources, entry (i,k) of the returned derivative matrix is the derivative of entry (i,k) of the steering matrix with respect to the k-th location in the placement's own unit (rad, deg, sin), for 1D/2D/3D arrays, with any gain, phase, coupling and location perturbations. For unit 'sin' and sensors with two or three coordinates a source at exactly ±1 has no finite derivative: the returned matrix contains infinities or NaN.", "quantifier": "all arrays, sources, units and perturbations", "why_tests_cant": "A limit statement at every point; finite differences only approximate it.", "anchors": ["doatools/model/sources.py:FarField1DSourcePlacement.phase_delay_matrix", "doatools/model/arrays.py:ArrayDesign.steering_matrix", "doatools/model/perturbations.py"]}
{"id": "C17", "title": "1D and 2D far-field sources agree", "statement": "A 1D source at broadside angle t and a 2D source at azimuth pi/2-t, elevation 0 give the same phase delays on every array; for linear arrays a 2D source gives the delays of the 1D source at its ae2broad angle, which always lies in [-pi/2, pi/2].", "quantifier": "all angles, sensor locations, wavelengths", "why_tests_cant": "Continuum.", "anchors": ["doatools/model/sources.py:FarField1DSourcePlacement", "doatools/model/sources.py:FarField2DSourcePlacement", "doatools/utils/conversion.py:ae2broad"]}
{"id": "C18", "title": "Embedding and translation of arrays", "statement": "Padding element coordinates with zeros (1D->2D->3D) does not change phase delays for any source type; translating a far-field array by t multiplies column k of the steering matrix by one unit-modulus factor; all entries of an unperturbed isotropic steering matrix have modulus 1.", "quantifier": "all arrays, translations, sources", "why_tests_cant": "Continuum.", "anchors": ["doatools/model/sources.py", "doatools/model/arrays.py:ArrayDesign.steering_matrix"]}
{"id": "C19", "title": "Near-field phase delays", "statement": "For near-field sources row 0 of the phase delay matrix is 0 and entry (i,k) is -2*pi/wavelength times (distance of sensor i - distance of sensor 0); swapping the reference sensor changes a column of the steering matrix only by a common phase; as the source recedes along a direction the delays converge to the far-field delays relative to sensor 0.", "quantifier": "all sensors, sources and directions", "why_tests_cant": "A limit and all geometries.", "anchors": ["doatools/model/sources.py:NearField2DSourcePlacement.phase_delay_matrix"]}
{"id": "C20", "title": "Spherical coordinates invert", "statement": "cart2spherical returns (r, az, el) with r >= 0, az in (-pi, pi], el in [-pi/2, pi/2] and (r cos el cos az, r cos el sin az, r sin el) equal to the zero-padded input, for 1, 2 and 3 columns.", "quantifier": "all coordinates", "why_tests_cant": "Continuum with branch cuts of arctan2.", "anchors": ["doatools/utils/conversion.py:cart2spherical"]}
{"id": "C21", "title": "Rooting round trip (from_z)", "statement": "For d0 <= wavelength/2 and DOAs with |2*pi*d0/wavelength*sin(t)| < pi, from_z applied to exp(j*2*pi*d0/wavelength*sin(t_k)) (any positive scaling of each root) returns exactly the DOAs sorted ascending, in each unit.", "quantifier": "all DOA lists, all spacings, all positive root magnitudes", "why_tests_cant": "Continuum, any number and order of roots.", "anchors": ["doatools/model/sources.py:FarField1DSourcePlacement.from_z"]}
{"id": "C22", "title": "Source placement validation", "statement": "FarField1DSourcePlacement / FarField2DSourcePlacement accept exactly the locations inside the closed valid range of a known unit (and of the right shape) and otherwise raise ValueError. NearField2DSourcePlacement accepts exactly the K x 2 arrays and otherwise raises ValueError.", "quantifier": "all location arrays and unit strings", "why_tests_cant": "All values including boundaries and the error path.", "anchors": ["doatools/model/sources.py:FarField1DSourcePlacement.__init__", "doatools/model/sources.py:FarField2DSourcePlacement.__init__"]}
{"id": "C23", "title": "Indexing source placements", "statement": "sources[key] for a slice, index list or boolean mask returns a placement with the selected locations in order, the same units, and storage independent from the original: later writes to one are not visible in the other.", "quantifier": "all placements, keys, and subsequent write histories", "why_tests_cant": "Aliasing appears only along write histories.", "anchors": ["doatools/model/sources.py:SourcePlacement.__getitem__"]}
{"id": "C24", "title": "Difference coarray counts", "statement": "Row i + j*m of compute_location_differences is location i minus location j; WeightFunction1D(a)(d) is the number of ordered element pairs with difference d, indices_of(d) lists exactly the positions i + j*m of those pairs in increasing order; weights are symmetric, sum to size^2, and w(0) = size iff elements are distinct.", "quantifier": "all 1D grid arrays and all differences", "why_tests_cant": "Sizes are unbounded; a test fixes one size.", "anchors": ["doatools/model/coarray.py:compute_location_differences", "doatools/model/coarray.py:WeightFunction1D"]}
{"id": "C25", "title": "differences() and weights() are aligned and sorted", "statement": "differences() is strictly ascending and lists exactly the differences with positive weight; weights() has the same length and weights()[i] = weight_of(differences()[i]); len(w) is that length.", "quantifier": "all 1D grid arrays", "why_tests_cant": "Sizes are unbounded; a test fixes one size.", "anchors": ["doatools/model/coarray.py:WeightFunction1D"]}
{"id": "C26", "title": "Central ULA is maximal", "statement": "get_central_ula_size(True) is the largest v such that all lags -(v-1)..v-1 are in the coarray; get_central_ula_size() = 2v-1. The answers do not depend on earlier calls on the object.", "quantifier": "all non-empty 1D grid arrays, all call histories", "why_tests_cant": "Unbounded search and mutable cache.", "anchors": ["doatools/model/coarray.py:WeightFunction1D.get_central_ula_size"]}
{"id": "C27", "title": "Coarray selection matrix", "statement": "F = get_coarray_selection_matrix() has 2v-1 rows (v if the negative part is excluded) and size^2 columns, nonnegative entries, rows summing to 1, and F*vec(R) is the vector of averages of R over the element pairs with lags -(v-1)..v-1; it agrees with the virtual observation used by CoarrayACMBuilder1D.", "quantifier": "all 1D grid arrays, all matrices R", "why_tests_cant": "Sizes are unbounded; a test fixes one size.", "anchors": ["doatools/model/coarray.py:WeightFunction1D.get_coarray_selection_matrix"]}
{"id": "C28", "title": "Augmented covariance: structure", "statement": "CoarrayACMBuilder1D.transform(R,'da') is Toeplitz with entry (r,c) the average of R over pairs with lag r-c, and Hermitian if R is; transform(R,'ss') is Hermitian positive semidefinite for every R and equals T*T^H/v with T the 'da' result; other methods raise ValueError.", "quantifier": "all 1D grid arrays, all complex R", "why_tests_cant": "Sizes are unbounded; a test fixes one size. Positive semidefiniteness quantifies over all vectors.", "anchors": ["doatools/estimation/coarray.py:CoarrayACMBuilder1D.transform"]}
{"id": "C29", "title": "Augmented covariance: virtual ULA model", "statement": "For R = A diag(p) A^H + sigma I of uncorrelated far-field sources on an unperturbed 1D grid array with distinct elements, transform(R,'da') equals Av diag(p) Av^H + sigma I for the steering matrix Av of get_virtual_ula(), and transform(R,'ss') is its square divided by v.", "quantifier": "all arrays, sources, powers, noise levels", "why_tests_cant": "All geometries and a continuum of parameters.", "anchors": ["doatools/estimation/coarray.py:CoarrayACMBuilder1D", "doatools/model/coarray.py"]}
{"id": "C30", "title": "unique_rows is a tolerance cover", "statement": "unique_rows(x) returns rows of x at strictly increasing indices, beginning with row 0, pairwise farther apart than the tolerance, such that every row of x is within tolerance of a returned row that does not come after it; with zero tolerance it returns exactly the distinct rows in order of first occurrence; sort=True only permutes rows into lexicographic order with indices kept aligned.", "quantifier": "all matrices and tolerances", "why_tests_cant": "Greedy process over arbitrary many rows.", "anchors": ["doatools/utils/math.py:unique_rows", "doatools/model/coarray.py:compute_unique_location_differences"]}
{"id": "C31", "title": "Cartesian product order", "statement": "cartesian(x1..xd) has prod(len) rows and the row with row-major rank of (i1..id) is (x1[i1],..,xd[id]); ravel/unravel of grid coordinates are mutually inverse so that grid.source_placement[ravel(coord)] is the grid point at coord.", "quantifier": "all numbers of axes, all lengths", "why_tests_cant": "Sizes are unbounded; a test fixes one size.", "anchors": ["doatools/utils/math.py:cartesian", "doatools/estimation/grid.py:SearchGrid.source_placement"]}
{"id": "C32", "title": "Khatri-Rao identity", "statement": "khatri_rao(A,B) raises ValueError iff column counts differ and otherwise its column i is the Kronecker product of columns i; vec(A diag(p) A^H) = khatri_rao(conj(A), A) p.", "quantifier": "all matrices", "why_tests_cant": "Sizes are unbounded; a test fixes one size.", "anchors": ["doatools/utils/math.py:khatri_rao", "doatools/utils/math.py:vec"]}
{"id": "C33", "title": "Projection matrices", "statement": "projm(A) for full column rank A is Hermitian, idempotent, fixes the columns of A and annihilates everything orthogonal to them; with use_pinv=True the same holds for every A, and both agree when A has full column rank.", "quantifier": "all complex matrices", "why_tests_cant": "All sizes and values.", "anchors": ["doatools/utils/math.py:projm"]}
{"id": "C34", "title": "Search grid points", "statement": "FarField1DSearchGrid(start, stop, size, unit) has size points start + i*(stop-start)/size, all in [start, stop); FarField2DSearchGrid has the product grid; the defaults are valid source placements in their unit so source_placement never raises.", "quantifier": "all starts/stops/sizes/units", "why_tests_cant": "Sizes are unbounded; a test fixes one size.", "anchors": ["doatools/estimation/grid.py:FarField1DSearchGrid", "doatools/estimation/grid.py:FarField2DSearchGrid"]}
{"id": "C35", "title": "Multi-segment search grid", "statement": "FarField1DSearchGrid with lists start/stop/size is the concatenation of the uniform grids specified by each triple, and can be used as a source placement.", "quantifier": "all lists of segments", "why_tests_cant": "Any number of segments.", "anchors": ["doatools/estimation/grid.py:FarField1DSearchGrid.__init__"]}
{"id": "C36", "title": "Grid refinement axes", "statement": "create_refined_axes_at(coord, density, span) returns, per axis, (i_ub-i_lb)*density+1 equally spaced points from axis[i_lb] to axis[i_ub] with i_lb = max(0, c-span), i_ub = min(len-1, c+span): all points stay inside the original axis range, and on a uniform axis every original point of that window, in particular the refined coordinate, is among them. density<1, span<1 or wrong arity raise ValueError.", "quantifier": "all axes, coordinates, densities, spans", "why_tests_cant": "All boundary positions.", "anchors": ["doatools/estimation/grid.py:SearchGrid.create_refined_axes_at"]}
{"id": "C37", "title": "Spectrum estimators return the k largest peaks in grid order", "statement": "For k >= 1, estimate() reports resolved=True iff the peak finder reported at least k peaks; then the estimates are k distinct grid points that are peaks, every unreported peak has spectrum value at most that of every reported one, and they are in the order of the grid; otherwise (False, None).", "quantifier": "all spectra, grids, peak finders, tie-breaking of argsort", "why_tests_cant": "All spectra and sorting tie-breaks.", "anchors": ["doatools/estimation/core.py:SpectrumBasedEstimatorBase._estimate"]}
{"id": "C38", "title": "Caching is transparent", "statement": "The result of every estimate() call on a spectrum-based estimator is the same with enable_caching=True and False, whatever calls (with or without refinement) were made before.", "quantifier": "all histories of estimate calls", "why_tests_cant": "Unbounded histories of a mutable cache.", "anchors": ["doatools/estimation/core.py:SpectrumBasedEstimatorBase._get_atom_matrix"]}
{"id": "C39", "title": "Refinement writes only to the returned estimates", "statement": "estimate(refine_estimates=True) never changes the locations of the search grid (whose source placement is cached and shared), so repeated calls return the same result and unrefined estimates equal grid points exactly.", "quantifier": "all histories of estimate calls", "why_tests_cant": "In-place numpy writes; aliasing shows only along histories.", "anchors": ["doatools/estimation/core.py:SpectrumBasedEstimatorBase._refine_estimates", "doatools/model/sources.py:SourcePlacement.__getitem__"]}
{"id": "C40", "title": "Refined estimates are local and never worse", "statement": "Each refined estimate stays within one original grid cell of its peak (between axis[c-1] and axis[c+1] on each axis), and on uniform grids its spectrum value is at least that of the unrefined peak, for every density >= 1 and number of iterations.", "quantifier": "all spectra, uniform axes, densities, iterations", "why_tests_cant": "Iterated search for arbitrary functions.", "anchors": ["doatools/estimation/core.py:SpectrumBasedEstimatorBase._refine_estimates", "doatools/estimation/grid.py:SearchGrid.create_refined_axes_at"]}
{"id": "C41", "title": "Every exported search grid can be instantiated and refined", "statement": "FarField1DSearchGrid, FarField2DSearchGrid and NearField2DSearchGrid can be instantiated and support create_refined_grid_at and create_refined_grids_at(*coords), the latter returning one refined grid per coordinate.", "quantifier": "all axes, coordinates", "why_tests_cant": "Interface contract over all inputs.", "anchors": ["doatools/estimation/grid.py"]}
{"id": "C42", "title": "Input guards", "statement": "ensure_covariance_size accepts exactly the 2D matrices of shape (size, size) of the array; ensure_n_resolvable_sources(k, max) raises iff k > max; MUSIC, MinNorm reject k >= size. Constructors of perturbations accept exactly arrays of the documented dimension, and the source-number detectors reject scalars.", "quantifier": "all shapes and k", "why_tests_cant": "All shapes, including non-square ones.", "anchors": ["doatools/estimation/core.py:ensure_covariance_size", "doatools/estimation/core.py:ensure_n_resolvable_sources"]}
{"id": "C43", "title": "MUSIC null spectrum", "statement": "For R = A P A^H + sigma I with P positive definite and A of full column rank k < m, any orthonormal eigenvector matrix of R in ascending eigenvalue order gives a noise subspace orthogonal to the columns of A: the MUSIC denominator is 0 at the true sources, and it is positive at steering vectors outside the column span of A. Consequently MUSIC over a grid containing the sources returns exactly them, for every state of the estimator's atom cache: on one-dimensional grids with a ULA, with any unambiguous (also perturbed and calibrated) array, and on two-dimensional azimuth/elevation grids, end to end for a uniform rectangular array with more elements per side than sources.", "quantifier": "all arrays, sources, powers, any choice of eigenvectors", "why_tests_cant": "Continuum; eigenvectors are not unique.", "anchors": ["doatools/estimation/core.py:get_noise_subspace", "doatools/estimation/music.py:f_music", "doatools/estimation/music.py:MUSIC.estimate", "doatools/estimation/core.py:SpectrumBasedEstimatorBase"]}
{"id": "C44", "title": "Min-Norm vector", "statement": "The Min-Norm weight vector lies in the noise subspace, has first entry 1, has minimal norm among such vectors, and is orthogonal to the signal subspace, so the Min-Norm denominator vanishes at the true sources. On a ULA with the exact covariance its extraneous zeros all lie strictly outside the unit circle, so the spectrum is infinite exactly at the sources and MinNorm.estimate returns exactly the sources on an unambiguous grid containing them.", "quantifier": "all orthonormal noise subspaces whose first row is non-zero; for the end-to-end part all ULAs, wavelengths, units, grids, source sets, source covariances, noise levels, estimator histories and eigensolver results", "why_tests_cant": "All subspaces.", "anchors": ["doatools/estimation/min_norm.py:MinNorm.estimate"]}
{"id": "C45", "title": "root-MUSIC polynomial", "statement": "The polynomial rooted by RootMUSIC1D satisfies p(z) = z^(m-1) * ||En^H a(z)||^2 for |z|=1, its coefficients are conjugate symmetric, so non-zero roots come in pairs z, 1/conj(z), and its unit-circle roots are exactly the points with En^H a(z) = 0.", "quantifier": "all noise subspaces, all z", "why_tests_cant": "Sizes are unbounded; a test fixes one size.", "anchors": ["doatools/estimation/music.py:RootMUSIC1D.estimate"]}
{"id": "C46", "title": "root-MUSIC root selection", "statement": "RootMUSIC1D returns the k roots closest to the unit circle among those inside or on it, counting each (double) on-circle root once; resolved is False iff fewer than k such roots exist.", "quantifier": "all root lists", "why_tests_cant": "Depends on every arrangement of roots, including ties and double roots on the circle.", "anchors": ["doatools/estimation/music.py:RootMUSIC1D.estimate"]}
{"id": "C47", "title": "ESPRIT exact recovery", "statement": "For R = A P A^H + sigma I of k <= m - displacement sources on a ULA with distinct phase factors and full rank signal subspace, the LS and TLS rotation matrices are similar to diag(exp(j*2*pi*d0*displacement/wavelength*sin t_k)), for any eigenvector choice and any positive row weights, so the returned DOAs are the true ones.", "quantifier": "all m, k, displacement, DOAs, weights, eigenvector choices", "why_tests_cant": "Continuum; eigenvectors are not unique.", "anchors": ["doatools/estimation/esprit.py:Esprit1D.estimate"]}
{"id": "C48", "title": "Beamformer spectra", "statement": "f_bartlett is real and nonnegative for Hermitian PSD R; f_mvdr is real and positive for positive definite R and nonzero steering vectors; MVDR(a) <= Bartlett(a)/||a||^4.", "quantifier": "all R and steering matrices", "why_tests_cant": "All values.", "anchors": ["doatools/estimation/beamforming.py"]}
{"id": "C49", "title": "Spatial smoothing", "statement": "spatial_smooth(R,l,fb) raises ValueError iff l<1 or l>m; the (m-l+1) result is the mean of the l diagonal sub-blocks, preserves Hermitian symmetry and positive semidefiniteness, returns the leading block for Toeplitz R, with fb=True is centro-Hermitian, and does not change R.", "quantifier": "all R, l", "why_tests_cant": "Sizes are unbounded; a test fixes one size.", "anchors": ["doatools/estimation/preprocessing.py:spatial_smooth"]}
{"id": "C50", "title": "AIC and MDL", "statement": "For positive eigenvalues aic and mdl return a number in 0..m-1 minimizing the documented criterion, the likelihood term is nonnegative and zero iff the noise eigenvalues are equal; if the m-k smallest eigenvalues are equal the answer never exceeds k, and if moreover the (k)-th is strictly larger it equals k for all sufficiently large snapshot counts.", "quantifier": "all positive ascending eigenvalue vectors, all snapshot counts", "why_tests_cant": "Continuum and asymptotics.", "anchors": ["doatools/estimation/source_number.py:aic", "doatools/estimation/source_number.py:mdl"]}
{"id": "C51", "title": "SORTE", "statement": "sorte raises ValueError iff fewer than 4 eigenvalues, otherwise returns a value in 1..m-3; with ideal eigenvalues (k <= m-3 signal eigenvalues above equal noise eigenvalues, gaps resolved above machine epsilon) it returns k.", "quantifier": "all eigenvalue vectors", "why_tests_cant": "Sizes are unbounded; a test fixes one size.", "anchors": ["doatools/estimation/source_number.py:sorte"]}
{"id": "C52", "title": "ESPRIT default row weights", "statement": "get_default_row_weights(m)[i] = sqrt(min(i+1, m-i)): positive, symmetric, peak in the middle.", "quantifier": "all m", "why_tests_cant": "Sizes are unbounded; a test fixes one size.", "anchors": ["doatools/estimation/esprit.py:get_default_row_weights"]}
{"id": "C53", "title": "ML estimators: working state", "statement": "estimate(R, sources0) never changes sources0; on success the returned placement is the optimizer's solution reshaped to k sources of the same type and unit and lies within the valid range if the optimizer respects its bounds; get_last_estimates raises before the first call and afterwards returns a fresh copy, so that modifying a returned placement or later calls do not change earlier results.", "quantifier": "all histories of calls, all optimizers and evaluation sequences", "why_tests_cant": "Unbounded objective evaluations mutate a shared working copy.", "anchors": ["doatools/estimation/ml.py:CovarianceBasedMLEstimator"]}
{"id": "C54", "title": "ML objectives", "statement": "The CML objective tr(P_perp R) is real, nonnegative for PSD R, equals 0 at the true sources for noise-free R and is minimized there for R = A P A^H + sigma I; the WSF objective with exact covariance is nonnegative and 0 at the true sources; objectives depend only on the span of the steering matrix.", "quantifier": "all R, sources", "why_tests_cant": "Continuum.", "anchors": ["doatools/estimation/ml.py"]}
{"id": "C55", "title": "Sparse covariance model", "statement": "With r the stacked real/imag vec(R) and Phi the atom matrix, R = A diag(p) A^H + sigma I on grid sources gives r = Phi [p; sigma] (noise unknown) and stacked vec(R - sigma I) = Phi p (noise known); R passed by the user is not modified.", "quantifier": "all grids, powers", "why_tests_cant": "Sizes are unbounded; a test fixes one size.", "anchors": ["doatools/estimation/sparse.py:SparseCovarianceMatching"]}
{"id": "C56", "title": "Signal generators", "statement": "ComplexStochasticSignal accepts exactly covariances of matching size and emits dim x n matrices C^(1/2) W with C^(1/2) (C^(1/2))^H = C; RandomPhaseSignal emits entries of modulus equal to the amplitudes, for scalar and vector amplitudes.", "quantifier": "all dims, covariances, amplitudes, random draws", "why_tests_cant": "All random draws.", "anchors": ["doatools/model/signals.py"]}
{"id": "C57", "title": "Snapshots", "statement": "get_narrowband_snapshots returns Y = A S + N (N omitted if no noise generator) with A using all perturbations, and R = Y Y^H / n is Hermitian PSD; Y and R are consistent.", "quantifier": "all arrays, sources, signals", "why_tests_cant": "All random draws.", "anchors": ["doatools/model/snapshots.py:get_narrowband_snapshots"]}
{"id": "C58", "title": "CRB matrices", "statement": "crb_sto/crb_det/crb_stouc return real symmetric K x K matrices scaling exactly as 1/n_snapshots; the deterministic and stochastic CRBs are positive semidefinite whenever their information matrix is; 'diag' and 'mean_diag' modes are the diagonal and its mean of 'full'; scalar, vector and diagonal-matrix powers give the same result.", "quantifier": "all arrays, sources, powers, snapshot counts", "why_tests_cant": "Continuum.", "anchors": ["doatools/performance/crb.py", "doatools/performance/utils.py"]}
{"id": "C59", "title": "Uncorrelated CRB uses the Fisher information of the model", "statement": "The matrix inverted by crb_stouc_farfield_1d is the Fisher information tr(R^-1 dR/dx R^-1 dR/dy) of R = A diag(p) A^H + sigma I for x, y ranging over DOAs, powers and noise variance.", "quantifier": "all arrays, sources, powers", "why_tests_cant": "Continuum; vectorised formula versus definition.", "anchors": ["doatools/performance/crb.py:crb_stouc_farfield_1d"]}
{"id": "C60", "title": "Coarray MUSIC error covariance uses the array's own spacing", "statement": "ecov_coarray_music_1d evaluates the virtual ULA with the physical array's base spacing, so that G F vec(R) is the vectorised virtual covariance of the noise-free/ideal model for every base spacing d0; it rejects perturbed arrays and k >= v. For such an array the returned matrix is the covariance of the first-order errors of the coarray MUSIC estimates.", "quantifier": "all 1D grid arrays, spacings, sources", "why_tests_cant": "Continuum of spacings.", "anchors": ["doatools/performance/mse.py:ecov_coarray_music_1d"]}
{"id": "C61", "title": "Power normalisation helpers", "statement": "unify_p_to_matrix / unify_p_to_vector accept exactly scalars, length-k vectors and k x k matrices, and are consistent: diag of the former is the latter (for matrices only the diagonal is kept); reduce_output_matrix accepts exactly the three modes.", "quantifier": "all p, k, modes", "why_tests_cant": "All shapes.", "anchors": ["doatools/performance/utils.py"]}
{"id": "C62", "title": "Plot normalisation and location-error display", "statement": "Spectra with a positive maximum are plotted with maximum exactly 1 and order preserved, others unchanged; plot_array(show_location_errors=True) displays the perturbed locations when the array has location errors.", "quantifier": "all spectra, arrays", "why_tests_cant": "All inputs.", "anchors": ["doatools/plotting/plot_spectrum.py:_normalize_by_maximum", "doatools/plotting/plot_array.py:_plot_array_impl"]}
{"id": "C63", "title": "Sparse solver wrappers are memoryless", "statement": "The result of solve(A,b,l) on a reused problem object depends only on the arguments of that call, is the all-zero vector whenever the solver does not report 'optimal', and the problem uses the documented objective and constraints of its formulation; unknown formulations raise ValueError.", "quantifier": "all call histories, all solver outcomes", "why_tests_cant": "Histories of a reused mutable problem object.", "anchors": ["doatools/optim/l1lsq.py"]}
{"id": "C64", "title": "MUSIC error covariance: symmetry and meaning", "statement": "ecov_music_1d rejects k >= size, returns a real symmetric matrix with nonnegative diagonal for Hermitian positive definite P, scaling as 1/n_snapshots; and it is what it is documented to be: the covariance matrix, over n snapshots, of the first-order errors of the MUSIC estimates, i.e. of the derivatives of the null-spectrum minimisers along perturbations of the covariance matrix (for correlated sources too).", "quantifier": "all arrays, sources, powers", "why_tests_cant": "Continuum.", "anchors": ["doatools/performance/mse.py:ecov_music_1d"]}
{"id": "C65", "title": "Location accessors hand out independent data", "statement": "element_locations and actual_element_locations return data that the caller may modify without changing what the array (or any array sharing its locations) reports afterwards.", "quantifier": "all arrays reachable by constructor and copy operations, all write histories to returned buffers", "why_tests_cant": "aliasing of the returned buffer depends on which perturbations are present; it must be excluded for every history of accessor calls and writes", "anchors": ["doatools/model/arrays.py: ArrayDesign.element_locations, ArrayDesign.actual_element_locations"]}
{"id": "C66", "title": "l1_svd dimensionality reduction", "statement": "l1_svd(y,k) equals y V_k for the leading (at most k) orthonormal right singular vectors, so a linear model y = A x + n becomes A (x V_k) + n V_k, and if rank(y) <= k the reduced data has the same y y^H.", "quantifier": "all m x n snapshot matrices, all k, every SVD meeting its contract", "why_tests_cant": "holds for every matrix and every valid (non-unique) SVD returned by LAPACK", "anchors": ["doatools/estimation/preprocessing.py:l1_svd"]}
{"id": "C67", "title": "Group-sparse estimator", "statement": "GroupSparseEstimator.estimate rejects snapshot matrices of the wrong shape and refine_estimates; on noise-free snapshots of sources on non-adjacent interior points of a grid with linearly independent steering vectors and regularisation 0 it returns exactly the sources, and the spectrum at a source is the Euclidean norm of its signal.", "quantifier": "all arrays, grids, signals, histories of the estimator object and convex solvers meeting their contract", "why_tests_cant": "Continuum of signals, every solver state.", "anchors": ["doatools/estimation/sparse.py:GroupSparseEstimator"]}
{"id": "C68", "title": "A failed sparse solver is not reported as success", "statement": "If the convex solver ends with a status other than 'optimal', the sparse estimators report resolved = False and no estimates.", "quantifier": "all grids, data, k >= 1, solver states", "why_tests_cant": "Solver failures are not reproducible in tests and the peak search on the resulting zero spectrum depends on the grid dimension.", "anchors": ["doatools/estimation/sparse.py", "doatools/optim/l1lsq.py", "doatools/estimation/core.py:find_peaks_simple"]}
{"id": "C69", "title": "Ordering of the performance bounds", "statement": "For the same array, sources, powers, noise variance and number of snapshots, crb_det <= crb_sto <= ecov_music in the sense of positive semidefinite differences: no reported MUSIC error covariance lies below a reported Cramer-Rao bound.", "quantifier": "all arrays and source placements on which the three functions return, all positive definite source covariances, positive noise variances and snapshot numbers", "why_tests_cant": "A matrix inequality between three different closed formulas over a continuum of arrays, sources and powers.", "anchors": ["doatools/performance/crb.py:crb_sto_farfield_1d", "doatools/performance/crb.py:crb_det_farfield_1d", "doatools/performance/mse.py:ecov_music_1d"]}
{"id": "C70", "title": "Coarray estimation finds more sources than sensors", "statement": "On an unperturbed linear grid array whose central coarray ULA has v elements, the augmented covariance ('da' or 'ss') of the model covariance of up to v-1 uncorrelated unambiguous sources, passed with the virtual ULA to MUSIC (sources on non-adjacent interior grid points) or to ESPRIT, yields exactly the source directions, even if there are more sources than sensors.", "quantifier": "all sensor index sets, base spacings, wavelengths, sources, positive powers, noise variances, query histories of the weight function, estimator histories and eigen-decompositions", "why_tests_cant": "A continuum of arrays, sources and powers, and every admissible eigenvector basis returned by LAPACK.", "anchors": ["doatools/model/coarray.py:WeightFunction1D", "doatools/model/arrays.py:GridBasedArrayDesign", "doatools/estimation/coarray.py:CoarrayACMBuilder1D", "doatools/estimation/music.py:MUSIC", "doatools/estimation/esprit.py:Esprit1D"]}
{"id": "C71", "title": "Performance bounds do not depend on the unit of the sources", "statement": "If one of the five performance functions returns a matrix for sources s, it returns a matrix for s.as_unit(u), and after conversion of the errors to radians the two matrices are equal (no source at endfire).", "quantifier": "all arrays incl. perturbed ones, wavelengths, sources, target units, power arguments, noise variances, snapshot numbers, eigen-decompositions", "why_tests_cant": "An identity between matrix functions over a continuum of sources and arrays.", "anchors": ["doatools/performance/crb.py", "doatools/performance/mse.py", "doatools/model/sources.py:FarField1DSourcePlacement.as_unit", "doatools/model/sources.py:FarField1DSourcePlacement.phase_delay_matrix"]}
{"id": "C72", "title": "Performance bounds do not depend on the position of the array", "statement": "Moving the whole array (with its perturbations) to another position and referring the phases of the source signals to the new origin - which for uncorrelated sources changes no argument - changes neither whether a performance function returns nor what it returns.", "quantifier": "all arrays incl. perturbed ones, displacement vectors, sources, units, wavelengths, powers, noise variances, snapshot numbers", "why_tests_cant": "An invariance of matrix functions over a continuum of arrays and displacements.", "anchors": ["doatools/performance/crb.py", "doatools/performance/mse.py:ecov_music_1d", "doatools/model/arrays.py:ArrayDesign.steering_matrix", "doatools/model/sources.py:FarField1DSourcePlacement.phase_delay_matrix"]}
{"id": "C73", "title": "More sensors, less noise, stronger sources and more snapshots never worsen a bound", "statement": "If a bound is returned for an unperturbed array, then adding sensors, lowering the noise variance, amplifying all sources and taking more snapshots (in any combination) still returns a bound, and the new one does not exceed the old one (crb_sto and crb_det: in the order of symmetric matrices; ecov_music_1d: variance by variance). Multiplying source covariance and noise variance by the same positive number changes nothing. Without snapshots no number is returned.", "quantifier": "all unperturbed arrays and super-arrays, source placements, units, wavelengths, source covariances, noise variances, snapshot numbers", "why_tests_cant": "An order relation between matrix functions over a continuum of arrays, covariances and noise levels.", "anchors": ["doatools/performance/crb.py", "doatools/performance/mse.py", "doatools/model/arrays.py:ArrayDesign.steering_matrix"]}
{"id": "C74", "title": "The numbering of sensors and sources is irrelevant", "statement": "Listing the sensors of an unperturbed array in another order changes no performance bound; listing the sources together with their powers (or covariance) in another order permutes rows and columns of every bound in the same way.", "quantifier": "all arrays, permutations of sensors and of sources, units, wavelengths, powers, noise variances, snapshot numbers", "why_tests_cant": "An equivariance over all permutations and a continuum of arrays and covariances.", "anchors": ["doatools/performance/crb.py", "doatools/performance/mse.py:ecov_music_1d", "doatools/model/sources.py:FarField1DSourcePlacement.phase_delay_matrix"]}
{"id": "C75", "title": "Perturbation queries report what was set", "statement": "After any history of constructor calls, copies and accessor calls on array objects, has_perturbation, is_perturbation_known, get_perturbation_params, is_perturbed and perturbations of every array agree: for each type there is at most one perturbation; if there is one, the queries report its flag and parameters, otherwise has_perturbation is false and the other two raise KeyError. A constructed array reports the perturbations handed in and nothing else; a perturbation-free copy reports none; a perturbed copy reports, for each type in its argument, the last one of that type, and what the original reports for the other types.", "quantifier": "all histories of array operations, all perturbation lists and types", "why_tests_cant": "Ranges over all histories of constructor, copy and accessor calls with shared objects.", "anchors": ["doatools/model/arrays.py:ArrayDesign.has_perturbation", "doatools/model/arrays.py:ArrayDesign.is_perturbation_known", "doatools/model/arrays.py:ArrayDesign.get_perturbation_params", "doatools/model/perturbations.py:ArrayPerturbation"]}
{"id": "C76", "title": "Spatial smoothing makes coherent sources resolvable end to end", "statement": "For coherent sources (source covariance only positive semidefinite, every source with non-zero power) on a ULA, spatial_smooth of the exact covariance with l subarrays, l at least the number of sources, followed by MUSIC or ESPRIT for the ULA of m-l+1 elements, returns exactly the sources; with forward and with forward-backward smoothing.", "quantifier": "all ULAs, wavelengths, grids, units, source sets, positive semidefinite source covariances, noise levels, subarray numbers, estimator histories, eigensolver results", "why_tests_cant": "A rank statement over a continuum of singular source covariances and directions and over all eigensolver outputs.", "anchors": ["doatools/estimation/preprocessing.py:spatial_smooth", "doatools/estimation/music.py:MUSIC.estimate", "doatools/estimation/esprit.py:Esprit1D.estimate"]}
{"id": "C77", "title": "A single source is located by the beamformers", "statement": "For one source of positive power (and positive noise power for MVDR) whose steering vector is not proportional to that of any other grid point, on an array whose elements are isotropic, the Bartlett and MVDR beamformers fed with the exact covariance return resolved with exactly that source, on one-dimensional and two-dimensional grids, provided the source is on the grid (in one dimension, not at an end of it, where the peak finder never looks); in particular on ULAs and URAs with spacing at most half a wavelength and on grids inside the field of view.", "quantifier": "all arrays, wavelengths, grids, units, powers, noise levels, estimator histories", "why_tests_cant": "A strict inequality between spectra over a continuum of arrays, directions and powers.", "anchors": ["doatools/estimation/beamforming.py:BartlettBeamformer.estimate", "doatools/estimation/beamforming.py:MVDRBeamformer.estimate", "doatools/estimation/core.py:SpectrumBasedEstimatorBase"]}
{"id": "C78", "title": "Directional elements see the source where it is", "statement": "On an array of custom elements with one or more outputs, entry (i, c) of output l of the steering matrix is, before gain, phase and coupling errors are applied, the element's response of output l to the range, azimuth and elevation of source c times the phase factor of the delay of source c at sensor i. For far-field sources the range is infinite and the direction handed to the response is the one the placement denotes and the one that determines the delay (2 pi / wavelength times the projection of the actual sensor location on its unit vector). For near-field sources range and direction are those from the actual, perturbed location of sensor i, and the delay is that of the range relative to the first sensor. Asking for derivatives raises RuntimeError; flatten stacks the outputs.", "quantifier": "all response functions, output sizes, arrays, location errors and other perturbations, source placements of every kind and unit, wavelengths", "why_tests_cant": "Ranges over all response functions and a continuum of geometries; a test with one symmetric pattern cannot see a wrong angle convention.", "anchors": ["doatools/model/arrays.py:ArrayDesign.steering_matrix", "doatools/model/array_elements.py:CustomNonisotropicSensor", "doatools/model/sources.py:calc_spherical_coords"]}
{"id": "C79", "title": "The unit of length does not matter", "statement": "Multiplying all sensor locations, location errors, near-field source positions and the wavelength by the same positive factor changes nothing: steering_matrix returns the same matrix and derivatives or raises the same exception (for elements that are not isotropic, with far-field sources), and the stochastic, deterministic and uncorrelated Cramer-Rao bounds and the asymptotic covariances of MUSIC and coarray-based MUSIC return the same values or exceptions.", "quantifier": "all arrays, perturbations, modes, source placements, wavelengths, powers, noise levels and positive factors", "why_tests_cant": "An invariance over a continuum of factors, arrays and sources.", "anchors": ["doatools/model/arrays.py:ArrayDesign.steering_matrix", "doatools/model/sources.py:phase_delay_matrix", "doatools/performance/crb.py", "doatools/performance/mse.py"]}
{"id": "C80", "title": "What the geometry can and cannot tell apart", "statement": "A 1-D far-field placement gives the same steering matrix as the 2-D placement with azimuth pi/2 - theta and elevation 0, on every array. On arrays whose actual locations lie on the x-axis, 2-D placements with equal direction cosines along the axis give the same steering matrix, which is that of the 1-D placement with these sines, and mirroring 1-D sources at broadside conjugates it; on planar arrays negating elevations does not change it. On a ULA two sources have the same steering vector exactly if the difference of the sines of their angles is an integer multiple of wavelength over spacing, hence with a spacing below half a wavelength only if they are equal.", "quantifier": "all arrays, perturbations, placements in all units, wavelengths", "why_tests_cant": "Equalities and an equivalence over continua of directions and arrays.", "anchors": ["doatools/model/sources.py:phase_delay_matrix", "doatools/model/arrays.py:ArrayDesign.steering_matrix"]}
{"id": "C81", "title": "The scale of the data does not matter", "statement": "Multiplying the covariance matrix by a positive constant changes no estimate: the Bartlett and MVDR beamformers return the same resolved flag and the same (refined) estimates with a spectrum scaled by the constant, because estimate() only compares spectrum values; MUSIC, Min-Norm, root-MUSIC and ESPRIT return identical results for R and for g R + s I (other noise level), and whatever eigenvectors eigh returns, provided the k largest eigenvalues are separated from the rest; AIC and MDL select the same number of sources. (SORTE does not have this property, see C51.)", "quantifier": "all covariance matrices, positive factors, shifts, grids, estimator states, refinement settings, conforming eigh/eigvals implementations", "why_tests_cant": "Continuum of matrices and factors; all implementations of eigh with ties and phases.", "anchors": ["doatools/estimation/core.py:SpectrumBasedEstimatorBase._estimate", "doatools/estimation/beamforming.py:f_bartlett", "doatools/estimation/beamforming.py:f_mvdr", "doatools/estimation/music.py:f_music", "doatools/estimation/music.py:RootMUSIC1D.estimate", "doatools/estimation/min_norm.py:MinNorm.estimate", "doatools/estimation/esprit.py:Esprit1D.estimate", "doatools/estimation/source_number.py:aic", "doatools/estimation/source_number.py:mdl"]}
{"id": "C82", "title": "Position, numbering and unit of length of the array do not change estimates", "statement": "Let an array have the sensors of another one, moved as a whole and numbered differently, each sensor keeping its location, gain and phase errors and couplings. Searching the same far-field grid (1-D or 2-D) with the covariance matrix of the renumbered measurements, the Bartlett and MVDR beamformers return exactly the same exception, or resolved flag, (refined) estimates and spectrum; so does MUSIC for Hermitian covariance matrices whose k largest eigenvalues are separated from the rest, whatever eigenvectors eigh returns, and Min-Norm if the first sensor keeps its number (it is the reference). Describing array and wavelength in another unit of length changes nothing for all four.", "quantifier": "all arrays, elements, perturbations, translations, renumberings, wavelengths, grids and units, peak finders, covariance matrices, k, refinement settings, states of the estimator and sequences of calls, conforming eigh implementations", "why_tests_cant": "Continuum of positions and matrices, all permutations, all histories of the estimator.", "anchors": ["doatools/model/arrays.py:ArrayDesign.steering_matrix", "doatools/estimation/core.py:SpectrumBasedEstimatorBase._estimate", "doatools/estimation/beamforming.py:BartlettBeamformer.estimate", "doatools/estimation/beamforming.py:MVDRBeamformer.estimate", "doatools/estimation/music.py:MUSIC.estimate", "doatools/estimation/min_norm.py:MinNorm.estimate"]}
{"id": "C83", "title": "Estimates do not change under small errors of the covariance matrix", "statement": "The noise subspace projector that the subspace estimators compute from a Hermitian matrix R' differs from that of R, whose noise and signal eigenvalues are separated by a gap g, by at most 2 ||R'-R|| / g in Frobenius norm, and the MUSIC denominators by at most this times the power of the response. Hence, whenever an estimator returns exactly the sources from the exact covariance matrix A P A^H + sigma I (MUSIC on 1-D grids and, for non-adjacent sources, 2-D grids; Min-Norm on uniform linear arrays; Bartlett and MVDR for dominant points, in particular one source), there is a delta > 0 such that it returns exactly these sources from every (Hermitian) matrix whose entries differ by less than delta, whatever eigenvectors eigh returns and after every history of calls.", "quantifier": "all Hermitian matrices (near the model), arrays and grids satisfying the stated identifiability conditions, source covariances, noise powers, conforming eigh implementations, call histories", "why_tests_cant": "Every neighbourhood of a matrix is infinite; tests sample a few noise realisations.", "anchors": ["doatools/estimation/core.py:get_noise_subspace", "doatools/estimation/music.py:MUSIC.estimate", "doatools/estimation/min_norm.py:MinNorm.estimate", "doatools/estimation/beamforming.py:BartlettBeamformer.estimate", "doatools/estimation/beamforming.py:MVDRBeamformer.estimate"]}
{"id": "C84", "title": "Simulated experiments converge", "statement": "Let the real numbers drawn by the signal generators be independent with mean 0 and variance 1 (as np.random.randn). As the number of snapshots grows, the sample covariance matrix returned by get_narrowband_snapshots converges almost surely to A P A^H + Q, the covariance matrix of the model; every property of the covariance matrix that holds near the model covariance holds almost surely for all but finitely many numbers of snapshots and with probability tending to 1; in particular the probability that MUSIC (1-D and 2-D grids), Min-Norm (uniform linear arrays), or for one source the Bartlett and MVDR beamformers do not return exactly the sources on the grid tends to 0.", "quantifier": "all arrays, sources on an unambiguous grid, source covariances, noise powers, distributions of the draws with mean 0 and variance 1, numbers of snapshots tending to infinity, conforming eigh and sqrtm", "why_tests_cant": "A limit of probabilities over infinitely many experiments cannot be observed.", "anchors": ["doatools/model/signals.py:ComplexStochasticSignal.emit", "doatools/model/snapshots.py:get_narrowband_snapshots", "doatools/estimation/music.py:MUSIC.estimate", "doatools/estimation/min_norm.py:MinNorm.estimate", "doatools/estimation/beamforming.py:BartlettBeamformer.estimate"]}
{"id": "C85", "title": "ESPRIT is stable and consistent", "statement": "For a uniform linear array of n sensors and at most n - displacement distinct sources strictly inside the field of view and without ambiguity: for every eps > 0 there is a delta > 0 such that ESPRIT (least squares or total least squares; without row weights, or with weights when the subarrays do not overlap), applied to any Hermitian matrix whose entries are within delta of the exact covariance matrix, succeeds and returns, sorted and in the requested unit, one direction within eps of each true one. In a simulated experiment with independent draws of mean 0 and variance 1 the probability that this fails tends to 0 as the number of snapshots grows.", "quantifier": "all array sizes, spacings, displacements, source sets, source covariances, noise powers, units, covariance matrices near the exact one, conforming eigh and eigvals, distributions of the draws with mean 0 and variance 1", "why_tests_cant": "A neighbourhood of matrices is uncountable, the radius is not known in advance, and a limit of probabilities cannot be observed.", "anchors": ["doatools/estimation/esprit.py:Esprit1D.estimate", "doatools/model/sources.py:FarField1DSourcePlacement.from_z", "doatools/model/snapshots.py:get_narrowband_snapshots"]}
{"id": "C86", "title": "Coarray estimation is stable and consistent", "statement": "For an unperturbed linear grid array and uncorrelated sources, fewer than the size v of the central hole-free segment of the difference coarray (so possibly more than there are sensors): there is a neighbourhood of the exact covariance matrix such that coarray MUSIC (direct augmentation or spatial smoothing, then MUSIC for the virtual ULA) applied to any Hermitian matrix in it returns exactly the sources on the grid, and for every eps > 0 a neighbourhood in which coarray ESPRIT returns one direction within eps of each true one. In a simulated experiment the probability that this fails tends to 0 as the number of snapshots grows.", "quantifier": "all linear grid arrays, histories of the weight function, source sets, powers, noise powers, both transforms, covariance matrices near the exact one, conforming eigh and eigvals, distributions of the draws with mean 0 and variance 1", "why_tests_cant": "A neighbourhood of matrices is uncountable, the radius is not known in advance, and a limit of probabilities cannot be observed.", "anchors": ["doatools/estimation/coarray.py:CoarrayACMBuilder1D.transform", "doatools/estimation/coarray.py:CoarrayACMBuilder1D.get_virtual_ula", "doatools/estimation/music.py:MUSIC.estimate", "doatools/estimation/esprit.py:Esprit1D.estimate", "doatools/model/snapshots.py:get_narrowband_snapshots"]}
{"id": "C87", "title": "Root-MUSIC on estimated covariance matrices is stable and consistent", "statement": "ULA, 1 <= k < m distinct sources strictly inside the field of view and without ambiguity. For every eps > 0 there is a neighbourhood of the exact covariance matrix such that RootMUSIC1D, applied to any Hermitian matrix in it whose MUSIC spectrum has no pole on the unit circle, resolves the sources and returns, sorted and in the requested unit, one direction within eps of each true one, whatever the order of the roots and eigenvectors; the same holds for root-MUSIC on the augmented covariance matrix of a linear grid array. In a simulated experiment the probability that there is no pole on the circle and an estimate is off by eps or more tends to 0. (For the exact matrix, which has poles, root-MUSIC fails: C46.)", "quantifier": "all ULAs and linear grid arrays, source sets, covariances, noise powers, units, covariance matrices near the exact one without poles on the circle, conforming eigh, np.roots and argsort, distributions of the draws with mean 0 and variance 1", "why_tests_cant": "A neighbourhood of matrices is uncountable, roots of a polynomial have no closed form and come in any order, and a limit of probabilities cannot be observed.", "anchors": ["doatools/estimation/music.py:RootMUSIC1D.estimate", "doatools/model/sources.py:FarField1DSourcePlacement.from_z", "doatools/estimation/coarray.py:CoarrayACMBuilder1D.transform", "doatools/model/snapshots.py:get_narrowband_snapshots"]}
{"id": "C88", "title": "Rate of convergence of the sample covariance matrix", "statement": "In an experiment with n snapshots whose numbers are drawn independently from one distribution with mean 0, variance 1 and a fourth moment, the probability that some entry of the sample covariance matrix returned by get_narrowband_snapshots is r or more away from A P A^H + Q is at most C/(n r^2), with C independent of n and r. Hence every property that holds in a neighbourhood of the exact covariance matrix (C83, C85-C87) fails with probability at most C/n.", "quantifier": "all arrays, sources, source and noise covariances (scalar, vector or matrix), distributions with four moments, numbers of snapshots and radii", "why_tests_cant": "A bound on a probability for every n and r cannot be observed by sampling, and the constant must not depend on them.", "anchors": ["doatools/model/snapshots.py:get_narrowband_snapshots", "doatools/model/signals.py:ComplexStochasticSignal.emit", "doatools/utils/math.py:randcn"]}
{"id": "C89", "title": "Source number detectors on sample covariance matrices", "statement": "k < m sources with linearly independent steering vectors and positive definite covariance in white noise of positive power. There are a neighbourhood of the exact covariance matrix and N0 such that aic and mdl report at least k sources on every Hermitian matrix in it for every N >= N0; mdl reports exactly k when moreover the entries deviate by at most r with N r^2 < c log N; sorte reports exactly k in a neighbourhood if the gap is resolved (C51). In a simulated experiment with n snapshots the probability that mdl does not report k is at most C / log n, that aic reports fewer than k at most C / n, and that sorte does not report k at most C / n. (A deviation that does not shrink makes both criteria overestimate.)", "quantifier": "all arrays, sources, covariances, noise powers, Hermitian matrices near the exact one, numbers of snapshots, conforming eigvalsh implementations, distributions with four moments", "why_tests_cant": "A neighbourhood of matrices is uncountable, 'all large N' is infinite, and a limit of probabilities cannot be observed.", "anchors": ["doatools/estimation/source_number.py:aic", "doatools/estimation/source_number.py:mdl", "doatools/estimation/source_number.py:sorte", "doatools/model/snapshots.py:get_narrowband_snapshots"]}
{"id": "C90", "title": "Only directions relative to the array matter", "statement": "If an array of isotropic sensors, together with its location errors and other perturbations, and the sources (far-field 1-D in any unit, far-field 2-D, or near-field) are turned about the z-axis and possibly mirrored together, steering_matrix returns the same matrix. For 1-D sources in degrees or radians the results of crb_sto, crb_det, crb_stouc_farfield_1d and ecov_music_1d are the same too; in particular mirroring a linear array and negating all angles changes nothing.", "quantifier": "all arrays of up to three dimensions with any perturbations, turning angles, mirrored or not, source placements, wavelengths, powers, noise levels, snapshot counts, perturbation modes", "why_tests_cant": "Ranges over all arrays, perturbations and real angles; the bounds involve inverses of matrices depending on all of them.", "anchors": ["doatools/model/arrays.py:ArrayDesign.steering_matrix", "doatools/model/sources.py:FarField1DSourcePlacement.phase_delay_matrix", "doatools/model/sources.py:FarField2DSourcePlacement.phase_delay_matrix", "doatools/model/sources.py:NearField2DSourcePlacement.phase_delay_matrix", "doatools/performance/crb.py:crb_sto_farfield_1d", "doatools/performance/mse.py:ecov_music_1d"]}
{"id": "C91", "title": "Reported sizes are those of the data", "statement": "After any history of constructor calls, copies and accessor calls: actual_ndim is the larger of ndim and the number of columns of the location errors, or ndim without location errors; perturbation-free and perturbed copies report the same size, ndim and output_size, and a perturbation-free copy has actual_ndim = ndim. output_size is the number of values measured per snapshot: size for scalar sensors, more for vector sensors.", "quantifier": "all histories of array operations, all arrays, perturbations and sensor types", "why_tests_cant": "Ranges over all histories and all array and error dimensions.", "anchors": ["doatools/model/arrays.py:ArrayDesign.output_size", "doatools/model/arrays.py:ArrayDesign.actual_ndim", "doatools/model/arrays.py:ArrayDesign.ndim", "doatools/model/arrays.py:ArrayDesign.size"]}
{"id": "C92", "title": "Roots are turned into directions or refused", "statement": "from_z, used by root-MUSIC and ESPRIT, returns valid directions, sorted, whose phase factors are the given complex numbers (up to magnitude), or raises an exception if some number is not the phase factor of a direction. For spacings of at least half a wavelength it always returns directions. Estimates reported by ESPRIT are therefore numbers.", "quantifier": "all lists of complex numbers, spacings, wavelengths, units; all covariances of sums of exponentials, source covariances, noise powers, array sizes, formulations", "why_tests_cant": "Ranges over all complex numbers and spacings; the failing region is open for sub-half-wavelength arrays and its boundary is hit by endfire sources.", "anchors": ["doatools/model/sources.py:FarField1DSourcePlacement.from_z", "doatools/estimation/esprit.py:Esprit1D.estimate", "doatools/estimation/music.py:RootMUSIC1D.estimate"]}
{"id": "C93", "title": "AIC and MDL on singular and indefinite covariance matrices", "statement": "For a positive semidefinite covariance matrix of rank r smaller than the number of sensors m, aic and mdl return r, whatever the number of snapshots n >= 1. So they find the number of sources in a noise-free covariance A P A^H, but for the sample covariance of n < m snapshots they return the rank of the snapshot matrix (n when the snapshots are linearly independent), however many sources there are; and if the smallest eigenvalue is negative, however small, and the others positive, they return 0.", "quantifier": "all positive semidefinite matrices of any size and rank, all steering matrices and source covariances, all arrays, sources, signals and noises with fewer snapshots than sensors, all lists of eigenvalues with a negative smallest one", "why_tests_cant": "the result depends on which statistics become infinite or NaN, for every size, rank and eigenvalue list; a test shows one combination", "anchors": ["doatools/estimation/source_number.py: ld_stat, aic, mdl", "doatools/model/snapshots.py: get_narrowband_snapshots"]}
{"id": "C94", "title": "Additional sources never improve a bound", "statement": "Compute a performance bound for a scene and for the same scene with further sources. Whenever the bound for the larger scene exists, the one for the smaller scene exists too, and no variance of the sources common to both is smaller in the larger scene. For the deterministic CRB the block of the larger bound dominates the smaller bound in the order of symmetric matrices for every positive semidefinite source covariance, however the added sources are correlated with the old ones; for the stochastic CRB the same holds when the added sources are uncorrelated with the old ones, and for the MUSIC error covariance each variance does.", "quantifier": "all array designs (any element, also perturbed), all sets of far-field 1-D sources and all selections from them, all wavelengths, source covariances, noise variances and snapshot counts", "why_tests_cant": "the order of two matrix inverses of different size ranges over all geometries and covariances; a random test only samples it", "anchors": ["doatools/performance/crb.py: crb_sto_farfield_1d, crb_det_farfield_1d", "doatools/performance/mse.py: ecov_music_1d"]}
{"id": "C95", "title": "What the MVDR spectrum says about powers, and when it resolves the sources", "statement": "For the covariance matrix A P A^H + s I the value of the MVDR spectrum at the steering vector of source c is 1/[(P + s (A^H A)^-1)^-1]_cc. It lies between 1/[P^-1]_cc and P_cc + s [(A^H A)^-1]_cc; for uncorrelated sources it never underestimates the power and exceeds it by an amount proportional to the noise. Adding power to the covariance matrix raises the MVDR and Bartlett spectra everywhere. When the noise is below an explicit threshold, every grid point that is not a source has a lower value than every source, so MVDRBeamformer.estimate returns exactly the sources, after any history of calls and also for every nearby matrix; on a uniform linear array such a threshold exists for every scene, also for correlated sources. From the sample covariance matrix of n snapshots the probability of any other result tends to 0.", "quantifier": "all arrays, sources, source covariance matrices (positive definite), noise powers, grids, histories of calls to the estimator, and all covariance matrices in a neighbourhood", "why_tests_cant": "The claim is an inequality between all grid points and all sources, for every scene, every noise level below the threshold and every matrix near the model; tests sample a few scenes.", "anchors": ["doatools/estimation/beamforming.py: MVDRBeamformer.estimate, f_mvdr, BartlettBeamformer.estimate, f_bartlett", "doatools/estimation/core.py: SpectrumBasedEstimatorBase._estimate"]}
{"id": "C96", "title": "Arrays of vector sensors", "statement": "For elements with several outputs get_narrowband_snapshots returns one row per output of each sensor (output by output), each the superposition of the source signals weighted by the response plus its noise row, and a sample covariance matrix that converges to A P A^H + Q with the flattened steering matrix A; and the estimators can be applied to these data. (The last part is false: every estimator rejects them with ValueError, and no covariance matrix of any shape is accepted by the beamformers, MUSIC and Min-Norm.) Performance bounds are refused with RuntimeError.", "quantifier": "all arrays of vector sensors, sources, signals, noise, numbers of snapshots, estimator options and histories", "why_tests_cant": "The convergence is almost sure over infinite sequences of snapshots, and the rejection is claimed for every input, option and history.", "anchors": ["doatools/model/snapshots.py: get_narrowband_snapshots", "doatools/model/arrays.py: ArrayDesign.steering_matrix (flatten)", "doatools/estimation/core.py: ensure_covariance_size", "doatools/estimation/*.py: estimate"]}
{"id": "C97", "title": "Refinement on integer search grids", "statement": "Giving the axes of a search grid as integers instead of floats with the same values does not change the estimates; in particular refined estimates are never worse than the grid peaks they start from.", "quantifier": "all integer-valued grids, spectra, densities, iterations and histories of calls", "why_tests_cant": "Depends on the dtype of an array shared between grid, placement and refinement, for every spectrum.", "anchors": ["doatools/estimation/core.py:SpectrumBasedEstimatorBase._refine_estimates", "doatools/estimation/grid.py:FarField1DSearchGrid", "doatools/estimation/grid.py:FarField2DSearchGrid"]}
{"id": "C98", "title": "Maximum-likelihood estimation from estimated covariance matrices is stable and consistent", "statement": "For a uniform linear array and k < n sources with pairwise different directions none of which has an alias in the field of view (d (1 + |sin theta|) < wavelength) and a positive definite source covariance: for every eps > 0 there is a delta > 0 such that, from any Hermitian matrix entrywise within delta of the exact covariance, every candidate placement at which the CML or WSF objective (AML, with positive noise power and n > 2k) is not larger than at the true directions agrees with the true directions to within eps up to order. Consequently a call of estimate() with any initial guess of k float-valued directions and any optimizer that respects the bounds and ends at a point not worse than the truth returns a new placement within eps of the truth, and in simulated experiments with independent draws of mean zero and variance one the probability that some such candidate is not within eps of the truth tends to zero as the number of snapshots grows.", "quantifier": "all array sizes, spacings, wavelengths, numbers of sources, directions, source covariances, noise powers, tolerances, nearby Hermitian matrices, eigendecompositions, candidates, optimizers, estimator states, laws of the draws", "why_tests_cant": "A statement about all nearby matrices, all candidates and a limit in probability; a simulation shows single draws, and a single optimizer run shows one local search.", "anchors": ["doatools/estimation/ml.py: CovarianceBasedMLEstimator.estimate, CMLEstimator._eval_nll, AMLEstimator._eval_nll, WSFEstimator._prepare_m, WSFEstimator._eval_nll", "doatools/utils/math.py: projm", "doatools/model/signals.py", "doatools/model/snapshots.py: get_narrowband_snapshots"]}
{"id": "C99", "title": "Spatial smoothing of estimated covariance matrices resolves coherent sources", "statement": "spatial_smooth never amplifies entrywise errors: if two m x m matrices differ by at most delta in every entry, so do the results for the same l and fb. For coherent sources on a uniform linear array (source covariance only positive semidefinite, nonzero powers), l >= k subarrays with more than k elements (ESPRIT: at least k + displacement): there is a delta > 0 such that from every Hermitian matrix entrywise within delta of the exact covariance, spatial_smooth followed by MUSIC for the subarray returns exactly the sources, and for every eps a delta such that ESPRIT returns them to within eps; hence in simulated experiments with coherent sources and independent draws of mean zero and variance one the probability of failure tends to zero as the number of snapshots grows.", "quantifier": "all sizes, numbers of subarrays, forward and forward-backward smoothing, spacings, wavelengths, search grids, placements, positive semidefinite source covariances, noise powers, nearby matrices, eigendecompositions, estimator histories, laws of the draws", "why_tests_cant": "A neighbourhood of matrices and a limit in probability; tests use single random draws.", "anchors": ["doatools/estimation/preprocessing.py: spatial_smooth", "doatools/estimation/music.py: MUSIC.estimate", "doatools/estimation/esprit.py: Esprit1D.estimate", "doatools/model/snapshots.py: get_narrowband_snapshots"]}
{"id": "C100", "title": "A circular array with neighbours less than half a wavelength apart locates a source in azimuth and elevation", "statement": "For UniformCircularArray(n, r) with n >= 3, r > 0 and neighbouring sensors less than half a wavelength apart (2 r sin(pi/n) < wavelength/2), two directions whose steering vectors are proportional have the same direction cosines in the plane of the array. With the exact covariance of one source at a grid point, MUSIC, BartlettBeamformer and MVDRBeamformer return exactly that grid point: on azimuth/elevation grids in the open upper hemisphere anywhere on the grid, on one-dimensional grids at interior points. Turning the sources by 2 pi/n about the centre only renumbers the sensors cyclically. The bound on the spacing cannot be relaxed: with four sensors exactly half a wavelength apart two opposite directions have the same covariance.", "quantifier": "every number of sensors, radius and wavelength meeting the spacing condition, every pair of directions, every grid, source position, source power, noise variance, choice of eigenvectors and history of estimator calls", "why_tests_cant": "ambiguity of an array is a statement about all pairs of directions in a continuum and all radii; tests probe a few circular arrays and directions", "anchors": ["doatools/model/arrays.py: UniformCircularArray", "doatools/model/sources.py: FarField2DSourcePlacement.phase_delay_matrix", "doatools/estimation/music.py: MUSIC", "doatools/estimation/beamforming.py: BartlettBeamformer, MVDRBeamformer"]}
{"id": "C101", "title": "Sparse linear arrays used directly: a run of N neighbouring sensors locates fewer than N sources", "statement": "For an unperturbed linear grid array (NestedArray, CoPrimeArray, MinimumRedundancyLinearArray or any other GridBasedArrayDesign on a line) that has sensors on N neighbouring grid positions, and a search grid without grating lobes with respect to the grid spacing, MUSIC with the exact covariance of the physical array returns exactly the sources whenever there are fewer than N of them, at interior non-adjacent grid points. NestedArray(n1, n2) has N = n1 + 1; co-prime arrays (m >= 2, both modes) and minimum redundancy arrays (2..19 elements) have N >= 2, so that MUSIC and both beamformers locate a single source. The number of sensors is not enough: with the three-element minimum redundancy array two different pairs of sources have the same covariances.", "quantifier": "every linear grid array, run length, spacing, wavelength, grid, source set, source covariance, noise variance, choice of eigenvectors and history of estimator calls", "why_tests_cant": "identifiability is a statement about all source configurations and all array sizes; tests try a few arrays and angles", "anchors": ["doatools/model/arrays.py: GridBasedArrayDesign, NestedArray, CoPrimeArray, MinimumRedundancyLinearArray", "doatools/estimation/music.py: MUSIC", "doatools/estimation/beamforming.py: BartlettBeamformer, MVDRBeamformer"]}
{"id": "C102", "title": "Min-Norm locates one source on any array", "statement": "One source on the search grid, the exact covariance, an array with isotropic scalar elements whose perturbations are all known: if the responses of all grid points have the same power and the same strength at the first sensor (nonzero, and some other sensor also sees the source) and no other grid point has a response proportional to that of the source, then MinNorm returns exactly the source, on one- and two-dimensional grids. In particular this holds for uniform circular arrays with neighbours less than half a wavelength apart, and for uniform, nested, co-prime and minimum redundancy linear arrays.", "quantifier": "all arrays and perturbations of the stated kind, all wavelengths, all one- and two-dimensional grids in all units, all source positions, powers and noise levels, every eigenvalue decomposition, every history of estimator calls", "why_tests_cant": "a test checks one array, grid and source; Min-Norm can have spurious zeros in general, and that none of them falls on any grid point for any such array needs a proof", "anchors": ["doatools/estimation/min_norm.py: MinNorm", "doatools/estimation/core.py: SpectrumBasedEstimatorBase", "doatools/model/arrays.py: ArrayDesign.steering_matrix, UniformCircularArray, CoPrimeArray, NestedArray, MinimumRedundancyLinearArray"]}
{"id": "C103", "title": "What spatial smoothing leaves alone", "statement": "A Hermitian matrix that is constant along its diagonals is returned by spatial_smooth(R, l, fb) as its leading (m-l+1)x(m-l+1) block, with and without forward-backward averaging. Hence for uncorrelated sources and a uniform linear array the smoothed exact covariance is the exact covariance of the same sources, with the same powers and the same noise power, on the shorter array: nothing but aperture is lost. For the Bartlett beamformer with a uniform linear array, forward-backward averaging changes nothing at all: for every matrix R, spatial_smooth(R, 1, fb=True) gives the same spectrum, estimates and exceptions as R.", "quantifier": "all array sizes, all numbers of subarrays 1 <= l <= m, all Hermitian Toeplitz matrices, all source numbers, directions, powers and noise powers; for the Bartlett claim all square matrices, grids, numbers of sources, options and histories", "why_tests_cant": "The claims are identities over all covariance matrices, array sizes and subarray counts; an off-by-one in a slice or a missing conjugate in the flip can cancel for the symmetric or real matrices used in tests.", "anchors": ["doatools/estimation/preprocessing.py: spatial_smooth", "doatools/estimation/beamforming.py: BartlettBeamformer, f_bartlett", "doatools/model/array_elements.py", "doatools/model/arrays.py: UniformLinearArray"]}
{"id": "C104", "title": "Mirror images", "statement": "For arrays on a line (unperturbed, isotropic elements) the response to the mirrored direction is the complex conjugate, so the covariance matrix of the mirrored sources is the conjugate of the covariance matrix. Given the conjugate of R and the mirror image of the search grid, Bartlett, MVDR, MUSIC and Min-Norm return the mirror images of the estimates and the same spectrum, or the same exception (the subspace methods for Hermitian R with an eigenvalue gap, whatever eigenvectors are returned). Likewise ESPRIT and root-MUSIC return from the conjugate of R the mirrored estimates, except when the phase step of an estimate over the displacement is exactly pi (for ESPRIT with a well-posed least squares problem; for root-MUSIC when roots on the unit circle are double and it is determined which k roots inside are closest to it). A real covariance matrix gives a symmetric Bartlett and MVDR spectrum on every symmetric grid: no side is preferred. The stochastic, deterministic and uncorrelated Cramér-Rao bounds and the MUSIC error covariance of mirrored sources with conjugated source covariance are those of the sources, in every output mode and including the exceptions; so is the coarray MUSIC error covariance of uncorrelated sources on every sparse linear array. Covariance augmentation commutes with conjugation, for both methods and every weight function.", "quantifier": "all line arrays, wavelengths, units, grids, covariance matrices, numbers of sources, displacements, row weights, formulations, eigenvectors, eigenvalue and root orders returned by the library, and histories of the estimators; without grid refinement; for the bounds also all power arguments, noise powers, snapshot numbers and output modes", "why_tests_cant": "It compares two runs, on all grids and all matrices. A sign or conjugation error on one side (conj dropped in a quadratic form, cos for sin) can leave every example with sources near broadside or with real matrices unchanged.", "anchors": ["doatools/model/sources.py: FarField1DSourcePlacement.phase_delay_matrix", "doatools/estimation/beamforming.py: BartlettBeamformer, MVDRBeamformer", "doatools/estimation/music.py: MUSIC", "doatools/estimation/min_norm.py: MinNorm", "doatools/estimation/core.py: SpectrumBasedEstimatorBase._estimate", "doatools/estimation/esprit.py: Esprit1D", "doatools/estimation/music.py: RootMUSIC1D", "doatools/model/sources.py: FarField1DSourcePlacement.from_z", "doatools/performance/crb.py:6-232", "doatools/performance/mse.py:7-161", "doatools/estimation/coarray.py:57-103"]}
{"id": "C105", "title": "The resolution limit of the Bartlett beamformer", "statement": "Take sensors on a line and two uncorrelated sources of equal power whose sines differ by less than half a wavelength divided by the aperture. Then the Bartlett spectrum of the covariance matrix A P A^H + s I has a single maximum around the sources: of two directions whose sines are no further from the mean of the two sines than the sources are from each other, the one closer to the mean has the larger value. If the grid has a point between the sources, BartlettBeamformer.estimate therefore returns neither source, for every noise power (also without noise), every number of requested sources and after every history of calls; the same holds for every nearby matrix, and from the sample covariance matrix of n snapshots the probability that it returns either of them tends to 0. On a uniform linear array and an unambiguous grid MVDRBeamformer, given the same covariance matrix and grid, returns exactly the two sources when the noise is below some threshold. Conversely, on a uniform linear array of n sensors with spacing d, sources of equal power whose sines differ by multiples of wavelength/(n d) are returned exactly by BartlettBeamformer, for every noise power and from every nearby matrix.", "quantifier": "all unperturbed arrays of isotropic sensors on a line, wavelengths, units, pairs of sources, powers, noise powers, increasing grids containing the sources and a point between them, numbers of requested sources and histories of calls to the estimator", "why_tests_cant": "That an estimator fails for every scene below a limit is a statement about a continuum of arrays, sources and grids; a test shows one failure.", "anchors": ["doatools/estimation/beamforming.py: f_bartlett, BartlettBeamformer.estimate, MVDRBeamformer.estimate", "doatools/estimation/core.py: find_peaks_simple, SpectrumBasedEstimatorBase._estimate", "doatools/model/arrays.py: ArrayDesign.steering_matrix", "doatools/model/sources.py: FarField1DSourcePlacement.phase_delay_matrix"]}
{"id": "C106", "title": "The processing chain with an unknown number of sources", "statement": "Pass the sample covariance matrix of n independent snapshots to mdl and the number it reports to MUSIC, ESPRIT or root-MUSIC. If the sources have linearly independent steering vectors and a positive definite covariance, the noise is white and the draws have four moments, then the probability that the reported number is wrong, or that the estimator then does not return what it returns for the exact number of sources near the exact covariance (the exact grid points with MUSIC, directions within any given epsilon with ESPRIT and root-MUSIC), is at most C / log n, so it tends to 0.", "quantifier": "all arrays of isotropic scalar elements (uniform linear arrays for the three estimators), source positions, covariances, noise powers, distributions of the draws with mean zero, variance one and a fourth moment, all n, all eigenvalue routines and all histories of the estimator", "why_tests_cant": "the claim bounds a probability for every number of snapshots and every distribution; a simulation shows a success rate for one scene and one seed", "anchors": ["doatools/estimation/source_number.py: mdl", "doatools/estimation/music.py: MUSIC.estimate, RootMUSIC1D.estimate", "doatools/estimation/esprit.py: Esprit1D.estimate", "doatools/model/snapshots.py: get_narrowband_snapshots"]}
{"id": "C107", "title": "Counting and locating more sources than sensors on the coarray", "statement": "aic and mdl report fewer sources than their matrix has rows, so with the array's own covariance matrix they can never report as many sources as there are sensors. Given the matrix a coarray transform (direct augmentation or spatial smoothing) makes of the sample covariance matrix of a sparse linear array, mdl reports the true number of uncorrelated sources, up to v - 1 for a hole-free central coarray segment of size v, except with probability at most C / log n; and ESPRIT run with the reported number returns directions within any given epsilon of the true ones.", "quantifier": "all linear grid arrays with distinct positions, all positive source powers and noise powers, distinct unambiguous directions, both transforms, all histories of the weight function, all n, all distributions of the draws with mean zero, variance one and a fourth moment, all eigenvalue routines", "why_tests_cant": "the bound holds for every array, scene, distribution and number of snapshots; a test sees single draws for single scenes", "anchors": ["doatools/estimation/source_number.py: aic, mdl", "doatools/estimation/coarray.py: CoarrayACMBuilder1D.transform", "doatools/estimation/esprit.py: Esprit1D.estimate", "doatools/model/coarray.py: WeightFunction1D"]}
{"id": "C108", "title": "Counting coherent sources", "statement": "Given the sample covariance matrix of n independent snapshots of sources with linearly independent steering vectors, mdl reports the rank of the source covariance except with probability at most C / log n; so coherent sources (multipath) are undercounted however many snapshots there are. Given the spatially smoothed sample covariance matrix of a uniform linear array, with at least k subarrays of more than k elements, mdl reports the number k of sources, coherent or not, except with probability at most C / log n, and ESPRIT run with the reported number returns directions within any given epsilon of the true ones.", "quantifier": "all arrays of isotropic scalar elements (uniform linear arrays for smoothing), all source positions with independent steering vectors, all positive semidefinite source covariances (nonzero powers for smoothing), noise powers, subarray sizes, forward and forward-backward smoothing, all n, all distributions of the draws with mean zero, variance one and a fourth moment, all eigenvalue routines", "why_tests_cant": "the claim bounds a probability for every scene, every number of snapshots and every distribution; a simulation shows one scene and one seed", "anchors": ["doatools/estimation/source_number.py: mdl", "doatools/estimation/preprocessing.py: spatial_smooth", "doatools/estimation/esprit.py: Esprit1D.estimate", "doatools/model/snapshots.py: get_narrowband_snapshots"]}
{"id": "C109", "title": "Calibration errors that cannot be noticed", "statement": "On a uniform linear array, the same gain error g at every sensor and phase errors phi0 + i*delta turn sources at theta into sources of the ideal array at any theta' with 2 pi d / lambda (sin theta' - sin theta) = delta (up to multiples of 2 pi), (1+g)^2 times as strong: the covariance matrices are equal. So if the errors are not declared known, ESPRIT and MUSIC return exactly the theta' instead of the theta. No other phase errors stay hidden from a single source: if its covariance matrix is one the ideal array can produce, the phase errors are such a ramp. Errors of scale stay hidden as well: with sensors (1+epsilon) times as far apart as assumed, or with a wrong wavelength or spacing passed to ESPRIT, all sines of the directions are multiplied by one number, exactly.", "quantifier": "all uniform linear arrays, g, phi0, delta, all sets of valid sources, positive definite source covariances, noise powers, units, subarray displacements, grids and estimator histories; for the converse all phase error vectors", "why_tests_cant": "a test checks one ramp and one scene; that every ramp is invisible and nothing else is, is a statement about all errors and scenes", "anchors": ["doatools/model/perturbations.py: GainErrors, PhaseErrors", "doatools/model/perturbations.py: LocationErrors", "doatools/model/arrays.py: ArrayDesign.get_perturbed_copy, ArrayDesign.steering_matrix", "doatools/estimation/esprit.py: Esprit1D.estimate", "doatools/estimation/music.py: MUSIC.estimate"]}
{"id": "C110", "title": "What the two formulations of ESPRIT solve", "statement": "For every covariance matrix, exact or not: with row_weights='none', Esprit1D.estimate takes the first and the last m - displacement rows of the eigenvectors of the k largest eigenvalues; formulation='ls' raises LinAlgError exactly if the first of these matrices does not have full column rank and otherwise uses the only matrix Phi that minimises the Frobenius norm of Es1 Phi - Es2; formulation='tls' uses a Phi that solves (Es1 + D1) Phi = Es2 + D2 for changes D1, D2 whose total squared norm is the least of all changes that make the system solvable, and with a gap between the eigenvalues it is the only such Phi, and it is found whenever it exists. The estimates are computed from the eigenvalues of Phi. With a vector of row weights and subarrays that do not overlap, 'ls' minimises the weighted sum of squares and 'tls' the changes of the weighted matrices.", "quantifier": "all covariance matrices, numbers of sensors and sources, displacements, reference spacings, units, and implementations of eigh and eigvals that keep their contracts", "why_tests_cant": "optimality compares with infinitely many matrices; tests on exact covariance matrices cannot tell the formulations apart, because both are exact there", "anchors": ["doatools/estimation/esprit.py: Esprit1D.estimate"]}
