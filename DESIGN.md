# Formal model of doatools.py in Lean 4 — design

## Method

* The code in /repo is read as text and re-written as *shallow* Lean functions, branch by
  branch; every model definition carries a comment with the file and lines it models and the
  simplifications made.  Exceptions are values (`Except PyErr α`, `Verif/Py.lean`).
* External numerical routines (`np.linalg.eigh`, `np.roots`, `np.argsort`, `scipy.optimize.minimize`,
  `cvxpy`, random draws, peak finders) are *parameters* of the model, constrained by an explicitly
  stated contract that appears as a hypothesis of the theorems that need it.
* Floating point numbers are modelled by exact fields: `ℝ`, `ℂ`, or a generic (ordered) field; so
  rounding, overflow and NaN are outside the model (except where a branch on them is modelled).
* Arrays whose shape matters for an error branch are dynamic (`List`, or a structure with a shape);
  arrays whose shape is fixed by the guard are `Matrix (Fin m) (Fin n) ℂ`.
* Layout: `Verif/Py.lean` (Python/numpy primitives), `Verif/Model/*` (the code), `Verif/Spec/*`
  (small independent vocabulary used in statements), `Verif/Lemmas/*` (helpers),
  `Verif/Props/*` (property theorems, each with a non-vacuity `example`).

## Trusted base

* Lean 4.33.0's kernel (every module is replayed by `vcheck`), and that the statements in
  `Verif/Props` and the definitions they mention (`Verif/Model`, `Verif/Spec`, `Verif/Py`,
  `Verif/Nd`, `Verif/Dict`) say what the English text says.
* Axioms: `propext`, `Classical.choice`, `Quot.sound` and no others.  Nothing is added by this
  project; no compiled evaluation is used.  Almost all theorems depend on all three, because the
  model uses `ℝ`, `ℂ` and Mathlib matrices.
* The transcription of Python to Lean is by hand.  There is no extraction and no differential run
  (the sandbox has no numpy), so a misreading of the code is not caught by the kernel.  Each
  definition cites the lines it transcribes to make that check possible.

## What is modelled

| /repo/doatools | Lean | scope |
|---|---|---|
| model/arrays.py | Model/Arrays, Model/ArrayHeap, Model/ArrayQueries, Model/Steering | all constructors, perturbation bookkeeping, copies, location accessors, `steering_matrix` |
| model/array_elements.py, perturbations.py | Model/Perturbations | all |
| model/sources.py | Model/Sources, Model/SourceHeap | all placements, `as_unit`, `from_z`, indexing, phase delays and derivatives |
| model/coarray.py, estimation/coarray.py | Model/Coarray, Model/UniqueRows | all |
| model/signals.py, snapshots.py | Model/Signals | all; drawn numbers are arguments |
| utils/math.py, conversion.py | Model/MathUtils, Model/UniqueRows, Model/Conversion | all |
| estimation/grid.py | Model/Grid | all |
| estimation/core.py | Model/Estimator, Model/Atoms2D | all, as a state machine with the atom cache |
| estimation/music.py, min_norm.py, esprit.py | Model/Subspace, RootMusic, Esprit | all |
| estimation/beamforming.py, preprocessing.py, source_number.py | Model/Beamforming, Preprocessing, SourceNumber | all |
| estimation/ml.py | Model/ML, Model/MLObjective | all |
| estimation/sparse.py, optim/l1lsq.py | Model/Sparse, Model/L1lsq | all |
| performance/*.py | Model/Performance | all |
| plotting/*.py | Model/Plotting.lean | data handed to matplotlib (curves, target axes, image extents, markers, axis limits); no rasterisation |

## Contracts of external routines (hypotheses, not axioms)

* `np.linalg.eigh`: ascending eigenvalues, some orthonormal eigenvectors (`IsEigh`).  The choice
  inside an eigenspace is arbitrary, so the theorems hold for every LAPACK.
* `np.linalg.eigvals`, `np.roots`: the multiset of roots of the characteristic / given polynomial,
  in any order.  `np.argsort`: some sorting permutation (`IsArgsort`; not stable).
* `np.linalg.inv`/`solve`: fail exactly on singular matrices.  `pinv`, `lstsq`: the Moore-Penrose
  inverse without cutoff.  `svd`: contract as for `eigh`.  `sqrtm`: the positive semidefinite root.
* `cvxpy`: an arbitrary stateful solver; if it reports `optimal`, the value is *some* exact
  minimizer (`CvxSolver.spec`).  `CvxSolver.Complete` (it does report `optimal`) is only assumed where
  stated.  `scipy.optimize.minimize`: an arbitrary terminating strategy of objective evaluations.
* Random draws: arbitrary matrices; statements about expectations assume second moments only (`White`).

Each contract is shown to be satisfiable beside its use (for example `exists_isEigh`, `idealSolver`).

## Not modelled

Floating point rounding, overflow, NaN/inf arithmetic (except where a branch on it is modelled; a call that
returns an object containing NaN has the outcome `returnsNaN`, listed among the exceptions),
A zero wavelength raises ZeroDivisionError in the model as in Python (the hypothesis `[NeZero wl]` of a theorem says it
is not zero); a zero spacing `d0` in `from_z` is excluded. In the performance functions a division by zero (no snapshots, no sources
for 'mean_diag', derivative vectors in the span of the steering vectors, sources without power) ends in ZeroDivisionError or
`returnsNaN`, as in Python/NumPy; `sigma` is taken to be a Python float. Not modelled either:
signed zeros, dtype casting (except the integer initial guess of C53 and the integer search grids of C97), nested Python lists where
arrays are expected, matplotlib/plotly drawing, printing (`__str__`), BLAS/solver internals,
the values (not the shapes, see C96) of spectra on arrays of vector sensors, concurrency (the library has none) and running time.

## Where the code differs from what a user would expect

All are proved about the model (theorem in brackets) unless marked (read only).

1. FarField1DSearchGrid with lists: `offset` is never advanced and the result is rejected [C35_*].
2. NearField2DSearchGrid cannot be instantiated: it overrides the wrong method name [C41_near_field_not_instantiable].
3. `ensure_covariance_size` compares `shape[0]` twice, so a non-square matrix passes [C42_nonsquare_accepted].
4. MinimumRedundancyLinearArray rejects n = 20 [C05_n20_rejected].
5. GainErrors/PhaseErrors given a list raise AttributeError; MutualCoupling accepts a non-square matrix (modelled, see C09).
6. UniformCircularArray drops its keyword arguments [C06_uca_kwargs_dropped].
7. 1-D source out of range raises TypeError while building the message [C22_out_of_range_1d_typeError].
8. RandomPhaseSignal with scalar amplitude: arguments of `np.full` swapped [C56_scalar_amplitude_violated].
9. Base-class `is_applicable_to` returns a bool where a tuple is unpacked so adding a direct instance raises TypeError; all exported subclasses override it [C09_exceptions].
10. `plot_array` looks up the perturbation by the string 'location_errors', keys are classes: never shown [C62_location_errors_violated].
11. root-MUSIC: the loop removing conjugate partners does not skip removed roots; both copies of a double root are lost [C46_violated]. In exact arithmetic this hits the main use case: for the exact covariance of `k < m` sources on a ULA every source root is a double circle root, so all of them are discarded and only the `m - 1 - k` spurious roots remain [C46_exact_covariance]; a broadside source on three sensors is reported at endfire [C46_wrong_doa]. (Floating point hides this in practice, because the computed roots are never exactly on the circle.) Which root counts as the partner is settled by C46_partner.
12. `crb_stouc_farfield_1d`: power block uses Re(g²) instead of |g|²; the reported bound can be below the bound [C59_violated]; it also changes when the array is moved [C72_stouc_violated].
13. `ecov_coarray_music_1d` hard-codes half-wavelength spacing for the virtual ULA: for a quarter-wavelength array without noise it reports a positive variance [C60_violated].
14. `convert_angles` is not invertible on the documented range [C14_convert_angles_not_invertible].
15. k = 0: `x[-0:]` selects everything (C37 requires k ≥ 1).
16. `from_z` with |angle/c| > 1 gives NaN, which passes validation [C92_from_z_partial, C92_esprit_violated, C92_endfire_violated]; any other unit is treated as 'deg' (modelled).
17. ML: integer initial guess raises a casting error [C53_int_guess].
18. Stochastic ML objective is `inf` whenever log det < 0 [C54_nll_infinite].
19. Vector elements: `steering_matrix` is flattened to one row per output, but the estimators compare sizes with `size`, the number of sensors, so every estimator rejects the covariance matrices and snapshots of such arrays [C96_estimation_violated], and no covariance matrix of any shape gets through [C96_no_input_violated; with a single sensor only a row of numbers does, in Bartlett's method: C96_single_sensor_violated]. A noise generator of dimension `output_size` is rejected too [C96_noise_violated].
20. Perturbation order matters for coupling and gain [C12_order_matters].
21. `refine_estimates=False` is rejected by the sparse estimators because the key is present [C55_guards, C67_guards].
22. WeightFunction1D checks the location dimension only (modelled).
23. `actual_element_locations` returns the internal buffer without location errors [C65_actual_locations_alias].
24. A negative 1×1 basis gives a mirrored virtual ULA [C29_negative_basis]; an unnamed array raises TypeError (modelled).
25. ESPRIT row weights are applied in place to overlapping views, i.e. twice [C47_default_weights_wrong].
26. The default 1-D peak finder never reports an end point [C37_peaks_1d_interior].
27. NumPy 2: `np.float_`, `np.complex_` no longer exist (read only).
28. SORTE uses an absolute threshold and is not scale invariant [C51_scale_dependent]; AML has spurious minima when 2k ≥ m is possible [C54_aml_ambiguous].
29. A failed solver on a 2-D grid is reported as resolved [C68_failure_2d].
30. A noise generator of dimension 1 is broadcast [C57_noise_broadcast].
31. `crb_det` with a scalar or list P raises AttributeError (modelled).
32. `plot_spectrum` draws 1-D spectra through `plt.plot`/`plt.semilogy`, i.e. on pyplot's current axes, not on the `ax` passed in [C62_axes_violated].
33. `plot_spectrum` checks the unit of the ground truth and estimates only after the spectra have been drawn [C62_rejected_but_drawn].
34. The 2-D image is placed with `extent` from the first and last axis values; on a non-uniform axis cells do not line up with grid points [C62_registration_violated].
35. `_fix_3d_aspect` scales about the origin instead of the centre, an array away from the origin can leave the view [C62_aspect_violated].
36. `ArrayDesign.output_size` returns `size` for vector sensor arrays too, against its documentation [C91_vector_sensors_violated].
37. AIC and MDL divide by the geometric mean of the smallest eigenvalues: with zero eigenvalues NaN appears and `np.argmin` returns its position, i.e. the rank of the covariance; with fewer snapshots than sensors that is the number of snapshots [C93_few_snapshots(_violated)], and one eigenvalue below zero gives 0 sources [C93_rounding_violated]. `mdl` with zero snapshots raises ValueError [C50_minimiser].
38. With unit `'sin'` the derivative at `±1` for sensors with two or three coordinates is infinite or NaN, without an exception [C16_endfire].
39. On a search grid given by integer axes, refined estimates are stored in an integer array: rounded towards zero, possibly worse than the unrefined peak [C97_integer_axes(_violated)].

## Testing the theorems

`seeded/LOG.jsonl` records realistic bugs injected into a scratch copy of the model, the theorems
that then failed to prove, and the theorems that were tightened as a result.

## Plan per property

| id | modelled | proof |
|----|----------|-------|
| C01 | GridBasedArrayDesign, UniformLinearArray, WeightFunction1D | counting of pairs, central ULA maximality |
| C02 | NestedArray indices | explicit pair for every lag (division by n1+1) |
| C03 | CoPrimeArray constructor incl. swap/gcd/mode branches | case analysis, coprimality |
| C04 | CoPrimeArray + WeightFunction1D | Bezout / CRT for existence, divisibility for the hole |
| C05 | `_MRLA_PRESETS` table and guard | finite table by kernel evaluation; n = 20 is a counterexample |
| C06 | UCA constructor (linspace, cos, sin, dropped kwargs) | trigonometry; kwargs part refuted |
| C07 | URA via `cartesian` | index arithmetic |
| C08 | GridBased constructor with all d0/bases branches, stored attributes, default names | case analysis |
| C09,C10 | heap of array objects with shared perturbation dictionaries | induction over operation histories; the rejecting exception is computed as well (C09_exceptions) |
| C11-C13 | steering_matrix, perturbation classes | algebra over matrices |
| C14,C15,C22 | sources.py, conversion.py | arcsin/sin, range arithmetic |
| C16 | derivative branches of phase_delay_matrix and steering_matrix | `HasDerivAt` |
| C17-C19 | far/near-field phase delays | trigonometry, limits |
| C20 | cart2spherical | `Complex.arg`, atan2 |
| C21 | from_z | `Complex.arg` of exp, sorting |
| C23 | source placements as heap buffers | induction over histories |
| C24-C27 | WeightFunction1D | loops as folds over dictionaries, invariants |
| C28,C29 | CoarrayACMBuilder1D | matrix algebra |
| C30-C33 | utils/math.py | list induction / matrix algebra |
| C34-C36,C41 | estimation/grid.py | linspace arithmetic; class/abstract-method table |
| C37-C40 | estimation/core.py, state machine with cache | invariants over histories, sorting |
| C42 | guards | case analysis; squareness refuted |
| C43-C47 | music.py, min_norm.py, esprit.py | eigen-structure, polynomials |
| C48,C49 | beamforming.py, preprocessing.py | PSD arguments |
| C50-C52 | source_number.py, esprit weights | AM-GM, argmin lemmas |
| C53,C54 | ml.py | state machine with arbitrary optimizer trace; projections |
| C55,C63 | sparse.py, l1lsq.py | vectorisation identities; parameter objects as state |
| C56,C57 | signals.py, snapshots.py | algebra, draws as parameters |
| C58-C60,C64 | performance/*.py | matrix algebra; counterexamples for C59, C60; first-order meaning of the asymptotic covariances: implicit function theorem for the spectral projection and the null-spectrum minimiser (Lemmas/ImplicitPath), then differentiation of the stationarity equation |
| C61,C62 | performance/utils.py, plotting helpers | case analysis |
| C65 | array objects, location buffers in a heap | induction over write histories; alias witness |
| C66 | `l1_svd`, SVD as a contract | orthonormality, Gram matrices |
| C67 | GroupSparseEstimator, LsL1 (l2,1) solver contract | exact recovery from uniqueness of the representation |
| C68 | status branches of the solver wrappers and the peak search | case analysis; refuted on 2-D grids |
| C69 | crb_det, crb_sto, ecov_music on the same arguments | Loewner order, antitone inverse, Schur products |
| C70 | WeightFunction1D, covariance augmentation, virtual ULA, MUSIC, ESPRIT composed | augmented covariance has the model form on the virtual ULA; then C43, C47 |
| C71 | the five performance functions, `as_unit`, derivative branches of the phase delays | columns of the derivative matrix rescale; bounds transform by congruence |
| C72 | crb_sto, crb_det, crb_stouc, ecov_music on a translated array | phase matrices cancel in every formula; counterexample for crb_stouc |
| C73 | crb_sto, crb_det, ecov_music on sub- and super-arrays; all five functions under a common power factor | Loewner order: projected Gram matrices grow with rows, Schur products and inverses are monotone; congruence for crb_stouc, closed form for ecov_coarray |
| C74 | crb_sto, crb_det, crb_stouc, ecov_music with permuted sensors or sources | every step commutes with renumbering |
| C75 | the query methods of array objects (Model/ArrayQueries) over the heap of C09, C10 | invariant of C09 plus dictionary lookups |
| C76 | spatial_smooth, then MUSIC or ESPRIT on the shorter ULA | smoothed source covariance is positive definite (C49), then C43, C47; forward-backward via conjugate symmetry |
| C77 | Bartlett and MVDR estimators with one source | strict Cauchy-Schwarz: the spectrum has its only global maximum at the source, then the grid-search theorem for a dominant point (Props/Dominant) in any dimension |
| C78 | steering_matrix with custom elements, calc_spherical_coords, cart2spherical | branch analysis; C20 for the near-field angles; the far-field direction is related to the phase delay by its unit vector |
| C79 | steering_matrix, the bounds and asymptotic covariances | phase delays depend on lengths only through their ratio to the wavelength; the results are then equal as values, exceptions included |
| C80 | steering_matrix with 1-D and 2-D placements | direction vectors; periodicity of the exponential for grating lobes |
| C81 | estimate() and its users, beamformers, MUSIC, Min-Norm, root-MUSIC, ESPRIT, AIC, MDL | simulation: related spectra give related runs (Lemmas/SameOrder); uniqueness of eigenvalues and of the projection below a gap (Lemmas/EigenGap); uniqueness of the Moore-Penrose inverse; ESPRIT matrices for different bases are similar (Lemmas/EspritBasis) |
| C82 | steering_matrix for arrays related by `Spec.Rearranged`; the four grid-search estimators | simulation of two estimators with atoms related by renumbering and phase factors (Lemmas/SameSpectrum, Lemmas/Rearranged); quadratic forms, Moore-Penrose inverse and noise projector are equivariant; unit of length through C79 |
| C83 | get_noise_subspace and the four grid-search estimators on a perturbed covariance matrix | Davis-Kahan bound from trace inequalities (Lemmas/DavisKahan); strict inequalities between spectrum values are open conditions; then the grid-search theorem for dominant, non-adjacent points |
| C84 | signal generators, get_narrowband_snapshots (`Spec.experiment`), the four grid-search estimators | strong law of large numbers for the entries of the sample covariance; almost sure convergence implies convergence in probability; then C83 |
| C85 | Esprit1D.estimate on a perturbed covariance matrix, and after a simulated experiment | along an ultrafilter converging to the exact matrix, the outputs of eigh, solve, eigvals and from_z converge to something the routine can return for the exact matrix (Lemmas/Limits, Lemmas/EspritLimit); there C47 applies; consistency through C84_probability |
| C86 | CoarrayACMBuilder1D.transform followed by MUSIC or ESPRIT, perturbed covariance and simulated experiment | both transforms are continuous and keep Hermitian matrices Hermitian (from C28); then C83, C85 for the virtual ULA; consistency through C84_probability |
| C87 | RootMUSIC1D.estimate on a perturbed covariance matrix, on the augmented covariance, and after a simulated experiment | without roots on the circle the polynomial is c·∏(X-y)(1-conj(y)X) over its m-1 roots inside; along an ultrafilter converging to the exact matrix these factorisations converge to one of the exact polynomial, whose circle roots are the sources, double (C45, C46); the k selected roots converge to them; from_z is continuous there (Lemmas/RootLimit); consistency through C84_probability |
| C88 | get_narrowband_snapshots on independent draws | the sample covariance is an average of independent outer products (C84); fourth moments give these a variance (Hoelder); Chebyshev for real and imaginary parts of each entry, union bound |
| C89 | aic, mdl and sorte on perturbed covariance matrices and after a simulated experiment | Weyl's inequality (Courant-Fischer by dimension count) for the eigenvalues; continuity of the likelihood terms for i < k; quadratic bound of the likelihood at k in the spread of the noise eigenvalues against the penalty difference 1/2 log N; continuity of the SORTE ratios with the machine-epsilon threshold; then the rate of C88 with r^2 = c log n / (2n) |
| C90 | Steering, sources and bounds as before; Spec/Rotation describes turned point sets, perturbations, arrays and sources. | Phase delays are inner products (far field) or distances (near field), which the orthogonal map preserves; the derivative changes sign under mirroring, which cancels in the bounds (C71's scaling lemmas). |
| C91 | The array heap of C09 with the accessors. | From C13 (actual locations) and C10 (copies); the statement on vector sensors is refuted. |
| C92 | from_z with the outcome returnsNaN where np.arcsin leaves its domain and the constructor's comparisons accept NaN. | Case analysis; C47's rotation matrix for arbitrary phase factors; continuity for the neighbours of the endfire covariance. Refuted below half a wavelength. |
| C93 | source_number.py with infinities and NaN (EReal with an extra NaN), math.log errors and the NaN rule of np.argmin | rank of the matrix = number of nonzero eigenvalues (sorted); position of the first NaN; rank of Y Y^H |
| C94 | crbSto, crbDet, ecovMusic on a scene and on a selection of its sources | principal submatrices of inverses (Schur complements), nested projectors, Loewner order of the weights: Props/MoreSources.lean |
| C95 | fMvdr, fBartlett, mvdrEstimate with the grid, the peak finder and the cache | Woodbury-type identity for A^H R^-1 A, Schur complement bound for the diagonal of an inverse, projection on the noise subspace; then the perturbation argument of C83 and the law of large numbers of C84 |
| C96 | getNarrowbandSnapshots with the flattened steering matrix; guards of all estimators; shapes of the matrix products in f_sp (Model/VectorSensors) | unfolding of the flattened product, strong law of large numbers as in C84, case analysis of the shapes |
| C97 | `intGrid` flag of `EstCfg`, `storeRow` in the refinement loop | exact relation to the float grid by induction on the passes (the stored rows are the float rows rounded towards zero), and a concrete violation |
| C98 | The three objectives (Model/MLObjective.lean), the estimator state (Model/ML.lean) and their composition into complete calls for far-field 1-D sources (Model/MLEstimate.lean) | Compactness: along an ultrafilter converging to the exact covariance the projections onto the candidates' ranges converge to a projection of trace at most k (even when candidates collide in the limit); at the limit the objective is not larger than at the truth, which forces the projection to fix the true steering vectors; the limit of the candidates' phase polynomials annihilates them, so the limits of the directions are the true ones. Consistency follows from C84_probability, complete calls from C53 |
| C99 | spatial_smooth on a heap of buffers (Model/Preprocessing.lean), MUSIC, ESPRIT and the snapshot experiment | Averages of diagonal blocks are non-expansive in the max norm; compose with C76 (the smoothed exact covariance has model form with a positive definite source covariance), C83, C85 and C84_probability |
| C100 | `uca`, `FF2D.phaseDelay`, `steering`, MUSIC and beamformer estimators (existing model) | consecutive chords of the circle give two linear equations with a nonzero determinant; the grid theorems C43/C77/C80 then apply |
| C101 | `nested`, `coprime`, `mrla`, `steering`, MUSIC and beamformer estimators (existing model) | the rows of the run form a scaled Vandermonde matrix; lag 1 of C02-C05 gives a run of two; the grid theorems C43/C77 then apply |
| C102 | the Min-Norm estimator (f_min_norm, noise subspace, grid search) on arbitrary arrays as in C43, with the responses of the array model | the weight vector is the projection of the first unit vector on the noise subspace, so the denominator at a response v is v_0 - a_0 (a^H v)/|a|^2; if it were zero, |a^H v| = |a|^2, which contradicts the strict Cauchy-Schwarz inequality |
| C103 | `spatialSmooth` on the heap of arrays (views, in-place flips), `steering`, `bartlettEstimate`. | From the entrywise formula C49_smooth: each smoothed entry is a mean of entries on one diagonal. Uncorrelated sources give a Toeplitz covariance because ULA entries are integer powers of one phase factor; for Bartlett, the reversed conjugated atom is a unit multiple of the atom, so the backward matrix has the same quadratic form. |
| C104 | `steering`, the grid search `EstCfg.estimate` with its caches, `bartlettEstimate`, `mvdrEstimate`, `musicEstimate`, `minNormEstimate`, `espritEstimate`, `rootMusicEstimate`, `FF1D.fromZ`. | sin is odd, so the phases change sign; quadratic forms, the pseudo-inverse (uniqueness of the Penrose equations) and the noise projector (uniqueness under an eigenvalue gap) commute with conjugation; the search then sees the same values and `EstInv` removes the histories. ESPRIT and root-MUSIC: each step commutes with conjugation once the library functions are conjugated too; eigenvectors are exchanged by C81, eigenvalue and root orders by multiset equality; `from_z` turns conjugate phases into negated directions except at phase `π` (`C104_boundary_violated` shows that this exception is needed). Bounds (`crbSto`, `crbDet`, `crbStouc`, `ecovMusic`): steering and derivative matrices become `conj A`, `-conj D`; every solve and inverse commutes with conjugation, the real part does not see it, and the Fisher information of `crbStouc` changes by the signs of the DOA rows and columns, which leave the inverted block. `ecovCoarray`: via `C60_formula` and `acmTransform` of a conjugate. |
| C105 | `steering`, `covModel` (the exact covariance matrix), `bartlettEstimate`, `mvdrEstimate`, `findPeaks1` with its plateau rule, the grid search with its caches. | The spectrum is a sum over pairs of sensors of cos(b D/2) cos(b t), b the phase slope of the pair, t the distance from the mean; below the limit the first factor is positive and the second decreasing (C105_spectrum). A grid point with a larger neighbour is not a peak, so C37 excludes it from the estimates (C105_unresolved; the finitely many strict inequalities survive small changes of the matrix, hence C105_snapshots by C84). The MVDR part is C95_ula (C105_mvdr). Sources far apart have orthogonal responses, so the spectrum is the squared norm of a projection (C105_orthogonal). |
| C106 | the client program that calls mdl and then the estimator, on top of the models of mdl, MUSIC, ESPRIT, root-MUSIC and the snapshot generation | C89 (mdl), C83/C85/C87 (stability of the estimators) and C88 (concentration) combined; the same draw yields one covariance matrix, union bound |
| C107 | the client program transform, mdl, ESPRIT on top of the models of the coarray transforms, mdl and ESPRIT | the transforms are Lipschitz near every matrix (averages of entries; products), so the deviation sqrt(log n / n) that MDL tolerates survives; C88 concentration; C86 for ESPRIT; length of the list passed to argmin for the upper limit |
| C108 | the client program smooth, mdl, ESPRIT on top of the models of spatial_smooth, mdl, ESPRIT and the snapshot generation | rank factorisation of the source covariance reduces the first part to C89 with as many virtual sources as the rank; smoothing is Lipschitz (averages of blocks) and makes the virtual source covariance definite (C76), then C89 and C99; C88 concentration |
| C109 | get_perturbed_copy, steering_matrix with gain, phase and location errors, ESPRIT and MUSIC | closed form of the perturbed steering matrix of a ULA (C12), equality of covariances, then C47 and C43 for the ideal array; converse from the entries (i, 0) of the covariance |
| C110 | The two branches of the rotation matrix estimate and the subspace selection before them | Pythagoras for the Frobenius norm; the trace against a projector of rank k is at least the sum of the k least eigenvalues, with equality only for the eigenprojector if there is a gap (C110_ls, C110_tls, C110_tls_found, C110_estimate; with row weights and no overlap C110_weighted) |

No property is inexpressible in a model.  What is *not* expressible anywhere in this model is listed
under "Not modelled".

