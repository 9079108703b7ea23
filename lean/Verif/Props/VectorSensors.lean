import Verif.Model.VectorSensors
import Verif.Model.Performance
import Verif.Props.Consistency
import Verif.Props.Sparse
import Verif.Props.ML
import Verif.Props.Dimensions
import Verif.Props.Directional

/-!
# C96: arrays of vector sensors

Steering matrices and snapshots of vector sensors are what they should be, but none of the estimators accepts them.
-/

namespace Doa.Props

open Doa Doa.Spec Matrix MeasureTheory ProbabilityTheory Filter
open scoped ComplexOrder Topology

variable {k : ℕ}

/-- **C96** (snapshots). Sensors with several outputs: row `l * m + i` of the snapshots is output `l` of sensor `i`, the sum over the
sources of its response times the source signal, plus that row of the noise; the covariance matrix is `Y Yᴴ / n`. -/
theorem C96_snapshots {n : ℕ} (a : ArrayDesign) (src : Sources k) (wl : ℝ) (out)
    (hA : steering a src wl false "all" = .ok out) (S : Matrix (Fin k) (Fin n) ℂ)
    (N : Matrix (Fin (a.element.outputSize * a.size)) (Fin n) ℂ) :
    ∃ Y R, getNarrowbandSnapshots a src wl (.ok ⟨k, n, S⟩) (some (.ok ⟨a.element.outputSize * a.size, n, N⟩)) n = .ok ⟨n, Y, R⟩ ∧
      (∀ (l : Fin a.element.outputSize) (i : Fin a.size) (r : Fin (a.element.outputSize * a.size)), r.1 = l.1 * a.size + i.1 →
        ∀ t, Y r t = ∑ c, out.A l i c * S c t + N r t) ∧
      ∀ i j, R i j = (∑ t, Y i t * star (Y j t)) / n := by
  refine ⟨_, _, (getNarrowbandSnapshots_ok a src wl out hA S N).2, fun l i r hr t => ?_, fun i j => ?_⟩
  · have hr' : r = finProdFinEquiv (l, i) := by
      apply Fin.ext
      rw [hr]
      simp [finProdFinEquiv]
      ring
    rw [Matrix.add_apply, Matrix.mul_apply]
    congr 1
    refine Finset.sum_congr rfl fun c _ => ?_
    rw [hr']
    simp [Steering.flat]
  · rw [Matrix.smul_apply, Matrix.mul_apply, smul_eq_mul, div_eq_inv_mul]
    rfl

/-- **C96** (noise). A noise generator with one row per sensor — the dimension `output_size` asks for (C91) — raises `ValueError` for
every array of at least two sensors with at least two outputs. -/
theorem C96_noise_violated {n : ℕ} (a : ArrayDesign) (src : Sources k) (wl : ℝ) (out) (hA : steering a src wl false "all" = .ok out)
    (hout : 2 ≤ a.element.outputSize) (hsize : 2 ≤ a.size) (S : Matrix (Fin k) (Fin n) ℂ) (N : Matrix (Fin a.outputSize) (Fin n) ℂ) :
    getNarrowbandSnapshots a src wl (.ok ⟨k, n, S⟩) (some (.ok ⟨a.outputSize, n, N⟩)) n = .error .valueError := by
  refine (C57_errors a src wl out hA _ _ (Or.inr ⟨?_, ?_⟩)).1
  · show a.size ≠ _
    nlinarith
  · show a.size ≠ 1
    omega

/-- The sample covariance matrix of vector sensors is an average over the snapshots. -/
theorem vector_average {sqrtm : Sqrtm} (hs : IsSqrtm sqrtm) {p : ℕ} (A : Matrix (Fin p) (Fin k) ℂ) {C1 C2 : CovArg} {g1 : StoGen k}
    {g2 : StoGen p} (hg1 : stoInit sqrtm k C1 = .ok g1) (hg2 : stoInit sqrtm p C2 = .ok g2) {P Q}
    (hP : Denotes k C1 P) (hQ : Denotes p C2 Q) (hPp : P.PosSemidef) (hQp : Q.PosSemidef) :
    ∃ co : Fin p → (Bool × Fin k) ⊕ (Bool × Fin p) → ℂ,
      (∀ i j, ∑ q, co i q * star (co j q) = (A * P * Aᴴ + Q) i j) ∧
      ∀ n (d : Fin n → SnapshotDraw k p) i t,
        (A * g1.emit n (Matrix.of fun i t => d t (.inl (true, i))) (Matrix.of fun i t => d t (.inl (false, i))) +
          g2.emit n (Matrix.of fun i t => d t (.inr (true, i))) (Matrix.of fun i t => d t (.inr (false, i)))) i t =
          ∑ q, co i q * (d t q : ℂ) := by
  obtain ⟨B1, hB1, he1⟩ := emit_factor hs hg1 hP hPp
  obtain ⟨B2, hB2, he2⟩ := emit_factor hs hg2 hQ hQp
  refine ⟨fun i => Sum.elim (snapCoef (A * B1) i) (snapCoef B2 i), fun i j => ?_, fun n d i t => ?_⟩
  · rw [Fintype.sum_sum_type]
    simp only [Sum.elim_inl, Sum.elim_inr]
    rw [snapCoef_star, snapCoef_star, hB2, Matrix.conjTranspose_mul, Matrix.add_apply]
    congr 2
    rw [← hB1]
    simp only [Matrix.mul_assoc]
  · rw [he1, he2, ← Matrix.mul_assoc, Matrix.add_apply, mul_randcn_col (A * B1) (fun t q => d t (.inl q)),
      mul_randcn_col B2 (fun t q => d t (.inr q)), Fintype.sum_sum_type]
    rfl

/-- **C96** (sample covariance). With a noise generator of one row per output the sample covariance matrix of the snapshots of vector sensors
converges almost surely to `A P Aᴴ + Q`, where `A` is the flattened steering matrix: the data are right. -/
theorem C96_sample_covariance {sqrtm : Sqrtm} (hs : IsSqrtm sqrtm) (a : ArrayDesign) (src : Sources k) (wl : ℝ) (out)
    (hA : steering a src wl false "all" = .ok out) {C1 C2 : CovArg} {g1 : StoGen k} {g2 : StoGen (a.element.outputSize * a.size)}
    (hg1 : stoInit sqrtm k C1 = .ok g1) (hg2 : stoInit sqrtm (a.element.outputSize * a.size) C2 = .ok g2) {P Q}
    (hP : Denotes k C1 P) (hQ : Denotes (a.element.outputSize * a.size) C2 Q) (hPp : P.PosSemidef) (hQp : Q.PosSemidef)
    {Ω : Type} [MeasurableSpace Ω] (μ : Measure Ω) (D : ℕ → Ω → SnapshotDraw k (a.element.outputSize * a.size))
    (hindep : Pairwise fun s t => IndepFun (D s) (D t) μ) (hident : ∀ t, IdentDistrib (D t) (D 0) μ μ)
    (hw : White μ fun q ω => D 0 ω q) :
    ∃ R : Ω → ℕ → Matrix (Fin (a.element.outputSize * a.size)) (Fin (a.element.outputSize * a.size)) ℂ,
      (∀ ω n, ∃ Y, getNarrowbandSnapshots a src wl
        (.ok ⟨k, n, g1.emit n (Matrix.of fun i t => D t ω (.inl (true, i))) (Matrix.of fun i t => D t ω (.inl (false, i)))⟩)
        (some (.ok ⟨a.element.outputSize * a.size, n,
          g2.emit n (Matrix.of fun i t => D t ω (.inr (true, i))) (Matrix.of fun i t => D t ω (.inr (false, i)))⟩)) n = .ok ⟨n, Y, R ω n⟩) ∧
      ∀ᵐ ω ∂μ, ∀ i j, Tendsto (fun n => R ω n i j) atTop (𝓝 ((out.flat * P * out.flatᴴ + Q) i j)) := by
  obtain ⟨co, hco, hY⟩ := vector_average hs out.flat hg1 hg2 hP hQ hPp hQp
  refine ⟨_, fun ω n => ⟨_, (getNarrowbandSnapshots_ok a src wl out hA _ _).2⟩, ?_⟩
  rw [ae_all_iff]; intro i
  rw [ae_all_iff]; intro j
  have hc := outerEntry_continuous co i j
  have hls := hw.lin_star (co i) (co j)
  have h := strong_law_ae (fun t ω => outerEntry co i j (D t ω)) hls.1
    (fun s t hst => (hindep hst).comp hc.measurable hc.measurable) (fun t => (hident t).comp hc.measurable)
  have hmean : ∫ ω, outerEntry co i j (D 0 ω) ∂μ = (out.flat * P * out.flatᴴ + Q) i j := by
    rw [← hco]
    exact hls.2
  filter_upwards [h] with ω hω
  rw [hmean] at hω
  refine hω.congr fun n => ?_
  rw [Complex.real_smul, Matrix.smul_apply, Matrix.mul_apply, smul_eq_mul]
  push_cast
  congr 1
  rw [← Fin.sum_univ_eq_sum_range (fun t => outerEntry co i j (D t ω)) n]
  refine Finset.sum_congr rfl fun t _ => ?_
  rw [conjTranspose_apply, hY n (fun t => D t ω), hY n (fun t => D t ω)]
  rfl

theorem wrong_rows {p c m : ℕ} (h : p ≠ m) : ensureCovarianceSize [p, c] m = .error .valueError := by
  unfold ensureCovarianceSize
  simp [h]

theorem more_rows {a : ArrayDesign} (hout : 2 ≤ a.element.outputSize) (hsize : 1 ≤ a.size) : a.element.outputSize * a.size ≠ a.size := by
  nlinarith

/-- **C96** (violated: estimation). Every estimator that is given an array of vector sensors rejects with `ValueError` every snapshot matrix and
every covariance matrix that `get_narrowband_snapshots` returns for this array, whatever the sources, the signals, the noise, the
number of sources asked for, the history of the estimator and its options. -/
theorem C96_estimation_violated {a : ArrayDesign} (hout : 2 ≤ a.element.outputSize) (hsize : 1 ≤ a.size)
    {src : Sources k} {wl : ℝ} {S : Res CMat} {N : Option (Res CMat)} {n n' : ℕ} {Y R}
    (_h : getNarrowbandSnapshots a src wl S N n = .ok ⟨n', Y, R⟩) (K : ℕ) (kw : EstKw) :
    (∀ cfg st, bartlettEstimate (m := a.size) cfg st R K kw = (.error .valueError, st)) ∧
    (∀ cfg st, mvdrEstimate (m := a.size) cfg st R K kw = (.error .valueError, st)) ∧
    (∀ eigh cfg st, musicEstimate eigh (m := a.size) cfg st R K kw = (.error .valueError, st)) ∧
    (∀ eigh (_ : NeZero a.size) cfg st, minNormEstimate eigh (m := a.size) cfg st R K kw = (.error .valueError, st)) ∧
    (∀ (K' : ℕ) cfg p (sv : CvxSolver (Fin K' → ℝ)) noiseKnown st ps l sigma given,
      scmEstimate (m := a.size) cfg p sv noiseKnown st ps R K l sigma given = (.error .valueError, st, ps)) ∧
    (∀ (K' t : ℕ) cfg (sv : CvxSolver (Matrix (Fin K') (Fin t) ℂ)) st ps l given,
      groupSparseEstimate (m := a.size) cfg sv st ps Y K l given = (.error .valueError, st, ps)) ∧
    (∀ (c : MLCall) (st : MLState) r0 v, c.shape = [a.element.outputSize * a.size, a.element.outputSize * a.size] →
      st.heap.view r0 = some v → (st.estimate a.size c r0).1 = .error .valueError) ∧
    (∀ (w : WeightFunction) method, w.m = a.size → acmTransform w R method = (.error .valueError, w)) := by
  have hne := more_rows hout hsize
  refine ⟨fun cfg st => ?_, fun cfg st => ?_, fun eigh cfg st => ?_, fun eigh _ cfg st => ?_, fun K' cfg p sv nk st ps l sigma given => ?_,
    fun K' t cfg sv st ps l given => ?_, fun c st r0 v hc hv => ?_, fun w method hw => ?_⟩
  · unfold bartlettEstimate beamArgs
    rw [wrong_rows hne]
  · unfold mvdrEstimate beamArgs
    rw [wrong_rows hne]
  · unfold musicEstimate subspaceArgs
    rw [wrong_rows hne]
  · unfold minNormEstimate subspaceArgs
    rw [wrong_rows hne]
  · unfold scmEstimate
    rw [wrong_rows hne]
    split <;> rfl
  · exact C67_guards cfg sv st ps Y K l given (Or.inr (Or.inl hne))
  · unfold MLState.estimate
    rw [hv]
    dsimp only
    unfold ensureNResolvable
    by_cases hr : (v.1.length : ℤ) > (a.size : ℤ) - 1
    · rw [if_pos hr]
    · rw [if_neg hr, hc, wrong_rows hne]
  · unfold acmTransform
    rw [if_pos (by rw [hw]; exact hne)]

/-- **C96** (violated: matrices of the size of the array). The beamformers, MUSIC and Min-Norm raise an exception for a covariance matrix of any
shape if the array has at least two vector sensors: a matrix that passes the size check cannot be multiplied with the flattened steering
matrix. With scalar sensors a square matrix of the size of the array is accepted. -/
theorem C96_no_input_violated (meth : GridMethod) (a : ArrayDesign) (hsize : 2 ≤ a.size) :
    (2 ≤ a.element.outputSize → ∀ r c K, ∃ e, meth.start a r c K = .error e) ∧
    (a.element.outputSize = 1 → ∀ K, K < a.size → meth.start a a.size a.size K = .ok ()) := by
  constructor
  · intro hout r c K
    have hne : a.atomRows ≠ a.size := more_rows hout (by omega)
    have h1 : a.atomRows ≠ 1 := by
      unfold ArrayDesign.atomRows
      nlinarith
    unfold GridMethod.start
    by_cases hr : r = a.size
    swap
    · exact ⟨_, by rw [wrong_rows hr]⟩
    · have hok : ensureCovarianceSize [r, c] a.size = .ok () := by simp [ensureCovarianceSize, hr]
      rw [hok]
      cases meth with
      | bartlett =>
        refine ⟨.valueError, ?_⟩
        simp only [GridMethod.checkSources, GridMethod.spectrumShapes, rowsBroadcast]
        split
        · rfl
        · rw [if_neg]
          rw [hr]
          omega
      | mvdr =>
        refine ⟨.linAlgError, ?_⟩
        simp only [GridMethod.checkSources, GridMethod.spectrumShapes]
        rw [if_pos (by rw [hr]; exact fun h => hne h.symm)]
      | music =>
        simp only [GridMethod.checkSources, GridMethod.spectrumShapes, ensureNResolvable]
        split
        · exact ⟨_, rfl⟩
        · split
          · exact ⟨_, rfl⟩
          · rw [if_pos (by rw [hr]; exact fun h => hne h.symm)]
            exact ⟨_, rfl⟩
      | minNorm =>
        simp only [GridMethod.checkSources, GridMethod.spectrumShapes, ensureNResolvable]
        split
        · exact ⟨_, rfl⟩
        · split
          · exact ⟨_, rfl⟩
          · rw [if_pos (by rw [hr]; exact fun h => hne h.symm)]
            exact ⟨_, rfl⟩
  · intro hout K hK
    have hrows : a.atomRows = a.size := by rw [ArrayDesign.atomRows, hout, one_mul]
    have hok : ensureCovarianceSize [a.size, a.size] a.size = .ok () := by simp [ensureCovarianceSize]
    have hk : ensureNResolvable K ((a.size : ℤ) - 1) = .ok () := if_neg (by omega)
    unfold GridMethod.start
    rw [hok, hrows]
    cases meth <;> simp [GridMethod.checkSources, GridMethod.spectrumShapes, rowsBroadcast, hk]

/-- **C96** (a single vector sensor). With one sensor with several outputs no square matrix is accepted either. The only input that reaches
the spectrum is a single row with one entry for each output, which Bartlett's method takes for a covariance matrix. -/
theorem C96_single_sensor_violated (a : ArrayDesign) (hsize : a.size = 1) (hout : 2 ≤ a.element.outputSize) (meth : GridMethod)
    (r c K : ℕ) : meth.start a r c K = .ok () ↔ meth = .bartlett ∧ r = 1 ∧ c = a.element.outputSize := by
  unfold GridMethod.start
  rw [hsize]
  by_cases hr : r = 1
  swap
  · rw [wrong_rows hr]
    simp [hr]
  · subst hr
    have hok : ensureCovarianceSize [1, c] 1 = .ok () := by simp [ensureCovarianceSize]
    have hrows : a.atomRows = a.element.outputSize := by rw [ArrayDesign.atomRows, hsize, mul_one]
    have h1 : (1 : ℕ) ≠ a.element.outputSize := by omega
    rw [hok, hrows]
    cases meth with
    | bartlett =>
      by_cases hc : c = a.element.outputSize <;> simp [GridMethod.checkSources, GridMethod.spectrumShapes, rowsBroadcast, hc]
    | mvdr => simp [GridMethod.checkSources, GridMethod.spectrumShapes, h1]
    | music =>
      simp only [GridMethod.checkSources, GridMethod.spectrumShapes, ensureNResolvable]
      split <;> simp
      split <;> simp
    | minNorm =>
      simp only [GridMethod.checkSources, GridMethod.spectrumShapes, ensureNResolvable]
      split <;> simp
      split <;> simp

/-- **C96** (bounds). For directional and vector elements no performance bound is computed: `crb_sto`, `crb_det`, `crb_stouc` and
`ecov_music` raise `RuntimeError` for arguments that are valid for scalar isotropic elements. -/
theorem C96_bounds {n' : ℕ} {a : ArrayDesign} {resp : Fin n' → Option ℝ → ℝ → ℝ → ℂ} (hel : a.element = .custom n' resp)
    (src : FF1D k) (wl : ℝ) {p : PowerArg} {P : Matrix (Fin k) (Fin k) ℂ} (hP : unifyPToMatrix p k = .ok P) {v : Fin k → ℂ}
    {q : PowerArg} (hq : unifyPToVector q k = .ok v) (P' : Matrix (Fin k) (Fin k) ℂ) (sigma : ℝ) (n : ℕ) (mode : String) :
    crbSto a (.ff1 src) wl p sigma n mode = .error .runtimeError ∧
    crbDet a (.ff1 src) wl (.matrix ⟨k, k, P'⟩) sigma n mode = .error .runtimeError ∧
    crbStouc a (.ff1 src) wl q sigma n mode = .error .runtimeError ∧
    ∀ pert ∈ ["all", "known", "none"], k < a.size → ecovMusic a (.ff1 src) wl p sigma n pert mode = .error .runtimeError := by
  have hst : ∀ pert ∈ ["all", "known", "none"], steerPair a (.ff1 src) wl pert = .error .runtimeError := by
    intro pert hp
    have hf : ∃ ps, a.filterPerturbations pert = .ok ps := by
      simp only [List.mem_cons, List.not_mem_nil, or_false] at hp
      rcases hp with rfl | rfl | rfl <;> exact ⟨_, rfl⟩
    obtain ⟨ps, hf⟩ := hf
    unfold steerPair
    rw [C78_derivatives hel hf]
  refine ⟨?_, ?_, ?_, fun pert hp hk => ?_⟩
  · simp [crbSto, Sources.isFF1, hP, hst "all" (by simp)]
  · simp [crbDet, Sources.isFF1, hst "all" (by simp)]
  · simp [crbStouc, Sources.isFF1, hq, hst "all" (by simp)]
  · simp [ecovMusic, Sources.isFF1, hP, hst pert hp, not_le.2 hk]

/-- Two sensors with two outputs each (a loop and a dipole). -/
noncomputable def vectorPair : ArrayDesign :=
  ⟨⟨1, [![0], ![1]]⟩, none, .custom 2 fun l _ az _ => if l = 0 then 1 else (Real.cos az : ℂ), []⟩

theorem vectorPair_steering (s : FF1D 1) (hs : Valid1D s) : ∃ S, steering vectorPair (.ff1 s) 1 false "all" = .ok S := by
  have hu : Usable vectorPair "all" [] := ⟨rfl, rfl, by simp [vectorPair], by simp⟩
  obtain ⟨S, -, -, hS, -⟩ := C78_far_field (a := vectorPair) rfl hu (.ff1 s) rfl hs 1
  exact ⟨S, hS⟩

/-- Non-vacuity: two vector sensors, one source, three snapshots. -/
example (N : Matrix (Fin (vectorPair.element.outputSize * vectorPair.size)) (Fin 3) ℂ) :
    2 ≤ vectorPair.element.outputSize ∧ 2 ≤ vectorPair.size ∧
    ∃ Y R, getNarrowbandSnapshots vectorPair (.ff1 (⟨![1 / 2], "sin"⟩ : FF1D 1)) 1 (.ok ⟨1, 3, fun _ _ => 1⟩)
      (some (.ok ⟨vectorPair.element.outputSize * vectorPair.size, 3, N⟩)) 3 = .ok ⟨3, Y, R⟩ := by
  obtain ⟨S, hS⟩ := vectorPair_steering ⟨![1 / 2], "sin"⟩ ⟨Or.inr (Or.inr rfl), fun c => Or.inr (Or.inr ⟨rfl, by
    fin_cases c; simp; norm_num⟩)⟩
  obtain ⟨Y, R, h, -⟩ := C96_snapshots vectorPair _ 1 S hS (fun _ _ => 1) N
  exact ⟨le_rfl, le_rfl, Y, R, h⟩

/-- One vector sensor with two outputs: Bartlett's method accepts a row of two numbers and no `2 × 2` matrix. -/
example : let a : ArrayDesign := { vectorPair with locations := ⟨1, [![0]]⟩ }
    GridMethod.bartlett.start a 1 2 1 = .ok () ∧ GridMethod.bartlett.start a 2 2 1 ≠ .ok () ∧ GridMethod.mvdr.start a 1 2 1 ≠ .ok () := by
  intro a
  have h : a.size = 1 := rfl
  have h' : 2 ≤ a.element.outputSize := le_rfl
  refine ⟨(C96_single_sensor_violated a h h' _ _ _ _).2 ⟨rfl, rfl, rfl⟩, fun hc => ?_, fun hc => ?_⟩
  · have := ((C96_single_sensor_violated a h h' _ _ _ _).1 hc).2.1
    omega
  · exact GridMethod.noConfusion ((C96_single_sensor_violated a h h' _ _ _ _).1 hc).1

end Doa.Props
