import Verif.Props.Chain

/-!
# C107: counting and locating more sources than sensors

`mdl` applied to the sample covariance matrix of the array never reports as many sources as there are sensors. Applied to the matrix the
coarray transforms make of it, it counts up to `v - 1` sources, with `v` the size of the hole-free central segment of the coarray.
-/

namespace Doa.Props

open Doa Matrix Doa.Spec Filter Topology MeasureTheory ProbabilityTheory
open scoped ComplexOrder

variable {m k : ℕ}

/-- Failures that imply a deviation of the order of `√(log n / n)` have a probability of at most `C / log n`. -/
theorem log_rate {Ω : ℕ → Type*} [∀ n, MeasurableSpace (Ω n)] (μ : ∀ n, Measure (Ω n)) [∀ n, IsProbabilityMeasure (μ n)]
    (fail : ∀ n, Set (Ω n)) (bad : ∀ n, ℝ → Set (Ω n)) {C δ c : ℝ} (hδ : 0 < δ) (hc : 0 < c) (N₀ : ℕ)
    (hrate : ∀ n : ℕ, 0 < n → ∀ r : ℝ, 0 < r → μ n (bad n r) ≤ ENNReal.ofReal (C / (n * r ^ 2)))
    (hsub : ∀ n : ℕ, N₀ ≤ n → 2 ≤ n → ∀ r : ℝ, 0 < r → r < δ → n * r ^ 2 < c * Real.log n → fail n ⊆ bad n r) :
    ∃ C : ℝ, 0 ≤ C ∧ ∀ n : ℕ, 2 ≤ n → μ n (fail n) ≤ ENNReal.ofReal (C / Real.log n) := by
  have hev : ∀ᶠ n : ℕ in atTop, c / 2 * Real.log n < δ ^ 2 * n := by
    have ho := (Real.isLittleO_log_id_atTop.comp_tendsto (tendsto_natCast_atTop_atTop (R := ℝ)))
    have hb := ho.bound (c := δ ^ 2 / c) (by positivity)
    filter_upwards [hb, Filter.eventually_ge_atTop 1] with n hn hn1
    simp only [Function.comp, Real.norm_eq_abs, id] at hn
    have hn1' : (1 : ℝ) ≤ n := by exact_mod_cast hn1
    rw [abs_of_nonneg (Real.log_natCast_nonneg n), abs_of_nonneg (by linarith)] at hn
    calc c / 2 * Real.log n ≤ c / 2 * (δ ^ 2 / c * n) := mul_le_mul_of_nonneg_left hn (by positivity)
      _ = δ ^ 2 * n / 2 := by field_simp
      _ < δ ^ 2 * n := half_lt_self (by positivity)
  obtain ⟨N₁, hN₁⟩ := Filter.eventually_atTop.1 hev
  set M := max (max N₀ N₁) 2 with hM
  have hMlog : 0 ≤ Real.log M := Real.log_natCast_nonneg M
  refine ⟨max (2 * C / c) (Real.log M), le_max_of_le_right hMlog, fun n hn => ?_⟩
  have hn0 : (0 : ℝ) < n := by exact_mod_cast (by omega : 0 < n)
  have hlog : 0 < Real.log n := Real.log_pos (by exact_mod_cast (by omega : 1 < n))
  by_cases hnM : n < M
  · refine prob_le_one.trans ?_
    rw [← ENNReal.ofReal_one]
    refine ENNReal.ofReal_le_ofReal ?_
    rw [le_div_iff₀ hlog, one_mul]
    refine le_max_of_le_right (Real.log_le_log hn0 ?_)
    exact_mod_cast hnM.le
  · rw [not_lt] at hnM
    have hn1 : N₁ ≤ n := ((le_max_right _ _).trans (le_max_left _ _)).trans hnM
    have hn2 : N₀ ≤ n := ((le_max_left _ _).trans (le_max_left _ _)).trans hnM
    have hlt := hN₁ n hn1
    set r := Real.sqrt (c / 2 * Real.log n / n) with hr
    have hr2 : r ^ 2 = c / 2 * Real.log n / n := Real.sq_sqrt (by positivity)
    have hrpos : 0 < r := Real.sqrt_pos.2 (by positivity)
    have hrδ : r < δ := by
      rw [hr, Real.sqrt_lt' hδ, div_lt_iff₀ hn0]
      exact hlt
    have hnr : n * r ^ 2 = c / 2 * Real.log n := by
      rw [hr2]
      field_simp
    refine (measure_mono (hsub n hn2 hn r hrpos hrδ ?_)).trans ((hrate n (by omega) r hrpos).trans (ENNReal.ofReal_le_ofReal ?_))
    · rw [hnr]
      exact mul_lt_mul_of_pos_right (half_lt_self hc) hlog
    · rw [hnr, le_div_iff₀ hlog]
      refine le_max_of_le_left (le_of_eq ?_)
      field_simp

/-- Averages over pairs of sensors deviate no more than the entries. -/
theorem pairAverage_near {l : List ℤ} {R R0 : Matrix (Fin l.length) (Fin l.length) ℂ} {r : ℝ} (hr : ∀ i j, ‖R i j - R0 i j‖ ≤ r) (hr0 : 0 ≤ r)
    (d : ℤ) : ‖pairAverage l R d - pairAverage l R0 d‖ ≤ r := by
  unfold pairAverage
  rw [← sub_div, ← Finset.sum_sub_distrib, norm_div]
  by_cases h0 : pairCount l d = 0
  · rw [h0]
    simpa using hr0
  · have hpos : (0 : ℝ) < pairCount l d := by exact_mod_cast Nat.pos_of_ne_zero h0
    rw [Complex.norm_natCast, div_le_iff₀ hpos]
    refine (norm_sum_le _ _).trans ((Finset.sum_le_sum fun p _ => hr p.1 p.2).trans (le_of_eq ?_))
    rw [Finset.sum_const, nsmul_eq_mul, mul_comm]
    rfl

/-- The coarray transforms are Lipschitz near every matrix. -/
theorem acm_lipschitz {a : GridArray} {l : List ℤ} (h : Is1DGrid a l) {w0 w : WeightFunction}
    (hw0 : WeightFunction.init a = .ok w0) (hr : WReach w0 w) {n : ℕ} (hn : n = l.length) (R0 : Matrix (Fin n) (Fin n) ℂ)
    (method : String) (hm : method = "da" ∨ method = "ss") {v : ℕ} {T0 : Matrix (Fin v) (Fin v) ℂ}
    (h0 : (acmTransform w R0 method).1 = .ok ⟨v, T0⟩) :
    ∃ K : ℝ, 0 < K ∧ ∀ R : Matrix (Fin n) (Fin n) ℂ, R.IsHermitian → ∀ r : ℝ, 0 ≤ r → r ≤ 1 → (∀ i j, ‖R i j - R0 i j‖ ≤ r) →
      ∃ T, (acmTransform w R method).1 = .ok ⟨v, T⟩ ∧ T.IsHermitian ∧ ∀ i j, ‖T i j - T0 i j‖ ≤ K * r := by
  subst hn
  have hne : l ≠ [] := by
    rintro rfl
    rw [C28_empty h hw0 hr] at h0
    cases h0
  obtain ⟨v', A0, B0, hv', hA0, hB0, hA0e, -, hB0e, -⟩ := C28_acm h hw0 hr hne R0
  obtain rfl : v = v' := by
    rcases hm with rfl | rfl
    · rw [hA0, Except.ok.injEq, SqMat.mk.injEq] at h0
      exact h0.1.symm
    · rw [hB0, Except.ok.injEq, SqMat.mk.injEq] at h0
      exact h0.1.symm
  have hvpos : 0 < v := hv'.pos hne
  have hvR : (0 : ℝ) < v := by exact_mod_cast hvpos
  obtain ⟨M, hM0, hM⟩ : ∃ M : ℝ, 0 ≤ M ∧ ∀ i j, ‖A0 i j‖ ≤ M := by
    refine ⟨∑ i, ∑ j, ‖A0 i j‖, Finset.sum_nonneg fun i _ => Finset.sum_nonneg fun j _ => norm_nonneg _, fun i j => ?_⟩
    exact (Finset.single_le_sum (f := fun j => ‖A0 i j‖) (fun j _ => norm_nonneg _) (Finset.mem_univ j)).trans
      (Finset.single_le_sum (f := fun i => ∑ j, ‖A0 i j‖) (fun i _ => Finset.sum_nonneg fun j _ => norm_nonneg _) (Finset.mem_univ i))
  refine ⟨2 * M + 1, by positivity, fun R hR r hr0 hr1 hd => ?_⟩
  obtain ⟨v1, A, B, hv1, hA, hB, hAe, hAh, hBe, hBp, -⟩ := C28_acm h hw0 hr hne R
  obtain rfl := hv1.unique hv'
  have hAn : ∀ i j, ‖A i j - A0 i j‖ ≤ r := by
    intro i j
    rw [hAe, hA0e]
    exact pairAverage_near hd hr0 _
  rcases hm with rfl | rfl
  · rw [hA0, Except.ok.injEq, SqMat.mk.injEq] at h0
    obtain rfl := eq_of_heq h0.2
    refine ⟨A, hA, hAh hR, fun i j => (hAn i j).trans ?_⟩
    nlinarith
  · rw [hB0, Except.ok.injEq, SqMat.mk.injEq] at h0
    obtain rfl := eq_of_heq h0.2
    refine ⟨B, hB, hBp.1, fun i j => ?_⟩
    have e : B i j - B0 i j = (1 / (v1 : ℂ)) * ∑ q, ((A i q - A0 i q) * star (A j q) + A0 i q * star (A j q - A0 j q)) := by
      rw [hBe, hB0e]
      simp only [Matrix.smul_apply, Matrix.mul_apply, conjTranspose_apply, smul_eq_mul]
      rw [← mul_sub, ← Finset.sum_sub_distrib]
      congr 1
      refine Finset.sum_congr rfl fun q _ => ?_
      rw [star_sub]
      ring
    rw [e, norm_mul, norm_div, norm_one, Complex.norm_natCast, one_div, inv_mul_le_iff₀ hvR]
    refine (norm_sum_le _ _).trans ((Finset.sum_le_sum (g := fun _ => (2 * M + 1) * r) fun q _ => ?_).trans (le_of_eq ?_))
    · refine (norm_add_le _ _).trans ?_
      rw [norm_mul, norm_mul, norm_star, norm_star]
      have h1 : ‖A j q‖ ≤ M + r := by
        calc ‖A j q‖ = ‖A0 j q + (A j q - A0 j q)‖ := by rw [add_sub_cancel]
          _ ≤ ‖A0 j q‖ + ‖A j q - A0 j q‖ := norm_add_le _ _
          _ ≤ M + r := add_le_add (hM j q) (hAn j q)
      have h2 := mul_le_mul (hAn i q) h1 (norm_nonneg _) hr0
      have h3 := mul_le_mul (hM i q) (hAn j q) (norm_nonneg _) hM0
      nlinarith
    · rw [Finset.sum_const, Finset.card_univ, Fintype.card_fin, nsmul_eq_mul]

/-- The number `np.argmin` returns is a position. -/
theorem argminRes_lt {r : Res (List NpFloat)} {i : ℕ} (h : argminRes r = .ok i) : ∃ ld, r = .ok ld ∧ i < ld.length := by
  cases r with
  | error e => simp [argminRes, Except.bind] at h
  | ok ld =>
    refine ⟨ld, rfl, ?_⟩
    simp only [argminRes, Except.bind] at h
    cases hi : npArgmin ld with
    | none => rw [hi] at h; cases h
    | some j =>
      rw [hi, Except.ok.injEq] at h
      subst h
      unfold npArgmin at hi
      split_ifs at hi with hn
      · rw [Option.some.injEq] at hi
        rw [← hi]
        exact List.idxOf_lt_length_of_mem hn
      · unfold argminIdx at hi
        rw [Option.map_eq_some_iff] at hi
        obtain ⟨m, hm, rfl⟩ := hi
        have := List.idxOf_lt_length_of_mem (List.min?_mem hm)
        simpa using this

/-- The number of values of a computation over a list. -/
theorem mapM_length {α β : Type _} (f : α → Res β) : ∀ (l : List α) {r}, l.mapM f = .ok r → r.length = l.length := by
  intro l
  induction l with
  | nil =>
    intro r h
    simp only [List.mapM_nil, pure, Except.pure, Except.ok.injEq] at h
    rw [← h]
    rfl
  | cons x l ih =>
    intro r h
    rw [List.mapM_cons] at h
    simp only [Bind.bind, Except.bind] at h
    cases hx : f x with
    | error e => rw [hx] at h; cases h
    | ok y =>
      rw [hx] at h
      cases hl : l.mapM f with
      | error e => rw [hl] at h; cases h
      | ok ys =>
        rw [hl] at h
        simp only [pure, Except.pure, Except.ok.injEq] at h
        rw [← h, List.length_cons, List.length_cons, ih hl]

/-- **C107** (why the array's own matrix is not enough). Whatever the `m × m` matrix, the number of snapshots and the eigenvalue routine, `aic` and
`mdl` report fewer than `m` sources. -/
theorem C107_too_few (f : EigvalshFn) (R : Matrix (Fin m) (Fin m) ℂ) (N r : ℕ) :
    (aic f (.mat m R) N = .ok r → r < m) ∧ (mdl f (.mat m R) N = .ok r → r < m) := by
  constructor
  · intro h
    obtain ⟨ld, h1, h2⟩ := argminRes_lt (r := (List.range (List.ofFn (f.run m R)).length).mapM fun i =>
      (ldStat (List.ofFn (f.run m R)) i N).bind fun v =>
        .ok (npAdd v ((i : ℝ) * (2 * ((List.ofFn (f.run m R)).length : ℝ) - (i : ℝ))))) h
    have := mapM_length _ _ h1
    simp only [List.length_range, List.length_ofFn] at this
    omega
  · intro h
    obtain ⟨ld, h1, h2⟩ := argminRes_lt (r := (List.range (List.ofFn (f.run m R)).length).mapM fun i =>
      (ldStat (List.ofFn (f.run m R)) i N).bind fun v =>
        if N = 0 then .error .valueError
        else .ok (npAdd v ((1 / 2) * ((i : ℝ) * (2 * ((List.ofFn (f.run m R)).length : ℝ) - (i : ℝ)) + 1) * Real.log N))) h
    have := mapM_length _ _ h1
    simp only [List.length_range, List.length_ofFn] at this
    omega

/-- **C107** (counting on the coarray). Unperturbed linear grid array of isotropic elements at the distinct positions `l[i] * δ`, uncorrelated
sources in white noise, fewer than the size `v` of the hole-free central segment of the difference coarray (there can be more sources than
sensors). In an experiment with `n` snapshots drawn independently from one distribution with mean zero, variance one and a fourth moment,
the probability that `mdl` does not report the true number, when it is given the matrix made by a coarray transform and `n`, is at most
`C / log n`. -/
theorem C107_counts {sqrtm : Sqrtm} (hs : IsSqrtm sqrtm) {a : GridArray} {l : List ℤ} {δ : ℝ} (h : LinearGrid a l δ)
    (hδ : a.d0 = [δ]) (hδ0 : 0 < δ) (hnd : l.Nodup) (hel : a.element = .isotropicScalar) (hpert : a.perts = [])
    {w0 w : WeightFunction} (hw0 : WeightFunction.init a = .ok w0) (hr : WReach w0 w) {wl : ℝ} (hwl : 0 < wl)
    (src : FF1D k) (hsrc : Valid1D src) (hinj : Function.Injective src.loc)
    (hamb : ∀ c e, δ * |Real.sin (angleOf src.unit (src.loc c)) - Real.sin (angleOf src.unit (src.loc e))| < wl)
    {v : ℕ} (hv : IsCentralSize l v) (hkv : k < v) (method : String) (hm : method = "da" ∨ method = "ss") (i : Fin a.element.outputSize)
    {C1 C2 : CovArg} {g1 : StoGen k} {g2 : StoGen a.size}
    (hg1 : stoInit sqrtm k C1 = .ok g1) (hg2 : stoInit sqrtm a.size C2 = .ok g2)
    {p : Fin k → ℝ} (hPd : Denotes k C1 (diagonal fun c => (p c : ℂ))) (hp : ∀ c, 0 < p c) {σ : ℝ} (hσ : 0 < σ)
    (hQd : Denotes a.size C2 ((σ : ℂ) • (1 : Matrix (Fin a.size) (Fin a.size) ℂ)))
    {ν : Measure ℝ} [IsProbabilityMeasure ν] (hν : UnitLaw ν) (h4 : MemLp id 4 ν) :
    ∃ C : ℝ, 0 ≤ C ∧ ∀ n : ℕ, 2 ≤ n → (Measure.pi fun _ : Fin n => Measure.pi fun _ => ν)
      {d : Fin n → SnapshotDraw k a.size | ¬ ∃ Y R, experiment a.toArrayDesign (.ff1 src) wl g1 g2 n d = .ok ⟨n, Y, R⟩ ∧
        ∃ T : Matrix (Fin v) (Fin v) ℂ, (acmTransform w (R i) method).1 = .ok ⟨v, T⟩ ∧
          ∀ f : EigvalshFn, f.Spec → mdl f (.mat v T) n = .ok k} ≤ ENNReal.ofReal (C / Real.log n) := by
  have : NeZero wl := ⟨hwl.ne'⟩
  have hz : Function.Injective fun c => phaseFactor δ wl src.unit (src.loc c) := fun c e hce =>
    hinj (phaseFactor_inj hδ0 hwl (hsrc.2 c) (hsrc.2 e) (hamb c e) hce)
  obtain ⟨b, S, hb, hbv, g3, hbp, hbdim, hbloc, hS, hQ⟩ :=
    coarray_input_noise h hδ hnd hel hpert (some "x") (Or.inl (by simp)) hw0 hr src hsrc wl hp method (hm.imp id fun e => ⟨e, hσ.le⟩)
      hv hkv hz
  obtain ⟨Q, τ, hQp, hτ, hT⟩ := hQ i
  rw [hbv] at hT
  obtain ⟨K, hK, hlip⟩ := acm_lipschitz h.1 hw0 hr h.1.2.2 _ method hm hT
  obtain ⟨η, hη, c, hc, N₀, hmdl⟩ := C89_mdl (m := v) (ulaMat_injective hz hkv.le) hQp (hτ hσ) hkv
  obtain ⟨C, hC, hrate⟩ := C88_rate hs a.toArrayDesign (.ff1 src) wl S hS (by rw [hel]; rfl) hg1 hg2 hPd hQd (diag_posDef hp).posSemidef
    (scaled_one_posSemidef hσ.le) hν h4 i
  refine log_rate (fun n => Measure.pi fun _ : Fin n => Measure.pi fun _ => ν) _
    (fun n r => {d : Fin n → SnapshotDraw k a.size | ¬ ∃ Y R, experiment a.toArrayDesign (.ff1 src) wl g1 g2 n d = .ok ⟨n, Y, R⟩ ∧
      (R i).IsHermitian ∧ ∀ r' c', ‖R i r' c' - (S.A i * (diagonal fun c => (p c : ℂ)) * (S.A i)ᴴ +
        (σ : ℂ) • (1 : Matrix (Fin a.size) (Fin a.size) ℂ)) r' c'‖ < r})
    (C := C) (δ := min 1 (η / K)) (c := c / K ^ 2) (lt_min one_pos (div_pos hη hK)) (by positivity) N₀ hrate ?_
  intro n hn _ r hr0 hrδ hrn d hd hc'
  obtain ⟨Y, R, e1, e2, e3⟩ := hc'
  obtain ⟨T, hT1, hT2, hT3⟩ := hlip (R i) e2 r hr0.le (hrδ.le.trans (min_le_left _ _)) (fun r' c' => (e3 r' c').le)
  refine hd ⟨Y, R, e1, T, hT1, fun f hf => hmdl T hT2 (fun r' c' => (hT3 r' c').trans_lt ?_) (K * r) hT3 n hn ?_ f hf⟩
  · have := (lt_div_iff₀ hK).1 (hrδ.trans_le (min_le_right _ _))
    linarith
  · have h1 := (mul_lt_mul_iff_right₀ (by positivity : (0 : ℝ) < K ^ 2)).2 hrn
    calc (n : ℝ) * (K * r) ^ 2 = K ^ 2 * (n * r ^ 2) := by ring
      _ < K ^ 2 * (c / K ^ 2 * Real.log n) := h1
      _ = c * Real.log n := by field_simp

/-- **C107** (counting and locating on the coarray). The program that transforms the sample covariance matrix, asks `mdl` for the number of
sources and passes both to ESPRIT returns the true number `k` and `k` directions, each within `ε` of a true one, except with probability
at most `C / log n`: without knowing how many sources there are, and with more sources than sensors. -/
theorem C107_locates {sqrtm : Sqrtm} (hs : IsSqrtm sqrtm) {a : GridArray} {l : List ℤ} {δ : ℝ} (h : LinearGrid a l δ)
    (hδ : a.d0 = [δ]) (hδ0 : 0 < δ) (hnd : l.Nodup) (hel : a.element = .isotropicScalar) (hpert : a.perts = [])
    {w0 w : WeightFunction} (hw0 : WeightFunction.init a = .ok w0) (hr : WReach w0 w) {wl : ℝ} (hwl : 0 < wl)
    (src : FF1D k) (hsrc : Valid1D src) (hinj : Function.Injective src.loc)
    (hstrict : ∀ c, |Real.sin (angleOf src.unit (src.loc c))| < 1) (disp : ℕ) (hdisp : 1 ≤ disp)
    (hamb : ∀ c, |2 * Real.pi * (δ * disp) / wl * Real.sin (angleOf src.unit (src.loc c))| < Real.pi)
    {v : ℕ} (hv : IsCentralSize l v) (hkv : k + disp ≤ v)
    (d0 : Option ℝ) (hd0 : d0 = some δ ∨ d0 = none ∧ δ = wl / 2) (form : String) (hform : form = "ls" ∨ form = "tls")
    (method : String) (hm : method = "da" ∨ method = "ss") (unit : String) (hunit : Unit1D unit) (i : Fin a.element.outputSize)
    {C1 C2 : CovArg} {g1 : StoGen k} {g2 : StoGen a.size}
    (hg1 : stoInit sqrtm k C1 = .ok g1) (hg2 : stoInit sqrtm a.size C2 = .ok g2)
    {p : Fin k → ℝ} (hPd : Denotes k C1 (diagonal fun c => (p c : ℂ))) (hp : ∀ c, 0 < p c) {σ : ℝ} (hσ : 0 < σ)
    (hQd : Denotes a.size C2 ((σ : ℂ) • (1 : Matrix (Fin a.size) (Fin a.size) ℂ)))
    {ν : Measure ℝ} [IsProbabilityMeasure ν] (hν : UnitLaw ν) (h4 : MemLp id 4 ν) {ε : ℝ} (hε : 0 < ε) :
    ∃ C : ℝ, 0 ≤ C ∧ ∀ n : ℕ, 2 ≤ n → (Measure.pi fun _ : Fin n => Measure.pi fun _ => ν)
      {d : Fin n → SnapshotDraw k a.size | ¬ ∃ Y R, experiment a.toArrayDesign (.ff1 src) wl g1 g2 n d = .ok ⟨n, Y, R⟩ ∧
        ∃ T : Matrix (Fin v) (Fin v) ℂ, (acmTransform w (R i) method).1 = .ok ⟨v, T⟩ ∧
          ∀ (f : EigvalshFn) (eigh : Eigh) (ev : NpEigvals), f.Spec →
            ∃ s : FF1D k, detectThen f T n (fun r => espritEstimate eigh ev wl T r d0 disp form (.str "none") unit) = .ok ⟨k, s⟩ ∧
              s.unit = unit ∧ Monotone s.loc ∧
              ∃ π : Equiv.Perm (Fin k), ∀ c, |s.loc c - reprIn unit (angleOf src.unit (src.loc (π c)))| < ε} ≤
      ENNReal.ofReal (C / Real.log n) := by
  obtain ⟨C, hC, h1⟩ := C107_counts hs h hδ hδ0 hnd hel hpert hw0 hr hwl src hsrc hinj
    (fun c e => unambiguous_of_phase hδ0 hwl hdisp (hamb c) (hamb e)) hv (by omega) method hm i hg1 hg2 hPd hp hσ hQd hν h4
  obtain ⟨S, hS, hn⟩ := C86_esprit h hδ hδ0 hnd hel hpert hw0 hr hwl src hsrc hinj hstrict disp hdisp hamb hv hkv d0 hd0 form hform hp
    method (hm.imp id fun e => ⟨e, hσ.le⟩) unit hunit
  obtain ⟨C', hC', h2⟩ := C88_property hs a.toArrayDesign (.ff1 src) wl S hS (by rw [hel]; rfl) hg1 hg2 hPd hQd (diag_posDef hp).posSemidef
    (scaled_one_posSemidef hσ.le) hν h4 i _ (hn i ε hε)
  refine ⟨C + C', by positivity, fun n hn => ?_⟩
  have hlog : 0 < Real.log n := Real.log_pos (by exact_mod_cast (by omega : 1 < n))
  have hln : Real.log n ≤ n := (Real.log_le_self (Nat.cast_nonneg n))
  rw [add_div, ENNReal.ofReal_add (by positivity) (by positivity)]
  refine le_trans (measure_mono ?_) ((experiment_both a.toArrayDesign (.ff1 src) wl g1 g2 n
    (fun R => ∃ T : Matrix (Fin v) (Fin v) ℂ, (acmTransform w R method).1 = .ok ⟨v, T⟩ ∧
      ∀ f : EigvalshFn, f.Spec → mdl f (.mat v T) n = .ok k)
    (fun R => ∃ T : Matrix (Fin v) (Fin v) ℂ, (acmTransform w R method).1 = .ok ⟨v, T⟩ ∧ ∀ (eigh : Eigh) (ev : NpEigvals),
      ∃ s, espritEstimate eigh ev wl T k d0 disp form (.str "none") unit = .ok s ∧ s.unit = unit ∧ Monotone s.loc ∧
        ∃ π : Equiv.Perm (Fin k), ∀ c, |s.loc c - reprIn unit (angleOf src.unit (src.loc (π c)))| < ε) i (h1 n hn) (h2 n (by omega))).trans
    (add_le_add le_rfl (ENNReal.ofReal_le_ofReal (div_le_div_of_nonneg_left hC' hlog hln))))
  intro d hd hc
  obtain ⟨Y, R, e1, ⟨T, e2, e3⟩, T', e4, e5⟩ := hc
  rw [e2, Except.ok.injEq, SqMat.mk.injEq] at e4
  obtain rfl := eq_of_heq e4.2
  refine hd ⟨Y, R, e1, T, e2, fun f eigh ev hf => ?_⟩
  obtain ⟨s, hs1, hs2⟩ := e5 eigh ev
  exact ⟨s, by rw [detectThen, e3 f hf]; simp [Except.bind, hs1], hs2⟩

/-- Non-vacuity: three sensors at positions 0, 1 and 3 (in half wavelengths), three sources, spatial smoothing, normally distributed numbers. -/
example : ∃ (a : GridArray) (w : WeightFunction) (i : Fin a.element.outputSize) (g1 : StoGen 3) (g2 : StoGen a.size) (C : ℝ), a.size = 3 ∧
    WeightFunction.init a = .ok w ∧
    ∀ n : ℕ, 2 ≤ n → (Measure.pi fun _ : Fin n => Measure.pi fun _ => gaussianReal 0 1)
      {d : Fin n → SnapshotDraw 3 a.size | ¬ ∃ Y R, experiment a.toArrayDesign (.ff1 ⟨![-0.5, 0, 0.5], "sin"⟩) 1 g1 g2 n d = .ok ⟨n, Y, R⟩ ∧
        ∃ T : Matrix (Fin 4) (Fin 4) ℂ, (acmTransform w (R i) "ss").1 = .ok ⟨4, T⟩ ∧ ∀ (f : EigvalshFn) (eigh : Eigh) (ev : NpEigvals), f.Spec →
          ∃ s : FF1D 3, detectThen f T n (fun r => espritEstimate eigh ev 1 T r none 1 "ls" (.str "none") "deg") = .ok ⟨3, s⟩ ∧
            s.unit = "deg" ∧ Monotone s.loc ∧
            ∃ π : Equiv.Perm (Fin 3), ∀ c, |s.loc c - reprIn "deg" (angleOf "sin" ((![-0.5, 0, 0.5] : Fin 3 → ℝ) (π c)))| < 0.001} ≤
      ENNReal.ofReal (C / Real.log n) := by
  obtain ⟨a, ha⟩ := gridInit_ok_of (idx := Mat.col [0, 1, 3]) (spec := .d0 (.scalar (1 / 2)))
    (name := some "x") (kw := {}) (d := []) (by simp [GridArgsMatch]) rfl
  obtain ⟨hlg, hd0⟩ := linearGrid_of_init ha
  obtain ⟨_, g2, g3, g4, _⟩ := gridInit_spec ha
  have hsize : a.size = 3 := hlg.1.2.2
  have hw0 := weightFunction_init hlg.1
  have hrg' : ∀ c, -0.5 ≤ (![-0.5, 0, 0.5] : Fin 3 → ℝ) c ∧ (![-0.5, 0, 0.5] : Fin 3 → ℝ) c ≤ 0.5 := by
    intro c
    fin_cases c
    · show (-0.5 : ℝ) ≤ -0.5 ∧ (-0.5 : ℝ) ≤ 0.5
      norm_num
    · show (-0.5 : ℝ) ≤ 0 ∧ (0 : ℝ) ≤ 0.5
      norm_num
    · show (-0.5 : ℝ) ≤ 0.5 ∧ (0.5 : ℝ) ≤ 0.5
      norm_num
  have hsin : ∀ c, Real.sin (angleOf "sin" ((![-0.5, 0, 0.5] : Fin 3 → ℝ) c)) = (![-0.5, 0, 0.5] : Fin 3 → ℝ) c := by
    intro c
    have := hrg' c
    simp only [angleOf, String.reduceEq, if_false, if_true]
    exact Real.sin_arcsin (by linarith [this.1]) (by linarith [this.2])
  have hinj : StrictMono (![-0.5, 0, 0.5] : Fin 3 → ℝ) := by
    rw [Fin.strictMono_iff_lt_succ]
    intro i
    fin_cases i
    · show (-0.5 : ℝ) < 0
      norm_num
    · show (0 : ℝ) < 0.5
      norm_num
  have hl : 0 < a.element.outputSize := by rw [g3]; decide
  have hP : Denotes 3 (.vector [1, 2, 3]) (diagonal fun c : Fin 3 => (((c : ℝ) + 1 : ℝ) : ℂ)) := by
    refine ⟨rfl, ?_⟩
    ext i j
    fin_cases i <;> fin_cases j <;> simp <;> norm_num
  have hQ : Denotes a.size (.scalar 1) (((1 : ℝ) : ℂ) • (1 : Matrix (Fin a.size) (Fin a.size) ℂ)) := by
    show _ = _
    ext i j
    simp [Matrix.one_apply]
  obtain ⟨gen1, hg1⟩ := ((C56_accepts someSqrtm 3 (.vector [1, 2, 3])).1).2 ⟨_, hP⟩
  obtain ⟨gen2, hg2⟩ := ((C56_accepts someSqrtm a.size (.scalar 1)).1).2 ⟨_, hQ⟩
  have hp : ∀ c : Fin 3, (0 : ℝ) < (c : ℝ) + 1 := fun c => by positivity
  obtain ⟨C, -, key⟩ := C107_locates (k := 3) someSqrtm_spec hlg hd0 (by norm_num) (by decide) g3 (Except.ok.inj g4).symm
    hw0 .refl (wl := 1) (by norm_num) ⟨![-0.5, 0, 0.5], "sin"⟩
    ⟨Or.inr (Or.inr rfl), fun c => Or.inr (Or.inr ⟨rfl, by linarith [(hrg' c).1], by linarith [(hrg' c).2]⟩)⟩ hinj.injective
    (by
      intro c
      rw [hsin c, abs_lt]
      constructor <;> linarith [(hrg' c).1, (hrg' c).2])
    1 le_rfl
    (by
      intro c
      have h1 := hrg' c
      have hpi := Real.pi_pos
      rw [hsin c, abs_lt]
      push_cast
      constructor <;> nlinarith [h1.1, h1.2])
    three_sensors_central (by norm_num) none (Or.inr ⟨rfl, rfl⟩) "ls" (Or.inl rfl) "ss" (Or.inr rfl) "deg" (Or.inr (Or.inl rfl)) ⟨0, hl⟩
    hg1 hg2 hP hp one_pos hQ unitLaw_gaussian (memLp_id_gaussianReal 4) (ε := 0.001) (by norm_num)
  exact ⟨a, _, ⟨0, hl⟩, gen1, gen2, C, hsize, hw0, key⟩

end Doa.Props
