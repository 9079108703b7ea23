import Verif.Lemmas.Rearranged
import Verif.Lemmas.SameSpectrum
import Verif.Props.DataScale
import Verif.Model.Atoms2D

/-!
# C82: estimates and the position, numbering and unit of length of the array
-/

namespace Doa.Props

open Doa Doa.Spec Matrix

variable {β : Type} {m m' k : ℕ}

/-- Every column of the second atom matrix is the corresponding column of the first one with the sensors renumbered, multiplied by a
phase factor. -/
def Rephased (σ : Fin m' ≃ Fin m) (A : List (Fin m → ℂ)) (A' : List (Fin m' → ℂ)) : Prop :=
  List.Forall₂ (fun x x' => ∃ u : ℂ, ‖u‖ = 1 ∧ ∀ i, x' i = u * x (σ i)) A A'

theorem rephased_ofFn {σ : Fin m' ≃ Fin m} {n : ℕ} {f : Fin n → Fin m → ℂ} {g : Fin n → Fin m' → ℂ}
    (h : ∀ c, ∃ u : ℂ, ‖u‖ = 1 ∧ ∀ i, g c i = u * f c (σ i)) : Rephased σ (List.ofFn f) (List.ofFn g) := by
  unfold Rephased
  rw [List.forall₂_iff_get]
  refine ⟨by simp, fun i h1 h2 => ?_⟩
  simp only [List.get_eq_getElem, List.getElem_ofFn]
  exact h _

theorem atoms_rearranged {a a' : ArrayDesign} {σ : Fin a'.size ≃ Fin a.size} {t : ℕ → ℝ} (h : Rearranged a a' σ t)
    (l : Fin a.element.outputSize) (l' : Fin a'.element.outputSize) (hl : l'.1 = l.1) (wl : ℝ) (u : String) (rows : List (List ℝ)) :
    Rephased σ (atomColumns1D a l wl u rows) (atomColumns1D a' l' wl u rows) ∧
    Rephased σ (atomColumns2D a l wl u rows) (atomColumns2D a' l' wl u rows) := by
  constructor
  · unfold atomColumns1D
    refine rephased_ofFn fun c => ?_
    rcases steering_rearranged h (.ff1 ⟨fun c : Fin rows.length => (rows.get c).headD 0, u⟩) rfl wl "known" with
      ⟨e, e1, e2⟩ | ⟨S, S', e1, e2, φ, e3, e4⟩
    · simp only [e1, e2]; exact ⟨1, by simp, fun i => by simp⟩
    · simp only [e1, e2]; exact ⟨φ c, e3 c, fun i => e4 l l' i c hl⟩
  · unfold atomColumns2D
    refine rephased_ofFn fun c => ?_
    rcases steering_rearranged h (.ff2 ⟨fun c : Fin rows.length => ((rows.get c).getD 0 0, (rows.get c).getD 1 0), u⟩) rfl wl "known" with
      ⟨e, e1, e2⟩ | ⟨S, S', e1, e2, φ, e3, e4⟩
    · simp only [e1, e2]; exact ⟨1, by simp, fun i => by simp⟩
    · simp only [e1, e2]; exact ⟨φ c, e3 c, fun i => e4 l l' i c hl⟩

/-! ### Spectra -/

/-- Quadratic forms do not notice the numbering and phase factors. -/
theorem form_rephased (σ : Fin m' ≃ Fin m) (M : Matrix (Fin m) (Fin m) ℂ) {x : Fin m → ℂ} {x' : Fin m' → ℂ} {u : ℂ} (hu : ‖u‖ = 1)
    (hx : ∀ i, x' i = u * x (σ i)) : star x' ⬝ᵥ (M.submatrix σ σ) *ᵥ x' = star x ⬝ᵥ M *ᵥ x := by
  have hu' : star u * u = 1 := by
    rw [Complex.star_def, mul_comm, Complex.mul_conj, Complex.normSq_eq_norm_sq, hu]; simp
  simp only [dotProduct, mulVec, submatrix_apply, Pi.star_apply, hx]
  rw [← Equiv.sum_comp σ (fun i => star (x i) * ∑ j, M i j * x j)]
  refine Finset.sum_congr rfl fun i _ => ?_
  rw [← Equiv.sum_comp σ (fun j => M (σ i) j * x j), Finset.mul_sum, Finset.mul_sum]
  refine Finset.sum_congr rfl fun j _ => ?_
  rw [star_mul']
  linear_combination (star (x (σ i)) * (M (σ i) (σ j) * x (σ j))) * hu'

theorem map_rephased {γ : Type} {σ : Fin m' ≃ Fin m} {f : (Fin m → ℂ) → γ} {f' : (Fin m' → ℂ) → γ}
    (hf : ∀ x x' (u : ℂ), ‖u‖ = 1 → (∀ i, x' i = u * x (σ i)) → f x = f' x') {A : List (Fin m → ℂ)} {A' : List (Fin m' → ℂ)}
    (h : Rephased σ A A') : A.map f = A'.map f' := by
  induction h with
  | nil => rfl
  | cons hx _ ih =>
    obtain ⟨u, hu, hx⟩ := hx
    rw [List.map_cons, List.map_cons, ih, hf _ _ u hu hx]

theorem fBartlett_rephased {σ : Fin m' ≃ Fin m} (R : Matrix (Fin m) (Fin m) ℂ) {A : List (Fin m → ℂ)} {A' : List (Fin m' → ℂ)}
    (h : Rephased σ A A') : fBartlett R A = fBartlett (R.submatrix σ σ) A' := by
  unfold fBartlett
  refine map_rephased (fun x x' u hu hx => ?_) h
  rw [bartlettRaw_eq, bartlettRaw_eq, form_rephased σ R hu hx]

theorem npPinv_sub (σ : Fin m' ≃ Fin m) (R : Matrix (Fin m) (Fin m) ℂ) : npPinv (R.submatrix σ σ) = (npPinv R).submatrix σ σ := by
  obtain ⟨x1, x2, x3, x4⟩ := C33_pinv_penrose (R.submatrix σ σ)
  obtain ⟨y1, y2, y3, y4⟩ := C33_pinv_penrose R
  refine penrose_unique x1 x2 x3 x4 ?_ ?_ ?_ ?_
  · rw [submatrix_mul_equiv, submatrix_mul_equiv, y1]
  · rw [submatrix_mul_equiv, submatrix_mul_equiv, y2]
  · rw [submatrix_mul_equiv, conjTranspose_submatrix, y3]
  · rw [submatrix_mul_equiv, conjTranspose_submatrix, y4]

theorem fMvdr_rephased {σ : Fin m' ≃ Fin m} (R : Matrix (Fin m) (Fin m) ℂ) {A : List (Fin m → ℂ)} {A' : List (Fin m' → ℂ)}
    (h : Rephased σ A A') : fMvdr R A = fMvdr (R.submatrix σ σ) A' := by
  unfold fMvdr
  refine map_rephased (fun x x' u hu hx => ?_) h
  have e : ∀ {m : ℕ} (R : Matrix (Fin m) (Fin m) ℂ) (a : Fin m → ℂ), mvdrRaw R a = star a ⬝ᵥ (npPinv R *ᵥ a) := fun _ _ => rfl
  rw [e, e, npPinv_sub, form_rephased σ (npPinv R) hu hx]

/-- The noise projector of the renumbered covariance matrix. -/
theorem noiseProjector_sub (eigh eigh' : Eigh) (σ : Fin m' ≃ Fin m) {R : Matrix (Fin m) (Fin m) ℂ} (hR : R.IsHermitian) {k : ℕ}
    (hg : HasGap R (m - k)) :
    getNoiseSubspace eigh' (R.submatrix σ σ) k * (getNoiseSubspace eigh' (R.submatrix σ σ) k)ᴴ =
      (getNoiseSubspace eigh R k * (getNoiseSubspace eigh R k)ᴴ).submatrix σ σ := by
  have hm : m' = m := by simpa using Fintype.card_congr σ
  subst hm
  have hR' : (R.submatrix σ σ).IsHermitian := by
    rw [IsHermitian, conjTranspose_submatrix, hR.eq]
  have h1 := eigh.spec R hR
  have h2 := eigh'.spec _ hR'
  have h3 : IsEigh (R.submatrix σ σ) (eigh.run R).1 ((eigh.run R).2.submatrix σ id) := by
    refine ⟨h1.mono, ?_, ?_⟩
    · rw [conjTranspose_submatrix, submatrix_mul_equiv _ _ _ σ, h1.orth]; rfl
    · rw [submatrix_mul_equiv _ _ _ σ, h1.eig]; rfl
  unfold getNoiseSubspace
  rw [noiseProj_eq, noiseProj_eq]
  have : (lowProj (eigh.run R).2 (noiseDim m' k)).submatrix σ σ = lowProj ((eigh.run R).2.submatrix σ id) (noiseDim m' k) := rfl
  rw [this]
  refine (h3.lowProj_unique hR' h2 fun i j hi hj => ?_).symm
  by_cases hk : k = 0
  · simp [noiseDim, hk] at hi
  · rw [noiseDim_eq (by omega)] at hi hj
    exact hg.of h1 i j hi hj

theorem fMusic_rephased {σ : Fin m' ≃ Fin m} {d d' : ℕ} {En : Matrix (Fin m) (Fin d) ℂ} {En' : Matrix (Fin m') (Fin d') ℂ}
    (hP : En' * En'ᴴ = (En * Enᴴ).submatrix σ σ) {A : List (Fin m → ℂ)} {A' : List (Fin m' → ℂ)} (h : Rephased σ A A') :
    fMusic En A = fMusic En' A' := by
  unfold fMusic
  refine map_rephased (fun x x' u hu hx => ?_) h
  rw [musicDenom_proj, musicDenom_proj, hP, form_rephased σ (En * Enᴴ) hu hx]

theorem fMinNorm_rephased [NeZero m] [NeZero m'] {σ : Fin m' ≃ Fin m} (h0 : σ 0 = 0) {d d' : ℕ} {En : Matrix (Fin m) (Fin d) ℂ}
    {En' : Matrix (Fin m') (Fin d') ℂ} (hP : En' * En'ᴴ = (En * Enᴴ).submatrix σ σ) {A : List (Fin m → ℂ)} {A' : List (Fin m' → ℂ)}
    (h : Rephased σ A A') : fMinNorm En A = fMinNorm En' A' := by
  unfold fMinNorm
  refine map_rephased (fun x x' u hu hx => ?_) h
  unfold minNormDenom
  have hv : ∀ i, minNormVec En' i = minNormVec En (σ i) := by
    intro i
    rw [minNormVec_proj, minNormVec_proj, hP, submatrix_apply, submatrix_apply, h0]
  have : star (minNormVec En') ⬝ᵥ x' = u * (star (minNormVec En) ⬝ᵥ x) := by
    simp only [dotProduct, Pi.star_apply, hx, hv]
    rw [← Equiv.sum_comp σ (fun i => star (minNormVec En i) * x i), Finset.mul_sum]
    exact Finset.sum_congr rfl fun i _ => by ring
  rw [this, norm_mul, hu, one_mul]

/-! ### Estimators -/

/-- Two estimators searching the same far-field grid (1-D or 2-D, in any unit) with the same peak finder and the same caching, one with
the array `a` and wavelength `wl`, the other with `a'` and `wl'`. -/
structure SameSearch (a a' : ArrayDesign) (wl wl' : ℝ) (cfg : EstCfg β (List (Fin a.size → ℂ))) (cfg' : EstCfg β (List (Fin a'.size → ℂ))) : Prop where
  grid : cfg'.grid = cfg.grid
  caching : cfg'.caching = cfg.caching
  ints : cfg'.intGrid = cfg.intGrid
  peaks : cfg'.peakFinder = cfg.peakFinder
  sort : cfg'.argsort = cfg.argsort
  atoms : ∃ (l : Fin a.element.outputSize) (l' : Fin a'.element.outputSize) (u : String), l'.1 = l.1 ∧
    ((cfg.compute = atomColumns1D a l wl u ∧ cfg'.compute = atomColumns1D a' l' wl' u) ∨
      (cfg.compute = atomColumns2D a l wl u ∧ cfg'.compute = atomColumns2D a' l' wl' u))

theorem cfgEq_rearranged {a a' : ArrayDesign} {σ : Fin a'.size ≃ Fin a.size} {t : ℕ → ℝ} (h : Rearranged a a' σ t) {wl : ℝ}
    {cfg : EstCfg β (List (Fin a.size → ℂ))} {cfg' : EstCfg β (List (Fin a'.size → ℂ))} (hc : SameSearch a a' wl wl cfg cfg') :
    CfgEq (Rephased σ) cfg cfg' := by
  obtain ⟨l, l', u, hl, hat⟩ := hc.atoms
  refine ⟨hc.grid, hc.caching, hc.ints, hc.peaks, hc.sort, fun rows => ?_⟩
  rcases hat with ⟨e, e'⟩ | ⟨e, e'⟩ <;> rw [e, e']
  · exact (atoms_rearranged h l l' hl wl u rows).1
  · exact (atoms_rearranged h l l' hl wl u rows).2

/-- The two calls return the same (exception, or resolved flag, estimates and spectrum), and leave the estimators in corresponding states. -/
def SameResult {Atom Atom' : Type} (Rel : Atom → Atom' → Prop) (r : Res (EstOut β) × EstState Atom) (r' : Res (EstOut β) × EstState Atom') : Prop :=
  r'.1 = r.1 ∧ StateRel Rel r.2 r'.2

theorem sub_cast_self (M : Matrix (Fin m) (Fin m) ℂ) : M.submatrix (Fin.cast rfl) (Fin.cast rfl) = M := rfl

theorem bartlett_rephased {σ : Fin m' ≃ Fin m} {cfg : EstCfg ℝ (List (Fin m → ℂ))} {cfg' : EstCfg ℝ (List (Fin m' → ℂ))}
    (hc : CfgEq (Rephased σ) cfg cfg') {st : EstState (List (Fin m → ℂ))} {st' : EstState (List (Fin m' → ℂ))} (hs : StateRel (Rephased σ) st st')
    (R : Matrix (Fin m) (Fin m) ℂ) (k : ℕ) (kw : EstKw) :
    SameResult (Rephased σ) (bartlettEstimate cfg st R k kw) (bartlettEstimate cfg' st' (R.submatrix σ σ) k kw) := by
  unfold bartlettEstimate beamArgs
  have e : ∀ m : ℕ, ensureCovarianceSize [m, m] m = .ok () := fun m => by simp [ensureCovarianceSize]
  simp only [e, and_self, dite_true, sub_cast_self]
  obtain ⟨h1, h2⟩ := estimate_eq hc hs (fun A A' h => fBartlett_rephased R h) k kw.refine kw.density kw.iters
  exact ⟨h1.symm, h2⟩

theorem mvdr_rephased {σ : Fin m' ≃ Fin m} {cfg : EstCfg (WithTop ℝ) (List (Fin m → ℂ))} {cfg' : EstCfg (WithTop ℝ) (List (Fin m' → ℂ))}
    (hc : CfgEq (Rephased σ) cfg cfg') {st : EstState (List (Fin m → ℂ))} {st' : EstState (List (Fin m' → ℂ))} (hs : StateRel (Rephased σ) st st')
    (R : Matrix (Fin m) (Fin m) ℂ) (k : ℕ) (kw : EstKw) :
    SameResult (Rephased σ) (mvdrEstimate cfg st R k kw) (mvdrEstimate cfg' st' (R.submatrix σ σ) k kw) := by
  unfold mvdrEstimate beamArgs
  have e : ∀ m : ℕ, ensureCovarianceSize [m, m] m = .ok () := fun m => by simp [ensureCovarianceSize]
  simp only [e, and_self, dite_true, sub_cast_self]
  obtain ⟨h1, h2⟩ := estimate_eq hc hs (fun A A' h => fMvdr_rephased R h) k kw.refine kw.density kw.iters
  exact ⟨h1.symm, h2⟩

theorem subspace_rephased (eigh eigh' : Eigh) {σ : Fin m' ≃ Fin m} {cfg : EstCfg (WithTop ℝ) (List (Fin m → ℂ))}
    {cfg' : EstCfg (WithTop ℝ) (List (Fin m' → ℂ))}
    (hc : CfgEq (Rephased σ) cfg cfg') {st : EstState (List (Fin m → ℂ))} {st' : EstState (List (Fin m' → ℂ))} (hs : StateRel (Rephased σ) st st')
    (R : Matrix (Fin m) (Fin m) ℂ) (k : ℕ) (kw : EstKw)
    {f : {d : ℕ} → Matrix (Fin m) (Fin d) ℂ → List (Fin m → ℂ) → List (WithTop ℝ)}
    {f' : {d : ℕ} → Matrix (Fin m') (Fin d) ℂ → List (Fin m' → ℂ) → List (WithTop ℝ)}
    (hf : ∀ A A', Rephased σ A A' → f (getNoiseSubspace eigh R k) A = f' (getNoiseSubspace eigh' (R.submatrix σ σ) k) A') :
    SameResult (Rephased σ) (match subspaceArgs (m := m) eigh f R k kw with
        | .error e => (.error e, st)
        | .ok args => cfg.estimate st args)
      (match subspaceArgs (m := m') eigh' f' (R.submatrix σ σ) k kw with
        | .error e => (.error e, st')
        | .ok args => cfg'.estimate st' args) := by
  have hm : m' = m := by simpa using Fintype.card_congr σ
  unfold subspaceArgs
  have e : ∀ m : ℕ, ensureCovarianceSize [m, m] m = .ok () := fun m => by simp [ensureCovarianceSize]
  simp only [e, and_self, dite_true, sub_cast_self]
  have hn : ensureNResolvable k ((m' : ℤ) - 1) = ensureNResolvable k ((m : ℤ) - 1) := by rw [hm]
  rw [hn]
  cases ensureNResolvable k ((m : ℤ) - 1) with
  | error e => exact ⟨rfl, hs⟩
  | ok u =>
    obtain ⟨h1, h2⟩ := estimate_eq hc hs hf k kw.refine kw.density kw.iters
    exact ⟨h1.symm, h2⟩

/-- **C82** (position and numbering). Let `a'` have the sensors of `a`, moved as a whole and numbered differently (with their known and
unknown errors). Searching the same far-field grid with the covariance matrix of the renumbered measurements, the Bartlett and MVDR
beamformers return exactly the same for both arrays: the same exception, or the same resolved flag, (refined) estimates and spectrum. For
every covariance matrix; in every pair of corresponding states, and leaving corresponding states, so that it holds for sequences of calls. -/
theorem C82_beamformers {a a' : ArrayDesign} {σ : Fin a'.size ≃ Fin a.size} {t : ℕ → ℝ} (h : Rearranged a a' σ t) (wl : ℝ)
    {cfg : EstCfg ℝ (List (Fin a.size → ℂ))} {cfg' : EstCfg ℝ (List (Fin a'.size → ℂ))} (hc : SameSearch a a' wl wl cfg cfg')
    {cfgM : EstCfg (WithTop ℝ) (List (Fin a.size → ℂ))} {cfgM' : EstCfg (WithTop ℝ) (List (Fin a'.size → ℂ))}
    (hcM : SameSearch a a' wl wl cfgM cfgM')
    {st : EstState (List (Fin a.size → ℂ))} {st' : EstState (List (Fin a'.size → ℂ))} (hs : StateRel (Rephased σ) st st')
    (R : Matrix (Fin a.size) (Fin a.size) ℂ) (k : ℕ) (kw : EstKw) :
    SameResult (Rephased σ) (bartlettEstimate cfg st R k kw) (bartlettEstimate cfg' st' (R.submatrix σ σ) k kw) ∧
    SameResult (Rephased σ) (mvdrEstimate cfgM st R k kw) (mvdrEstimate cfgM' st' (R.submatrix σ σ) k kw) :=
  ⟨bartlett_rephased (cfgEq_rearranged h hc) hs R k kw, mvdr_rephased (cfgEq_rearranged h hcM) hs R k kw⟩

/-- **C82** (subspace methods). The same for MUSIC, for Hermitian covariance matrices whose `k` largest eigenvalues are separated from the
others and whatever eigenvectors `eigh` returns; and for Min-Norm if the first sensor keeps its number. -/
theorem C82_subspace (eigh eigh' : Eigh) {a a' : ArrayDesign} [NeZero a.size] [NeZero a'.size] {σ : Fin a'.size ≃ Fin a.size} {t : ℕ → ℝ}
    (h : Rearranged a a' σ t) (wl : ℝ) {cfg : EstCfg (WithTop ℝ) (List (Fin a.size → ℂ))} {cfg' : EstCfg (WithTop ℝ) (List (Fin a'.size → ℂ))}
    (hc : SameSearch a a' wl wl cfg cfg')
    {st : EstState (List (Fin a.size → ℂ))} {st' : EstState (List (Fin a'.size → ℂ))} (hs : StateRel (Rephased σ) st st')
    {R : Matrix (Fin a.size) (Fin a.size) ℂ} (hR : R.IsHermitian) {k : ℕ} (hgap : HasGap R (a.size - k)) (kw : EstKw) :
    SameResult (Rephased σ) (musicEstimate eigh cfg st R k kw) (musicEstimate eigh' cfg' st' (R.submatrix σ σ) k kw) ∧
    (σ 0 = 0 → SameResult (Rephased σ) (minNormEstimate eigh cfg st R k kw) (minNormEstimate eigh' cfg' st' (R.submatrix σ σ) k kw)) := by
  have hP := noiseProjector_sub eigh eigh' σ hR hgap
  refine ⟨?_, fun h0 => ?_⟩
  · unfold musicEstimate
    exact subspace_rephased eigh eigh' (cfgEq_rearranged h hc) hs R k kw fun A A' hA => fMusic_rephased hP hA
  · unfold minNormEstimate
    exact subspace_rephased eigh eigh' (cfgEq_rearranged h hc) hs R k kw fun A A' hA => fMinNorm_rephased h0 hP hA

/-- Freshly constructed estimators are in corresponding states. -/
theorem init_related {a a' : ArrayDesign} (σ : Fin a'.size ≃ Fin a.size) {wl wl' : ℝ} {cfg : EstCfg β (List (Fin a.size → ℂ))}
    {cfg' : EstCfg β (List (Fin a'.size → ℂ))} (hc : SameSearch a a' wl wl' cfg cfg') : StateRel (Rephased σ) cfg.init cfg'.init := by
  refine ⟨?_, rfl, .none⟩
  unfold EstCfg.init
  rw [hc.grid]

/-! ### The unit of length -/

theorem columns_heq {n m1 m2 : ℕ} (e : m1 = m2) {r1 : Res (Steering n m1 k)} {r2 : Res (Steering n m2 k)} (h : HEq r1 r2) :
    BothOr (fun S2 S1 => ∀ l i c, S1.A l i c = S2.A l (Fin.cast e i) c) r2 r1 := by
  subst e
  have := eq_of_heq h
  subst this
  cases r1 with
  | error e => exact Or.inl ⟨e, rfl, rfl⟩
  | ok S => exact Or.inr ⟨S, S, rfl, rfl, fun _ _ _ => rfl⟩

theorem cfgEq_rescaled {s : ℝ} (hs : 0 < s) (a : ArrayDesign) {wl : ℝ} {cfg : EstCfg β (List (Fin a.size → ℂ))}
    {cfg' : EstCfg β (List (Fin (rescaleArray s a).size → ℂ))} (hc : SameSearch a (rescaleArray s a) wl (s * wl) cfg cfg') :
    CfgEq (Rephased (finCongr (map_nrows s a.locations : (rescaleArray s a).size = a.size))) cfg cfg' := by
  obtain ⟨l, l', u, hl, hat⟩ := hc.atoms
  have : l' = l := Fin.ext hl
  subst this
  refine ⟨hc.grid, hc.caching, hc.ints, hc.peaks, hc.sort, fun rows => ?_⟩
  rcases hat with ⟨e, e'⟩ | ⟨e, e'⟩ <;> rw [e, e']
  · unfold atomColumns1D
    refine rephased_ofFn fun c => ⟨1, by simp, fun i => ?_⟩
    obtain ⟨h1, h2⟩ := C79_steering hs a (.ff1 ⟨fun c : Fin rows.length => (rows.get c).headD 0, u⟩) (Or.inr rfl) wl false "known"
    rw [one_mul]
    have h3 := columns_heq h1 h2
    simp only [rescaleSources] at h3
    rcases h3 with ⟨e, e1, e2⟩ | ⟨S, S', e1, e2, e3⟩
    · simp only [e1, e2]
    · simp only [e1, e2]; exact e3 l' i c
  · unfold atomColumns2D
    refine rephased_ofFn fun c => ⟨1, by simp, fun i => ?_⟩
    obtain ⟨h1, h2⟩ := C79_steering hs a (.ff2 ⟨fun c : Fin rows.length => ((rows.get c).getD 0 0, (rows.get c).getD 1 0), u⟩) (Or.inr rfl) wl
      false "known"
    rw [one_mul]
    have h3 := columns_heq h1 h2
    simp only [rescaleSources] at h3
    rcases h3 with ⟨e, e1, e2⟩ | ⟨S, S', e1, e2, e3⟩
    · simp only [e1, e2]
    · simp only [e1, e2]; exact e3 l' i c

/-- **C82** (unit of length). Describing the array (with its location errors) and the wavelength in another unit of length changes nothing in
what the four grid-search estimators return on far-field grids. (`R.submatrix …` is `R`: the two arrays have the same number of sensors, which
the types do not know.) -/
theorem C82_length_unit (eigh eigh' : Eigh) {s : ℝ} (hs : 0 < s) (a : ArrayDesign) [NeZero a.size] [NeZero (rescaleArray s a).size] {wl : ℝ}
    (e : (rescaleArray s a).size = a.size)
    {cfg : EstCfg ℝ (List (Fin a.size → ℂ))} {cfg' : EstCfg ℝ (List (Fin (rescaleArray s a).size → ℂ))}
    (hc : SameSearch a (rescaleArray s a) wl (s * wl) cfg cfg')
    {cfgM : EstCfg (WithTop ℝ) (List (Fin a.size → ℂ))} {cfgM' : EstCfg (WithTop ℝ) (List (Fin (rescaleArray s a).size → ℂ))}
    (hcM : SameSearch a (rescaleArray s a) wl (s * wl) cfgM cfgM')
    {st : EstState (List (Fin a.size → ℂ))} {st' : EstState (List (Fin (rescaleArray s a).size → ℂ))}
    (hst : StateRel (Rephased (finCongr e)) st st')
    (R : Matrix (Fin a.size) (Fin a.size) ℂ) (k : ℕ) (kw : EstKw) :
    SameResult (Rephased (finCongr e)) (bartlettEstimate cfg st R k kw) (bartlettEstimate cfg' st' (R.submatrix (finCongr e) (finCongr e)) k kw) ∧
    SameResult (Rephased (finCongr e)) (mvdrEstimate cfgM st R k kw) (mvdrEstimate cfgM' st' (R.submatrix (finCongr e) (finCongr e)) k kw) ∧
    (R.IsHermitian → HasGap R (a.size - k) →
      SameResult (Rephased (finCongr e)) (musicEstimate eigh cfgM st R k kw)
        (musicEstimate eigh' cfgM' st' (R.submatrix (finCongr e) (finCongr e)) k kw) ∧
      SameResult (Rephased (finCongr e)) (minNormEstimate eigh cfgM st R k kw)
        (minNormEstimate eigh' cfgM' st' (R.submatrix (finCongr e) (finCongr e)) k kw)) := by
  refine ⟨bartlett_rephased (cfgEq_rescaled hs a hc) hst R k kw, mvdr_rephased (cfgEq_rescaled hs a hcM) hst R k kw, fun hR hgap => ?_⟩
  have hP := noiseProjector_sub eigh eigh' (finCongr e) hR hgap
  refine ⟨?_, ?_⟩
  · unfold musicEstimate
    exact subspace_rephased eigh eigh' (cfgEq_rescaled hs a hcM) hst R k kw fun A A' hA => fMusic_rephased hP hA
  · unfold minNormEstimate
    exact subspace_rephased eigh eigh' (cfgEq_rescaled hs a hcM) hst R k kw fun A A' hA => fMinNorm_rephased (by ext; rfl) hP hA

/-- Non-vacuity: three sensors at 0, 1/2, 3/2, the middle one with a gain error of 1/4; the same array shifted by 5 with the last two
sensors exchanged (and the gain error with them). Estimators for the two arrays correspond in the sense of the theorems, and
covariance matrices with separated eigenvalues exist. -/
example : ∃ (a a' : ArrayDesign) (σ : Fin a'.size ≃ Fin a.size) (cfg : EstCfg (WithTop ℝ) (List (Fin a.size → ℂ)))
    (cfg' : EstCfg (WithTop ℝ) (List (Fin a'.size → ℂ))) (R : Matrix (Fin a.size) (Fin a.size) ℂ), a.size = 3 ∧ (∃ i, (σ i).1 ≠ i.1) ∧
    (∀ i, i.1 = 0 → (σ i).1 = 0) ∧ Rearranged a a' σ (fun _ => 5) ∧ SameSearch a a' 1 1 cfg cfg' ∧
    StateRel (Rephased σ) cfg.init cfg'.init ∧ R.IsHermitian ∧ HasGap R (a.size - 1) := by
  let a : ArrayDesign := ⟨⟨1, [![0], ![1/2], ![3/2]]⟩, none, .isotropicScalar, [(.gain, .gain [0, 1/4, 0] true)]⟩
  let a' : ArrayDesign := ⟨⟨1, [![5], ![13/2], ![11/2]]⟩, none, .isotropicScalar, [(.gain, .gain [0, 0, 1/4] true)]⟩
  let σ : Fin a'.size ≃ Fin a.size := (Equiv.swap 1 2 : Equiv.Perm (Fin 3))
  let cfg : EstCfg (WithTop ℝ) (List (Fin a.size → ℂ)) :=
    ⟨⟨.ff1, [⟨[0, 1/4, 1/2], false⟩], ["angle"], ["rad"]⟩, atomColumns1D a ⟨0, Nat.one_pos⟩ 1 "rad", findPeaksSimple, stableArgsort, true, false⟩
  let cfg' : EstCfg (WithTop ℝ) (List (Fin a'.size → ℂ)) :=
    ⟨⟨.ff1, [⟨[0, 1/4, 1/2], false⟩], ["angle"], ["rad"]⟩, atomColumns1D a' ⟨0, Nat.one_pos⟩ 1 "rad", findPeaksSimple, stableArgsort, true, false⟩
  have hc : SameSearch a a' 1 1 cfg cfg' := ⟨rfl, rfl, rfl, rfl, rfl, ⟨0, Nat.one_pos⟩, ⟨0, Nat.one_pos⟩, "rad", rfl, Or.inl ⟨rfl, rfl⟩⟩
  have hσ : ∀ i : Fin 3, ((Equiv.swap 1 2 : Equiv.Perm (Fin 3)) i).1 = ![0, 2, 1] i := by decide
  refine ⟨a, a', σ, cfg, cfg', diagonal fun i => ((i.1 : ℝ) : ℂ), rfl, ⟨⟨1, by decide⟩, ?_⟩, ?_, ⟨rfl, rfl, ?_, ?_⟩, hc, init_related σ hc, ?_, ?_⟩
  · exact fun h => absurd ((hσ 1).symm.trans h) (by decide)
  · intro i hi
    have : i = (⟨0, by decide⟩ : Fin 3) := Fin.ext hi
    subst this
    exact hσ 0
  · intro i j hj
    have hj0 : j = 0 := by
      have : j < 1 := hj
      omega
    subst hj0
    change (⟨1, [![5], ![13/2], ![11/2]]⟩ : Mat ℝ).at0 i.1 0 = (⟨1, [![0], ![1/2], ![3/2]]⟩ : Mat ℝ).at0 (σ i).1 0 + 5
    rw [show (σ i).1 = ![0, 2, 1] i from hσ i]
    change Fin 3 at i
    fin_cases i <;> simp [Mat.at0, Mat.get?] <;> norm_num
  · refine .cons ⟨rfl, rfl, rfl, ?_⟩ .nil
    intro i
    rw [show (σ i).1 = ![0, 2, 1] i from hσ i]
    change Fin 3 at i
    fin_cases i <;> simp
  · rw [IsHermitian, diagonal_conjTranspose]
    congr 1
    funext i
    simp
  · exact hasGap_diagonal (w := fun i => (i.1 : ℝ)) (fun i j hij => Nat.cast_lt.2 hij) _

end Doa.Props
