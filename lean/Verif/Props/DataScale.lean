import Verif.Lemmas.SameOrder
import Verif.Lemmas.EigenGap
import Verif.Props.Beamforming
import Verif.Props.MathUtils
import Verif.Model.RootMusic
import Verif.Lemmas.EspritBasis
import Verif.Props.SourceNumber
import Verif.Props.Subspace
import Verif.Props.Esprit

/-!
# C81: the scale of the data does not matter

Multiplying the covariance matrix by a positive constant (another unit of voltage, another amplifier
gain) changes no estimate; subspace methods are also unaffected by adding a multiple of the identity
(the noise level) and by the eigenvectors `eigh` happens to return, as long as the noise eigenvalues
are separated from the signal eigenvalues.
-/

namespace Doa.Props

open Doa Doa.Spec Matrix

variable {β γ Atom : Type} {m k : ℕ}

/-- The peak finder and the sorting routine compare values and do nothing else with them. -/
structure OrderOnly [LinearOrder β] (cfg : EstCfg β Atom) : Prop where
  peaks : ∀ shape xs ys, SameOrder xs ys → cfg.peakFinder shape xs = cfg.peakFinder shape ys
  sort : ∀ xs ys, SameOrder xs ys → cfg.argsort xs = cfg.argsort ys

/-- Two calls of `estimate` have the same outcome up to the values of the spectrum: the same exception, or
the same `resolved` and the same estimates; and they leave the estimator in the same state. -/
def SameEstimates (r : Res (EstOut β) × EstState Atom) (r' : Res (EstOut γ) × EstState Atom) : Prop :=
  r.2 = r'.2 ∧ (r.1.map fun o => (o.resolved, o.est)) = r'.1.map fun o => (o.resolved, o.est)

/-- **C81** (order). What `estimate` returns, refinement included, depends on the spectrum only through
the order of its values: two spectrum functions that always order the grid points in the same way give
the same estimates. -/
theorem C81_order [LinearOrder β] (cfg : EstCfg β Atom) (ho : OrderOnly cfg) (st : EstState Atom) (fsp fsp' : Atom → List β)
    (h : ∀ A, SameOrder (fsp A) (fsp' A)) (k : ℕ) (refine : Bool) (density : ℤ) (iters : ℕ) :
    SameEstimates (cfg.estimate st ⟨fsp, k, refine, density, iters⟩) (cfg.estimate st ⟨fsp', k, refine, density, iters⟩) := by
  have hc : CfgRel (· = ·) cfg cfg := ⟨rfl, rfl, rfl, fun _ => rfl, ho.peaks, ho.sort⟩
  have hs : StateRel (· = ·) st st := ⟨rfl, rfl, by cases st.atom with | none => exact .none | some a => exact .some rfl⟩
  obtain ⟨h1, h2⟩ := estimate_rel hc hs (fsp := fsp) (fsp' := fsp') (fun A A' e => e ▸ h A) k refine density iters
  refine ⟨?_, ?_⟩
  · obtain ⟨e1, e2, e3⟩ := h2
    generalize (cfg.estimate st ⟨fsp, k, refine, density, iters⟩).2 = s at e1 e2 e3 ⊢
    generalize (cfg.estimate st ⟨fsp', k, refine, density, iters⟩).2 = s' at e1 e2 e3 ⊢
    obtain ⟨a, b, c⟩ := s
    obtain ⟨a', b', c'⟩ := s'
    simp only at e1 e2 e3
    have : c = c' := by cases e3 with | none => rfl | some h => rw [h]
    subst e1; subst e2; subst this; rfl
  · rcases h1 with ⟨e, h3, h4⟩ | ⟨b, est, A, A', _, h3, h4⟩ <;> rw [h3, h4] <;> rfl

/-- The default peak finder together with a stable sort (or any sort that only compares). -/
theorem stableArgsort_sameOrder [LinearOrder β] [Zero β] (xs ys : List β) (h : SameOrder xs ys) : stableArgsort xs = stableArgsort ys := by
  unfold stableArgsort
  rw [h.1]
  have hc : ∀ i ∈ List.range ys.length, ∀ j ∈ List.range ys.length,
      decide (xs.getD i 0 ≤ xs.getD j 0) = decide (ys.getD i 0 ≤ ys.getD j 0) := by
    intro i hi j hj
    have hi := List.mem_range.1 hi
    have hj := List.mem_range.1 hj
    refine decide_eq_decide.2 ?_
    have hx : ∀ {l : List β} {n : ℕ} (hn : n < l.length), l[n]? = some (l.getD n 0) := by
      intro l n hn
      rw [List.getD_eq_getElem?_getD, List.getElem?_eq_getElem hn]; rfl
    exact h.2 i j _ _ _ _ (hx (h.1 ▸ hi)) (hx (h.1 ▸ hj)) (hx hi) (hx hj)
  have := List.map_mergeSort (f := id) (r := fun i j => decide (xs.getD i 0 ≤ xs.getD j 0))
    (s := fun i j => decide (ys.getD i 0 ≤ ys.getD j 0)) hc
  simpa using this

theorem orderOnly_default [LinearOrder β] [Zero β] (grid : SearchGrid) (compute : List (List ℝ) → Atom) (caching : Bool) :
    OrderOnly (⟨grid, compute, findPeaksSimple, stableArgsort, caching, false⟩ : EstCfg β Atom) :=
  ⟨fun shape _ _ h => findPeaksSimple_sameOrder h shape, stableArgsort_sameOrder⟩

/-! ## Beamformers -/

theorem fBartlett_smul (c : ℝ) (R : Matrix (Fin m) (Fin m) ℂ) (A : List (Fin m → ℂ)) :
    fBartlett ((c : ℂ) • R) A = (fBartlett R A).map (c * ·) := by
  unfold fBartlett
  rw [List.map_map]
  refine List.map_congr_left fun a _ => ?_
  have : bartlettRaw ((c : ℂ) • R) a = (c : ℂ) * bartlettRaw R a := by
    rw [bartlettRaw_eq, bartlettRaw_eq, smul_mulVec, dotProduct_smul, smul_eq_mul]
  rw [this, Function.comp_apply, Complex.re_ofReal_mul]

/-- The Penrose equations determine the pseudo-inverse. -/
theorem penrose_unique {n : ℕ} {A : Matrix (Fin m) (Fin n) ℂ} {X Y : Matrix (Fin n) (Fin m) ℂ}
    (x1 : A * X * A = A) (x2 : X * A * X = X) (x3 : (A * X)ᴴ = A * X) (x4 : (X * A)ᴴ = X * A)
    (y1 : A * Y * A = A) (y2 : Y * A * Y = Y) (y3 : (A * Y)ᴴ = A * Y) (y4 : (Y * A)ᴴ = Y * A) : X = Y := by
  have e1 : A * X = A * Y := by
    calc A * X = (A * Y * A) * X := by rw [y1]
      _ = (A * Y) * (A * X) := by simp only [Matrix.mul_assoc]
      _ = (A * Y)ᴴ * (A * X)ᴴ := by rw [y3, x3]
      _ = ((A * X * A) * Y)ᴴ := by rw [← conjTranspose_mul]; simp only [Matrix.mul_assoc]
      _ = A * Y := by rw [x1, y3]
  have e2 : X * A = Y * A := by
    calc X * A = X * (A * Y * A) := by rw [y1]
      _ = (X * A) * (Y * A) := by simp only [Matrix.mul_assoc]
      _ = (X * A)ᴴ * (Y * A)ᴴ := by rw [y4, x4]
      _ = (Y * (A * X * A))ᴴ := by rw [← conjTranspose_mul]; simp only [Matrix.mul_assoc]
      _ = Y * A := by rw [x1, y4]
  calc X = X * (A * X) := by rw [← Matrix.mul_assoc, x2]
    _ = X * A * Y := by rw [e1, Matrix.mul_assoc]
    _ = Y := by rw [e2, y2]

theorem npPinv_smul {n : ℕ} {c : ℝ} (hc : c ≠ 0) (A : Matrix (Fin m) (Fin n) ℂ) : npPinv ((c : ℂ) • A) = (c⁻¹ : ℂ) • npPinv A := by
  have hc' : (c : ℂ) ≠ 0 := by exact_mod_cast hc
  obtain ⟨x1, x2, x3, x4⟩ := C33_pinv_penrose ((c : ℂ) • A)
  obtain ⟨y1, y2, y3, y4⟩ := C33_pinv_penrose A
  have hl : ((c : ℂ) • A) * ((c⁻¹ : ℂ) • npPinv A) = A * npPinv A := by
    rw [smul_mul, Matrix.mul_smul, smul_smul, mul_inv_cancel₀ hc', one_smul]
  have hr : ((c⁻¹ : ℂ) • npPinv A) * ((c : ℂ) • A) = npPinv A * A := by
    rw [smul_mul, Matrix.mul_smul, smul_smul, inv_mul_cancel₀ hc', one_smul]
  refine penrose_unique x1 x2 x3 x4 ?_ ?_ ?_ ?_
  · rw [hl, Matrix.mul_smul, y1]
  · rw [hr, Matrix.mul_smul, y2]
  · rw [hl, y3]
  · rw [hr, y4]

theorem npRecip_mul {c : ℝ} (hc : 0 < c) (x : ℝ) : npRecip (c⁻¹ * x) = (npRecip x).map (c * ·) := by
  unfold npRecip
  by_cases hx : x = 0
  · simp [hx]
  · have : c⁻¹ * x ≠ 0 := mul_ne_zero (inv_ne_zero hc.ne') hx
    rw [if_neg this, if_neg hx, WithTop.map_coe]
    congr 1
    field_simp

theorem fMvdr_smul {c : ℝ} (hc : 0 < c) (R : Matrix (Fin m) (Fin m) ℂ) (A : List (Fin m → ℂ)) :
    fMvdr ((c : ℂ) • R) A = (fMvdr R A).map (WithTop.map (c * ·)) := by
  unfold fMvdr
  rw [List.map_map]
  refine List.map_congr_left fun a _ => ?_
  have : mvdrRaw ((c : ℂ) • R) a = ((c⁻¹ : ℝ) : ℂ) * mvdrRaw R a := by
    show star a ⬝ᵥ (npPinv ((c : ℂ) • R) *ᵥ a) = _ * (star a ⬝ᵥ (npPinv R *ᵥ a))
    rw [npPinv_smul hc.ne', smul_mulVec, dotProduct_smul, smul_eq_mul]
    push_cast
    rfl
  rw [this, Function.comp_apply, Complex.re_ofReal_mul, npRecip_mul hc]

theorem strictMono_mul {c : ℝ} (hc : 0 < c) : StrictMono (c * · : ℝ → ℝ) := fun _ _ h => mul_lt_mul_of_pos_left h hc

/-- The spectra of two successful calls, compared. -/
def SpectraRelated (f : β → β) (r r' : Res (EstOut β) × EstState Atom) : Prop :=
  ∀ o o', r.1 = .ok o → r'.1 = .ok o' → o.sp = o'.sp.map f

theorem estimate_scaled [LinearOrder β] (cfg : EstCfg β Atom) (ho : OrderOnly cfg) (st : EstState Atom) {fsp fsp' : Atom → List β}
    {f : β → β} (hf : StrictMono f) (h : ∀ A, fsp A = (fsp' A).map f) (k : ℕ) (re : Bool) (density : ℤ) (iters : ℕ) :
    SameEstimates (cfg.estimate st ⟨fsp, k, re, density, iters⟩) (cfg.estimate st ⟨fsp', k, re, density, iters⟩) ∧
    SpectraRelated f (cfg.estimate st ⟨fsp, k, re, density, iters⟩) (cfg.estimate st ⟨fsp', k, re, density, iters⟩) := by
  have hso : ∀ A, SameOrder (fsp A) (fsp' A) := fun A => by rw [h]; exact (sameOrder_map hf _).symm
  refine ⟨C81_order cfg ho st fsp fsp' hso k re density iters, fun o o' h3 h4 => ?_⟩
  have hc : CfgRel (· = ·) cfg cfg := ⟨rfl, rfl, rfl, fun _ => rfl, ho.peaks, ho.sort⟩
  have hs : StateRel (· = ·) st st := ⟨rfl, rfl, by cases st.atom with | none => exact .none | some a => exact .some rfl⟩
  obtain ⟨h1, -⟩ := estimate_rel hc hs (fsp := fsp) (fsp' := fsp') (fun A A' e => e ▸ hso A) k re density iters
  rcases h1 with ⟨e, h5, _⟩ | ⟨b, est, A, A', hA, h5, h6⟩
  · rw [h3] at h5; cases h5
  · rw [h3] at h5; rw [h4] at h6
    cases h5; cases h6; subst hA
    exact h A

/-- **C81** (Bartlett). For every covariance matrix (of any shape) and every `c > 0`, the Bartlett
beamformer returns the same estimates for `c R` as for `R`; the spectrum is multiplied by `c`. -/
theorem C81_bartlett (cfg : EstCfg ℝ (List (Fin m → ℂ))) (ho : OrderOnly cfg) (st : EstState (List (Fin m → ℂ))) {r c : ℕ}
    (R : Matrix (Fin r) (Fin c) ℂ) {g : ℝ} (hg : 0 < g) (k : ℕ) (kw : EstKw) :
    SameEstimates (bartlettEstimate cfg st ((g : ℂ) • R) k kw) (bartlettEstimate cfg st R k kw) ∧
    SpectraRelated (g * ·) (bartlettEstimate cfg st ((g : ℂ) • R) k kw) (bartlettEstimate cfg st R k kw) := by
  unfold bartlettEstimate beamArgs
  cases ensureCovarianceSize [r, c] m with
  | error e => exact ⟨⟨rfl, rfl⟩, fun o o' h => by cases h⟩
  | ok u =>
    simp only
    by_cases h : r = c ∧ r = m
    · rw [dif_pos h, dif_pos h]
      exact estimate_scaled cfg ho st (strictMono_mul hg) (fun A => fBartlett_smul g _ A) _ _ _ _
    · rw [dif_neg h, dif_neg h]
      exact ⟨⟨rfl, rfl⟩, fun o o' h => by cases h⟩

/-- **C81** (MVDR). The same for the MVDR beamformer, singular covariance matrices included. -/
theorem C81_mvdr (cfg : EstCfg (WithTop ℝ) (List (Fin m → ℂ))) (ho : OrderOnly cfg) (st : EstState (List (Fin m → ℂ))) {r c : ℕ}
    (R : Matrix (Fin r) (Fin c) ℂ) {g : ℝ} (hg : 0 < g) (k : ℕ) (kw : EstKw) :
    SameEstimates (mvdrEstimate cfg st ((g : ℂ) • R) k kw) (mvdrEstimate cfg st R k kw) ∧
    SpectraRelated (WithTop.map (g * ·)) (mvdrEstimate cfg st ((g : ℂ) • R) k kw) (mvdrEstimate cfg st R k kw) := by
  have hm : StrictMono (WithTop.map (g * ·) : WithTop ℝ → WithTop ℝ) := by
    exact WithTop.strictMono_map_iff.2 (strictMono_mul hg)
  unfold mvdrEstimate beamArgs
  cases ensureCovarianceSize [r, c] m with
  | error e => exact ⟨⟨rfl, rfl⟩, fun o o' h => by cases h⟩
  | ok u =>
    simp only
    by_cases h : r = c ∧ r = m
    · rw [dif_pos h, dif_pos h]
      exact estimate_scaled cfg ho st hm (fun A => fMvdr_smul hg _ A) _ _ _ _
    · rw [dif_neg h, dif_neg h]
      exact ⟨⟨rfl, rfl⟩, fun o o' h => by cases h⟩

/-! ## Subspace methods -/

theorem musicDenom_proj {d : ℕ} (En : Matrix (Fin m) (Fin d) ℂ) (a : Fin m → ℂ) :
    musicDenom En a = (star a ⬝ᵥ (En * Enᴴ) *ᵥ a).re := by
  unfold musicDenom
  congr 1
  have h : star a ⬝ᵥ (En * Enᴴ) *ᵥ a = star (Enᴴ *ᵥ a) ⬝ᵥ (Enᴴ *ᵥ a) := by
    rw [← mulVec_mulVec, dotProduct_mulVec, star_mulVec, conjTranspose_conjTranspose]
  rw [h]
  exact Finset.sum_congr rfl fun j _ => by rw [mul_comm]; rfl

theorem fMusic_proj {d d' : ℕ} {En : Matrix (Fin m) (Fin d) ℂ} {En' : Matrix (Fin m) (Fin d') ℂ} (h : En * Enᴴ = En' * En'ᴴ) :
    fMusic En = fMusic En' := by
  funext A
  unfold fMusic
  exact List.map_congr_left fun a _ => by rw [musicDenom_proj, musicDenom_proj, h]

theorem minNormVec_proj {d : ℕ} [NeZero m] (En : Matrix (Fin m) (Fin d) ℂ) (i : Fin m) :
    minNormVec En i = (En * Enᴴ) i 0 / (En * Enᴴ) 0 0 := by
  have h0 : (En * Enᴴ) 0 0 = ((∑ l, ‖En 0 l‖ ^ 2 : ℝ) : ℂ) := by
    rw [mul_apply]
    push_cast
    refine Finset.sum_congr rfl fun l _ => ?_
    rw [conjTranspose_apply, Complex.star_def, Complex.mul_conj, Complex.normSq_eq_norm_sq]
    push_cast
    rfl
  rw [h0]
  unfold minNormVec
  rw [mulVec, dotProduct, mul_apply, Finset.sum_div]
  exact Finset.sum_congr rfl fun l _ => by rw [conjTranspose_apply, mul_div_assoc]

theorem fMinNorm_proj {d d' : ℕ} [NeZero m] {En : Matrix (Fin m) (Fin d) ℂ} {En' : Matrix (Fin m) (Fin d') ℂ}
    (h : En * Enᴴ = En' * En'ᴴ) : fMinNorm En = fMinNorm En' := by
  have hv : minNormVec En = minNormVec En' := by
    funext i
    rw [minNormVec_proj, minNormVec_proj, h]
  funext A
  unfold fMinNorm minNormDenom
  rw [hv]

/-- **C81** (MUSIC and Min-Norm). If the `k` largest eigenvalues of the Hermitian matrix `R` are
separated from the others, then MUSIC and Min-Norm return exactly the same (exception, estimates and
spectrum) for `R` and for `g R + s 1`, with `g > 0`, even if `eigh` returns different eigenvectors. -/
theorem C81_subspace (eigh eigh' : Eigh) [NeZero m] (cfg : EstCfg (WithTop ℝ) (List (Fin m → ℂ))) (st : EstState (List (Fin m → ℂ)))
    {R : Matrix (Fin m) (Fin m) ℂ} (hR : R.IsHermitian) {k : ℕ} (hgap : HasGap R (m - k)) {g : ℝ} (hg : 0 < g) (s : ℝ) (kw : EstKw) :
    musicEstimate eigh' cfg st ((g : ℂ) • R + (s : ℂ) • (1 : Matrix (Fin m) (Fin m) ℂ)) k kw = musicEstimate eigh cfg st R k kw ∧
    minNormEstimate eigh' cfg st ((g : ℂ) • R + (s : ℂ) • (1 : Matrix (Fin m) (Fin m) ℂ)) k kw =
      minNormEstimate eigh cfg st R k kw := by
  have hp := noiseProjector_affine eigh eigh' hR hgap hg s
  have h1 := fMusic_proj hp
  have h2 := fMinNorm_proj hp
  have key : ∀ {f f' : {d : ℕ} → Matrix (Fin m) (Fin d) ℂ → List (Fin m → ℂ) → List (WithTop ℝ)},
      f (getNoiseSubspace eigh' ((g : ℂ) • R + (s : ℂ) • (1 : Matrix (Fin m) (Fin m) ℂ)) k) = f' (getNoiseSubspace eigh R k) →
      subspaceArgs (m := m) eigh' f ((g : ℂ) • R + (s : ℂ) • (1 : Matrix (Fin m) (Fin m) ℂ)) k kw = subspaceArgs (m := m) eigh f' R k kw := by
    intro f f' hf
    unfold subspaceArgs
    cases ensureCovarianceSize [m, m] m with
    | error e => rfl
    | ok u =>
      cases ensureNResolvable k ((m : ℤ) - 1) with
      | error e => rfl
      | ok u =>
        simp only [and_self, dite_true]
        have e : ∀ M : Matrix (Fin m) (Fin m) ℂ, M.submatrix (Fin.cast rfl) (Fin.cast rfl) = M := fun M => rfl
        rw [e, e, hf]
  constructor
  · unfold musicEstimate
    rw [key (f' := fun En => fMusic En) h1]
  · unfold minNormEstimate
    rw [key (f' := fun En => fMinNorm En) h2]

/-- **C81** (root-MUSIC). Under the same hypotheses root-MUSIC returns the same result. -/
theorem C81_root_music (eigh eigh' : Eigh) (roots : NpRoots) (argsort : List ℝ → List ℕ) (wl : ℝ)
    {R : Matrix (Fin m) (Fin m) ℂ} (hR : R.IsHermitian) {k : ℕ} (hgap : HasGap R (m - k)) {g : ℝ} (hg : 0 < g) (s : ℝ)
    (d0 : Option ℝ) (unit : String) :
    rootMusicEstimate eigh' roots argsort wl ((g : ℂ) • R + (s : ℂ) • (1 : Matrix (Fin m) (Fin m) ℂ)) k d0 unit =
      rootMusicEstimate eigh roots argsort wl R k d0 unit := by
  have hp := noiseProjector_affine eigh eigh' hR hgap hg s
  unfold rootMusicEstimate
  rw [dif_pos rfl, dif_pos rfl]
  have e : ∀ M : Matrix (Fin m) (Fin m) ℂ, M.submatrix id (Fin.cast rfl) = M := fun M => rfl
  simp only [e, noiseProjector, hp]

theorem signalCols_eq {E : Matrix (Fin m) (Fin m) ℂ} (hk : k ≤ m) :
    signalCols E hk = E.submatrix id fun c : Fin k => ⟨m - k + c.1, by omega⟩ := rfl

/-- The least squares problem solved by the 'tls' formulation is well posed: the Gram matrix of the two
(weighted) subarray bases side by side has a gap in the middle of its eigenvalues. -/
def TlsWellPosed (eigh : Eigh) (R : Matrix (Fin m) (Fin m) ℂ) (k d : ℕ) (w : Option (List ℝ)) : Prop :=
  ∀ hk : k ≤ m, HasGap ((hstack2 (es1View (applyWeights (signalCols (eigh.run R).2 hk) d w) d)
      (es2View (applyWeights (signalCols (eigh.run R).2 hk) d w) d))ᴴ *
    hstack2 (es1View (applyWeights (signalCols (eigh.run R).2 hk) d w) d)
      (es2View (applyWeights (signalCols (eigh.run R).2 hk) d w) d)) k

/-- **C81** (ESPRIT). If the `k` largest eigenvalues of `R` are separated from the others (and, for total
least squares, the least squares problem is well posed), ESPRIT returns the same result for `R` and for
`g R + s 1`, whatever eigenvectors `eigh` returns and in whatever order `eigvals` lists eigenvalues. -/
theorem C81_esprit (eigh eigh' : Eigh) (ev ev' : NpEigvals) (wl : ℝ)
    {R : Matrix (Fin m) (Fin m) ℂ} (hR : R.IsHermitian) {k : ℕ} (hgap : HasGap R (m - k)) {g : ℝ} (hg : 0 < g) (s : ℝ)
    (d0 : Option ℝ) (disp : ℤ) (formulation : String) (rw : RowWeights) (unit : String)
    (htls : formulation = "tls" → ∀ w, resolveWeights rw (m - disp.toNat) = .ok w → TlsWellPosed eigh R k disp.toNat w) :
    espritEstimate eigh' ev' wl ((g : ℂ) • R + (s : ℂ) • (1 : Matrix (Fin m) (Fin m) ℂ)) k d0 disp formulation rw unit =
      espritEstimate eigh ev wl R k d0 disp formulation rw unit := by
  set R' := (g : ℂ) • R + (s : ℂ) • (1 : Matrix (Fin m) (Fin m) ℂ) with hR'
  have hRh' : R'.IsHermitian := isHermitian_affine hR g s
  unfold espritEstimate
  by_cases hd : disp < 1
  · rw [if_pos hd, if_pos hd]
  rw [if_neg hd, if_neg hd]
  cases ensureNResolvable k ((m : ℤ) - disp) with
  | error e => rfl
  | ok u =>
    simp only
    cases hw : resolveWeights rw (m - disp.toNat) with
    | error e => rfl
    | ok w =>
      simp only
      by_cases hk : k ≤ m
      · rw [dif_pos hk, dif_pos hk]
        have h1 := (eigh.spec R hR).affine hg s
        have h2 := eigh'.spec R' hRh'
        obtain ⟨Q, hQ, hcols⟩ := h1.cols_unitary hRh' h2 (q := m - k)
          (fun i j hi hj => by have := mul_lt_mul_of_pos_left (hgap.of (eigh.spec R hR) i j hi hj) hg; linarith)
          (f := fun c : Fin k => ⟨m - k + c.1, by omega⟩)
          (fun i j hij => by
            have := congrArg Fin.val hij
            simp only at this
            ext; omega)
          (Or.inr fun i => ⟨fun ⟨j, hj⟩ => by rw [← hj]; simp only; omega,
            fun hi => ⟨⟨i.1 - (m - k), by omega⟩, by ext; simp only; omega⟩⟩)
        rw [← signalCols_eq hk, ← signalCols_eq hk] at hcols
        rw [hcols, applyWeights_mul, es1View_mul, es2View_mul]
        have key : ∀ {p p' : Res (Matrix (Fin k) (Fin k) ℂ)}, SimilarRes Q p p' →
            (match p' with
              | .error e => (.error e : Res (FF1D k))
              | .ok Phi => FF1D.fromZ (ev'.run Phi) wl (d0.getD (wl / 2) * (disp.toNat : ℝ)) unit) =
            match p with
              | .error e => (.error e : Res (FF1D k))
              | .ok Phi => FF1D.fromZ (ev.run Phi) wl (d0.getD (wl / 2) * (disp.toNat : ℝ)) unit := by
          rintro p p' (⟨e, rfl, rfl⟩ | ⟨M, M', rfl, rfl, hM⟩)
          · rfl
          · exact (fromZ_multiset (eigvals_similar' ev ev' hQ hM) _ _ _).symm
        by_cases ht : formulation = "tls"
        · simp only [ht, if_true]
          exact key (phiTLS_basis eigh eigh' _ _ hQ (htls ht w hw hk))
        · by_cases hl : formulation = "ls"
          · simp only [ht, hl, if_true, if_false]
            exact key (phiLS_basis _ _ hQ)
          · simp only [ht, hl, if_false]
      · rw [dif_neg hk, dif_neg hk]

/-! ## Source number detection -/

theorem ldStat_scale (l : List ℝ) {c : ℝ} (hc : 0 < c) (N : ℕ) {i : ℕ} (hi : i < l.length) :
    ldStat (l.map (c * ·)) i N = ldStat l i N := by
  have hd : (0 : ℝ) < ((l.length - i : ℕ) : ℝ) := by exact_mod_cast (by omega : 0 < l.length - i)
  rw [ldStat_def _ _ (by simpa using hi), ldStat_def l N hi]
  simp only [List.length_map, ← List.map_take]
  have hlen : (l.take (l.length - i)).length = l.length - i := by rw [List.length_take]; omega
  have hs : ((l.take (l.length - i)).map (c * ·)).sum = c * (l.take (l.length - i)).sum := by
    rw [List.sum_map_mul_left, List.map_id']
  have hp : ((l.take (l.length - i)).map (c * ·)).prod = c ^ (l.length - i) * (l.take (l.length - i)).prod := by
    have : ∀ t : List ℝ, (t.map (c * ·)).prod = c ^ t.length * t.prod := by
      intro t
      induction t with
      | nil => simp
      | cons a t ih => rw [List.map_cons, List.prod_cons, ih, List.prod_cons, List.length_cons, pow_succ]; ring
    rw [this, hlen]
  have hcd : 0 < c ^ (l.length - i) := by positivity
  have hr : (c ^ (l.length - i)) ^ (1 / ((l.length - i : ℕ) : ℝ)) = c := by
    rw [one_div, Real.pow_rpow_inv_natCast hc.le (by omega)]
  have hroot : npRoot (c ^ (l.length - i) * (l.take (l.length - i)).prod) (l.length - i) =
      (npRoot (l.take (l.length - i)).prod (l.length - i)).map (c * ·) := by
    unfold npRoot
    by_cases h : (l.take (l.length - i)).prod < 0 ∧ l.length - i ≠ 1
    · rw [if_pos h, if_pos ⟨mul_neg_of_pos_of_neg hcd h.1, h.2⟩]
      rfl
    · rw [if_neg h, if_neg fun h' => h ⟨by
        by_contra h2
        exact absurd (mul_nonneg hcd.le (not_lt.1 h2)) (not_le.2 h'.1), h'.2⟩]
      by_cases h1 : l.length - i = 1
      · simp [h1]
      · rw [Real.mul_rpow hcd.le (by
          by_contra h2
          exact h ⟨not_le.1 h2, h1⟩), hr]
        rfl
  have hdiv : ∀ a b : ℝ, npDiv (c * a) (c * b) = npDiv a b := by
    intro a b
    unfold npDiv
    rw [mul_div_mul_left _ _ hc.ne']
    simp only [mul_eq_zero, hc.ne', false_or, mul_pos_iff_of_pos_left hc]
  rw [hs, hp, hroot]
  rcases npRoot (l.take (l.length - i)).prod (l.length - i) with _ | r
  · rfl
  · simp only [Option.map_some, Option.bind_some]
    rw [mul_div_assoc, hdiv]

theorem mapM_congr {α γ : Type _} (f g : α → Res γ) (l : List α) (h : ∀ a ∈ l, f a = g a) : l.mapM f = l.mapM g := by
  induction l with
  | nil => rfl
  | cons a t ih => rw [List.mapM_cons, List.mapM_cons, h a (by simp), ih fun b hb => h b (by simp [hb])]

theorem detector_scale (l : List ℝ) {c : ℝ} (hc : 0 < c) (N : ℕ) :
    aicVec (l.map (c * ·)) N = aicVec l N ∧ mdlVec (l.map (c * ·)) N = mdlVec l N := by
  have e : ∀ g : ℕ → Res NpFloat → Res NpFloat, ((List.range l.length).mapM fun i => g i (ldStat (l.map (c * ·)) i N)) =
      (List.range l.length).mapM fun i => g i (ldStat l i N) := fun g =>
    mapM_congr _ _ _ fun i hi => by rw [ldStat_scale l hc N (List.mem_range.1 hi)]
  unfold aicVec mdlVec
  simp only [List.length_map]
  rw [e fun i x => x.bind fun v => .ok (npAdd v ((i : ℝ) * (2 * (l.length : ℝ) - (i : ℝ)))),
    e fun i x => x.bind fun v =>
      if N = 0 then .error .valueError
      else .ok (npAdd v ((1 / 2) * ((i : ℝ) * (2 * (l.length : ℝ) - (i : ℝ)) + 1) * Real.log N))]
  exact ⟨rfl, rfl⟩

open scoped ComplexOrder in
theorem _root_.Doa.IsEigh.pos {R E : Matrix (Fin m) (Fin m) ℂ} {w : Fin m → ℝ} (h : IsEigh R w E) (hR : R.PosDef) (i : Fin m) : 0 < w i := by
  have hE : Function.Injective E.mulVec := by
    intro x y hxy
    have := congrArg (fun v => Eᴴ *ᵥ v) hxy
    simpa [mulVec_mulVec, h.orth] using this
  have hd : Eᴴ * R * E = diagonal fun j => (w j : ℂ) := by
    rw [Matrix.mul_assoc, h.eig, ← Matrix.mul_assoc, h.orth, Matrix.one_mul]
  have hp := (hR.conjTranspose_mul_mul_same hE)
  rw [hd] at hp
  have := hp.diag_pos (i := i)
  rw [diagonal_apply_eq] at this
  exact_mod_cast this

open scoped ComplexOrder in
/-- **C81** (AIC and MDL). The estimated number of sources does not depend on the unit of the data: it is
the same for `g R` and `R`, given as matrices or as lists of eigenvalues, also singular or indefinite ones. (SORTE is different, see
`C51_scale_dependent`.) -/
theorem C81_source_number (f : EigvalshFn) (hf : f.Spec) {g : ℝ} (hg : 0 < g) (N : ℕ) :
    (∀ l : List ℝ, aic f (.vec (l.map (g * ·))) N = aic f (.vec l) N ∧
      mdl f (.vec (l.map (g * ·))) N = mdl f (.vec l) N) ∧
    ∀ (m : ℕ) (R : Matrix (Fin m) (Fin m) ℂ), R.IsHermitian → aic f (.mat m ((g : ℂ) • R)) N = aic f (.mat m R) N ∧
      mdl f (.mat m ((g : ℂ) • R)) N = mdl f (.mat m R) N := by
  refine ⟨fun l => detector_scale l hg N, fun m R hR => ?_⟩
  obtain ⟨E, hE⟩ := hf m R hR
  have hgR : ((g : ℂ) • R).IsHermitian := by simpa using isHermitian_affine hR g 0
  obtain ⟨E', hE'⟩ := hf m ((g : ℂ) • R) hgR
  have h1 := hE.affine hg 0
  simp only [Complex.ofReal_zero, zero_smul, add_zero] at h1
  have hw := hE'.eigenvalues_unique h1
  have hl : List.ofFn (f.run m ((g : ℂ) • R)) = (List.ofFn (f.run m R)).map (g * ·) := by
    rw [hw, List.map_ofFn]
    rfl
  have := detector_scale (List.ofFn (f.run m R)) hg N
  unfold aic mdl
  simp only [hl]
  exact this

/-! ## Non-vacuity -/

/-- A diagonal matrix with increasing entries has a gap everywhere. -/
theorem hasGap_diagonal {w : Fin m → ℝ} (hw : StrictMono w) (q : ℕ) : HasGap (diagonal fun i => (w i : ℂ)) q :=
  ⟨w, 1, ⟨hw.monotone, by simp, by simp⟩, fun _ _ hi hj => hw (Fin.lt_def.2 (by omega))⟩

open scoped ComplexOrder in
/-- The hypotheses of the subspace theorems hold for the covariance matrix of any sources in general
position with positive definite covariance, in white noise. -/
theorem hasGap_covModel {A : Matrix (Fin m) (Fin k) ℂ} (hA : Function.Injective A.mulVec) {P : Matrix (Fin k) (Fin k) ℂ}
    (hP : P.PosDef) (σ : ℝ) : HasGap (covModel A P σ) (m - k) := by
  obtain ⟨w, E, h⟩ := exists_isEigh _ (covModel_isHermitian A hP.1 σ)
  refine ⟨w, E, h, fun i j hi hj => ?_⟩
  rw [(h.noise hA hP i hi).1]
  exact (h.split hA hP j).2 hj

open scoped ComplexOrder in
/-- The total least squares problem is well posed for a ULA without row weights and sources in distinct
directions. -/
theorem tlsWellPosed_ula (eigh : Eigh) {z : Fin k → ℂ} (hz : Function.Injective z) {P : Matrix (Fin k) (Fin k) ℂ} (hP : P.PosDef) (σ : ℝ)
    {d : ℕ} (hd : k + d ≤ m) : TlsWellPosed eigh (covModel (ulaMat m z) P σ) k d none := by
  intro hk
  have hinj := ulaMat_injective (m := m) hz hk
  have hB := ulaMat_injective (m := m - d) hz (by omega)
  obtain ⟨T, hT, hs⟩ := signal_factor hinj hP (eigh.spec _ (covModel_isHermitian _ hP.1 σ)) hk
  obtain ⟨v1, v2⟩ := views_ula (m := m) (z := z) T d none
  rw [hs, v1, v2]
  have hone : ∀ f : Fin (m - d) → ℕ, (diagonal fun r : Fin (m - d) => ((totalWeight none d (f r) : ℝ) : ℂ)) = 1 := by
    intro f
    simp [totalWeight]
  rw [hone fun r => r.1, hone fun r => r.1 + d, Matrix.one_mul]
  set B := ulaMat (m - d) z
  set D : Matrix (Fin k) (Fin k) ℂ := diagonal fun c => z c ^ d
  set G : Matrix (Fin k) (Fin (k + k)) ℂ := hstack2 T (D * T) with hG
  have hC : hstack2 (B * T) (B * D * T) = B * G := by
    ext i j
    refine Fin.addCases (fun j => ?_) (fun j => ?_) j
    · simp [hstack2, hG, Matrix.mul_apply]
    · simp only [hstack2, hG, Matrix.mul_assoc, Fin.addCases_right, Matrix.mul_apply]
  have hcov : (hstack2 (B * T) (B * D * T))ᴴ * hstack2 (B * T) (B * D * T) = covModel Gᴴ (Bᴴ * B) 0 := by
    rw [hC, covModel, conjTranspose_mul, conjTranspose_conjTranspose]
    simp [Matrix.mul_assoc]
  have hGinj : Function.Injective Gᴴ.mulVec := by
    intro x y hxy
    have h1 : Tᴴ *ᵥ x = Tᴴ *ᵥ y := by
      funext j
      have := congrFun hxy (Fin.castAdd k j)
      simpa [mulVec, dotProduct, hG, hstack2, conjTranspose_apply] using this
    have hT' : IsUnit Tᴴ.det := by rw [det_conjTranspose]; exact hT.star
    have h2 := congrArg (fun v => Tᴴ⁻¹ *ᵥ v) h1
    simpa [mulVec_mulVec, nonsing_inv_mul _ hT'] using h2
  have := hasGap_covModel hGinj (PosDef.conjTranspose_mul_self B hB) 0
  rw [hcov]
  simpa using this

open scoped ComplexOrder in
/-- Two unit-power sources seen by a four-element ULA in noise of variance one: scaling the covariance
matrix by 2 and adding noise of variance 3 changes neither root-MUSIC nor ESPRIT, for any `eigh`. -/
example (eigh eigh' : Eigh) (roots : NpRoots) (ev ev' : NpEigvals) (argsort : List ℝ → List ℕ) :
    let R := covModel (ulaMat 4 ![(1 : ℂ), Complex.I]) 1 1
    rootMusicEstimate eigh' roots argsort 1 (((2 : ℝ) : ℂ) • R + ((3 : ℝ) : ℂ) • (1 : Matrix (Fin 4) (Fin 4) ℂ)) 2 none "rad" =
      rootMusicEstimate eigh roots argsort 1 R 2 none "rad" ∧
    espritEstimate eigh' ev' 1 (((2 : ℝ) : ℂ) • R + ((3 : ℝ) : ℂ) • (1 : Matrix (Fin 4) (Fin 4) ℂ)) 2 none 1 "tls" (.str "none") "rad" =
      espritEstimate eigh ev 1 R 2 none 1 "tls" (.str "none") "rad" := by
  intro R
  have hz : Function.Injective ![(1 : ℂ), Complex.I] := by
    intro i j h
    fin_cases i <;> fin_cases j
    · rfl
    · exact absurd (congrArg Complex.re h) (by simp)
    · exact absurd (congrArg Complex.re h) (by simp)
    · rfl
  have hg : HasGap R (4 - 2) := hasGap_covModel (ulaMat_injective hz (by norm_num)) PosDef.one 1
  have hR : R.IsHermitian := covModel_isHermitian _ PosDef.one.1 1
  refine ⟨C81_root_music eigh eigh' roots argsort 1 hR hg (by norm_num) 3 none "rad",
    C81_esprit eigh eigh' ev ev' 1 hR hg (by norm_num) 3 none 1 "tls" (.str "none") "rad" fun _ w hw => ?_⟩
  have : w = none := by
    simp [resolveWeights] at hw
    exact hw.symm
  subst this
  exact tlsWellPosed_ula eigh hz PosDef.one 1 (by norm_num)

example (f : EigvalshFn) (hf : f.Spec) : aic f (.vec ([1, 2, 5].map ((10 : ℝ) * ·))) 100 = aic f (.vec [1, 2, 5]) 100 :=
  ((C81_source_number f hf (by norm_num) 100).1 [1, 2, 5]).1

end Doa.Props
