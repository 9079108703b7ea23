import Verif.Props.Placement
import Verif.Props.SparseLinear

/-!
# C104: mirror images
-/

namespace Doa.Props

open Doa Doa.Spec Matrix
open scoped ComplexOrder

variable {m k : ℕ} {β : Type}

/-! ### Specification -/

/-- What the caller sees: an exception, or the `resolved` flag, the estimates with their unit, and the spectrum. -/
def outcome {Atom : Type} (r : Res (EstOut β) × EstState Atom) : Res (Bool × Option (Option (List (List ℝ) × String)) × List β) :=
  match r with
  | (.error e, _) => .error e
  | (.ok o, st) => .ok (o.observe st)

/-- The same outcome with all estimates negated. -/
def mirrored (x : Bool × Option (Option (List (List ℝ) × String)) × List β) : Bool × Option (Option (List (List ℝ) × String)) × List β :=
  (x.1, x.2.1.map fun y => y.map fun p => (p.1.map fun r => r.map fun v => -v, p.2), x.2.2)

/-- An unperturbed array of isotropic scalar elements on a line. -/
structure OnLine (a : ArrayDesign) : Prop where
  element : a.element = .isotropicScalar
  perts : a.perts = []
  dim : a.locations.ncols = 1

/-- The complex conjugate of a matrix. -/
noncomputable def conjM {n : ℕ} (M : Matrix (Fin m) (Fin n) ℂ) : Matrix (Fin m) (Fin n) ℂ := M.map (starRingEnd ℂ)

/-! ### Steering vectors -/

theorem angleOf_neg {u : String} (hu : Unit1D u) (v : ℝ) : angleOf u (-v) = -angleOf u v := by
  rcases hu with rfl | rfl | rfl <;> simp [angleOf, neg_div]

theorem inRange_neg {u : String} {v : ℝ} (h : InRange1D u v) : InRange1D u (-v) := by
  rcases h with ⟨rfl, h1, h2⟩ | ⟨rfl, h1, h2⟩ | ⟨rfl, h1, h2⟩
  · exact Or.inl ⟨rfl, by linarith, by linarith⟩
  · exact Or.inr (Or.inl ⟨rfl, by linarith, by linarith⟩)
  · exact Or.inr (Or.inr ⟨rfl, by linarith, by linarith⟩)

theorem dir_neg {s s' : FF1D k} (hu : Unit1D s.unit) (hu' : s'.unit = s.unit) (hl : ∀ c, s'.loc c = -s.loc c) (c : Fin k) :
    (s'.dir c).1 = -(s.dir c).1 := by
  unfold FF1D.dir
  rw [hu', hl]
  rcases hu with h | h | h <;> simp [h, deg2rad, neg_div, neg_mul]

theorem line_steering {a : ArrayDesign} (h : OnLine a) (s : FF1D k) (wl : ℝ) [NeZero wl] (mode : String) (hm : mode ∈ ["all", "known", "none"]) :
    ∃ S, steering a (.ff1 s) wl false mode = .ok S ∧
      ∀ l i c, S.A l i c = Complex.exp (Complex.I * ((2 * Real.pi / wl * (s.dir c).1 * a.locations.at0 i.1 0 : ℝ) : ℂ)) := by
  have hps : a.filterPerturbations mode = .ok [] := by
    simp only [List.mem_cons, List.not_mem_nil, or_false] at hm
    rcases hm with rfl | rfl | rfl <;> simp [ArrayDesign.filterPerturbations, h.perts, PyDict.values]
  have hph : (Sources.ff1 s).phaseDelay a.locations wl false =
      .ok ⟨fun i c => 2 * Real.pi / wl * (s.dir c).1 * a.locations.at0 i 0, []⟩ := by
    have := h.dim
    refine (FF1D.phaseDelay_eq s a.locations wl).trans ?_
    rw [if_pos (by omega)]
    congr 2
    ext i c
    rw [Mat.at0_of_ge a.locations (i := i) (j := 1) (by omega)]; ring
  refine ⟨_, steering_iso (ps := []) h.element hps rfl hph (by simp), fun l i c => ?_⟩
  simp only [totalFactor, List.foldl_nil, Matrix.one_mul, ideal, Fin.val_cast]

/-- **C104** (steering matrices). On a line, the responses to mirrored sources are the complex conjugates. -/
theorem C104_steering {a : ArrayDesign} (h : OnLine a) (s s' : FF1D k) (hu : Unit1D s.unit) (hu' : s'.unit = s.unit)
    (hl : ∀ c, s'.loc c = -s.loc c) (wl : ℝ) [NeZero wl] {mode : String} (hm : mode ∈ ["all", "known", "none"]) :
    ∃ S S', steering a (.ff1 s) wl false mode = .ok S ∧ steering a (.ff1 s') wl false mode = .ok S' ∧
      ∀ l i c, S'.A l i c = star (S.A l i c) := by
  obtain ⟨S, h1, h2⟩ := line_steering h s wl mode hm
  obtain ⟨S', h3, h4⟩ := line_steering h s' wl mode hm
  refine ⟨S, S', h1, h3, fun l i c => ?_⟩
  rw [h2, h4, dir_neg hu hu' hl, Complex.star_def, ← Complex.exp_conj, map_mul, Complex.conj_I, Complex.conj_ofReal]
  congr 1
  push_cast
  ring

theorem conjM_mul {n p : ℕ} (M : Matrix (Fin m) (Fin n) ℂ) (N : Matrix (Fin n) (Fin p) ℂ) : conjM (M * N) = conjM M * conjM N :=
  Matrix.map_mul

theorem conjM_herm {n : ℕ} (M : Matrix (Fin m) (Fin n) ℂ) : (conjM M)ᴴ = conjM Mᴴ := by
  ext i j
  simp [conjM]

/-- **C104** (covariance matrices). The conjugate of the covariance matrix of some sources is the covariance matrix of the mirrored sources,
with conjugated source covariance. -/
theorem C104_covariance {a : ArrayDesign} (h : OnLine a) (s s' : FF1D k) (hu : Unit1D s.unit) (hu' : s'.unit = s.unit)
    (hl : ∀ c, s'.loc c = -s.loc c) (wl : ℝ) [NeZero wl] {mode : String} (hm : mode ∈ ["all", "known", "none"]) :
    ∃ S S', steering a (.ff1 s) wl false mode = .ok S ∧ steering a (.ff1 s') wl false mode = .ok S' ∧
      ∀ l (P : Matrix (Fin k) (Fin k) ℂ) σ, covModel (S'.A l) (conjM P) σ = conjM (covModel (S.A l) P σ) := by
  obtain ⟨S, S', h1, h2, h3⟩ := C104_steering h s s' hu hu' hl wl hm
  refine ⟨S, S', h1, h2, fun l P σ => ?_⟩
  have hA : S'.A l = conjM (S.A l) := by
    ext i c
    exact h3 l i c
  rw [hA, covModel, covModel, conjM_herm, ← conjM_mul, ← conjM_mul]
  generalize S.A l * P * (S.A l)ᴴ = M
  ext i j
  by_cases hij : i = j <;> simp [conjM, Matrix.one_apply, hij]

theorem atoms_mirror {a : ArrayDesign} (h : OnLine a) (l : Fin a.element.outputSize) (wl : ℝ) [NeZero wl] {u : String} (hu : Unit1D u)
    (x : List ℝ) : atomColumns1D a l wl u ((x.map fun v => -v).map fun v => [v]) =
      (atomColumns1D a l wl u (x.map fun v => [v])).map fun w i => star (w i) := by
  have hps : a.filterPerturbations "known" = .ok [] := by simp [ArrayDesign.filterPerturbations, h.perts, PyDict.values]
  have hd := h.dim
  have hat : ∀ rows, atomColumns1D a l wl u rows = rows.map fun r => response a l wl u "known" (r.headD 0) := fun rows =>
    atoms_eq h.element l wl u rows hps rfl (by simp [hd]) (by simp)
  rw [hat, hat]
  simp only [List.map_map]
  refine List.map_congr_left fun v _ => ?_
  funext i
  obtain ⟨S, S', h1, h2, h3⟩ := C104_steering h (⟨![v], u⟩ : FF1D 1) (⟨![-v], u⟩ : FF1D 1) hu rfl (fun c => by fin_cases c; rfl) wl
    (mode := "known") (by simp)
  simp only [Function.comp_apply, List.headD_cons, response, h1, h2, entryOf]
  exact h3 l i 0

/-! ### Spectra -/

theorem mirror_form (M : Matrix (Fin m) (Fin m) ℂ) (w : Fin m → ℂ) :
    ((fun i => star (star (w i))) ⬝ᵥ (conjM M *ᵥ fun i => star (w i))).re = (star w ⬝ᵥ M *ᵥ w).re := by
  have : ((fun i => star (star (w i))) ⬝ᵥ (conjM M *ᵥ fun i => star (w i))) = star (star w ⬝ᵥ M *ᵥ w) := by
    simp [dotProduct, mulVec, conjM]
  rw [this, Complex.star_def, Complex.conj_re]

theorem fBartlett_conj (R : Matrix (Fin m) (Fin m) ℂ) (A : List (Fin m → ℂ)) :
    fBartlett (conjM R) (A.map fun w i => star (w i)) = fBartlett R A := by
  unfold fBartlett
  rw [List.map_map]
  exact List.map_congr_left fun w _ => mirror_form R w

theorem npPinv_conj (R : Matrix (Fin m) (Fin m) ℂ) : npPinv (conjM R) = conjM (npPinv R) := by
  obtain ⟨x1, x2, x3, x4⟩ := C33_pinv_penrose (conjM R)
  obtain ⟨y1, y2, y3, y4⟩ := C33_pinv_penrose R
  refine penrose_unique x1 x2 x3 x4 ?_ ?_ ?_ ?_
  · rw [← conjM_mul, ← conjM_mul, y1]
  · rw [← conjM_mul, ← conjM_mul, y2]
  · rw [← conjM_mul, conjM_herm, y3]
  · rw [← conjM_mul, conjM_herm, y4]

theorem fMvdr_conj (R : Matrix (Fin m) (Fin m) ℂ) (A : List (Fin m → ℂ)) :
    fMvdr (conjM R) (A.map fun w i => star (w i)) = fMvdr R A := by
  unfold fMvdr
  rw [List.map_map]
  refine List.map_congr_left fun w _ => ?_
  have : (mvdrRaw (conjM R) fun i => star (w i)).re = (mvdrRaw R w).re := by
    unfold mvdrRaw
    rw [npPinv_conj]
    exact mirror_form (npPinv R) w
  simp only [Function.comp_apply, this]

/-- The noise projector of the conjugate. -/
theorem noiseProjector_conj (eigh eigh' : Eigh) {R : Matrix (Fin m) (Fin m) ℂ} (hR : R.IsHermitian) {k : ℕ} (hg : HasGap R (m - k)) :
    getNoiseSubspace eigh' (conjM R) k * (getNoiseSubspace eigh' (conjM R) k)ᴴ =
      conjM (getNoiseSubspace eigh R k * (getNoiseSubspace eigh R k)ᴴ) := by
  have hR' : (conjM R).IsHermitian := by rw [IsHermitian, conjM_herm, hR.eq]
  have h1 := eigh.spec R hR
  have h2 := eigh'.spec _ hR'
  have hdiag : ∀ w : Fin m → ℝ, conjM (diagonal fun j => (w j : ℂ)) = diagonal fun j => (w j : ℂ) := fun w => by
    ext i j
    by_cases hij : i = j <;> simp [conjM, hij, diagonal_apply]
  have hone : conjM (1 : Matrix (Fin m) (Fin m) ℂ) = 1 := by
    ext i j
    by_cases hij : i = j <;> simp [conjM, hij, Matrix.one_apply]
  have h3 : IsEigh (conjM R) (eigh.run R).1 (conjM (eigh.run R).2) := by
    refine ⟨h1.mono, ?_, ?_⟩
    · rw [conjM_herm, ← conjM_mul, h1.orth, hone]
    · rw [← conjM_mul, h1.eig, conjM_mul, hdiag]
  unfold getNoiseSubspace
  rw [noiseProj_eq, noiseProj_eq]
  have : conjM (lowProj (eigh.run R).2 (noiseDim m k)) = lowProj (conjM (eigh.run R).2) (noiseDim m k) := by
    unfold lowProj
    rw [conjM_mul, conjM_mul, conjM_herm]
    congr 2
    ext i j
    by_cases hij : i = j
    · subst hij
      by_cases hi : i.1 < noiseDim m k <;> simp [conjM, hi]
    · simp [conjM, hij, diagonal_apply]
  rw [this]
  refine (h3.lowProj_unique hR' h2 fun i j hi hj => ?_).symm
  by_cases hk : k = 0
  · simp [noiseDim, hk] at hi
  · rw [noiseDim_eq (by omega)] at hi hj
    exact hg.of h1 i j hi hj

theorem fMusic_conj {d d' : ℕ} {En : Matrix (Fin m) (Fin d) ℂ} {En' : Matrix (Fin m) (Fin d') ℂ} (hP : En' * En'ᴴ = conjM (En * Enᴴ))
    (A : List (Fin m → ℂ)) : fMusic En' (A.map fun w i => star (w i)) = fMusic En A := by
  unfold fMusic
  rw [List.map_map]
  refine List.map_congr_left fun w _ => ?_
  simp only [Function.comp_apply]
  rw [musicDenom_proj, musicDenom_proj, hP]
  exact congrArg npRecip (mirror_form (En * Enᴴ) w)

theorem fMinNorm_conj [NeZero m] {d d' : ℕ} {En : Matrix (Fin m) (Fin d) ℂ} {En' : Matrix (Fin m) (Fin d') ℂ} (hP : En' * En'ᴴ = conjM (En * Enᴴ))
    (A : List (Fin m → ℂ)) : fMinNorm En' (A.map fun w i => star (w i)) = fMinNorm En A := by
  unfold fMinNorm
  rw [List.map_map]
  refine List.map_congr_left fun w _ => ?_
  have hv : ∀ i, minNormVec En' i = star (minNormVec En i) := by
    intro i
    rw [minNormVec_proj, minNormVec_proj, hP, star_div₀]
    rfl
  have : star (minNormVec En') ⬝ᵥ (fun i => star (w i)) = star (star (minNormVec En) ⬝ᵥ w) := by
    simp [dotProduct, hv]
  simp only [Function.comp_apply, minNormDenom]
  rw [this, norm_star]

/-! ### Estimates -/

/-- A search over the mirrored grid with the same spectrum returns the mirrored estimates. -/
theorem mirror_observe [LinearOrder β] {Atom : Type} {cfg cfg' : EstCfg β Atom} {x : List ℝ} {names names' : List String} {u : String} (hu : Unit1D u)
    (hx : ∀ v ∈ x, InRange1D u v) (hg : cfg.grid = ⟨.ff1, [⟨x, false⟩], names, [u]⟩)
    (hg' : cfg'.grid = ⟨.ff1, [⟨x.map fun v => -v, false⟩], names', [u]⟩) (hpf : cfg'.peakFinder = cfg.peakFinder)
    (hsort : cfg'.argsort = cfg.argsort) {f f' : Atom → List β}
    (hf : f' (cfg'.compute ((x.map fun v => -v).map fun v => [v])) = f (cfg.compute (x.map fun v => [v]))) (ops ops' : List (EstOp β Atom))
    (k : ℕ) (density : ℤ) (iters : ℕ) :
    cfg'.observe (cfg'.run ops').1 ⟨f', k, false, density, iters⟩ = (cfg.observe (cfg.run ops).1 ⟨f, k, false, density, iters⟩).map mirrored := by
  have hx' : ∀ v ∈ x.map (fun v => -v), InRange1D u v := by
    intro v hv
    obtain ⟨w, hw, rfl⟩ := List.mem_map.1 hv
    exact inRange_neg (hx w hw)
  rw [((cfg.inv_run ops).estimate _).2.2.1, ((cfg'.inv_run ops').estimate _).2.2.1]
  have hsh : cfg.grid.shape = [x.length] := by rw [hg]; rfl
  have hsh' : cfg'.grid.shape = [x.length] := by rw [hg']; simp [SearchGrid.shape]
  have hun : (cfg.grid.units[0]?).getD "" = u := by rw [hg]; rfl
  have hun' : (cfg'.grid.units[0]?).getD "" = u := by rw [hg']; rfl
  simp only [EstCfg.pureEst, rows_1d hg hu hx, rows_1d hg' hu hx', hsh, hsh', hun, hun', hf, hpf, hsort, List.length_map]
  generalize f (cfg.compute (x.map fun v => [v])) = sp
  simp only [Bool.false_eq_true, if_false]
  split_ifs with h1
  · rfl
  · cases topPeaks cfg.peakFinder cfg.argsort [x.length] sp k with
    | error e => rfl
    | ok o =>
      cases o with
      | none => rfl
      | some flat =>
        simp only
        cases (SKey.ints (flat.map fun i : ℕ => (i : ℤ))).select x.length with
        | error e => rfl
        | ok idx =>
          simp only [Bool.false_eq_true, if_false, Except.map, mirrored, Option.map_some, Except.ok.injEq, Prod.mk.injEq, Option.some.injEq,
            and_true, true_and]
          rw [List.map_filterMap]
          refine List.filterMap_congr fun i _ => ?_
          simp only [List.getElem?_map, Option.map_map]
          cases x[i]? <;> rfl

/-- Two searches, one over the mirror image of the grid of the other, both with the array `a`. -/
structure MirrorSearch (a : ArrayDesign) (wl : ℝ) (cfg cfg' : EstCfg β (List (Fin a.size → ℂ))) : Prop where
  line : OnLine a
  peaks : cfg'.peakFinder = cfg.peakFinder
  sort : cfg'.argsort = cfg.argsort
  grids : ∃ (x : List ℝ) (names names' : List String) (u : String), Unit1D u ∧ (∀ v ∈ x, InRange1D u v) ∧
    cfg.grid = ⟨.ff1, [⟨x, false⟩], names, [u]⟩ ∧ cfg'.grid = ⟨.ff1, [⟨x.map fun v => -v, false⟩], names', [u]⟩ ∧
    ∃ l, cfg.compute = atomColumns1D a l wl u ∧ cfg'.compute = atomColumns1D a l wl u

theorem MirrorSearch.observe [LinearOrder β] {a : ArrayDesign} {wl : ℝ} [NeZero wl] {cfg cfg' : EstCfg β (List (Fin a.size → ℂ))}
    (h : MirrorSearch a wl cfg cfg') {f f' : List (Fin a.size → ℂ) → List β} (hf : ∀ A, f' (A.map fun w i => star (w i)) = f A)
    (ops ops' : List (EstOp β (List (Fin a.size → ℂ)))) (k : ℕ) (density : ℤ) (iters : ℕ) :
    cfg'.observe (cfg'.run ops').1 ⟨f', k, false, density, iters⟩ = (cfg.observe (cfg.run ops).1 ⟨f, k, false, density, iters⟩).map mirrored := by
  obtain ⟨x, names, names', u, hu, hx, hg, hg', l, hc, hc'⟩ := h.grids
  refine mirror_observe hu hx hg hg' h.peaks h.sort ?_ ops ops' k density iters
  rw [hc, hc', atoms_mirror h.line l wl hu, hf]

/-- **C104** (beamformers). Search with a line array; mirror the grid and conjugate the covariance matrix. Bartlett and MVDR then return the
mirrored estimates and the same spectrum, or the same exception: for every covariance matrix (also one that is no covariance matrix),
every grid, and after every history of the two estimators. -/
theorem C104_beamformers {a : ArrayDesign} {wl : ℝ} [NeZero wl] {cfg cfg' : EstCfg ℝ (List (Fin a.size → ℂ))} (h : MirrorSearch a wl cfg cfg')
    {cfgM cfgM' : EstCfg (WithTop ℝ) (List (Fin a.size → ℂ))} (hM : MirrorSearch a wl cfgM cfgM') (R : Matrix (Fin a.size) (Fin a.size) ℂ)
    (k : ℕ) (kw : EstKw) (hkw : kw.refine = false) :
    (∀ ops ops', outcome (bartlettEstimate cfg' (cfg'.run ops').1 (conjM R) k kw) =
      (outcome (bartlettEstimate cfg (cfg.run ops).1 R k kw)).map mirrored) ∧
    ∀ ops ops', outcome (mvdrEstimate cfgM' (cfgM'.run ops').1 (conjM R) k kw) =
      (outcome (mvdrEstimate cfgM (cfgM.run ops).1 R k kw)).map mirrored := by
  refine ⟨fun ops ops' => ?_, fun ops ops' => ?_⟩
  · unfold bartlettEstimate
    rw [beamArgs_ok, beamArgs_ok, hkw]
    exact h.observe (fBartlett_conj R) ops ops' k kw.density kw.iters
  · unfold mvdrEstimate
    rw [beamArgs_ok, beamArgs_ok, hkw]
    exact hM.observe (fMvdr_conj R) ops ops' k kw.density kw.iters

/-- **C104** (subspace methods). The same for MUSIC and Min-Norm and Hermitian covariance matrices whose `k` largest eigenvalues are separated
from the others, whatever eigenvectors `eigh` returns in the two calls. -/
theorem C104_subspace (eigh eigh' : Eigh) {a : ArrayDesign} [NeZero a.size] {wl : ℝ} [NeZero wl]
    {cfg cfg' : EstCfg (WithTop ℝ) (List (Fin a.size → ℂ))} (h : MirrorSearch a wl cfg cfg') {R : Matrix (Fin a.size) (Fin a.size) ℂ}
    (hR : R.IsHermitian) {k : ℕ} (hgap : HasGap R (a.size - k)) (kw : EstKw) (hkw : kw.refine = false)
    (ops ops' : List (EstOp (WithTop ℝ) (List (Fin a.size → ℂ)))) :
    outcome (musicEstimate eigh' cfg' (cfg'.run ops').1 (conjM R) k kw) =
      (outcome (musicEstimate eigh cfg (cfg.run ops).1 R k kw)).map mirrored ∧
    outcome (minNormEstimate eigh' cfg' (cfg'.run ops').1 (conjM R) k kw) =
      (outcome (minNormEstimate eigh cfg (cfg.run ops).1 R k kw)).map mirrored := by
  have hP := noiseProjector_conj eigh eigh' hR hgap
  have e : ∀ m : ℕ, ensureCovarianceSize [m, m] m = .ok () := fun m => by simp [ensureCovarianceSize]
  refine ⟨?_, ?_⟩
  · unfold musicEstimate subspaceArgs
    simp only [e, and_self, dite_true, sub_cast_self]
    cases ensureNResolvable k ((a.size : ℤ) - 1) with
    | error e => rfl
    | ok u =>
      simp only [hkw]
      exact h.observe (fMusic_conj hP) ops ops' k kw.density kw.iters
  · unfold minNormEstimate subspaceArgs
    simp only [e, and_self, dite_true, sub_cast_self]
    cases ensureNResolvable k ((a.size : ℤ) - 1) with
    | error e => rfl
    | ok u =>
      simp only [hkw]
      exact h.observe (fMinNorm_conj hP) ops ops' k kw.density kw.iters

/-- **C104** (real covariance matrices). A real covariance matrix carries no information about the side of the array the sources are on: on a
grid symmetric about broadside, the Bartlett and MVDR spectra of a line array are symmetric. -/
theorem C104_real {a : ArrayDesign} (h : OnLine a) (l : Fin a.element.outputSize) (wl : ℝ) [NeZero wl] {u : String} (hu : Unit1D u) (x : List ℝ)
    (hsym : (x.map fun v => -v) = x.reverse) (R : Matrix (Fin a.size) (Fin a.size) ℂ) (hreal : ∀ i j, (R i j).im = 0) :
    (fBartlett R (atomColumns1D a l wl u (x.map fun v => [v]))).reverse = fBartlett R (atomColumns1D a l wl u (x.map fun v => [v])) ∧
    (fMvdr R (atomColumns1D a l wl u (x.map fun v => [v]))).reverse = fMvdr R (atomColumns1D a l wl u (x.map fun v => [v])) := by
  have hc : conjM R = R := by
    ext i j
    exact Complex.conj_eq_iff_im.2 (hreal i j)
  have hps : a.filterPerturbations "known" = .ok [] := by simp [ArrayDesign.filterPerturbations, h.perts, PyDict.values]
  have hd := h.dim
  have hat : ∀ y : List ℝ, atomColumns1D a l wl u (y.map fun v => [v]) = y.map fun v => response a l wl u "known" v := fun y => by
    rw [atoms_eq h.element l wl u _ hps rfl (by simp [hd]) (by simp), List.map_map]
    rfl
  have hrev : (atomColumns1D a l wl u (x.map fun v => [v])).reverse =
      (atomColumns1D a l wl u (x.map fun v => [v])).map fun w i => star (w i) := by
    rw [← atoms_mirror h l wl hu x, hsym, hat, hat, List.map_reverse]
  constructor
  · have := fBartlett_conj R (atomColumns1D a l wl u (x.map fun v => [v]))
    rw [hc, ← hrev] at this
    simp only [fBartlett, List.map_reverse] at this ⊢
    exact this
  · have := fMvdr_conj R (atomColumns1D a l wl u (x.map fun v => [v]))
    rw [hc, ← hrev] at this
    simp only [fMvdr, List.map_reverse] at this ⊢
    exact this

/-! ### Instances -/

/-- Every linear array the library constructs is on a line. -/
theorem C104_linear {l : List ℤ} {x : ℝ} {name : Option String} {a : GridArray}
    (h : GridArray.init (Mat.col l) (.d0 (.scalar x)) name {} = .ok a) : OnLine a.toArrayDesign := by
  obtain ⟨h1, h2, h3⟩ := linear_of_init h
  exact ⟨h2, h3, h1.1.2.1⟩

/-- Non-vacuity: a nested array with mirrored searches on an asymmetric grid, and a Hermitian covariance matrix that is not real, with
separated eigenvalues. -/
example : ∃ (a : GridArray) (_ : NeZero a.size) (cfg cfg' : EstCfg ℝ (List (Fin a.size → ℂ))) (R : Matrix (Fin a.size) (Fin a.size) ℂ),
    nested 2 2 (.scalar (1 / 2)) none {} = .ok a ∧ MirrorSearch a.toArrayDesign 1 cfg cfg' ∧ cfg.grid ≠ cfg'.grid ∧
    R.IsHermitian ∧ conjM R ≠ R ∧ HasGap R (a.size - 1) := by
  obtain ⟨a, ha⟩ : ∃ a, nested 2 2 (.scalar (1 / 2)) none {} = .ok a := gridInit_ok_of (d := []) (by simp [GridArgsMatch]) rfl
  have hline : OnLine a.toArrayDesign := C104_linear ha
  have hsz : a.size = 4 := (linear_of_init ha).1.1.2.2
  have hla : 0 < a.element.outputSize := by rw [hline.element]; decide
  obtain ⟨A, hAe⟩ : ∃ A : Matrix (Fin a.size) (Fin 1) ℂ, ∀ i c, A i c = if i.1 = 0 then 1 else Complex.I := ⟨fun i _ => _, fun _ _ => rfl⟩
  have hA : Function.Injective A.mulVec := injective_one fun h => by
    have := congrFun h ⟨0, by omega⟩
    simp [Matrix.col, hAe] at this
  let cfg : EstCfg ℝ (List (Fin a.size → ℂ)) :=
    ⟨⟨.ff1, [⟨[0, 1/4, 1/2], false⟩], ["angle"], ["rad"]⟩, atomColumns1D a.toArrayDesign ⟨0, hla⟩ 1 "rad", findPeaksSimple, stableArgsort, true, false⟩
  let cfg' : EstCfg ℝ (List (Fin a.size → ℂ)) :=
    ⟨⟨.ff1, [⟨[0, 1/4, 1/2].map fun v => -v, false⟩], ["angle"], ["rad"]⟩, atomColumns1D a.toArrayDesign ⟨0, hla⟩ 1 "rad", findPeaksSimple,
      stableArgsort, true, false⟩
  refine ⟨a, ⟨by omega⟩, cfg, cfg', covModel A 1 1, ha, ⟨hline, rfl, rfl, [0, 1/4, 1/2], _, _, "rad", Or.inl rfl, ?_, rfl, rfl, ⟨0, hla⟩, rfl, rfl⟩,
    ?_, covModel_isHermitian A PosDef.one.1 1, ?_, hasGap_covModel hA PosDef.one 1⟩
  · have := Real.pi_gt_three
    intro v hv
    simp only [List.mem_cons, List.not_mem_nil, or_false] at hv
    rcases hv with rfl | rfl | rfl <;> exact Or.inl ⟨rfl, by linarith, by linarith⟩
  · intro h
    have h1 := congrArg (fun g => g.axes.map Axis.data) h
    norm_num [cfg, cfg'] at h1
  · intro h
    have h1 := congrFun (congrFun h ⟨0, by omega⟩) ⟨1, by omega⟩
    have h2 := congrArg Complex.im h1
    simp [conjM, covModel, Matrix.mul_apply, hAe] at h2
    norm_num at h2

end Doa.Props
