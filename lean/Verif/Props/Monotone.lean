import Verif.Props.Translation

/-!
# C73: more sensors, less noise and stronger sources never make the bounds worse
-/

namespace Doa.Props

open Doa Doa.Spec Matrix
open scoped ComplexOrder

variable {m k : ℕ}

/-! ### Loewner order -/

theorem inv_antitone_complex {ι : Type} [Fintype ι] [DecidableEq ι] {M N : Matrix ι ι ℂ} (hM : M.PosDef) (hN : N.PosDef)
    (h : (N - M).PosSemidef) : (M⁻¹ - N⁻¹).PosSemidef := by
  have hMi : M⁻¹⁻¹ = M := nonsing_inv_nonsing_inv _ ((isUnit_iff_isUnit_det _).1 hM.isUnit)
  letI := hM.inv.isUnit.invertible
  letI := hN.isUnit.invertible
  have h1 : (fromBlocks M⁻¹ 1 (1 : Matrix ι ι ℂ)ᴴ N).PosSemidef := by
    rw [PosDef.fromBlocks₁₁ _ _ hM.inv, hMi]
    simpa using h
  rw [PosDef.fromBlocks₂₂ _ _ hN] at h1
  simpa using h1

/-- Dropping rows reduces the Gram matrix. -/
theorem gram_submatrix {m' : ℕ} (M : Matrix (Fin m') (Fin k) ℂ) {f : Fin m → Fin m'} (hf : Function.Injective f) :
    (Mᴴ * M - (M.submatrix f id)ᴴ * M.submatrix f id).PosSemidef := by
  set S : Matrix (Fin m) (Fin m') ℂ := (1 : Matrix (Fin m') (Fin m') ℂ).submatrix f id with hS
  have h1 : M.submatrix f id = S * M := by
    rw [hS]
    ext i j
    simp [Matrix.mul_apply, Matrix.one_apply]
  have h2 : S * Sᴴ = 1 := by
    ext i j
    simp [hS, Matrix.mul_apply, Matrix.one_apply, hf.eq_iff, eq_comm]
  have h3 : (1 - Sᴴ * S) * (1 - Sᴴ * S) = 1 - Sᴴ * S := by
    have : (Sᴴ * S) * (Sᴴ * S) = Sᴴ * S := by
      rw [Matrix.mul_assoc, ← Matrix.mul_assoc S, h2, Matrix.one_mul]
    rw [Matrix.sub_mul, Matrix.one_mul, Matrix.mul_sub, Matrix.mul_one, this, sub_self, sub_zero]
  have e : Mᴴ * M - (M.submatrix f id)ᴴ * M.submatrix f id = ((1 - Sᴴ * S) * M)ᴴ * ((1 - Sᴴ * S) * M) := by
    rw [h1, conjTranspose_mul, conjTranspose_mul, conjTranspose_sub, conjTranspose_one, conjTranspose_mul, conjTranspose_conjTranspose,
      Matrix.mul_assoc Mᴴ (1 - Sᴴ * S), ← Matrix.mul_assoc (1 - Sᴴ * S) (1 - Sᴴ * S), h3, Matrix.sub_mul, Matrix.one_mul, Matrix.mul_sub]
    simp only [Matrix.mul_assoc]
  rw [e]
  exact posSemidef_conjTranspose_mul_self _

theorem fullRank_super {m' : ℕ} {A : Matrix (Fin m') (Fin k) ℂ} {f : Fin m → Fin m'}
    (hG : IsUnit ((A.submatrix f id)ᴴ * A.submatrix f id).det) : IsUnit (Aᴴ * A).det := by
  refine (fullRank_iff A).2 fun x y hxy => (fullRank_iff (A.submatrix f id)).1 hG ?_
  funext i
  exact congrFun hxy (f i)

/-- Adding sensors increases the projected Gram matrix of the derivatives. -/
theorem Hmat_super {m' : ℕ} {A D : Matrix (Fin m') (Fin k) ℂ} {f : Fin m → Fin m'} (hf : Function.Injective f)
    (hG : IsUnit ((A.submatrix f id)ᴴ * A.submatrix f id).det) :
    (Hmat A D - Hmat (A.submatrix f id) (D.submatrix f id)).PosSemidef := by
  have hG' := fullRank_super hG
  set E := compProj A * D with hE
  set B := A.submatrix f id with hB
  -- the projected derivatives of the smaller array
  obtain ⟨Y, hY⟩ : ∃ Y, E = D - A * Y := ⟨(Aᴴ * A)⁻¹ * Aᴴ * D, by
    rw [hE]; unfold compProj; rw [Matrix.sub_mul, Matrix.one_mul]; simp only [Matrix.mul_assoc]⟩
  have h1 : E.submatrix f id = D.submatrix f id - B * Y := by
    rw [hY]; ext i j; rfl
  have h2 : compProj B * E.submatrix f id = compProj B * D.submatrix f id := by
    rw [h1, Matrix.mul_sub, ← Matrix.mul_assoc, compProj_mul hG, Matrix.zero_mul, sub_zero]
  have h3 : Hmat A D = Eᴴ * E := by rw [Hmat_eq, hmat_factor hG', hE]
  have h4 : Hmat B (D.submatrix f id) = (compProj B * E.submatrix f id)ᴴ * (compProj B * E.submatrix f id) := by
    rw [Hmat_eq, hmat_factor hG, h2]
  have h5 : ((E.submatrix f id)ᴴ * E.submatrix f id - (compProj B * E.submatrix f id)ᴴ * (compProj B * E.submatrix f id)).PosSemidef := by
    set F := E.submatrix f id
    set Q := compProj B with hQ
    have hQQ : Q * Q = Q := compProj_idem hG
    have hQh : Qᴴ = Q := compProj_herm B
    have : Fᴴ * F - (Q * F)ᴴ * (Q * F) = ((1 - Q) * F)ᴴ * ((1 - Q) * F) := by
      have e2 : (1 - Q) * (1 - Q) = 1 - Q := compl_idem hQQ
      rw [conjTranspose_mul, conjTranspose_mul, conjTranspose_sub, conjTranspose_one, hQh, Matrix.mul_assoc Fᴴ Q, ← Matrix.mul_assoc Q Q,
        hQQ, Matrix.mul_assoc Fᴴ (1 - Q), ← Matrix.mul_assoc (1 - Q) (1 - Q), e2, Matrix.sub_mul 1 Q F, Matrix.one_mul, Matrix.mul_sub]
    rw [this]
    exact posSemidef_conjTranspose_mul_self _
  rw [h3, h4]
  have := (gram_submatrix E hf).add h5
  rwa [sub_add_sub_cancel] at this

/-! ### Weights -/

theorem Bmat_eq {A : Matrix (Fin m) (Fin k) ℂ} {P : Matrix (Fin k) (Fin k) ℂ} (hP : P.PosDef) (σ : ℝ) :
    Bmat A P σ = P⁻¹ + (σ : ℂ) • ((P⁻¹)ᴴ * (Aᴴ * A)⁻¹ * P⁻¹) := by
  unfold Bmat
  rw [Matrix.mul_add, Matrix.mul_one, Matrix.mul_smul, hP.inv.isHermitian.eq, Matrix.mul_assoc]

theorem Bmat_super {m' : ℕ} {A : Matrix (Fin m') (Fin k) ℂ} {f : Fin m → Fin m'} (hf : Function.Injective f)
    (hG : IsUnit ((A.submatrix f id)ᴴ * A.submatrix f id).det) {P : Matrix (Fin k) (Fin k) ℂ} (hP : P.PosDef) {σ : ℝ} (hσ : 0 ≤ σ) :
    (Bmat (A.submatrix f id) P σ - Bmat A P σ).PosSemidef := by
  rw [Bmat_eq hP, Bmat_eq hP, add_sub_add_left_eq_sub, ← smul_sub]
  refine PosSemidef.smul ?_ (Complex.zero_le_real.2 hσ)
  rw [← Matrix.sub_mul, ← Matrix.mul_sub]
  exact (inv_antitone_complex (gram_posDef hG) (gram_posDef (fullRank_super hG)) (gram_submatrix A hf)).conjTranspose_mul_mul_same _

theorem Wmat_eq_inv {A : Matrix (Fin m) (Fin k) ℂ} (hG : IsUnit (Aᴴ * A).det) {P : Matrix (Fin k) (Fin k) ℂ} (hP : P.PosDef)
    {σ : ℝ} (hσ : 0 < σ) : Wmat A P σ = (Bmat A P σ)⁻¹ :=
  (inv_eq_left_inv (Wmat_mul_Bmat hG hP hσ)).symm

theorem Wmat_mono {m' : ℕ} {A : Matrix (Fin m) (Fin k) ℂ} {A' : Matrix (Fin m') (Fin k) ℂ} (hG : IsUnit (Aᴴ * A).det)
    (hG' : IsUnit (A'ᴴ * A').det) {P P' : Matrix (Fin k) (Fin k) ℂ} (hP : P.PosDef) (hP' : P'.PosDef) {σ σ' : ℝ} (hσ : 0 < σ) (hσ' : 0 < σ')
    (h : (Bmat A P σ - Bmat A' P' σ').PosSemidef) : (Wmat A' P' σ' - Wmat A P σ).PosSemidef := by
  rw [Wmat_eq_inv hG hP hσ, Wmat_eq_inv hG' hP' hσ']
  exact inv_antitone_complex (Bmat_posDef hG' hP' hσ'.le) (Bmat_posDef hG hP hσ.le) h

/-- Schur products preserve the order. -/
theorem info_mono {H H' W W' : Matrix (Fin k) (Fin k) ℂ} (hH : (H' - H).PosSemidef) (hW : (W' - W).PosSemidef) (h0 : H.PosSemidef)
    (h0' : W'.PosSemidef) : (reMat (H' ⊙ W'ᵀ) - reMat (H ⊙ Wᵀ)).PosSemidef := by
  rw [reMat_sub]
  have : H' ⊙ W'ᵀ - H ⊙ Wᵀ = (H' - H) ⊙ W'ᵀ + H ⊙ (W' - W)ᵀ := by
    ext i j; simp [hadamard_apply]; ring
  rw [this]
  exact reMat_posSemidef ((hH.hadamard h0'.transpose).add (h0.hadamard hW.transpose))

theorem posDef_of_le {F F' : Matrix (Fin k) (Fin k) ℝ} (hF : F.PosDef) (h : (F' - F).PosSemidef) : F'.PosDef := by
  have := hF.add_posSemidef h
  rwa [add_sub_cancel] at this

/-- The bound of a larger information matrix is smaller. -/
theorem scaled_inv_mono {F F' : Matrix (Fin k) (Fin k) ℝ} (hF : F.PosDef) (h : (F' - F).PosSemidef) {c c' : ℝ} (hc : 0 ≤ c') (hcc : c' ≤ c) :
    (c • F⁻¹ - c' • F'⁻¹).PosSemidef := by
  have h1 := (inv_antitone hF (posDef_of_le hF h) h).smul hc
  have h2 : ((c - c') • F⁻¹).PosSemidef := hF.inv.posSemidef.smul (by linarith)
  have := h2.add h1
  rwa [smul_sub, sub_smul, sub_add_sub_cancel] at this

theorem diag_le {C C' : Matrix (Fin k) (Fin k) ℝ} (h : (C - C').PosSemidef) (i : Fin k) : C' i i ≤ C i i := by
  have := h.diag_nonneg (i := i)
  rw [Matrix.sub_apply] at this
  linarith

/-- Less noise and stronger sources decrease the MUSIC weight. -/
theorem Bmat_power {A : Matrix (Fin m) (Fin k) ℂ} (hG : IsUnit (Aᴴ * A).det) {P : Matrix (Fin k) (Fin k) ℂ} (hP : P.PosDef) {σ σ' c : ℝ}
    (hσ' : 0 ≤ σ') (hσ : σ' ≤ σ) (hc : 1 ≤ c) : (Bmat A P σ - Bmat A ((c : ℂ) • P) σ').PosSemidef := by
  have hc0 : (c : ℂ) ≠ 0 := by
    have : c ≠ 0 := by linarith
    exact_mod_cast this
  have hcp : (0 : ℝ) < c := by linarith
  have hi : ((c : ℂ) • P)⁻¹ = (c : ℂ)⁻¹ • P⁻¹ := by
    refine inv_eq_right_inv ?_
    rw [Matrix.smul_mul, Matrix.mul_smul, smul_smul, mul_inv_cancel₀ hc0, one_smul,
      mul_nonsing_inv _ ((isUnit_iff_isUnit_det _).1 hP.isUnit)]
  rw [Bmat_eq hP, Bmat_eq (hP.smul (Complex.zero_lt_real.2 hcp)), hi]
  set X := (P⁻¹)ᴴ * (Aᴴ * A)⁻¹ * P⁻¹ with hX
  have hXp : X.PosSemidef := (gram_posDef hG).inv.posSemidef.conjTranspose_mul_mul_same _
  have e : ((c : ℂ)⁻¹ • P⁻¹)ᴴ * (Aᴴ * A)⁻¹ * ((c : ℂ)⁻¹ • P⁻¹) = (((c⁻¹ * c⁻¹ : ℝ)) : ℂ) • X := by
    rw [conjTranspose_smul, Matrix.smul_mul, Matrix.smul_mul, Matrix.mul_smul, smul_smul, hX]
    congr 1
    rw [← Complex.ofReal_inv, Complex.star_def, Complex.conj_ofReal]
    push_cast
    rfl
  have e2 : P⁻¹ + (σ : ℂ) • X - ((c : ℂ)⁻¹ • P⁻¹ + (σ' : ℂ) • ((((c⁻¹ * c⁻¹ : ℝ)) : ℂ) • X)) =
      ((1 - c⁻¹ : ℝ) : ℂ) • P⁻¹ + ((σ - σ' * (c⁻¹ * c⁻¹) : ℝ) : ℂ) • X := by
    push_cast
    rw [sub_smul, sub_smul, one_smul, smul_smul]
    abel
  have hci : c⁻¹ ≤ 1 := inv_le_one_of_one_le₀ hc
  have hci0 : 0 ≤ c⁻¹ := by positivity
  rw [e, e2]
  refine (hP.inv.posSemidef.smul (Complex.zero_le_real.2 (by linarith))).add (hXp.smul (Complex.zero_le_real.2 ?_))
  have : c⁻¹ * c⁻¹ ≤ 1 := by nlinarith
  nlinarith

theorem Bmat_better {m' : ℕ} {A : Matrix (Fin m') (Fin k) ℂ} {f : Fin m → Fin m'} (hf : Function.Injective f)
    (hG : IsUnit ((A.submatrix f id)ᴴ * A.submatrix f id).det) {P : Matrix (Fin k) (Fin k) ℂ} (hP : P.PosDef) {σ σ' c : ℝ}
    (hσ' : 0 ≤ σ') (hσ : σ' ≤ σ) (hc : 1 ≤ c) :
    (Bmat (A.submatrix f id) P σ - Bmat A ((c : ℂ) • P) σ').PosSemidef := by
  have := (Bmat_super hf hG hP (hσ'.trans hσ)).add (Bmat_power (fullRank_super hG) hP hσ' hσ hc)
  rwa [sub_add_sub_cancel] at this

theorem factor_le {σ σ' : ℝ} {n n' : ℕ} (hσ' : 0 ≤ σ') (hσ : σ' ≤ σ) (hn : 1 ≤ n) (hnn : n ≤ n') : σ' / n' / 2 ≤ σ / n / 2 := by
  have h1 : (1 : ℝ) ≤ n := by exact_mod_cast hn
  have h2 : (n : ℝ) ≤ n' := by exact_mod_cast hnn
  have : σ' / n' ≤ σ / n := div_le_div₀ (by linarith) hσ (by linarith) h2
  linarith

/-! ### Subarrays -/

/-- `a` consists of some of the sensors of `a'` (`f` says which); both arrays have the same kind of elements and no perturbations. -/
structure SubArray (a a' : ArrayDesign) (f : Fin a.size → Fin a'.size) : Prop where
  element : a'.element = a.element
  ideal : a.perts = [] ∧ a'.perts = []
  ndim : a'.ndim = a.ndim
  injective : Function.Injective f
  locations : ∀ (i : Fin a.size) (j : ℕ), a.locations.at0 i j = a'.locations.at0 (f i) j

/-- Steering and derivative matrix of an array without perturbations. -/
theorem steerPair_plain (s : FF1D k) (wl : ℝ) : ∃ γ δ : Fin k → ℝ, ∀ (a : ArrayDesign) (mode : String), a.perts = [] →
    (∀ q, steerPair a (.ff1 s) wl mode = .ok q → a.element = .isotropicScalar ∧ a.filterPerturbations mode = .ok [] ∧ DerivOk s wl a.ndim) ∧
    (a.element = .isotropicScalar → a.filterPerturbations mode = .ok [] → DerivOk s wl a.ndim → steerPair a (.ff1 s) wl mode = .ok
      (Matrix.of fun i c => Complex.exp (Complex.I * ((2 * Real.pi / wl * (a.locations.at0 i 0 * (s.dir c).1 + a.locations.at0 i 1 * (s.dir c).2.1) : ℝ) : ℂ)),
       Matrix.of fun i c => Complex.exp (Complex.I * ((2 * Real.pi / wl * (a.locations.at0 i 0 * (s.dir c).1 + a.locations.at0 i 1 * (s.dir c).2.1) : ℝ) : ℂ)) *
        (Complex.I * ((a.locations.at0 i 0 * γ c + a.locations.at0 i 1 * δ c : ℝ) : ℂ)))) := by
  obtain ⟨γ, δ, hlin⟩ := phaseDelay_linear s wl
  refine ⟨γ, δ, fun a mode hp => ⟨fun q hq => ?_, fun hel hf hd => ?_⟩⟩
  · obtain ⟨A, D⟩ := q
    obtain ⟨out, DA, h1, -⟩ := steers_iff.2 hq
    have hiso := element_of_deriv h1
    obtain ⟨ps, T, hrows, hps, hT, -⟩ := steering_iso_inv hiso h1
    have hps0 : ps = [] := by
      have := hps
      unfold ArrayDesign.filterPerturbations at this
      rw [hp] at this
      revert this
      split_ifs <;> intro this <;> first | (cases this; done) | (cases this; rfl)
    subst hps0
    have hT1 : s.phaseDelay a.locations wl true = .ok T := hT
    exact ⟨hiso, hps, (phaseDelay_ok s wl _).2 _ hT1⟩
  · have hT : (Sources.ff1 s).phaseDelay ([].foldl (fun l p => Perturbation.perturbSensorLocations p l) a.locations) wl true = .ok _ :=
      hlin a.locations hd
    have hst := steering_iso hel hf rfl hT (by simp)
    refine steers_iff.1 ⟨_, _, hst, by rw [hel]; rfl, rfl, fun l => ?_, fun l => ?_⟩
    · refine (Matrix.one_mul _).trans ?_
      rfl
    · refine (Matrix.one_mul _).trans ?_
      rfl

theorem steerPair_sub {a a' : ArrayDesign} {f : Fin a.size → Fin a'.size} (h : SubArray a a' f) {s : FF1D k} {wl : ℝ} {mode : String}
    {A D : Matrix (Fin a.size) (Fin k) ℂ} (hst : steerPair a (.ff1 s) wl mode = .ok (A, D)) :
    ∃ A' D', steerPair a' (.ff1 s) wl mode = .ok (A', D') ∧ A = A'.submatrix f id ∧ D = D'.submatrix f id := by
  obtain ⟨γ, δ, hpl⟩ := steerPair_plain s wl
  obtain ⟨e1, e2, e3⟩ := (hpl a mode h.ideal.1).1 _ hst
  have hv := (hpl a mode h.ideal.1).2 e1 e2 e3
  rw [hst] at hv
  cases hv
  refine ⟨_, _, (hpl a' mode h.ideal.2).2 (h.element.trans e1) ?_ (h.ndim ▸ e3), ?_, ?_⟩
  · rw [← e2]
    unfold ArrayDesign.filterPerturbations
    rw [h.ideal.1, h.ideal.2]
  · ext i c
    simp only [of_apply, submatrix_apply, id, h.locations]
  · ext i c
    simp only [of_apply, submatrix_apply, id, h.locations]

/-! ### The theorems -/

/-- **C73** (stochastic bound). Add sensors to an array, lower the noise variance, amplify all sources by the same factor `c ≥ 1`
and take more snapshots: if `crb_sto_farfield_1d` returned a bound before, it returns one afterwards, and the new bound does not
exceed the old one in the order of symmetric matrices; in particular no variance grows. -/
theorem C73_sto {a a' : ArrayDesign} {f : Fin a.size → Fin a'.size} (h : SubArray a a' f) (src : Sources k) (wl : ℝ) {p p' : PowerArg}
    {P : Matrix (Fin k) (Fin k) ℂ} (hp : PowerDenotes k p P) (hP : P.PosDef) {c : ℝ} (hc : 1 ≤ c) (hp' : PowerDenotes k p' ((c : ℂ) • P))
    {σ σ' : ℝ} (hσ' : 0 < σ') (hσ : σ' ≤ σ) {n n' : ℕ} (hn : 1 ≤ n) (hnn : n ≤ n') (C : Matrix (Fin k) (Fin k) ℝ)
    (hC : crbSto a src wl p σ n "full" = .ok (.full C)) :
    ∃ C', crbSto a' src wl p' σ' n' "full" = .ok (.full C') ∧ (C - C').PosSemidef ∧ ∀ i, C' i i ≤ C i i := by
  obtain ⟨hsrc, P0, A, D, h1, h2, h3⟩ := crbSto_full_iff.1 hC
  cases powerDenotes_unique hp h1
  cases src with
  | nf s => cases hsrc
  | ff2 s => cases hsrc
  | ff1 s =>
  obtain ⟨A', D', hst', rfl, rfl⟩ := steerPair_sub h h2
  have hf := h.injective
  have hσp : 0 < σ := hσ'.trans_le hσ
  have hcp : (0 : ℝ) < c := by linarith
  have hP' : ((c : ℂ) • P).PosDef := hP.smul (Complex.zero_lt_real.2 hcp)
  obtain ⟨hF, rfl⟩ := stoInfo_posDef hP.posSemidef hσp hn h3
  have := crbStoCore_n h3
  have : NeZero n' := ⟨by omega⟩
  obtain ⟨hG, -⟩ := crbStoCore_iff.1 h3
  have hG' := fullRank_super hG
  have hle := info_mono (Hmat_super (D := D') hf hG) (Wmat_mono hG hG' hP hP' hσp hσ' (Bmat_better hf hG hP hσ'.le hσ hc))
    (Hmat_posSemidef hG) (Wmat_posSemidef hP'.posSemidef hσ')
  have hF' := posDef_of_le hF hle
  have hord := scaled_inv_mono hF hle (c := σ / n / 2) (c' := σ' / n' / 2) (by positivity) (factor_le hσ'.le hσ hn hnn)
  refine ⟨_, crbSto_full_iff.2 ⟨rfl, _, _, _, hp', hst', crbStoCore_iff.2 ⟨hG', (isUnit_iff_isUnit_det _).1 (modelR_posDef hP'.posSemidef hσ').isUnit,
    (isUnit_iff_isUnit_det _).1 hF'.isUnit, rfl⟩⟩, ?_⟩
  rw [symPart_smul, symPart_of_symm hF'.inv.isHermitian]
  exact ⟨hord, fun i => diag_le hord i⟩

/-- **C73** (deterministic bound). The same for `crb_det_farfield_1d`; here the source covariance may grow in the order of Hermitian
matrices. -/
theorem C73_det {a a' : ArrayDesign} {f : Fin a.size → Fin a'.size} (h : SubArray a a' f) (src : Sources k) (wl : ℝ)
    {P P' : Matrix (Fin k) (Fin k) ℂ} (hP : P.PosSemidef) (hPP : (P' - P).PosSemidef)
    {σ σ' : ℝ} (hσ' : 0 ≤ σ') (hσ : σ' ≤ σ) {n n' : ℕ} (hn : 1 ≤ n) (hnn : n ≤ n') (C : Matrix (Fin k) (Fin k) ℝ)
    (hC : crbDet a src wl (.matrix ⟨k, k, P⟩) σ n "full" = .ok (.full C)) :
    ∃ C', crbDet a' src wl (.matrix ⟨k, k, P'⟩) σ' n' "full" = .ok (.full C') ∧ (C - C').PosSemidef ∧ ∀ i, C' i i ≤ C i i := by
  obtain ⟨hsrc, P0, A, D, h1, h2, h3⟩ := crbDet_full_iff.1 hC
  cases h1
  cases src with
  | nf s => cases hsrc
  | ff2 s => cases hsrc
  | ff1 s =>
  obtain ⟨A', D', hst', rfl, rfl⟩ := steerPair_sub h h2
  have hf := h.injective
  have hP' : P'.PosSemidef := by
    have := hP.add hPP
    rwa [add_sub_cancel] at this
  obtain ⟨hF, rfl⟩ := detInfo_posDef hP h3
  have := crbDetCore_n h3
  have : NeZero n' := ⟨by omega⟩
  obtain ⟨hG, -⟩ := crbDetCore_iff.1 h3
  have hG' := fullRank_super hG
  have hle := info_mono (Hmat_super (D := D') hf hG) hPP (Hmat_posSemidef hG) hP'
  have hF' := posDef_of_le hF hle
  have hord := scaled_inv_mono hF hle (c := σ / n / 2) (c' := σ' / n' / 2) (by positivity) (factor_le hσ' hσ hn hnn)
  refine ⟨_, crbDet_full_iff.2 ⟨rfl, _, _, _, rfl, hst', crbDetCore_iff.2 ⟨hG', (isUnit_iff_isUnit_det _).1 hF'.isUnit, rfl⟩⟩, ?_⟩
  rw [symPart_smul, symPart_of_symm hF'.inv.isHermitian]
  exact ⟨hord, fun i => diag_le hord i⟩

/-- The variances of MUSIC. -/
theorem ecov_diag {A D : Matrix (Fin m) (Fin k) ℂ} (hG : IsUnit (Aᴴ * A).det) {P : Matrix (Fin k) (Fin k) ℂ} {σ : ℝ} {n : ℕ} (i : Fin k) :
    ((σ / 2 / n) • (reMat (Hmat A D ⊙ (Bmat A P σ)ᵀ) ⊙ Matrix.of fun i j => ((Hmat A D i i).re)⁻¹ * ((Hmat A D j j).re)⁻¹)) i i =
      σ / n / 2 * ((Bmat A P σ i i).re * ((Hmat A D i i).re)⁻¹) := by
  have him : (Hmat A D i i).im = 0 := (Complex.le_def.1 ((Hmat_posSemidef (D := D) hG).diag_nonneg (i := i))).2.symm
  rw [Matrix.smul_apply, hadamard_apply, reMat_apply, hadamard_apply, of_apply, transpose_apply, smul_eq_mul, Complex.mul_re, him, zero_mul, sub_zero]
  by_cases h0 : (Hmat A D i i).re = 0
  · rw [h0]; simp
  · field_simp

theorem re_diag_le {M N : Matrix (Fin k) (Fin k) ℂ} (h : (N - M).PosSemidef) (i : Fin k) : (M i i).re ≤ (N i i).re := by
  have := (Complex.le_def.1 (h.diag_nonneg (i := i))).1
  rw [Matrix.sub_apply, Complex.sub_re, Complex.zero_re] at this
  linarith

/-- **C73** (MUSIC). Under the same changes `ecov_music_1d` still returns, and no variance on its diagonal grows. -/
theorem C73_music {a a' : ArrayDesign} {f : Fin a.size → Fin a'.size} (h : SubArray a a' f) (src : Sources k) (wl : ℝ) {p p' : PowerArg}
    {P : Matrix (Fin k) (Fin k) ℂ} (hp : PowerDenotes k p P) (hP : P.PosDef) {c : ℝ} (hc : 1 ≤ c) (hp' : PowerDenotes k p' ((c : ℂ) • P))
    {σ σ' : ℝ} (hσ' : 0 ≤ σ') (hσ : σ' ≤ σ) {n n' : ℕ} (hn : 1 ≤ n) (hnn : n ≤ n') (pert : String) (C : Matrix (Fin k) (Fin k) ℝ)
    (hC : ecovMusic a src wl p σ n pert "full" = .ok (.full C)) :
    ∃ C', ecovMusic a' src wl p' σ' n' pert "full" = .ok (.full C') ∧ ∀ i, C' i i ≤ C i i := by
  obtain ⟨hsrc, hk, P0, A, D, h1, h2, h3⟩ := ecovMusic_full_iff.1 hC
  cases powerDenotes_unique hp h1
  cases src with
  | nf s => cases hsrc
  | ff2 s => cases hsrc
  | ff1 s =>
  obtain ⟨A', D', hst', rfl, rfl⟩ := steerPair_sub h h2
  have hf := h.injective
  have hcp : (0 : ℝ) < c := by linarith
  have hP' : ((c : ℂ) • P).PosDef := hP.smul (Complex.zero_lt_real.2 hcp)
  have := ecovMusicCore_n h3
  obtain ⟨hG, hPu, hnz, rfl⟩ := ecovMusicCore_iff.1 h3
  have hG' := fullRank_super hG
  have hk' : k < a'.size := hk.trans_le (by simpa using Fintype.card_le_of_injective f hf)
  have : NeZero n' := ⟨by omega⟩
  have hH0 : ∀ i, 0 < (Hmat (A'.submatrix f id) (D'.submatrix f id) i i).re := fun i =>
    lt_of_le_of_ne (Complex.le_def.1 ((Hmat_posSemidef hG).diag_nonneg (i := i))).1 (hnz i).symm
  have hHle := fun i => re_diag_le (Hmat_super (D := D') hf hG) i
  refine ⟨_, ecovMusic_full_iff.2 ⟨rfl, hk', _, _, _, hp', hst', ecovMusicCore_iff.2 ⟨hG', (isUnit_iff_isUnit_det _).1 hP'.isUnit,
    fun i => ((hH0 i).trans_le (hHle i)).ne', rfl⟩⟩, fun i => ?_⟩
  change ((σ' / 2 / n') • (reMat (Hmat A' D' ⊙ (Bmat A' ((c : ℂ) • P) σ')ᵀ) ⊙ Matrix.of fun i j => ((Hmat A' D' i i).re)⁻¹ * ((Hmat A' D' j j).re)⁻¹)) i i ≤
    ((σ / 2 / n) • (reMat (Hmat _ _ ⊙ (Bmat _ P σ)ᵀ) ⊙ Matrix.of fun i j => ((Hmat _ _ i i).re)⁻¹ * ((Hmat _ _ j j).re)⁻¹)) i i
  rw [ecov_diag hG, ecov_diag hG']
  have hH := re_diag_le (Hmat_super (D := D') hf hG) i
  have hB := re_diag_le (Bmat_better hf hG hP hσ' hσ hc) i
  have hBp : 0 ≤ (Bmat A' ((c : ℂ) • P) σ' i i).re := (Complex.le_def.1 ((Bmat_posDef hG' hP' hσ').posSemidef.diag_nonneg (i := i))).1
  have hHp : 0 ≤ (Hmat (A'.submatrix f id) (D'.submatrix f id) i i).re := (Complex.le_def.1 ((Hmat_posSemidef hG).diag_nonneg (i := i))).1
  have hinv := inv_anti₀ (hH0 i) hH
  refine mul_le_mul (factor_le hσ' hσ hn hnn) (mul_le_mul hB hinv (inv_nonneg.2 (hHp.trans hH)) (hBp.trans hB)) ?_ ?_
  · exact mul_nonneg hBp (inv_nonneg.2 (hHp.trans hH))
  · have : 0 ≤ σ := hσ'.trans hσ
    positivity

/-! ### Signal to noise ratio -/

section
variable {c : ℝ} (hc : 0 < c)
include hc

theorem cne : (c : ℂ) ≠ 0 := by
  have := hc.ne'
  exact_mod_cast this

theorem smul_unit {ι : Type} [Fintype ι] [DecidableEq ι] (M : Matrix ι ι ℂ) : IsUnit ((c : ℂ) • M).det ↔ IsUnit M.det := by
  rw [det_smul, IsUnit.mul_iff]
  exact and_iff_right ((cne hc).isUnit.pow _)

theorem smul_unit_real {ι : Type} [Fintype ι] [DecidableEq ι] (M : Matrix ι ι ℝ) : IsUnit (c • M).det ↔ IsUnit M.det := by
  rw [det_smul, IsUnit.mul_iff]
  exact and_iff_right (hc.ne'.isUnit.pow _)

theorem smul_inv_complex {ι : Type} [Fintype ι] [DecidableEq ι] (M : Matrix ι ι ℂ) : ((c : ℂ) • M)⁻¹ = (c : ℂ)⁻¹ • M⁻¹ := by
  by_cases h : IsUnit M.det
  · refine inv_eq_right_inv ?_
    rw [Matrix.smul_mul, Matrix.mul_smul, smul_smul, mul_inv_cancel₀ (cne hc), one_smul, mul_nonsing_inv _ h]
  · rw [nonsing_inv_apply_not_isUnit _ (fun h' => h ((smul_unit hc M).1 h')), nonsing_inv_apply_not_isUnit _ h, smul_zero]

theorem smul_inv_real {ι : Type} [Fintype ι] [DecidableEq ι] (M : Matrix ι ι ℝ) : (c • M)⁻¹ = c⁻¹ • M⁻¹ := by
  by_cases h : IsUnit M.det
  · refine inv_eq_right_inv ?_
    rw [Matrix.smul_mul, Matrix.mul_smul, smul_smul, mul_inv_cancel₀ hc.ne', one_smul, mul_nonsing_inv _ h]
  · rw [nonsing_inv_apply_not_isUnit _ (fun h' => h ((smul_unit_real hc M).1 h')), nonsing_inv_apply_not_isUnit _ h, smul_zero]

omit hc in
theorem reMat_hadamard_smul (H W : Matrix (Fin k) (Fin k) ℂ) (c : ℝ) : reMat (H ⊙ ((c : ℂ) • W)ᵀ) = c • reMat (H ⊙ Wᵀ) := by
  ext i j
  simp only [reMat_apply, hadamard_apply, transpose_apply, Matrix.smul_apply, smul_eq_mul]
  rw [mul_left_comm, Complex.re_ofReal_mul]

omit hc in
theorem modelR_smul (A : Matrix (Fin m) (Fin k) ℂ) (P : Matrix (Fin k) (Fin k) ℂ) (c σ : ℝ) :
    A * ((c : ℂ) • P) * Aᴴ + ((c * σ : ℝ) : ℂ) • (1 : Matrix (Fin m) (Fin m) ℂ) = (c : ℂ) • (A * P * Aᴴ + (σ : ℂ) • (1 : Matrix (Fin m) (Fin m) ℂ)) := by
  rw [Matrix.mul_smul, Matrix.smul_mul, smul_add, smul_smul, Complex.ofReal_mul]

theorem Wmat_snr (A : Matrix (Fin m) (Fin k) ℂ) (P : Matrix (Fin k) (Fin k) ℂ) (σ : ℝ) :
    Wmat A ((c : ℂ) • P) (c * σ) = (c : ℂ) • Wmat A P σ := by
  unfold Wmat
  rw [modelR_smul, smul_inv_complex hc]
  simp only [Matrix.smul_mul, Matrix.mul_smul, smul_smul]
  congr 1
  have := cne hc
  field_simp

theorem crbStoCore_snr (A D : Matrix (Fin m) (Fin k) ℂ) (P : Matrix (Fin k) (Fin k) ℂ) (σ : ℝ) (n : ℕ) (C : Matrix (Fin k) (Fin k) ℝ) :
    crbStoCore A D ((c : ℂ) • P) (c * σ) n = .ok C ↔ crbStoCore A D P σ n = .ok C := by
  rcases Nat.eq_zero_or_pos n with rfl | hn
  · exact ⟨fun h => absurd rfl (crbStoCore_n h).out, fun h => absurd rfl (crbStoCore_n h).out⟩
  have : NeZero n := ⟨hn.ne'⟩
  rw [crbStoCore_iff, crbStoCore_iff, Wmat_snr hc, modelR_smul, smul_unit hc, reMat_hadamard_smul, smul_unit_real hc, smul_inv_real hc, smul_smul,
    show c * σ / n / 2 * c⁻¹ = σ / n / 2 by field_simp]

theorem crbDetCore_snr (A D : Matrix (Fin m) (Fin k) ℂ) (P : Matrix (Fin k) (Fin k) ℂ) (σ : ℝ) (n : ℕ) (C : Matrix (Fin k) (Fin k) ℝ) :
    crbDetCore A D ((c : ℂ) • P) (c * σ) n = .ok C ↔ crbDetCore A D P σ n = .ok C := by
  rcases Nat.eq_zero_or_pos n with rfl | hn
  · exact ⟨fun h => absurd rfl (crbDetCore_n h).out, fun h => absurd rfl (crbDetCore_n h).out⟩
  have : NeZero n := ⟨hn.ne'⟩
  rw [crbDetCore_iff, crbDetCore_iff, reMat_hadamard_smul, smul_unit_real hc, smul_inv_real hc, smul_smul,
    show c * σ / n / 2 * c⁻¹ = σ / n / 2 by field_simp]

theorem Bmat_snr (A : Matrix (Fin m) (Fin k) ℂ) (P : Matrix (Fin k) (Fin k) ℂ) (σ : ℝ) :
    ((c : ℂ) • P)⁻¹ * (1 + ((c * σ : ℝ) : ℂ) • ((Aᴴ * A)⁻¹ * ((c : ℂ) • P)⁻¹)) = ((c⁻¹ : ℝ) : ℂ) • (P⁻¹ * (1 + (σ : ℂ) • ((Aᴴ * A)⁻¹ * P⁻¹))) := by
  rw [smul_inv_complex hc]
  simp only [Matrix.smul_mul, Matrix.mul_smul, smul_smul]
  have := cne hc
  rw [show ((c * σ : ℝ) : ℂ) * (c : ℂ)⁻¹ = (σ : ℂ) by push_cast; field_simp, Complex.ofReal_inv]

theorem ecovMusicCore_snr (A D : Matrix (Fin m) (Fin k) ℂ) (P : Matrix (Fin k) (Fin k) ℂ) (σ : ℝ) (n : ℕ) (C : Matrix (Fin k) (Fin k) ℝ) :
    ecovMusicCore A D ((c : ℂ) • P) (c * σ) n = .ok C ↔ ecovMusicCore A D P σ n = .ok C := by
  rcases Nat.eq_zero_or_pos n with rfl | hn
  · exact ⟨fun h => absurd rfl (ecovMusicCore_n h).out, fun h => absurd rfl (ecovMusicCore_n h).out⟩
  have : NeZero n := ⟨hn.ne'⟩
  rw [ecovMusicCore_iff, ecovMusicCore_iff, smul_unit hc, Bmat_snr hc, reMat_hadamard_smul]
  have e : ∀ X Y : Matrix (Fin k) (Fin k) ℝ, (c * σ / 2 / n) • ((c⁻¹ • X) ⊙ Y) = (σ / 2 / n) • (X ⊙ Y) := by
    intro X Y
    rw [smul_hadamard, smul_smul, show c * σ / 2 / n * c⁻¹ = σ / 2 / n by field_simp]
  rw [e]

theorem scaleCols_snr (A : Matrix (Fin m) (Fin k) ℂ) (p : Fin k → ℂ) (σ : ℝ) :
    scaleCols A (fun i => (c : ℂ) * p i) * Aᴴ + ((c * σ : ℝ) : ℂ) • (1 : Matrix (Fin m) (Fin m) ℂ) =
      (c : ℂ) • (scaleCols A p * Aᴴ + (σ : ℂ) • (1 : Matrix (Fin m) (Fin m) ℂ)) := by
  have : scaleCols A (fun i => (c : ℂ) * p i) = (c : ℂ) • scaleCols A p := by
    ext i j
    simp only [scaleCols, of_apply, Matrix.smul_apply, smul_eq_mul]
    ring
  rw [this, Matrix.smul_mul, smul_add, smul_smul, Complex.ofReal_mul]

theorem stoucRi_snr (A : Matrix (Fin m) (Fin k) ℂ) (p : Fin k → ℂ) (σ : ℝ) :
    stoucRi A (fun i => (c : ℂ) * p i) (c * σ) = ((c⁻¹ : ℝ) : ℂ) • stoucRi A p σ := by
  unfold stoucRi
  rw [scaleCols_snr hc, smul_inv_complex hc, conjTranspose_smul, star_inv₀, Complex.star_def, Complex.conj_ofReal, ← smul_add, smul_comm,
    Complex.ofReal_inv]

theorem stoucFim_snr (A D : Matrix (Fin m) (Fin k) ℂ) (p : Fin k → ℂ) (W : Matrix (Fin m) (Fin m) ℂ) :
    stoucFim A D (fun i => (c : ℂ) * p i) (((c⁻¹ : ℝ) : ℂ) • W) =
      diagonal (Sum.elim (fun _ => (1 : ℝ)) fun _ => c⁻¹) * stoucFim A D p W * diagonal (Sum.elim (fun _ => (1 : ℝ)) fun _ => c⁻¹) := by
  have hc1 : (c : ℂ) * ((c⁻¹ : ℝ) : ℂ) = 1 := by
    rw [← Complex.ofReal_mul, mul_inv_cancel₀ hc.ne', Complex.ofReal_one]
  set d : ℂ := ((c⁻¹ : ℝ) : ℂ) with hd
  have hds : star d = d := Complex.conj_ofReal _
  have hds' : (starRingEnd ℂ) d = d := Complex.conj_ofReal _
  ext i j
  rw [mul_diagonal, diagonal_mul]
  unfold stoucFim
  have e1 : ∀ X Y : Matrix (Fin m) (Fin k) ℂ, Xᴴ * (d • W) * Y = d • (Xᴴ * W * Y) := fun X Y => by
    rw [Matrix.mul_smul, Matrix.smul_mul]
  have e2 : (d • W) * (d • W) = ((c⁻¹ * c⁻¹ : ℝ) : ℂ) • (W * W) := by
    rw [Matrix.smul_mul, Matrix.mul_smul, smul_smul, hd, Complex.ofReal_mul]
  simp only [e1, e2]
  generalize Dᴴ * W * D = X
  generalize Dᴴ * W * A = Y
  generalize Aᴴ * W * D = Z
  generalize Aᴴ * W * A = V
  generalize W * W = U
  have hre : ∀ (r : ℝ) (z : ℂ), ((r : ℂ) * z).re = r * z.re := fun r z => Complex.re_ofReal_mul r z
  have hsum : ∀ (B : Matrix (Fin m) (Fin k) ℂ) i, ∑ x, star (B x i) * (((c⁻¹ * c⁻¹ : ℝ) : ℂ) • U * A) x i =
      ((c⁻¹ * c⁻¹ : ℝ) : ℂ) * ∑ x, star (B x i) * (U * A) x i := by
    intro B i
    rw [Finset.mul_sum]
    refine Finset.sum_congr rfl fun x _ => ?_
    rw [Matrix.smul_mul, Matrix.smul_apply, smul_eq_mul]
    ring
  have htp : ∀ i j, (d * (starRingEnd ℂ) (Y i j) * (c * p i * (d * V i j))).re = c⁻¹ * ((starRingEnd ℂ) (Y i j) * (p i * V i j)).re := by
    intro i j
    rw [← hre, ← hd]
    congr 1
    linear_combination (starRingEnd ℂ (Y i j)) * p i * V i j * d * hc1
  have hts : ∀ i, ((c : ℂ) * p i * (((c⁻¹ * c⁻¹ : ℝ) : ℂ) * ∑ x, star (D x i) * (U * A) x i)).re =
      c⁻¹ * (p i * ∑ x, star (D x i) * (U * A) x i).re := by
    intro i
    rw [← hre, ← hd, Complex.ofReal_mul, ← hd]
    congr 1
    linear_combination p i * (∑ x, star (D x i) * (U * A) x i) * d * hc1
  rcases i with i | i | i <;> rcases j with j | j | j
  · have := congrArg Complex.re (show (d * X j i * (d * V i j) + d * (starRingEnd ℂ) (Y i j) * (d * Z i j)) * (c * p i * (c * p j)) =
      (X j i * V i j + (starRingEnd ℂ) (Y i j) * Z i j) * (p i * p j) by
        linear_combination (X j i * V i j + (starRingEnd ℂ) (Y i j) * Z i j) * (p i * p j) * (c * d + 1) * hc1)
    simp only [fromBlocks_apply₁₁, Sum.elim_inl, Matrix.smul_apply, smul_eq_mul, reMat, of_apply, hadamard_apply, Matrix.add_apply,
      transpose_apply, map_apply, Complex.star_def, map_mul, hds']
    rw [this]
    ring
  · simp only [fromBlocks_apply₁₂, Sum.elim_inl, Sum.elim_inr, Matrix.smul_apply, smul_eq_mul, reMat, of_apply, hadamard_apply,
      map_apply, Complex.star_def, map_mul, hds', htp]
    ring
  · simp only [fromBlocks_apply₁₂, Sum.elim_inl, Sum.elim_inr, of_apply, hsum, hts]
    ring
  · simp only [fromBlocks_apply₂₁, Sum.elim_inl, Sum.elim_inr, Matrix.smul_apply, smul_eq_mul, reMat, of_apply, hadamard_apply,
      map_apply, Complex.star_def, map_mul, hds', htp]
    ring
  · have := congrArg Complex.re (show d * (starRingEnd ℂ) (V j i) * (d * V i j) = ((c⁻¹ * c⁻¹ : ℝ) : ℂ) * ((starRingEnd ℂ) (V j i) * V i j) by
        rw [Complex.ofReal_mul, ← hd]; ring)
    rw [hre] at this
    simp only [fromBlocks_apply₂₂, fromBlocks_apply₁₁, Sum.elim_inr, Matrix.smul_apply, smul_eq_mul, reMat, of_apply, hadamard_apply,
      conjTranspose_apply, Complex.star_def, map_mul, hds']
    rw [this]
    ring
  · simp only [fromBlocks_apply₂₂, fromBlocks_apply₁₂, Sum.elim_inr, of_apply, hsum, hre]
    ring
  · simp only [fromBlocks_apply₂₁, Sum.elim_inl, Sum.elim_inr, of_apply, hsum, hts]
    ring
  · simp only [fromBlocks_apply₂₂, fromBlocks_apply₂₁, Sum.elim_inr, of_apply, transpose_apply, hsum, hre]
    ring
  · simp only [fromBlocks_apply₂₂, Sum.elim_inr, of_apply, trace_smul, smul_eq_mul, hre]
    ring

theorem crbStoucCore_snr (A D : Matrix (Fin m) (Fin k) ℂ) (p : Fin k → ℂ) (σ : ℝ) (n : ℕ) (C : Matrix (Fin k) (Fin k) ℝ) :
    crbStoucCore A D (fun i => (c : ℂ) * p i) (c * σ) n = .ok C ↔ crbStoucCore A D p σ n = .ok C := by
  have ht' : ∀ i, (Sum.elim (fun _ : Fin k => (1 : ℝ)) fun _ : Fin k ⊕ Unit => c⁻¹) i ≠ 0 := by
    rintro (i | i)
    · exact one_ne_zero
    · exact inv_ne_zero hc.ne'
  rcases Nat.eq_zero_or_pos n with rfl | hn
  · exact ⟨fun h => absurd rfl (crbStoucCore_n h).out, fun h => absurd rfl (crbStoucCore_n h).out⟩
  have : NeZero n := ⟨hn.ne'⟩
  rw [crbStoucCore_iff, crbStoucCore_iff, scaleCols_snr hc, smul_unit hc, stoucRi_snr hc, stoucFim_snr hc, (scale_unit ht' _).1, (scale_unit ht' _).2]
  have e : ∀ X : Matrix (Fin k ⊕ (Fin k ⊕ Unit)) (Fin k ⊕ (Fin k ⊕ Unit)) ℝ,
      (diagonal (fun i => ((Sum.elim (fun _ : Fin k => (1 : ℝ)) fun _ : Fin k ⊕ Unit => c⁻¹) i)⁻¹) * X *
        diagonal (fun i => ((Sum.elim (fun _ : Fin k => (1 : ℝ)) fun _ : Fin k ⊕ Unit => c⁻¹) i)⁻¹)).toBlocks₁₁ = X.toBlocks₁₁ := by
    intro X
    ext i j
    simp [toBlocks₁₁, mul_diagonal, diagonal_mul]
  rw [e]

end

/-- **C73** (signal to noise ratio). Multiplying the source covariance and the noise variance by the same positive number changes
none of the bounds, and none appears or disappears. -/
theorem C73_snr (a : ArrayDesign) (src : Sources k) (wl : ℝ) {p p' : PowerArg} {P : Matrix (Fin k) (Fin k) ℂ} (hp : PowerDenotes k p P)
    {c : ℝ} (hc : 0 < c) (hp' : PowerDenotes k p' ((c : ℂ) • P)) (σ : ℝ) (n : ℕ) (pert : String) (C : Matrix (Fin k) (Fin k) ℝ) :
    (crbSto a src wl p' (c * σ) n "full" = .ok (.full C) ↔ crbSto a src wl p σ n "full" = .ok (.full C)) ∧
    (crbDet a src wl (.matrix ⟨k, k, (c : ℂ) • P⟩) (c * σ) n "full" = .ok (.full C) ↔
      crbDet a src wl (.matrix ⟨k, k, P⟩) σ n "full" = .ok (.full C)) ∧
    (crbStouc a src wl p' (c * σ) n "full" = .ok (.full C) ↔ crbStouc a src wl p σ n "full" = .ok (.full C)) ∧
    (ecovMusic a src wl p' (c * σ) n pert "full" = .ok (.full C) ↔ ecovMusic a src wl p σ n pert "full" = .ok (.full C)) := by
  refine ⟨?_, ?_, ?_, ?_⟩
  · rw [crbSto_full_iff, crbSto_full_iff]
    constructor
    · rintro ⟨h, P', A, D, h1, h2, h3⟩
      cases powerDenotes_unique hp' h1
      exact ⟨h, P, A, D, hp, h2, (crbStoCore_snr hc A D P σ n C).1 h3⟩
    · rintro ⟨h, P', A, D, h1, h2, h3⟩
      cases powerDenotes_unique hp h1
      exact ⟨h, _, A, D, hp', h2, (crbStoCore_snr hc A D P σ n C).2 h3⟩
  · rw [crbDet_full_iff, crbDet_full_iff]
    constructor
    · rintro ⟨h, P', A, D, h1, h2, h3⟩
      cases h1
      exact ⟨h, P, A, D, rfl, h2, (crbDetCore_snr hc A D P σ n C).1 h3⟩
    · rintro ⟨h, P', A, D, h1, h2, h3⟩
      cases h1
      exact ⟨h, _, A, D, rfl, h2, (crbDetCore_snr hc A D P σ n C).2 h3⟩
  · rw [crbStouc_full_iff, crbStouc_full_iff]
    constructor
    · rintro ⟨h, P', A, D, h1, h2, h3⟩
      cases powerDenotes_unique hp' h1
      exact ⟨h, P, A, D, hp, h2, (crbStoucCore_snr hc A D _ σ n C).1 h3⟩
    · rintro ⟨h, P', A, D, h1, h2, h3⟩
      cases powerDenotes_unique hp h1
      exact ⟨h, _, A, D, hp', h2, (crbStoucCore_snr hc A D _ σ n C).2 h3⟩
  · rw [ecovMusic_full_iff, ecovMusic_full_iff]
    constructor
    · rintro ⟨h, hk, P', A, D, h1, h2, h3⟩
      cases powerDenotes_unique hp' h1
      exact ⟨h, hk, P, A, D, hp, h2, (ecovMusicCore_snr hc A D P σ n C).1 h3⟩
    · rintro ⟨h, hk, P', A, D, h1, h2, h3⟩
      cases powerDenotes_unique hp h1
      exact ⟨h, hk, _, A, D, hp', h2, (ecovMusicCore_snr hc A D P σ n C).2 h3⟩

theorem snapshotCov_snr (R : Matrix (Fin m) (Fin m) ℂ) {c : ℝ} (hc : 0 < c) (f g f' g' : Matrix (Fin m) (Fin m) ℂ → ℂ)
    (hf : ∀ M, f' M = (c : ℂ)⁻¹ * f M) (hg : ∀ M, g' M = (c : ℂ)⁻¹ * g M) : snapshotCov ((c : ℂ) • R) f' g' = snapshotCov R f g := by
  have hcc := cne hc
  unfold snapshotCov
  refine Finset.sum_congr rfl fun _ _ => Finset.sum_congr rfl fun _ _ => Finset.sum_congr rfl fun _ _ => Finset.sum_congr rfl fun _ _ => ?_
  simp only [hf, hg, Matrix.smul_apply, smul_eq_mul, star_mul', star_inv₀, Complex.star_def, Complex.conj_ofReal]
  field_simp

theorem modelCov_snr (A : Matrix (Fin m) (Fin k) ℂ) (q : Fin k → ℝ) (c σ : ℝ) :
    modelCov A (fun i => c * q i) (c * σ) = (c : ℂ) • modelCov A q σ := by
  ext x y
  rw [Matrix.smul_apply, modelCov_apply, modelCov_apply, smul_eq_mul, mul_add, Finset.mul_sum]
  congr 1
  · refine Finset.sum_congr rfl fun e _ => ?_
    push_cast; ring
  · split_ifs <;> simp

theorem musicError_snr {v : ℕ} (A D : Matrix (Fin v) (Fin k) ℂ) (q : Fin k → ℝ) (c : ℝ) (i : Fin k) (M : Matrix (Fin v) (Fin v) ℂ) :
    musicError A D (fun i => c * q i) i M = (c : ℂ)⁻¹ * musicError A D q i M := by
  unfold musicError
  push_cast
  rw [mul_assoc, mul_comm, ← div_div, mul_comm, div_eq_mul_inv _ (c : ℂ), mul_comm _ ((c : ℂ)⁻¹)]

/-- **C73** (signal to noise ratio, coarray). The same for `ecov_coarray_music_1d`. -/
theorem C73_coarray_snr (eigh : Eigh) {a : GridArray} {l : List ℤ} (h : Is1DGrid a l) (hne : l ≠ [])
    (hel : a.element = .isotropicScalar) (hpert : a.perts = []) {v : ℕ} (hv : IsCentralSize l v) {s : FF1D k} {wl : ℝ}
    (hsc : UlaScene (wl / 2) wl v s) {p p' : PowerArg} {P P' : Matrix (Fin k) (Fin k) ℂ} (hp : PowerDenotes k p P) (hp' : PowerDenotes k p' P')
    {q : Fin k → ℝ} (hq : ∀ i, 0 < q i) (hPq : ∀ i, P i i = (q i : ℂ)) {c : ℝ} (hc : 0 < c) (hPq' : ∀ i, P' i i = ((c * q i : ℝ) : ℂ)) (σ : ℝ) {n : ℕ} (hn : 1 ≤ n) :
    ∃ C, ecovCoarray eigh a (.ff1 s) wl p σ n "full" = .ok (.full C) ∧ ecovCoarray eigh a (.ff1 s) wl p' (c * σ) n "full" = .ok (.full C) := by
  obtain ⟨w, hw⟩ : ∃ w, WeightFunction.init a = .ok w := ⟨_, weightFunction_init h⟩
  obtain ⟨T, S, Av, DAv, C, h1, -, -, h2, rfl, rfl, h3, h4⟩ := ecovCoarrayWith_formula eigh h hne hel hpert hv hsc hp hq hPq σ hn hw
  obtain ⟨T', S', Av', DAv', C', g1, -, -, g2, rfl, rfl, g3, g4⟩ := ecovCoarrayWith_formula eigh h hne hel hpert hv hsc hp'
    (q := fun i => c * q i) (fun i => mul_pos hc (hq i)) hPq' (c * σ) hn hw
  obtain rfl : S = S' := Except.ok.inj (h2.symm.trans g2)
  have hT : ∀ M, T' M = T M := fun M => by
    have := Except.ok.inj ((h1 M).symm.trans (g1 M))
    have := (SqMat.mk.injEq _ _ _ _ ▸ this).2
    exact (eq_of_heq this).symm
  suffices key : C' = C by
    subst key
    exact ⟨C', h3, g3⟩
  ext i j
  have hout : 0 < a.element.outputSize := by rw [hel]; exact Nat.one_pos
  have e4 := h4 i j ⟨0, hout⟩
  have e4' := g4 i j ⟨0, hout⟩
  generalize (ulaMat v fun c => phaseFactor (wl / 2) wl s.unit (s.loc c)) = Av at e4 e4'
  generalize (ulaDeriv v _ _) = DAv at e4 e4'
  rw [e4, e4', modelCov_snr]
  exact congrArg (fun z : ℂ => (n : ℝ)⁻¹ * z.re) (snapshotCov_snr _ hc _ _ _ _ (fun M => by rw [musicError_snr, hT]) (fun M => by rw [musicError_snr, hT]))

/-- A ULA is a subarray of every longer ULA with the same spacing. -/
theorem subArray_ula {n n' : ℕ} (hn : n ≤ n') (d : ℝ) {a a' : GridArray} (ha : ula n (.scalar d) none {} = .ok a) (ha' : ula n' (.scalar d) none {} = .ok a') :
    ∃ f, SubArray a.toArrayDesign a'.toArrayDesign f := by
  obtain ⟨hsz, hnd, hat⟩ := C01_ula_geometry n d none {} a ha
  obtain ⟨hsz', hnd', hat'⟩ := C01_ula_geometry n' d none {} a' ha'
  obtain ⟨_, _, g3, g4, _⟩ := gridInit_spec ha
  obtain ⟨_, _, g3', g4', _⟩ := gridInit_spec ha'
  have hp : a.perts = [] := (Except.ok.inj g4).symm
  have hp' : a'.perts = [] := (Except.ok.inj g4').symm
  refine ⟨fun i => ⟨i.1, by have := i.2; omega⟩, g3'.trans g3.symm, ⟨hp, hp'⟩, hnd'.trans hnd.symm, fun i j h => Fin.ext (Fin.mk.inj h), fun i j => ?_⟩
  have hi : i.1 < n := hsz ▸ i.2
  by_cases hj : j = 0
  · subst hj
    unfold Mat.at0
    rw [hat i hi, hat' i (by omega)]
  · rw [Mat.at0_of_ge _ (by have : a.locations.ncols = 1 := hnd; omega), Mat.at0_of_ge _ (by have : a'.locations.ncols = 1 := hnd'; omega)]

/-- Non-vacuity: two sources on half-wavelength ULAs with three and four sensors; source power 1 and 2, noise variance 1 and 1/2, 10 and
20 snapshots. All hypotheses hold and the old bounds exist and are positive definite. -/
example : ∃ (a a' : GridArray) (f : _) (C C' : Matrix (Fin 2) (Fin 2) ℝ), SubArray a.toArrayDesign a'.toArrayDesign f ∧
    crbSto a.toArrayDesign (.ff1 (⟨![0, 1 / 2], "sin"⟩ : FF1D 2)) 1 (.scalar 1) 1 10 "full" = .ok (.full C) ∧ C.PosDef ∧
    crbSto a'.toArrayDesign (.ff1 (⟨![0, 1 / 2], "sin"⟩ : FF1D 2)) 1 (.scalar 2) (1 / 2) 20 "full" = .ok (.full C') ∧ (C - C').PosSemidef := by
  obtain ⟨a, ha⟩ := ula_ok 3 (1 / 2) none
  obtain ⟨a', ha'⟩ := ula_ok 4 (1 / 2) none
  obtain ⟨f, hf⟩ := subArray_ula (by norm_num) _ ha ha'
  have hP : (Matrix.diagonal fun _ : Fin 2 => ((1 : ℝ) : ℂ)).PosDef := by
    rw [Complex.ofReal_one]; exact (diagonal_one (n := Fin 2) (α := ℂ)) ▸ PosDef.one
  obtain ⟨⟨C, h1, h2⟩, _⟩ := C58_ula exampleScene ha (p := .scalar 1) rfl hP one_pos (N := 10) (by norm_num)
  obtain ⟨C', g1, g2, -⟩ := C73_sto hf (.ff1 (⟨![0, 1 / 2], "sin"⟩ : FF1D 2)) 1 (p := .scalar 1) (p' := .scalar 2) rfl hP (c := 2) (by norm_num)
    (by
      show _ = _
      rw [← Matrix.diagonal_smul]
      congr 1
      funext i
      simp) (σ := 1) (σ' := 1 / 2) (by norm_num) (by norm_num) (n := 10) (n' := 20) (by norm_num) (by norm_num) C h1
  exact ⟨a, a', f, C, C', hf, h1, h2, g1, g2⟩

/-- **C73** (no snapshots). Without snapshots none of the five functions returns a number, in any return mode. -/
theorem C73_no_snapshots (a : ArrayDesign) (g : GridArray) (eigh : Eigh) (src : Sources k) (wl : ℝ) (p : PowerArg) (σ : ℝ) (pert mode : String)
    (x : CovOut k) :
    crbSto a src wl p σ 0 mode ≠ .ok x ∧ crbDet a src wl p σ 0 mode ≠ .ok x ∧ crbStouc a src wl p σ 0 mode ≠ .ok x ∧
    ecovMusic a src wl p σ 0 pert mode ≠ .ok x ∧ ecovCoarray eigh g src wl p σ 0 mode ≠ .ok x := by
  have key : ∀ {f : String → Res (CovOut k)} {r : Res (Matrix (Fin k) (Fin k) ℝ)},
      (∀ mode, f mode = match r with | .error e => .error e | .ok C => reduceOutput C mode) → (∀ C, f "full" ≠ .ok (.full C)) → f mode ≠ .ok x := by
    intro f r hf hn hx
    cases r with
    | error e => rw [hf] at hx; cases hx
    | ok C => exact hn C (by rw [hf]; exact (full_iff (r := .ok C)).2 rfl)
  refine ⟨key (crbSto_eq a src wl p σ 0) fun C h => ?_, key (crbDet_eq a src wl p σ 0) fun C h => ?_, key (crbStouc_eq a src wl p σ 0) fun C h => ?_,
    key (ecovMusic_eq a src wl p σ 0 pert) fun C h => ?_, fun h => ?_⟩
  · obtain ⟨_, _, _, _, _, _, h3⟩ := crbSto_full_iff.1 h
    exact (crbStoCore_n h3).out rfl
  · obtain ⟨_, _, _, _, _, _, h3⟩ := crbDet_full_iff.1 h
    exact (crbDetCore_n h3).out rfl
  · obtain ⟨_, _, _, _, _, _, h3⟩ := crbStouc_full_iff.1 h
    exact (crbStoucCore_n h3).out rfl
  · obtain ⟨_, _, _, _, _, _, _, h3⟩ := ecovMusic_full_iff.1 h
    exact (ecovMusicCore_n h3).out rfl
  · unfold ecovCoarray at h
    rcases ecovCoarrayWith_walk eigh (wl / 2) g src wl p with ⟨e, he⟩ | ⟨mv, A, q, Av, DAv, F, -, h'⟩
    · rw [he] at h; cases h
    · rw [(h' σ 0 mode).1 (.inl rfl)] at h; cases h

end Doa.Props
