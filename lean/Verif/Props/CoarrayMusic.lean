import Mathlib.Analysis.Calculus.Deriv.Mul
import Mathlib.Analysis.Calculus.LocalExtr.Basic
import Mathlib.Analysis.SpecialFunctions.Trigonometric.Deriv
import Mathlib.Analysis.SpecialFunctions.ExpDeriv
import Verif.Props.EcovCoarray

/-!
# Error covariance of coarray MUSIC: meaning of the formula (C60)
-/

namespace Doa.Props

open Doa Doa.Spec Matrix Filter Topology
open scoped ComplexOrder

variable {m k v : ℕ}

theorem complProj_mul {A : Matrix (Fin v) (Fin k) ℂ} (hA : Function.Injective A.mulVec) : complProj A * A = 0 := by
  unfold complProj
  rw [Matrix.sub_mul, Matrix.one_mul, Matrix.mul_assoc, leftInv_mul hA, Matrix.mul_one, sub_self]

theorem complProj_herm {A : Matrix (Fin v) (Fin k) ℂ} (hA : Function.Injective A.mulVec) : (complProj A)ᴴ = complProj A := by
  have := (complProj_isProj hA).herm
  rw [conjTranspose_sub, conjTranspose_one] at this
  exact sub_right_injective this

theorem complProj_idem {A : Matrix (Fin v) (Fin k) ℂ} (hA : Function.Injective A.mulVec) : complProj A * complProj A = complProj A := by
  refine (show complProj A * complProj A = (1 - A * leftInv A) * complProj A from rfl).trans ?_
  rw [Matrix.sub_mul, Matrix.one_mul]
  have : A * leftInv A * complProj A = 0 := by
    have h : Aᴴ * complProj A = 0 := by
      have := congrArg conjTranspose (complProj_mul hA)
      rwa [conjTranspose_mul, complProj_herm hA, conjTranspose_zero] at this
    unfold leftInv
    rw [Matrix.mul_assoc, Matrix.mul_assoc, h, Matrix.mul_zero, Matrix.mul_zero]
  rw [this, sub_zero]

theorem conj_mul_complProj {A : Matrix (Fin v) (Fin k) ℂ} (hA : Function.Injective A.mulVec) : Aᴴ * complProj A = 0 := by
  have := congrArg conjTranspose (complProj_mul hA)
  rwa [conjTranspose_mul, complProj_herm hA, conjTranspose_zero] at this

theorem leftInv_mul_complProj {A : Matrix (Fin v) (Fin k) ℂ} (hA : Function.Injective A.mulVec) : leftInv A * complProj A = 0 := by
  unfold leftInv
  rw [Matrix.mul_assoc, conj_mul_complProj hA, Matrix.mul_zero]

/-- The first-order error vanishes for deviations that are proportional to the covariance model itself. -/
theorem musicError_model {A : Matrix (Fin v) (Fin k) ℂ} (hA : Function.Injective A.mulVec) (D : Matrix (Fin v) (Fin k) ℂ)
    (p q : Fin k → ℝ) (σ : ℝ) (i : Fin k) : musicError A D p i (modelCov A q σ) = 0 := by
  have : leftInv A * modelCov A q σ * complProj A = 0 := by
    unfold modelCov
    rw [Matrix.mul_add, Matrix.add_mul, Matrix.mul_smul, Matrix.mul_one, Matrix.smul_mul, leftInv_mul_complProj hA, smul_zero, add_zero]
    simp only [Matrix.mul_assoc]
    rw [conj_mul_complProj hA]
    simp only [Matrix.mul_zero]
  unfold musicError
  rw [mulVec_mulVec, mulVec_mulVec, this, zero_mulVec, Pi.zero_apply, zero_div]

theorem musicError_add (A D : Matrix (Fin v) (Fin k) ℂ) (p : Fin k → ℝ) (i : Fin k) (S T : Matrix (Fin v) (Fin v) ℂ) :
    musicError A D p i (S + T) = musicError A D p i S + musicError A D p i T := by
  unfold musicError
  rw [add_mulVec, mulVec_add, Pi.add_apply, add_div]

theorem musicError_smul (A D : Matrix (Fin v) (Fin k) ℂ) (p : Fin k → ℝ) (i : Fin k) (x : ℂ) (T : Matrix (Fin v) (Fin v) ℂ) :
    musicError A D p i (x • T) = x * musicError A D p i T := by
  unfold musicError
  rw [smul_mulVec, mulVec_smul, Pi.smul_apply, smul_eq_mul, mul_div_assoc]

/-- A linear functional is determined by its values at the unit matrices. -/
theorem linear_eval (f : Matrix (Fin m) (Fin m) ℂ →ₗ[ℂ] ℂ) (M : Matrix (Fin m) (Fin m) ℂ) :
    f M = ∑ r, ∑ c, M r c * f (Matrix.single r c 1) := by
  conv_lhs => rw [matrix_eq_sum_single M]
  rw [map_sum]
  refine Finset.sum_congr rfl fun r _ => ?_
  rw [map_sum]
  refine Finset.sum_congr rfl fun c _ => ?_
  have : Matrix.single r c (M r c) = M r c • Matrix.single r c (1 : ℂ) := by rw [smul_single, smul_eq_mul, mul_one]
  rw [this, map_smul, smul_eq_mul]

/-- For a covariance `B Bᴴ` the statistics are sums over pairs of columns. -/
theorem snapshotCov_factor {n : ℕ} (B : Matrix (Fin m) (Fin n) ℂ) (f g : Matrix (Fin m) (Fin m) ℂ →ₗ[ℂ] ℂ) :
    snapshotCov (B * Bᴴ) f g = ∑ s, ∑ t, star (f (vecMulVec (B.col t) (star (B.col s)))) * g (vecMulVec (B.col t) (star (B.col s))) := by
  have h1 : ∀ s t, star (f (vecMulVec (B.col t) (star (B.col s)))) = ∑ r, ∑ c, star (f (Matrix.single r c 1)) * (B c s * star (B r t)) := by
    intro s t
    rw [linear_eval f, star_sum]
    refine Finset.sum_congr rfl fun r _ => ?_
    rw [star_sum]
    refine Finset.sum_congr rfl fun c _ => ?_
    rw [vecMulVec_apply, star_mul', star_mul', Pi.star_apply, star_star]
    simp only [Matrix.col_apply]
    ring
  have h2 : ∀ s t, g (vecMulVec (B.col t) (star (B.col s))) = ∑ r, ∑ c, g (Matrix.single r c 1) * (B r t * star (B c s)) := by
    intro s t
    rw [linear_eval g]
    refine Finset.sum_congr rfl fun r _ => Finset.sum_congr rfl fun c _ => ?_
    rw [vecMulVec_apply, Pi.star_apply]
    simp only [Matrix.col_apply]
    ring
  simp only [h1, h2]
  unfold snapshotCov
  simp only [mul_apply, conjTranspose_apply]
  have e : ∀ r c r' c', star (f (Matrix.single r c 1)) * g (Matrix.single r' c' 1) * ((∑ j, B c j * star (B c' j)) * ∑ j, B r' j * star (B r j)) =
      ∑ s, ∑ t, star (f (Matrix.single r c 1)) * (B c s * star (B r t)) * (g (Matrix.single r' c' 1) * (B r' t * star (B c' s))) := by
    intro r c r' c'
    rw [Finset.sum_mul_sum, Finset.mul_sum]
    refine Finset.sum_congr rfl fun s _ => ?_
    rw [Finset.mul_sum]
    exact Finset.sum_congr rfl fun t _ => by ring
  simp only [e]
  -- exchange of the finite sums
  have l1 : ∀ (G : Fin m → Fin m → Fin n → Fin n → ℂ), ∑ r', ∑ c', ∑ s, ∑ t, G r' c' s t = ∑ s, ∑ t, ∑ r', ∑ c', G r' c' s t := by
    intro G
    have : ∀ r', ∑ c', ∑ s, ∑ t, G r' c' s t = ∑ s, ∑ t, ∑ c', G r' c' s t := by
      intro r'
      rw [Finset.sum_comm]
      exact Finset.sum_congr rfl fun s _ => Finset.sum_comm
    simp only [this]
    rw [Finset.sum_comm]
    exact Finset.sum_congr rfl fun s _ => Finset.sum_comm
  simp only [l1]
  refine Finset.sum_congr rfl fun s _ => Finset.sum_congr rfl fun t _ => ?_
  rw [Finset.sum_mul]
  refine Finset.sum_congr rfl fun r _ => ?_
  rw [Finset.sum_mul]
  refine Finset.sum_congr rfl fun c _ => ?_
  rw [Finset.mul_sum]
  refine Finset.sum_congr rfl fun r' _ => ?_
  rw [Finset.mul_sum]

/-- Direct augmentation of the covariance model gives the covariance model of the ULA with the spacing of the grid. -/
theorem aug_model {a : GridArray} {l : List ℤ} {δ : ℝ} (h : LinearGrid a l δ) (hnd : l.Nodup) (hel : a.element = .isotropicScalar)
    (hpert : a.perts = []) {w : WeightFunction} (hw : WeightFunction.init a = .ok w) (s : FF1D k) (hs : Valid1D s) (wl : ℝ)
    {S : Steering a.element.outputSize a.size k} (hS : steering a.toArrayDesign (.ff1 s) wl false "all" = .ok S)
    (o : Fin a.element.outputSize) (p : Fin k → ℝ) (σ : ℝ) (T : Matrix (Fin v) (Fin v) ℂ)
    (hT : (acmTransform w (modelCov (S.A o) p σ) "da").1 = .ok ⟨v, T⟩) :
    T = modelCov (ulaMat v fun c => phaseFactor δ wl s.unit (s.loc c)) p σ := by
  have : NeZero wl := steering_wl hS
  have hne : l ≠ [] := by
    rintro rfl
    rw [C28_empty h.1 hw .refl] at hT
    cases hT
  have hω : ∀ L : Mat ℝ, L.ncols = 1 → (Sources.ff1 s).phaseDelay L wl false =
      .ok ⟨fun i c => (2 * Real.pi / wl * (s.dir c).1) * L.at0 i 0, []⟩ := by
    intro L hL
    refine (FF1D.phaseDelay_eq s L wl).trans ?_
    rw [if_pos (by omega)]
    congr 2
    ext i c
    rw [Mat.at0_of_ge L (i := i) (j := 1) (by omega)]; ring
  obtain ⟨S', hS', hSv⟩ := linear_steering a.toArrayDesign hel hpert h.1.2.1 (.ff1 s) wl _ hω
  have hSS : S' = S := Except.ok.inj (hS'.symm.trans hS)
  subst hSS
  obtain ⟨v', T', S'', q1, q2, q3, q4, q5, q6⟩ := acm_model h hnd hw .refl hne _ (S'.A o) (hSv o) p σ
  have := q3.symm.trans hT
  simp only [Except.ok.injEq, Sigma.mk.injEq] at this
  cases this
  ext r c
  rw [q6, modelCov_apply]
  congr 1
  refine Finset.sum_congr rfl fun j _ => ?_
  have hz : ∀ n : ℕ, phaseFactor δ wl s.unit (s.loc j) ^ n = Complex.exp (Complex.I * ((2 * Real.pi / wl * (s.dir j).1 * (n * δ) : ℝ) : ℂ)) := by
    intro n
    rw [phaseFactor, ← Complex.exp_nat_mul, ← dir_sin s hs]
    congr 1
    push_cast
    ring
  show _ = phaseFactor δ wl s.unit (s.loc j) ^ r.1 * (p j : ℂ) * star (phaseFactor δ wl s.unit (s.loc j) ^ c.1)
  rw [hz, hz, mul_right_comm _ (p j : ℂ), exp_pair, mul_comm _ (p j : ℂ)]
  congr 4
  push_cast
  ring

/-- A single noise-free source. -/
theorem single_source (A : Matrix (Fin m) (Fin 1) ℂ) {q : Fin 1 → ℝ} (hq : 0 ≤ q 0) (f g : Matrix (Fin m) (Fin m) ℂ →ₗ[ℂ] ℂ) :
    snapshotCov (modelCov A q 0) f g = star (f (modelCov A q 0)) * g (modelCov A q 0) := by
  have e : modelCov A q 0 = ((Real.sqrt (q 0) : ℂ) • A) * ((Real.sqrt (q 0) : ℂ) • A)ᴴ := by
    ext i j
    rw [modelCov_apply, mul_apply]
    simp only [Finset.univ_unique, Fin.default_eq_zero, Finset.sum_singleton, Complex.ofReal_zero, ite_self, add_zero, Matrix.smul_apply,
      conjTranspose_apply, smul_eq_mul, star_mul', Complex.star_def, Complex.conj_ofReal]
    have : (q 0 : ℂ) = (Real.sqrt (q 0) : ℂ) * (Real.sqrt (q 0) : ℂ) := by
      rw [← Complex.ofReal_mul, Real.mul_self_sqrt hq]
    rw [this]
    ring
  have e2 : vecMulVec (((Real.sqrt (q 0) : ℂ) • A).col 0) (star (((Real.sqrt (q 0) : ℂ) • A).col 0)) = modelCov A q 0 := by
    rw [e]
    ext i j
    rw [vecMulVec_apply, mul_apply]
    simp
  conv_lhs => rw [e]
  rw [snapshotCov_factor]
  simp only [Finset.univ_unique, Fin.default_eq_zero, Finset.sum_singleton, e2]

/-- The first-order error of the deviation of the physical covariance as a linear map. -/
noncomputable def errorMap (A D : Matrix (Fin v) (Fin k) ℂ) (p : Fin k → ℝ) (i : Fin k)
    (aug : Matrix (Fin m) (Fin m) ℂ →ₗ[ℂ] Matrix (Fin v) (Fin v) ℂ) : Matrix (Fin m) (Fin m) ℂ →ₗ[ℂ] ℂ where
  toFun M := musicError A D p i (aug M)
  map_add' M N := by rw [map_add, musicError_add]
  map_smul' x M := by rw [map_smul, musicError_smul]; rfl

theorem single_source' (A : Matrix (Fin m) (Fin 1) ℂ) {q : Fin 1 → ℝ} (hq : 0 ≤ q 0) (Av D : Matrix (Fin v) (Fin 1) ℂ) (i j : Fin 1)
    (aug : Matrix (Fin m) (Fin m) ℂ →ₗ[ℂ] Matrix (Fin v) (Fin v) ℂ) :
    snapshotCov (modelCov A q 0) (fun M => musicError Av D q i (aug M)) (fun M => musicError Av D q j (aug M)) =
      star (musicError Av D q i (aug (modelCov A q 0))) * musicError Av D q j (aug (modelCov A q 0)) :=
  single_source A hq (errorMap Av D q i aug) (errorMap Av D q j aug)

/-- With the spacing of the array the formula is consistent for a single noise-free source. -/
theorem noise_free_with (eigh : Eigh) {a : GridArray} {l : List ℤ} {δ wl : ℝ} (h : LinearGrid a l δ) (hnd : l.Nodup) (hne : l ≠ [])
    (hel : a.element = .isotropicScalar) (hpert : a.perts = []) {v : ℕ} (hv : IsCentralSize l v) {s : FF1D 1}
    (hsc : UlaScene δ wl v s) {x : ℝ} (hx : 0 < x) {n : ℕ} (hn : 1 ≤ n) :
    ecovCoarrayWith eigh δ a (.ff1 s) wl (.scalar x) 0 n "full" = .ok (.full 0) := by
  have hw := weightFunction_init h.1
  obtain ⟨T, S, Av, DAv, C, h1, -, -, h2, hAv, -, h3, h4⟩ := ecovCoarrayWith_formula eigh h.1 hne hel hpert hv hsc
    (p := .scalar x) rfl (q := fun _ => x) (fun _ => hx) (fun i => by simp) 0 hn hw
  have hz : Function.Injective fun c => phaseFactor δ wl s.unit (s.loc c) := fun c e hce =>
    hsc.distinct (phaseFactor_inj hsc.d_pos hsc.wl_pos (hsc.valid.2 c) (hsc.valid.2 e) (hsc.unambiguous c e) hce)
  have hinj := ulaMat_injective (m := v) hz hsc.few.le
  have hout : 0 < a.element.outputSize := by rw [hel]; exact Nat.one_pos
  have hT := aug_model h hnd hel hpert hw s hsc.valid wl h2 ⟨0, hout⟩ (fun _ => x) 0 _ (h1 _)
  rw [← hAv] at hinj hT
  have hC : C = 0 := by
    ext i j
    rw [h4 i j ⟨0, hout⟩, single_source' _ hx.le, hT, musicError_model hinj, star_zero, zero_mul, Complex.zero_re, mul_zero]
    rfl
  rw [← hC]
  exact h3

/-- **C60** (noise-free case). For a grid array whose base spacing is half a wavelength, one source and no noise
the reported error covariance is zero.
Missing for the full claim: other base spacings, where this is false (`C60_violated`). -/
theorem C60_noise_free_partial (eigh : Eigh) {a : GridArray} {l : List ℤ} {wl : ℝ} (h : LinearGrid a l (wl / 2)) (hnd : l.Nodup) (hne : l ≠ [])
    (hel : a.element = .isotropicScalar) (hpert : a.perts = []) {v : ℕ} (hv : IsCentralSize l v) {s : FF1D 1}
    (hsc : UlaScene (wl / 2) wl v s) {x : ℝ} (hx : 0 < x) {n : ℕ} (hn : 1 ≤ n) :
    ecovCoarray eigh a (.ff1 s) wl (.scalar x) 0 n "full" = .ok (.full 0) :=
  noise_free_with eigh h hnd hne hel hpert hv hsc hx hn

theorem example_central : IsCentralSize [0, 1] 2 := ula_central 2

theorem example_scene {d : ℝ} (h0 : 0 < d) : UlaScene d 1 2 (⟨![1 / 2], "sin"⟩ : FF1D 1) where
  d_pos := h0
  wl_pos := one_pos
  few := by norm_num
  valid := ⟨by simp [Unit1D], fun i => by fin_cases i; simp [InRange1D]; norm_num⟩
  distinct := fun i j _ => Subsingleton.elim i j
  unambiguous := fun c e => by rw [Subsingleton.elim c e, sub_self, abs_zero, mul_zero]; exact one_pos
  not_endfire := fun h => absurd rfl h

/-- Two sensors, one source with phase factor `i` in the virtual array. -/
theorem musicError_two (b : ℂ) : musicError (Matrix.of ![![1], ![Complex.I]]) (Matrix.of ![![0], ![-(Real.pi : ℂ)]]) (fun _ : Fin 1 => 1) 0
    (Matrix.of ![![1, b], ![star b, 1]]) = ((-b.re / Real.pi : ℝ) : ℂ) := by
  have hL : leftInv (Matrix.of ![![1], ![Complex.I]] : Matrix (Fin 2) (Fin 1) ℂ) = Matrix.of ![![1 / 2, -Complex.I / 2]] := by
    have hG : (Matrix.of ![![1], ![Complex.I]] : Matrix (Fin 2) (Fin 1) ℂ)ᴴ * Matrix.of ![![1], ![Complex.I]] = (2 : ℂ) • 1 := by
      ext i j
      fin_cases i; fin_cases j
      simp [mul_apply]
      norm_num
    have hGi : ((2 : ℂ) • (1 : Matrix (Fin 1) (Fin 1) ℂ))⁻¹ = (1 / 2 : ℂ) • 1 := by
      apply inv_eq_left_inv
      rw [smul_mul_smul, Matrix.one_mul]
      norm_num
    unfold leftInv
    rw [hG, hGi]
    ext i j
    fin_cases i; fin_cases j <;> simp
    ring
  have hP : complProj (Matrix.of ![![1], ![Complex.I]] : Matrix (Fin 2) (Fin 1) ℂ) = Matrix.of ![![1 / 2, Complex.I / 2], ![-Complex.I / 2, 1 / 2]] := by
    unfold complProj
    rw [hL]
    ext i j
    fin_cases i <;> fin_cases j <;> simp [mul_apply]
    · norm_num
    · ring
    · ring
    · have := Complex.I_mul_I
      linear_combination (1 / 2 : ℂ) * this
  have hb : complProj (Matrix.of ![![1], ![Complex.I]] : Matrix (Fin 2) (Fin 1) ℂ) *ᵥ (Matrix.of ![![0], ![-(Real.pi : ℂ)]]).col 0 =
      ![-(Complex.I * Real.pi / 2), -(Real.pi / 2 : ℂ)] := by
    rw [hP]
    funext i
    fin_cases i <;> simp [mulVec, dotProduct] <;> ring
  have hpi : (Real.pi : ℂ) ≠ 0 := by exact_mod_cast Real.pi_ne_zero
  have hg : (star ![-(Complex.I * Real.pi / 2), -(Real.pi / 2 : ℂ)] ⬝ᵥ ![-(Complex.I * Real.pi / 2), -(Real.pi / 2 : ℂ)]).re = Real.pi ^ 2 / 2 := by
    have : (star ![-(Complex.I * Real.pi / 2), -(Real.pi / 2 : ℂ)] ⬝ᵥ ![-(Complex.I * Real.pi / 2), -(Real.pi / 2 : ℂ)]) = ((Real.pi ^ 2 / 2 : ℝ) : ℂ) := by
      have h2 : (starRingEnd ℂ) 2 = 2 := map_ofNat _ 2
      simp [dotProduct, h2]
      linear_combination (-(Real.pi : ℂ) ^ 2 / 4) * Complex.I_mul_I
    rw [this, Complex.ofReal_re]
  unfold musicError
  rw [hb, hg, hL]
  have hn : ((Matrix.of ![![1 / 2, -Complex.I / 2]] : Matrix (Fin 1) (Fin 2) ℂ) *ᵥ ((Matrix.of ![![1, b], ![star b, 1]]) *ᵥ
      ![-(Complex.I * Real.pi / 2), -(Real.pi / 2 : ℂ)])) 0 = -(Real.pi / 2) * b.re := by
    have hre : (b.re : ℂ) = (b + star b) / 2 := by
      rw [Complex.star_def, Complex.add_conj]; push_cast; ring
    rw [hre]
    simp [mulVec, dotProduct]
    linear_combination (Real.pi / 4 * (starRingEnd ℂ) b : ℂ) * Complex.I_mul_I
  rw [hn]
  push_cast
  field_simp

/-- **C60** (refutation). The two-element ULA with a quarter wavelength spacing, one source at `sin θ = 1/2` and no noise:
the virtual ULA is the array itself, so that the true first-order error is zero (and so is the value of the formula with
the spacing of the array), but the reported variance is positive for every number of snapshots. -/
theorem C60_violated (eigh : Eigh) {n : ℕ} (hn : 1 ≤ n) : ∃ (a : GridArray) (s : FF1D 1) (C : Matrix (Fin 1) (Fin 1) ℝ),
    ula 2 (.scalar (1 / 4)) none {} = .ok a ∧ s = ⟨![1 / 2], "sin"⟩ ∧ IsCentralSize [0, 1] 2 ∧ Is1DGrid a [0, 1] ∧
    ecovCoarray eigh a (.ff1 s) 1 (.scalar 1) 0 n "full" = .ok (.full C) ∧ 0 < C 0 0 ∧
    ecovCoarrayWith eigh (1 / 4) a (.ff1 s) 1 (.scalar 1) 0 n "full" = .ok (.full 0) := by
  obtain ⟨a, ha⟩ := ula_ok 2 (1 / 4) none
  obtain ⟨h, -⟩ := linearGrid_of_init ha
  obtain ⟨_, g2, g3, g4, _⟩ := gridInit_spec ha
  have hpert : a.perts = [] := (Except.ok.inj g4).symm
  have hw := weightFunction_init h.1
  obtain ⟨T, S, Av, DAv, C, h1, -, -, h2, hAv, hDAv, h3, h4⟩ := ecovCoarrayWith_formula eigh h.1 (by simp) g3 hpert example_central
    (example_scene (d := 1 / 2) (by norm_num)) (p := .scalar 1) rfl (q := fun _ => 1) (fun _ => one_pos) (fun i => by simp) 0 hn hw
  have hout : 0 < a.element.outputSize := by rw [g3]; exact Nat.one_pos
  refine ⟨a, _, C, ha, rfl, example_central, h.1, h3, ?_, noise_free_with eigh h (by decide) (by simp) g3 hpert example_central
    (example_scene (by norm_num)) one_pos hn⟩
  have hT := aug_model h (by decide) g3 hpert hw _ (example_scene (d := 1) one_pos).valid 1 h2 ⟨0, hout⟩ (fun _ => 1) 0 _ (h1 _)
  have hs : Real.sin (angleOf "sin" (1 / 2)) = 1 / 2 := by
    rw [angleOf, if_neg (by decide), if_pos rfl, Real.sin_arcsin] <;> norm_num
  have hz1 : phaseFactor (1 / 2) 1 "sin" (1 / 2) = Complex.I := by
    unfold phaseFactor
    rw [hs]
    have : (2 * Real.pi * (1 / 2) / 1 * (1 / 2) : ℝ) = Real.pi / 2 := by ring
    rw [this, mul_comm]
    push_cast
    exact Complex.exp_pi_div_two_mul_I
  have e1 : Av = Matrix.of ![![1], ![Complex.I]] := by
    rw [hAv]
    ext i c
    fin_cases i <;> fin_cases c <;> simp [ulaMat]
    simpa using hz1
  have e2 : DAv = Matrix.of ![![0], ![-(Real.pi : ℂ)]] := by
    rw [hDAv]
    ext i c
    fin_cases i <;> fin_cases c <;> simp [ulaDeriv, sineRate]
    have := hz1
    simp at this
    rw [this]
    linear_combination (Real.pi : ℂ) * Complex.I_mul_I
  have e3 : T (modelCov (S.A ⟨0, hout⟩) (fun _ => 1) 0) = Matrix.of ![![1, star (phaseFactor (1 / 4) 1 "sin" (1 / 2))],
      ![star (star (phaseFactor (1 / 4) 1 "sin" (1 / 2))), 1]] := by
    have hu : phaseFactor (1 / 4) 1 "sin" (1 / 2) * star (phaseFactor (1 / 4) 1 "sin" (1 / 2)) = 1 := by
      unfold phaseFactor
      rw [exp_pair, sub_self]; simp
    rw [hT]
    ext i j
    rw [modelCov_apply]
    fin_cases i <;> fin_cases j <;> simp [ulaMat]
    simpa using hu
  have e4 : (star (phaseFactor (1 / 4) 1 "sin" (1 / 2))).re = Real.sqrt 2 / 2 := by
    unfold phaseFactor
    rw [hs]
    have : (2 * Real.pi * (1 / 4) / 1 * (1 / 2) : ℝ) = Real.pi / 4 := by ring
    rw [this, Complex.star_def, Complex.conj_re, mul_comm, Complex.exp_ofReal_mul_I_re, Real.cos_pi_div_four]
  rw [h4 0 0 ⟨0, hout⟩, single_source' _ zero_le_one, e3, e1, e2, musicError_two, e4, Complex.star_def, Complex.conj_ofReal,
    ← Complex.ofReal_mul, Complex.ofReal_re]
  have hpi := Real.pi_pos
  have h2' : (0 : ℝ) < Real.sqrt 2 := by positivity
  have hn' : (0 : ℝ) < n := by exact_mod_cast hn
  have : 0 < -(Real.sqrt 2 / 2) / Real.pi * (-(Real.sqrt 2 / 2) / Real.pi) := by
    apply mul_pos_of_neg_of_neg <;> (rw [neg_div]; exact neg_neg_of_pos (by positivity))
  positivity

/-! ### First-order errors -/

/-- Derivative of a product of matrices, entry by entry. -/
theorem hasDerivAt_matMul {X Y : ℝ → Matrix (Fin v) (Fin v) ℂ} {X' Y' : Matrix (Fin v) (Fin v) ℂ} {t : ℝ}
    (hX : ∀ r c, HasDerivAt (fun t => X t r c) (X' r c) t) (hY : ∀ r c, HasDerivAt (fun t => Y t r c) (Y' r c) t) (r c : Fin v) :
    HasDerivAt (fun t => (X t * Y t) r c) ((X' * Y t + X t * Y') r c) t := by
  have := HasDerivAt.fun_sum (u := Finset.univ) fun j _ => (hX r j).mul (hY j c)
  rw [Matrix.add_apply, mul_apply, mul_apply, ← Finset.sum_add_distrib]
  exact this

/-- Perturbation of the noise projection. -/
theorem noise_perturbation {A : Matrix (Fin v) (Fin k) ℂ} (hA : Function.Injective A.mulVec) {q : Fin k → ℝ} (i : Fin k) (hq : q i ≠ 0)
    {σ : ℝ} {T : Matrix (Fin v) (Fin v) ℂ} {N : ℝ → Matrix (Fin v) (Fin v) ℂ} {N' : Matrix (Fin v) (Fin v) ℂ}
    (hd : ∀ r c, HasDerivAt (fun t => N t r c) (N' r c) 0) (h0 : N 0 = complProj A)
    (hidem : ∀ᶠ t in 𝓝 0, N t * N t = N t)
    (hcomm : ∀ᶠ t : ℝ in 𝓝 0, N t * (modelCov A q σ + (t : ℂ) • T) = (modelCov A q σ + (t : ℂ) • T) * N t) :
    N' *ᵥ A.col i = -((q i : ℂ)⁻¹ • (complProj A *ᵥ (T *ᵥ (leftInv A)ᴴ.col i))) := by
  have hS : ∀ r c, HasDerivAt (fun t : ℝ => (modelCov A q σ + (t : ℂ) • T) r c) (T r c) 0 := by
    intro r c
    have := ((hasDerivAt_id (0 : ℝ)).ofReal_comp.mul_const (T r c)).const_add (modelCov A q σ r c)
    simpa using this
  have e1 : N' * complProj A + complProj A * N' = N' := by
    ext r c
    have h1 := hasDerivAt_matMul hd hd r c
    rw [h0] at h1
    exact (h1.congr_of_eventuallyEq (hidem.mono fun t ht => by simp only [ht])).unique (hd r c)
  have e2 : N' * modelCov A q σ + complProj A * T = T * complProj A + modelCov A q σ * N' := by
    ext r c
    have h1 := hasDerivAt_matMul hd hS r c
    have h2 := hasDerivAt_matMul hS hd r c
    rw [h0] at h1 h2
    simp only [Complex.ofReal_zero, zero_smul, add_zero] at h1 h2
    exact (h1.congr_of_eventuallyEq (hcomm.mono fun t ht => by simp only [ht])).unique h2
  set P := complProj A with hP
  set y := (leftInv A)ᴴ.col i with hy
  have hPA := complProj_mul hA
  have hyr : (leftInv A)ᴴ = A * (Aᴴ * A)⁻¹ := by
    unfold leftInv
    rw [conjTranspose_mul, conjTranspose_conjTranspose, conjTranspose_nonsing_inv, (isHermitian_conjTranspose_mul_self A).eq]
  have hPy : P *ᵥ y = 0 := by
    have : P * (leftInv A)ᴴ = 0 := by rw [hyr, ← Matrix.mul_assoc, hPA, Matrix.zero_mul]
    have := congrArg (fun M : Matrix (Fin v) (Fin k) ℂ => M.col i) this
    exact this
  have hSy : modelCov A q σ *ᵥ y = (q i : ℂ) • A.col i + (σ : ℂ) • y := by
    have h1 : Aᴴ * (leftInv A)ᴴ = 1 := by rw [← conjTranspose_mul, leftInv_mul hA, conjTranspose_one]
    have h2 : modelCov A q σ * (leftInv A)ᴴ = A * Matrix.diagonal (fun c => (q c : ℂ)) + (σ : ℂ) • (leftInv A)ᴴ := by
      unfold modelCov
      rw [Matrix.add_mul, Matrix.mul_assoc _ Aᴴ, h1, Matrix.mul_one, Matrix.smul_mul, Matrix.one_mul]
    have h3 := congrArg (fun M : Matrix (Fin v) (Fin k) ℂ => M.col i) h2
    refine h3.trans ?_
    funext r
    simp only [Matrix.col_apply, Matrix.add_apply, mul_diagonal, Matrix.smul_apply, smul_eq_mul, Pi.add_apply, Pi.smul_apply, hy]
    ring
  have hPS : P * modelCov A q σ = (σ : ℂ) • P := by
    unfold modelCov
    rw [Matrix.mul_add, ← Matrix.mul_assoc, ← Matrix.mul_assoc, hPA, Matrix.zero_mul, Matrix.zero_mul, zero_add, Matrix.mul_smul, Matrix.mul_one]
  have hPa : P *ᵥ A.col i = 0 := congrArg (fun M : Matrix (Fin v) (Fin k) ℂ => M.col i) hPA
  have f1 : N' *ᵥ A.col i = P *ᵥ (N' *ᵥ A.col i) := by
    have := congrArg (· *ᵥ A.col i) e1
    simp only [add_mulVec, ← mulVec_mulVec, hPa, mulVec_zero, zero_add] at this
    exact this.symm
  have f2 := congrArg (fun M => P *ᵥ (M *ᵥ y)) e2
  simp only [add_mulVec, ← mulVec_mulVec, hPy, mulVec_zero, zero_add, hSy, mulVec_add, mulVec_smul] at f2
  rw [mulVec_mulVec _ P (modelCov A q σ), hPS, smul_mulVec, mulVec_mulVec _ P P, complProj_idem hA, ← f1] at f2
  have hq' : (q i : ℂ) ≠ 0 := by exact_mod_cast hq
  have f3 : (q i : ℂ) • (N' *ᵥ A.col i) = -(P *ᵥ (T *ᵥ y)) := by
    have : (q i : ℂ) • (N' *ᵥ A.col i) + (σ : ℂ) • (P *ᵥ (N' *ᵥ y)) + P *ᵥ (T *ᵥ y) = (σ : ℂ) • (P *ᵥ (N' *ᵥ y)) := f2
    rw [add_right_comm] at this
    exact eq_neg_of_add_eq_zero_left (by simpa using this)
  rw [← smul_neg, ← f3, smul_smul, inv_mul_cancel₀ hq', one_smul]

/-- Derivative of a sesquilinear form. -/
theorem hasDerivAt_form {x y : ℝ → Fin v → ℂ} {x' y' : Fin v → ℂ} {M : ℝ → Matrix (Fin v) (Fin v) ℂ} {M' : Matrix (Fin v) (Fin v) ℂ} {t : ℝ}
    (hx : ∀ r, HasDerivAt (fun t => x t r) (x' r) t) (hy : ∀ r, HasDerivAt (fun t => y t r) (y' r) t)
    (hM : ∀ r c, HasDerivAt (fun t => M t r c) (M' r c) t) :
    HasDerivAt (fun t => (star (x t) ⬝ᵥ (M t *ᵥ y t)).re)
      (star x' ⬝ᵥ (M t *ᵥ y t) + star (x t) ⬝ᵥ (M' *ᵥ y t) + star (x t) ⬝ᵥ (M t *ᵥ y')).re t := by
  have h1 := HasDerivAt.fun_sum (u := Finset.univ) fun r _ => (hx r).star.mul
    (HasDerivAt.fun_sum (u := Finset.univ) fun c _ => (hM r c).mul (hy c))
  have h2 : HasDerivAt (fun t => star (x t) ⬝ᵥ (M t *ᵥ y t))
      (star x' ⬝ᵥ (M t *ᵥ y t) + star (x t) ⬝ᵥ (M' *ᵥ y t) + star (x t) ⬝ᵥ (M t *ᵥ y')) t := by
    refine h1.congr_deriv ?_
    simp only [dotProduct, mulVec, Pi.star_apply, ← Finset.sum_add_distrib, Finset.mul_sum]
    refine Finset.sum_congr rfl fun r _ => ?_
    refine Finset.sum_congr rfl fun c _ => ?_
    simp only [Pi.mul_apply]
    ring
  exact Complex.reCLM.hasFDerivAt.comp_hasDerivAt t h2

theorem form_conj {N : Matrix (Fin v) (Fin v) ℂ} (hN : Nᴴ = N) (x y : Fin v → ℂ) : star (star x ⬝ᵥ (N *ᵥ y)) = star y ⬝ᵥ (N *ᵥ x) := by
  rw [star_dotProduct, star_star, star_mulVec, hN, ← dotProduct_mulVec]

/-- First-order movement of a local minimum of the null spectrum. -/
theorem stationary_perturbation {a d : ℝ → Fin v → ℂ} {e : Fin v → ℂ} {x₀ : ℝ}
    (ha : ∀ᶠ x in 𝓝 x₀, ∀ r, HasDerivAt (fun x => a x r) (d x r) x) (hd : ∀ r, HasDerivAt (fun x => d x r) (e r) x₀)
    {N : ℝ → Matrix (Fin v) (Fin v) ℂ} {N' : Matrix (Fin v) (Fin v) ℂ} (hN : ∀ r c, HasDerivAt (fun t => N t r c) (N' r c) 0)
    (hherm : ∀ᶠ t in 𝓝 0, (N t)ᴴ = N t) (hnull : N 0 *ᵥ a x₀ = 0) {θ : ℝ → ℝ} {θ' : ℝ} (hθ : HasDerivAt θ θ' 0) (hθ0 : θ 0 = x₀)
    (hmin : ∀ᶠ t in 𝓝 0, IsLocalMin (fun x => (star (a x) ⬝ᵥ (N t *ᵥ a x)).re) (θ t)) :
    (star (d x₀) ⬝ᵥ (N' *ᵥ a x₀)).re + θ' * (star (d x₀) ⬝ᵥ (N 0 *ᵥ d x₀)).re = 0 := by
  have hcont : Tendsto θ (𝓝 0) (𝓝 x₀) := by
    have := hθ.continuousAt
    rwa [ContinuousAt, hθ0] at this
  have hstat : ∀ᶠ t in 𝓝 0, (star (d (θ t)) ⬝ᵥ (N t *ᵥ a (θ t))).re = 0 := by
    filter_upwards [hmin, hherm, hcont.eventually ha] with t h1 h2 h3
    have h4 := hasDerivAt_form (x := a) (y := a) (M := fun _ => N t) (M' := 0) h3 h3 fun r c => hasDerivAt_const _ _
    have h5 := h1.hasDerivAt_eq_zero h4
    rw [zero_mulVec, dotProduct_zero, add_zero, ← form_conj h2 (d (θ t)) (a (θ t)), Complex.add_re, Complex.star_def, Complex.conj_re] at h5
    linarith
  have hx : ∀ r, HasDerivAt (fun t => a (θ t) r) ((θ' : ℂ) * d x₀ r) 0 := by
    intro r
    have h1 : HasDerivAt (fun x => a x r) (d (θ 0) r) (θ 0) := by rw [hθ0]; exact ha.self_of_nhds r
    have h2 := h1.scomp 0 hθ
    rw [hθ0] at h2
    exact h2.congr_deriv (by rw [Complex.real_smul])
  have hy : ∀ r, HasDerivAt (fun t => d (θ t) r) ((θ' : ℂ) * e r) 0 := by
    intro r
    have h1 : HasDerivAt (fun x => d x r) (e r) (θ 0) := by rw [hθ0]; exact hd r
    have h2 := h1.scomp 0 hθ
    exact h2.congr_deriv (by rw [Complex.real_smul])
  have h6 := hasDerivAt_form (x := fun t => d (θ t)) (y := fun t => a (θ t)) (M := N) hy hx hN
  have h7 : HasDerivAt (fun t : ℝ => (star (d (θ t)) ⬝ᵥ (N t *ᵥ a (θ t))).re) 0 0 :=
    (hasDerivAt_const (0 : ℝ) (0 : ℝ)).congr_of_eventuallyEq hstat
  have h8 := h6.unique h7
  simp only [hθ0, hnull, dotProduct_zero, zero_add] at h8
  rw [Complex.add_re] at h8
  have h9 : (star (d x₀) ⬝ᵥ (N 0 *ᵥ fun r => (θ' : ℂ) * d x₀ r)) = (θ' : ℂ) * (star (d x₀) ⬝ᵥ (N 0 *ᵥ d x₀)) := by
    have : (fun r => (θ' : ℂ) * d x₀ r) = (θ' : ℂ) • d x₀ := rfl
    rw [this, mulVec_smul, dotProduct_smul, smul_eq_mul]
  rw [h9, Complex.re_ofReal_mul] at h8
  exact h8

/-- First-order error of MUSIC in terms of the deviation of its covariance matrix. -/
theorem music_first_order {A D : Matrix (Fin v) (Fin k) ℂ} (hA : Function.Injective A.mulVec) {q : Fin k → ℝ} (i : Fin k) (hq : q i ≠ 0)
    (hD : ¬ ∃ x, A *ᵥ x = D.col i)
    {σ : ℝ} {T : Matrix (Fin v) (Fin v) ℂ} (hT : Tᴴ = T) {N : ℝ → Matrix (Fin v) (Fin v) ℂ} {N' : Matrix (Fin v) (Fin v) ℂ}
    (hN : ∀ r c, HasDerivAt (fun t => N t r c) (N' r c) 0) (h0 : N 0 = complProj A) (hherm : ∀ᶠ t in 𝓝 0, (N t)ᴴ = N t)
    (hidem : ∀ᶠ t in 𝓝 0, N t * N t = N t)
    (hcomm : ∀ᶠ t : ℝ in 𝓝 0, N t * (modelCov A q σ + (t : ℂ) • T) = (modelCov A q σ + (t : ℂ) • T) * N t)
    {a d : ℝ → Fin v → ℂ} {e : Fin v → ℂ} {x₀ : ℝ} (ha0 : a x₀ = A.col i) (hd0 : d x₀ = D.col i)
    (ha : ∀ᶠ x in 𝓝 x₀, ∀ r, HasDerivAt (fun x => a x r) (d x r) x) (hd : ∀ r, HasDerivAt (fun x => d x r) (e r) x₀)
    {θ : ℝ → ℝ} {θ' : ℝ} (hθ : HasDerivAt θ θ' 0) (hθ0 : θ 0 = x₀)
    (hmin : ∀ᶠ t in 𝓝 0, IsLocalMin (fun x => (star (a x) ⬝ᵥ (N t *ᵥ a x)).re) (θ t)) :
    θ' = (musicError A D q i T).re := by
  have hPa : complProj A *ᵥ A.col i = 0 := congrArg (fun M : Matrix (Fin v) (Fin k) ℂ => M.col i) (complProj_mul hA)
  have h1 := stationary_perturbation ha hd hN hherm (by rw [h0, ha0, hPa]) hθ hθ0 hmin
  rw [ha0, hd0, h0, noise_perturbation hA i hq hN h0 hidem hcomm] at h1
  set P := complProj A with hP
  set b := P *ᵥ D.col i with hb
  have hPh : Pᴴ = P := complProj_herm hA
  have hγ : star (D.col i) ⬝ᵥ b = star b ⬝ᵥ b := by
    have : star b ⬝ᵥ b = star (D.col i) ⬝ᵥ (P *ᵥ b) := by
      have hsb : star b = star (D.col i) ᵥ* P := by rw [hb, star_mulVec, hPh]
      exact (congrArg (· ⬝ᵥ b) hsb).trans (dotProduct_mulVec _ _ _).symm
    rw [this, hb, mulVec_mulVec, complProj_idem hA]
  have hγ0 : (star b ⬝ᵥ b).re ≠ 0 := by
    intro h
    have h2 : star b ⬝ᵥ b = 0 := by
      have h3 : 0 ≤ star b ⬝ᵥ b := dotProduct_star_self_nonneg b
      exact Complex.ext h (Complex.le_def.1 h3).2.symm
    have h4 : b = 0 := dotProduct_star_self_eq_zero.1 h2
    apply hD
    refine ⟨leftInv A *ᵥ D.col i, ?_⟩
    have : b = D.col i - A *ᵥ (leftInv A *ᵥ D.col i) := by
      rw [hb, hP, complProj, sub_mulVec, one_mulVec, mulVec_mulVec]
    rw [this] at h4
    exact (sub_eq_zero.1 h4).symm
  have hnum : star (star (D.col i) ⬝ᵥ (P *ᵥ (T *ᵥ (leftInv A)ᴴ.col i))) = (leftInv A *ᵥ (T *ᵥ b)) i := by
    have : star (D.col i) ⬝ᵥ (P *ᵥ (T *ᵥ (leftInv A)ᴴ.col i)) = star b ⬝ᵥ (T *ᵥ (leftInv A)ᴴ.col i) := by
      rw [dotProduct_mulVec, hb, star_mulVec, hPh]
    rw [this, form_conj hT]
    unfold mulVec dotProduct
    refine Finset.sum_congr rfl fun r _ => ?_
    rw [Pi.star_apply, Matrix.col_apply, conjTranspose_apply, star_star]
  rw [hγ, dotProduct_neg, dotProduct_smul, smul_eq_mul, Complex.neg_re, ← Complex.ofReal_inv, Complex.re_ofReal_mul] at h1
  have h2 : (star (D.col i) ⬝ᵥ (P *ᵥ (T *ᵥ (leftInv A)ᴴ.col i))).re = ((leftInv A *ᵥ (T *ᵥ b)) i).re := by
    rw [← hnum, Complex.star_def, Complex.conj_re]
  rw [h2] at h1
  unfold musicError
  rw [← hP, ← hb, ← Complex.ofReal_mul, Complex.div_ofReal_re]
  rw [eq_div_iff (mul_ne_zero hq hγ0)]
  field_simp at h1
  linarith

/-! ### The first-order errors are real -/

/-- The exchange matrix. -/
def exch (v : ℕ) : Matrix (Fin v) (Fin v) ℂ := Matrix.of fun r c => if c = Fin.rev r then 1 else 0

theorem exch_mul {n : ℕ} (M : Matrix (Fin v) (Fin n) ℂ) (r : Fin v) (c : Fin n) : (exch v * M) r c = M (Fin.rev r) c := by
  rw [mul_apply, Finset.sum_eq_single (Fin.rev r)]
  · simp [exch]
  · intro b _ hb; simp [exch, hb]
  · intro h; exact absurd (Finset.mem_univ _) h

theorem exch_exch : exch v * exch v = 1 := by
  ext r c
  rw [exch_mul, one_apply]
  simp only [exch, of_apply, Fin.rev_rev]
  exact if_congr eq_comm rfl rfl

theorem exch_conj : (exch v)ᴴ = exch v := by
  ext r c
  simp only [exch, conjTranspose_apply, of_apply]
  by_cases h : r = Fin.rev c
  · rw [if_pos h, if_pos (by rw [h, Fin.rev_rev]), star_one]
  · rw [if_neg h, if_neg (fun h' => h (by rw [h', Fin.rev_rev])), star_zero]

/-- Entrywise conjugation. -/
def cmap {n n' : ℕ} (M : Matrix (Fin n) (Fin n') ℂ) : Matrix (Fin n) (Fin n') ℂ := M.map (starRingEnd ℂ)

theorem cmap_mul {n n' n'' : ℕ} (M : Matrix (Fin n) (Fin n') ℂ) (N : Matrix (Fin n') (Fin n'') ℂ) : cmap (M * N) = cmap M * cmap N :=
  Matrix.map_mul

theorem star_mulVec_cmap {n n' : ℕ} (M : Matrix (Fin n) (Fin n') ℂ) (x : Fin n' → ℂ) : star (M *ᵥ x) = cmap M *ᵥ star x := by
  funext r
  simp [mulVec, dotProduct, cmap]

theorem cmap_one {n : ℕ} : cmap (1 : Matrix (Fin n) (Fin n) ℂ) = 1 := by
  unfold cmap; rw [Matrix.map_one] <;> simp

theorem cmap_conjTranspose {n n' : ℕ} (M : Matrix (Fin n) (Fin n') ℂ) : cmap Mᴴ = (cmap M)ᴴ := rfl

theorem cmap_sub {n n' : ℕ} (M N : Matrix (Fin n) (Fin n') ℂ) : cmap (M - N) = cmap M - cmap N := by
  ext i j; simp [cmap]

theorem cmap_inv {n : ℕ} {G : Matrix (Fin n) (Fin n) ℂ} (hG : IsUnit G.det) : cmap G⁻¹ = (cmap G)⁻¹ := by
  symm
  apply inv_eq_left_inv
  rw [← cmap_mul, nonsing_inv_mul _ hG, cmap_one]

theorem leftInv_cmap {A : Matrix (Fin v) (Fin k) ℂ} (hA : Function.Injective A.mulVec) {Φ : Matrix (Fin k) (Fin k) ℂ} (hΦ : Φ * Φᴴ = 1)
    (h : exch v * cmap A = A * Φ) : cmap (leftInv A) * exch v = Φᴴ * leftInv A ∧ exch v * cmap (complProj A) = complProj A * exch v := by
  have hu := (fullRank_iff A).2 hA
  have hΦ' : Φᴴ * Φ = 1 := mul_eq_one_comm.1 hΦ
  have hG : cmap (Aᴴ * A) = Φᴴ * (Aᴴ * A) * Φ := by
    have e : (cmap A)ᴴ * cmap A = (exch v * cmap A)ᴴ * (exch v * cmap A) := by
      rw [conjTranspose_mul, exch_conj, Matrix.mul_assoc, ← Matrix.mul_assoc (exch v), exch_exch, Matrix.one_mul]
    rw [cmap_mul, cmap_conjTranspose, e, h, conjTranspose_mul]
    simp only [Matrix.mul_assoc]
  have hGi : cmap (Aᴴ * A)⁻¹ = Φᴴ * (Aᴴ * A)⁻¹ * Φ := by
    rw [cmap_inv hu, hG]
    apply inv_eq_left_inv
    calc Φᴴ * (Aᴴ * A)⁻¹ * Φ * (Φᴴ * (Aᴴ * A) * Φ) = Φᴴ * ((Aᴴ * A)⁻¹ * ((Φ * Φᴴ) * ((Aᴴ * A) * Φ))) := by simp only [Matrix.mul_assoc]
      _ = Φᴴ * (((Aᴴ * A)⁻¹ * (Aᴴ * A)) * Φ) := by rw [hΦ, Matrix.one_mul]; simp only [Matrix.mul_assoc]
      _ = 1 := by rw [nonsing_inv_mul _ hu, Matrix.one_mul, hΦ']
  have h1 : cmap (leftInv A) * exch v = Φᴴ * leftInv A := by
    unfold leftInv
    have e : (cmap A)ᴴ * exch v = Φᴴ * Aᴴ := by
      rw [← conjTranspose_mul, ← h, conjTranspose_mul, exch_conj]
    rw [cmap_mul, cmap_conjTranspose, Matrix.mul_assoc, e, hGi]
    calc Φᴴ * (Aᴴ * A)⁻¹ * Φ * (Φᴴ * Aᴴ) = Φᴴ * ((Aᴴ * A)⁻¹ * ((Φ * Φᴴ) * Aᴴ)) := by simp only [Matrix.mul_assoc]
      _ = _ := by rw [hΦ, Matrix.one_mul]
  refine ⟨h1, ?_⟩
  have h2 : cmap (leftInv A) = Φᴴ * leftInv A * exch v := by
    rw [← h1, Matrix.mul_assoc, exch_exch, Matrix.mul_one]
  unfold complProj
  rw [cmap_sub, cmap_one, cmap_mul, Matrix.mul_sub, Matrix.mul_one, Matrix.sub_mul, Matrix.one_mul, ← Matrix.mul_assoc, h, h2]
  congr 1
  calc A * Φ * (Φᴴ * leftInv A * exch v) = A * ((Φ * Φᴴ) * (leftInv A * exch v)) := by simp only [Matrix.mul_assoc]
    _ = _ := by rw [hΦ, Matrix.one_mul, Matrix.mul_assoc]

/-- For a ULA and a Hermitian Toeplitz deviation the first-order error is a real number. -/
theorem musicError_real {z w : Fin k → ℂ} (hz : ∀ c, star (z c) * z c = 1) (hw : ∀ c, star (w c) = -w c)
    (hA : Function.Injective (ulaMat v z).mulVec) (q : Fin k → ℝ) (i : Fin k) {T : Matrix (Fin v) (Fin v) ℂ}
    (hT : T.IsHermitian) (hto : ∀ r c r' c', (r.1 : ℤ) - c.1 = r'.1 - c'.1 → T r c = T r' c') :
    star (musicError (ulaMat v z) (ulaDeriv v z w) q i T) = musicError (ulaMat v z) (ulaDeriv v z w) q i T := by
  set A := ulaMat v z with hAdef
  set D := ulaDeriv v z w with hDdef
  set φ : Fin k → ℂ := fun c => star (z c) ^ (v - 1) with hφ
  have hφ1 : ∀ c, φ c * star (φ c) = 1 := by
    intro c
    simp only [hφ]
    rw [star_pow, star_star, ← mul_pow, hz, one_pow]
  have hzp : ∀ c (r : Fin v), star (z c ^ (Fin.rev r).1) = φ c * z c ^ r.1 := by
    intro c r
    have hr : v - 1 = (Fin.rev r).1 + r.1 := by have := r.2; rw [Fin.val_rev]; omega
    simp only [hφ]
    rw [hr, pow_add, mul_assoc, ← mul_pow, hz, one_pow, mul_one, star_pow]
  have hJA : exch v * cmap A = A * Matrix.diagonal φ := by
    ext r c
    rw [exch_mul, mul_diagonal]
    exact (hzp c r).trans (mul_comm _ _)
  obtain ⟨hL, hP⟩ := leftInv_cmap hA (by
    rw [diagonal_conjTranspose, diagonal_mul_diagonal, ← diagonal_one]
    congr 1
    funext c
    exact hφ1 c) hJA
  have hTc : cmap T = exch v * T * exch v := by
    ext r c
    rw [Matrix.mul_assoc, exch_mul]
    have : (T * exch v) (Fin.rev r) c = T (Fin.rev r) (Fin.rev c) := by
      rw [mul_apply, Finset.sum_eq_single (Fin.rev c)]
      · simp [exch]
      · intro b _ hb
        have : c ≠ Fin.rev b := fun h => hb (by rw [h, Fin.rev_rev])
        simp [exch, this]
      · intro h; exact absurd (Finset.mem_univ _) h
    rw [this, hto (Fin.rev r) (Fin.rev c) c r (by have := r.2; have := c.2; rw [Fin.val_rev, Fin.val_rev]; omega)]
    show star (T r c) = T c r
    have := congrFun (congrFun hT c) r
    rw [← this, conjTranspose_apply]
  set b := complProj A *ᵥ D.col i with hb
  -- the conjugate of `b`
  have hJd : (exch v *ᵥ star (D.col i)) = (star (w i) * φ i * (v - 1 : ℕ)) • A.col i + φ i • D.col i := by
    funext r
    have e : (exch v *ᵥ star (D.col i)) r = star (D (Fin.rev r) i) := by
      unfold mulVec dotProduct
      rw [Finset.sum_eq_single (Fin.rev r)]
      · simp [exch]
      · intro b _ hb; simp [exch, hb]
      · intro h; exact absurd (Finset.mem_univ _) h
    rw [e]
    have hr : v - 1 = (Fin.rev r).1 + r.1 := by have := r.2; rw [Fin.val_rev]; omega
    have e2 : star (D (Fin.rev r) i) = star (w i) * (((Fin.rev r).1 : ℂ) * (φ i * z i ^ r.1)) := by
      rw [← hzp]
      simp only [hDdef, ulaDeriv, of_apply, star_mul', star_natCast]
    rw [e2]
    show _ = star (w i) * φ i * ((v - 1 : ℕ) : ℂ) * (z i ^ r.1) + φ i * (w i * ((r.1 : ℂ) * z i ^ r.1))
    rw [hr, hw]
    push_cast
    ring
  have hbc : exch v *ᵥ star b = φ i • b := by
    have e : star b = cmap (complProj A) *ᵥ star (D.col i) := by
      rw [hb, star_mulVec_cmap]
    have hPa : complProj A *ᵥ A.col i = 0 := congrArg (fun M : Matrix (Fin v) (Fin k) ℂ => M.col i) (complProj_mul hA)
    rw [e, mulVec_mulVec, hP, ← mulVec_mulVec, hJd, mulVec_add, mulVec_smul, mulVec_smul, hPa, smul_zero, zero_add]
  clear_value b
  have hnum : star ((leftInv A *ᵥ (T *ᵥ b)) i) = (leftInv A *ᵥ (T *ᵥ b)) i := by
    have e : star ((leftInv A *ᵥ (T *ᵥ b)) i) = (cmap (leftInv A) *ᵥ (cmap T *ᵥ star b)) i := by
      rw [← Pi.star_apply, star_mulVec_cmap, star_mulVec_cmap]
    have e3 : cmap (leftInv A) * (exch v * T) = (Matrix.diagonal φ)ᴴ * leftInv A * T := by
      rw [← Matrix.mul_assoc, hL]
    rw [e, hTc, ← mulVec_mulVec, hbc, mulVec_smul, mulVec_smul, mulVec_mulVec, e3, Pi.smul_apply, smul_eq_mul]
    rw [Matrix.mul_assoc, ← mulVec_mulVec, diagonal_conjTranspose, mulVec_diagonal, ← mulVec_mulVec]
    rw [← mul_assoc, Pi.star_apply, hφ1, one_mul]
  unfold musicError
  rw [← hb, star_div₀, hnum, star_mul', Complex.star_def, Complex.conj_ofReal, Complex.conj_ofReal]

/-! ### Steering vectors as functions of the DOA -/

/-- `sineRate` is the derivative of the sine of the broadside angle, away from endfire. -/
theorem sin_angle_deriv {u : String} (hu : Unit1D u) {x : ℝ} (hc : Real.cos (angleOf u x) ≠ 0) :
    (∀ᶠ y in 𝓝 x, HasDerivAt (fun y => Real.sin (angleOf u y)) (sineRate u y) y) ∧ ∃ e, HasDerivAt (sineRate u) e x := by
  have hu' : u = "rad" ∨ u = "deg" ∨ u = "sin" := hu
  rcases hu' with rfl | rfl | rfl
  · have h1 : (fun y => Real.sin (angleOf "rad" y)) = Real.sin := rfl
    have h2 : sineRate "rad" = Real.cos := rfl
    rw [h1, h2]
    exact ⟨Eventually.of_forall fun y => Real.hasDerivAt_sin y, _, Real.hasDerivAt_cos x⟩
  · have h1 : (fun y => Real.sin (angleOf "deg" y)) = fun y => Real.sin (y * (Real.pi / 180)) := by
      funext y
      show Real.sin (y * Real.pi / 180) = _
      rw [mul_div_assoc]
    have h2 : sineRate "deg" = fun y => Real.cos (y * (Real.pi / 180)) * (Real.pi / 180) := rfl
    have hl : ∀ y, HasDerivAt (fun y : ℝ => y * (Real.pi / 180)) (Real.pi / 180) y := fun y => by
      simpa using (hasDerivAt_id y).mul_const (Real.pi / 180)
    rw [h1, h2]
    exact ⟨Eventually.of_forall fun y => (hl y).sin, _, ((hl x).cos).mul_const _⟩
  · have h2 : sineRate "sin" = fun _ => 1 := rfl
    refine ⟨?_, 0, by rw [h2]; exact hasDerivAt_const _ _⟩
    have hx : x ∈ Set.Ioo (-1 : ℝ) 1 := by
      have : Real.cos (Real.arcsin x) ≠ 0 := hc
      rw [Real.cos_arcsin] at this
      have h3 : 0 < 1 - x ^ 2 := by
        by_contra h
        exact this (Real.sqrt_eq_zero_of_nonpos (not_lt.1 h))
      constructor <;> nlinarith
    filter_upwards [Ioo_mem_nhds hx.1 hx.2] with y hy
    rw [h2]
    refine (hasDerivAt_id y).congr_of_eventuallyEq ?_
    filter_upwards [Ioo_mem_nhds hy.1 hy.2] with t ht
    show Real.sin (Real.arcsin t) = t
    exact Real.sin_arcsin ht.1.le ht.2.le

/-- The derivative of the steering vector of a ULA, and that it is itself differentiable. -/
theorem ulaVec_deriv (v : ℕ) (d wl : ℝ) {u : String} (hu : Unit1D u) {x : ℝ} (hc : Real.cos (angleOf u x) ≠ 0) :
    (∀ᶠ y in 𝓝 x, ∀ r : Fin v, HasDerivAt (fun y => ulaVec v (phaseFactor d wl u y) r)
      (Complex.I * ((2 * Real.pi * d / wl * sineRate u y : ℝ) : ℂ) * (r.1 * phaseFactor d wl u y ^ r.1)) y) ∧
    ∃ e : Fin v → ℂ, ∀ r : Fin v, HasDerivAt
      (fun y => Complex.I * ((2 * Real.pi * d / wl * sineRate u y : ℝ) : ℂ) * (r.1 * phaseFactor d wl u y ^ r.1)) (e r) x := by
  obtain ⟨h1, e, h2⟩ := sin_angle_deriv hu hc
  have h3 : ∀ᶠ y in 𝓝 x, ∀ r : ℕ, HasDerivAt (fun y => phaseFactor d wl u y ^ r)
      (Complex.I * ((2 * Real.pi * d / wl * sineRate u y : ℝ) : ℂ) * (r * phaseFactor d wl u y ^ r)) y := by
    filter_upwards [h1] with y hy r
    have e1 : (fun y => phaseFactor d wl u y ^ r) = fun y => Complex.exp (((r : ℝ) * (2 * Real.pi * d / wl * Real.sin (angleOf u y)) : ℝ) * Complex.I) := by
      funext y
      rw [phaseFactor, ← Complex.exp_nat_mul]
      congr 1
      push_cast
      ring
    have h4 := (((hy.const_mul (2 * Real.pi * d / wl)).const_mul (r : ℝ)).ofReal_comp.mul_const Complex.I).cexp
    have e2 := congrFun e1 y
    rw [← e1] at h4
    refine h4.congr_deriv ?_
    rw [← e2]
    push_cast
    ring
  refine ⟨h3.mono fun y hy r => hy r.1, ?_⟩
  have h5 : ∀ r : Fin v, ∃ e', HasDerivAt
      (fun y => Complex.I * ((2 * Real.pi * d / wl * sineRate u y : ℝ) : ℂ) * (r.1 * phaseFactor d wl u y ^ r.1)) e' x := by
    intro r
    exact ⟨_, (((h2.const_mul (2 * Real.pi * d / wl)).ofReal_comp.const_mul Complex.I).mul ((h3.self_of_nhds r.1).const_mul (r.1 : ℂ)))⟩
  choose e' he' using h5
  exact ⟨e', he'⟩

/-- The estimate `θ` and the noise projection `N` of MUSIC applied to the matrices `V t`, as differentiable functions of a
parameter `t` near 0: `N t` is an orthogonal projection onto an invariant subspace of `V t`, and `θ t` is a local minimum
of the null spectrum `a(x)ᴴ N a(x)` (a local maximum of the MUSIC spectrum) with the steering vectors `a(x)`. -/
structure MusicPath (a : ℝ → Fin v → ℂ) (V : ℝ → Matrix (Fin v) (Fin v) ℂ) (N : ℝ → Matrix (Fin v) (Fin v) ℂ) (θ : ℝ → ℝ) : Prop where
  smooth : ∀ r c, DifferentiableAt ℝ (fun t => N t r c) 0
  herm : ∀ᶠ t in 𝓝 0, (N t)ᴴ = N t
  idem : ∀ᶠ t in 𝓝 0, N t * N t = N t
  invariant : ∀ᶠ t in 𝓝 0, N t * V t = V t * N t
  minimum : ∀ᶠ t in 𝓝 0, IsLocalMin (fun x => (star (a x) ⬝ᵥ (N t *ᵥ a x)).re) (θ t)

/-- **C60** (meaning). Let the base spacing of the array be half a wavelength, `T(M)` the covariance augmentation
(`method='da'`) of `M` and `R = A diag(q) Aᴴ + σ I`. Then `ecov_coarray_music_1d` returns `C i j = Cov(f i, f j) / n` where
`f i` is the first-order error of the `i`-th estimate of coarray MUSIC: if the covariance is `R + t Δ` with Hermitian `Δ`
then the estimate `θ t` that starts at the `i`-th DOA has the derivative `f i Δ` at `t = 0`.
Missing for the full claim: base spacings other than half a wavelength, where the formula is wrong (`C60_violated`). -/
theorem C60_first_order_partial (eigh : Eigh) {a : GridArray} {l : List ℤ} {wl : ℝ} (h : LinearGrid a l (wl / 2)) (hnd : l.Nodup) (hne : l ≠ [])
    (hel : a.element = .isotropicScalar) (hpert : a.perts = []) {v : ℕ} (hv : IsCentralSize l v) {s : FF1D k} (hsc : UlaScene (wl / 2) wl v s)
    {p : PowerArg} {P : Matrix (Fin k) (Fin k) ℂ} (hp : PowerDenotes k p P) {q : Fin k → ℝ} (hq : ∀ i, 0 < q i) (hPq : ∀ i, P i i = (q i : ℂ))
    (σ : ℝ) {n : ℕ} (hn : 1 ≤ n) {w : WeightFunction} (hw : WeightFunction.init a = .ok w) {S : Steering a.element.outputSize a.size k}
    (hS : steering a.toArrayDesign (.ff1 s) wl false "all" = .ok S) (o : Fin a.element.outputSize) :
    ∃ (T : Matrix (Fin a.size) (Fin a.size) ℂ →ₗ[ℂ] Matrix (Fin v) (Fin v) ℂ) (C : Matrix (Fin k) (Fin k) ℝ)
      (f : Fin k → Matrix (Fin a.size) (Fin a.size) ℂ → ℂ),
      (∀ M, (acmTransform w M "da").1 = .ok ⟨v, T M⟩) ∧
      ecovCoarray eigh a (.ff1 s) wl p σ n "full" = .ok (.full C) ∧
      (∀ i j, C i j = (n : ℝ)⁻¹ * (snapshotCov (modelCov (S.A o) q σ) (f i) (f j)).re) ∧
      ∀ i, Real.cos (angleOf s.unit (s.loc i)) ≠ 0 → ∀ Δ, Δ.IsHermitian → ∀ N θ θ',
        MusicPath (fun x => ulaVec v (phaseFactor (wl / 2) wl s.unit x)) (fun t => T (modelCov (S.A o) q σ + (t : ℂ) • Δ)) N θ →
        N 0 = getNoiseSubspace eigh (T (modelCov (S.A o) q σ)) k * (getNoiseSubspace eigh (T (modelCov (S.A o) q σ)) k)ᴴ →
        θ 0 = s.loc i → HasDerivAt θ θ' 0 → (θ' : ℂ) = f i Δ := by
  have : NeZero wl := steering_wl hS
  obtain ⟨T, S', Av, DAv, C, h1, h1h, h1t, h2, hAv, hDAv, h3, h4⟩ := ecovCoarrayWith_formula eigh h.1 hne hel hpert hv hsc hp hq hPq σ hn hw
  have hSS : S' = S := Except.ok.inj (h2.symm.trans hS)
  subst hSS
  have hz : Function.Injective fun c => phaseFactor (wl / 2) wl s.unit (s.loc c) := fun c e hce =>
    hsc.distinct (phaseFactor_inj hsc.d_pos hsc.wl_pos (hsc.valid.2 c) (hsc.valid.2 e) (hsc.unambiguous c e) hce)
  have hinj := ulaMat_injective (m := v) hz hsc.few.le
  have hT := aug_model h hnd hel hpert hw s hsc.valid wl h2 o q σ _ (h1 _)
  refine ⟨T, C, fun i M => musicError Av DAv q i (T M), h1, h3, fun i j => h4 i j o, ?_⟩
  intro i hcos Δ hΔ N θ θ' hpath hN0 hθ0 hθ
  have hk : 1 ≤ k := Nat.one_le_iff_ne_zero.2 fun h0 => by subst h0; exact i.elim0
  have hP : (Matrix.diagonal fun c => (q c : ℂ)).PosDef := by
    rw [posDef_diagonal_iff]
    intro c
    exact_mod_cast hq c
  have hreal := musicError_real (z := fun c => phaseFactor (wl / 2) wl s.unit (s.loc c))
    (w := fun c => Complex.I * ((2 * Real.pi * (wl / 2) / wl * sineRate s.unit (s.loc c) : ℝ) : ℂ))
    (fun c => by
      unfold phaseFactor
      rw [mul_comm, exp_pair, sub_self]; simp)
    (fun c => by rw [star_mul', Complex.star_def, Complex.conj_I, Complex.conj_ofReal, neg_mul]) hinj q i (h1h Δ hΔ) (h1t Δ)
  rw [← hAv] at hinj hreal
  rw [← hDAv] at hreal
  have hre : musicError Av DAv q i (T Δ) = ((musicError Av DAv q i (T Δ)).re : ℂ) := by
    rw [Complex.star_def] at hreal
    exact (Complex.conj_eq_iff_re.1 hreal).symm
  show _ = musicError Av DAv q i (T Δ)
  rw [hre]
  congr 1
  obtain ⟨e, he⟩ := (ulaVec_deriv v (wl / 2) wl hsc.valid.1 hcos).2
  have hder : ∀ r c, HasDerivAt (fun t => N t r c) ((Matrix.of fun r c => deriv (fun t => N t r c) 0) r c) 0 := fun r c => (hpath.smooth r c).hasDerivAt
  have hspan : ¬ ∃ x, Av *ᵥ x = DAv.col i := by
    have hb := ula_ok v (wl / 2) none
    rw [hAv, hDAv]
    obtain ⟨b, hb⟩ := hb
    have hbs : b.toArrayDesign.size = v := (C01_ula_geometry v (wl / 2) none {} b hb).1
    refine ulaDeriv_not_span (w := fun c => Complex.I * ((2 * Real.pi * (wl / 2) / wl * sineRate s.unit (s.loc c) : ℝ) : ℂ)) hz (fun c => phaseFactor_ne_zero _ _ _ _) (fun c => ?_) hsc.few i
    obtain ⟨A', D', g1, -, g3⟩ := hsc.facts hb "all" (by simp)
    rw [ula_steerPair hb s hsc.valid wl "all" (by simp)] at g1
    cases g1
    intro h0
    apply g3 c
    refine ⟨0, ?_⟩
    rw [mulVec_zero]
    funext r
    show (0 : ℂ) = Complex.I * ((2 * Real.pi * (wl / 2) / wl * sineRate s.unit (s.loc c) : ℝ) : ℂ) * _
    rw [h0, zero_mul]
  refine music_first_order (D := DAv) (σ := σ) hinj i (hq i).ne' hspan (h1h Δ hΔ) hder ?_ hpath.herm hpath.idem ?_ ?_ ?_
    (ulaVec_deriv v (wl / 2) wl hsc.valid.1 hcos).1 he hθ hθ0 hpath.minimum
  · rw [hN0, getNoiseSubspace, hT, ← hAv]
    exact noise_proj hk hinj hP (eigh.spec _ (modelCov_isHermitian Av q σ))
  · refine hpath.invariant.mono fun t ht => ?_
    rw [map_add, map_smul, hT, ← hAv] at ht
    exact ht
  · rw [hAv]; rfl
  · rw [hDAv]; rfl

/-- Hypotheses of `C60_formula`, `C60_noise_free_partial` and `C60_first_order_partial` (array part): the two-element ULA with
half-wavelength spacing and one source at `sin θ = 1/2`. -/
example : ∃ (a : GridArray) (w : WeightFunction) (S : Steering a.element.outputSize a.size 1), LinearGrid a [0, 1] (1 / 2) ∧
    ([0, 1] : List ℤ).Nodup ∧ a.element = .isotropicScalar ∧ a.perts = [] ∧ IsCentralSize [0, 1] 2 ∧
    UlaScene (1 / 2) 1 2 (⟨![1 / 2], "sin"⟩ : FF1D 1) ∧ PowerDenotes 1 (.scalar 1) 1 ∧ WeightFunction.init a = .ok w ∧
    steering a.toArrayDesign (.ff1 (⟨![1 / 2], "sin"⟩ : FF1D 1)) 1 false "all" = .ok S ∧
    Real.cos (angleOf "sin" (1 / 2)) ≠ 0 := by
  obtain ⟨a, ha⟩ := ula_ok 2 (1 / 2) none
  obtain ⟨h, -⟩ := linearGrid_of_init ha
  obtain ⟨_, g2, g3, g4, _⟩ := gridInit_spec ha
  have hpert : a.perts = [] := (Except.ok.inj g4).symm
  have hw := weightFunction_init h.1
  have hsc := example_scene (d := 1 / 2) (by norm_num)
  obtain ⟨T, S, Av, DAv, C, h1, -, -, h2, hAv, hDAv, h3, h4⟩ := ecovCoarrayWith_formula someEigh h.1 (by simp) g3 hpert
    example_central hsc (p := .scalar 1) (P := 1) (by simp [PowerDenotes]) (q := fun _ => 1) (fun _ => one_pos) (fun i => by simp) 0 le_rfl hw
  refine ⟨a, _, S, h, by decide, g3, hpert, example_central, hsc, by simp [PowerDenotes], hw, h2, ?_⟩
  rw [show angleOf "sin" (1 / 2) = Real.arcsin (1 / 2) from rfl, Real.cos_arcsin]
  apply (Real.sqrt_pos.2 _).ne'
  norm_num

/-- The `MusicPath` hypothesis of `C60_first_order_partial` is met: two virtual sensors, one source at broadside in white noise, and the
deviation `t [[0, i], [-i, 0]]`. The estimate is `-arctan t / π`. -/
example (σ : ℝ) : MusicPath (fun x => ulaVec 2 (phaseFactor (1 / 2) 1 "sin" x))
      (fun t => modelCov (Matrix.of ![![1], ![1]]) (fun _ : Fin 1 => 1) σ + (t : ℂ) • Matrix.of ![![0, Complex.I], ![-Complex.I, 0]])
      (fun t => (1 / 2 : ℂ) • Matrix.of ![![1, -Complex.exp (Real.arctan t * Complex.I)], ![-Complex.exp (-(Real.arctan t * Complex.I)), 1]])
      (fun t => -Real.arctan t / Real.pi) ∧ HasDerivAt (fun t => -Real.arctan t / Real.pi) (-(1 / Real.pi)) 0 := by
  have hd : ∀ t, HasDerivAt (fun t : ℝ => ((Real.arctan t : ℝ) : ℂ) * Complex.I) (((1 / (1 + t ^ 2) : ℝ) : ℂ) * Complex.I) t :=
    fun t => (Real.hasDerivAt_arctan t).ofReal_comp.mul_const _
  have hconj : ∀ t : ℝ, star (Complex.exp (Real.arctan t * Complex.I)) = Complex.exp (-(Real.arctan t * Complex.I)) := by
    intro t
    rw [Complex.star_def, ← Complex.exp_conj, map_mul, Complex.conj_I, Complex.conj_ofReal, mul_neg]
  have hinv : ∀ t : ℝ, Complex.exp (Real.arctan t * Complex.I) * Complex.exp (-(Real.arctan t * Complex.I)) = 1 := by
    intro t
    rw [← Complex.exp_add, add_neg_cancel, Complex.exp_zero]
  refine ⟨⟨?_, Eventually.of_forall ?_, Eventually.of_forall ?_, Eventually.of_forall ?_, ?_⟩, ?_⟩
  · intro r c
    fin_cases r <;> fin_cases c
    · exact differentiableAt_const ((1 / 2 : ℂ) * 1)
    · exact ((hd 0).cexp.neg.const_mul (1 / 2 : ℂ)).differentiableAt
    · exact ((hd 0).neg.cexp.neg.const_mul (1 / 2 : ℂ)).differentiableAt
    · exact differentiableAt_const ((1 / 2 : ℂ) * 1)
  · intro t
    have h1 := hconj t
    have h2 := congrArg star h1
    rw [star_star] at h2
    rw [conjTranspose_smul]
    congr 1
    · simp
    · ext r c
      rw [conjTranspose_apply]
      fin_cases r <;> fin_cases c
      · exact star_one _
      · show star (-_) = -_
        rw [star_neg, ← h2]
      · show star (-_) = -_
        rw [star_neg, h1]
      · exact star_one _
  · intro t
    have h := hinv t
    generalize Complex.exp (Real.arctan t * Complex.I) = x at *
    generalize Complex.exp (-(Real.arctan t * Complex.I)) = y at *
    ext r c
    fin_cases r <;> fin_cases c <;> simp [mul_apply, Fin.sum_univ_two]
    · linear_combination (1 / 4 : ℂ) * h
    · ring
    · ring
    · linear_combination (1 / 4 : ℂ) * h
  · intro t
    have h : Complex.exp (Real.arctan t * Complex.I) * (1 - t * Complex.I) = Complex.exp (-(Real.arctan t * Complex.I)) * (1 + t * Complex.I) := by
      have e : Complex.exp (-(Real.arctan t * Complex.I)) = Real.cos (Real.arctan t) - Real.sin (Real.arctan t) * Complex.I := by
        rw [← hconj, Complex.exp_mul_I, ← Complex.ofReal_cos, ← Complex.ofReal_sin, Complex.star_def, map_add, map_mul, Complex.conj_ofReal,
          Complex.conj_ofReal, Complex.conj_I]
        ring
      rw [e, Complex.exp_mul_I, ← Complex.ofReal_cos, ← Complex.ofReal_sin]
      have : (Real.sin (Real.arctan t) : ℂ) = t * Real.cos (Real.arctan t) := by
        rw [Real.sin_arctan, Real.cos_arctan]; push_cast; ring
      rw [this]; ring
    generalize Complex.exp (Real.arctan t * Complex.I) = x at *
    generalize Complex.exp (-(Real.arctan t * Complex.I)) = y at *
    ext r c
    fin_cases r <;> fin_cases c <;> simp [mul_apply, Fin.sum_univ_two, modelCov_apply]
    · linear_combination (-1 / 2 : ℂ) * h
    · ring
    · ring
    · linear_combination (1 / 2 : ℂ) * h
  · have hnear : ∀ᶠ t : ℝ in 𝓝 0, -Real.arctan t / Real.pi ∈ Set.Ioo (-1 : ℝ) 1 := by
      have hc : ContinuousAt (fun t : ℝ => -Real.arctan t / Real.pi) 0 := by fun_prop
      exact hc.preimage_mem_nhds (by simpa using Ioo_mem_nhds (by norm_num : (-1 : ℝ) < 0) one_pos)
    filter_upwards [hnear] with t ht
    have hval : ∀ x ∈ Set.Ioo (-1 : ℝ) 1, (star (ulaVec 2 (phaseFactor (1 / 2) 1 "sin" x)) ⬝ᵥ (((1 / 2 : ℂ) •
        Matrix.of ![![1, -Complex.exp (Real.arctan t * Complex.I)], ![-Complex.exp (-(Real.arctan t * Complex.I)), 1]] : Matrix (Fin 2) (Fin 2) ℂ) *ᵥ
        ulaVec 2 (phaseFactor (1 / 2) 1 "sin" x))).re = 1 - Real.cos (Real.arctan t + Real.pi * x) := by
      intro x hx
      have hp : phaseFactor (1 / 2) 1 "sin" x = Complex.exp ((Real.pi * x : ℝ) * Complex.I) := by
        unfold phaseFactor
        rw [show angleOf "sin" x = Real.arcsin x from rfl, Real.sin_arcsin hx.1.le hx.2.le]
        have : (2 * Real.pi * (1 / 2) / 1 * x : ℝ) = Real.pi * x := by ring
        rw [this]
        first | rfl | rw [mul_comm Complex.I]
      have hs : star (Complex.exp ((Real.pi * x : ℝ) * Complex.I)) = Complex.exp (-((Real.pi * x : ℝ) * Complex.I)) := by
        rw [Complex.star_def, ← Complex.exp_conj, map_mul, Complex.conj_I, Complex.conj_ofReal, mul_neg]
      have hpq : Complex.exp ((Real.pi * x : ℝ) * Complex.I) * Complex.exp (-((Real.pi * x : ℝ) * Complex.I)) = 1 := by
        rw [← Complex.exp_add, add_neg_cancel, Complex.exp_zero]
      have e1 : star (ulaVec 2 (phaseFactor (1 / 2) 1 "sin" x)) ⬝ᵥ (((1 / 2 : ℂ) •
          Matrix.of ![![1, -Complex.exp (Real.arctan t * Complex.I)], ![-Complex.exp (-(Real.arctan t * Complex.I)), 1]] : Matrix (Fin 2) (Fin 2) ℂ) *ᵥ
          ulaVec 2 (phaseFactor (1 / 2) 1 "sin" x)) = ((1 - Real.cos (Real.arctan t + Real.pi * x) : ℝ) : ℂ) := by
        rw [Complex.ofReal_sub, Complex.ofReal_cos, Complex.cos, Complex.ofReal_add, neg_mul, add_mul, neg_add, Complex.exp_add, Complex.exp_add]
        simp only [dotProduct, mulVec, ulaVec, Fin.sum_univ_two, hp, Pi.star_apply, star_pow, hs]
        simp only [Matrix.smul_apply, of_apply, cons_val', cons_val_zero, cons_val_one, Fin.val_zero, Fin.val_one, pow_zero, pow_one, smul_eq_mul,
          Complex.ofReal_one]
        linear_combination (1 / 2 : ℂ) * hpq
      rw [e1, Complex.ofReal_re]
    have h1 : Real.cos (Real.arctan t + Real.pi * (-Real.arctan t / Real.pi)) = 1 := by
      rw [mul_div_cancel₀ _ Real.pi_ne_zero, add_neg_cancel, Real.cos_zero]
    show ∀ᶠ x in 𝓝 _, _ ≤ _
    filter_upwards [Ioo_mem_nhds ht.1 ht.2] with x hx
    rw [hval x hx, hval _ ht, h1]
    linarith [Real.cos_le_one (Real.arctan t + Real.pi * x)]
  · have := ((Real.hasDerivAt_arctan 0).neg).div_const Real.pi
    refine this.congr_deriv ?_
    simp [neg_div]

end Doa.Props
