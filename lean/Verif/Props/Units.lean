import Mathlib.Analysis.SpecialFunctions.Trigonometric.InverseDeriv
import Verif.Props.Ecov
import Verif.Props.EcovCoarray
import Verif.Props.Stouc

/-!
# C71: performance bounds and the unit of the source locations
-/

namespace Doa.Props

open Doa Doa.Spec Matrix
open scoped ComplexOrder

variable {m k : ℕ}

/-- A matrix of second moments of the errors of the locations of `s`, converted from the unit of `s` to radians: every error is
multiplied by the derivative of the angle with respect to the location. -/
noncomputable def inRadians (s : FF1D k) (C : Matrix (Fin k) (Fin k) ℝ) : Matrix (Fin k) (Fin k) ℝ :=
  Matrix.of fun i j => deriv (angleOf s.unit) (s.loc i) * C i j * deriv (angleOf s.unit) (s.loc j)

/-- No source is at endfire, where the unit `sin` is singular. -/
def Interior (s : FF1D k) : Prop := ∀ c, |angleOf s.unit (s.loc c)| < Real.pi / 2

theorem angle_rate {s : FF1D k} (hs : Valid1D s) (hi : Interior s) (c : Fin k) :
    deriv (angleOf s.unit) (s.loc c) =
      (if s.unit = "deg" then Real.pi / 180 else if s.unit = "sin" then (Real.cos (angleOf s.unit (s.loc c)))⁻¹ else 1) ∧
    0 < deriv (angleOf s.unit) (s.loc c) := by
  have hpi := Real.pi_pos
  obtain ⟨hu, hr⟩ := hs
  have hi := hi c
  have hr := hr c
  obtain ⟨loc, u⟩ := s
  simp only at hu hi hr ⊢
  rcases hu with rfl | rfl | rfl
  · have : angleOf "rad" = id := by funext x; simp [angleOf]
    rw [this]
    simp
  · have : angleOf "deg" = fun x => x * (Real.pi / 180) := by funext x; simp [angleOf, mul_div_assoc]
    rw [this]
    have hd : deriv (fun x : ℝ => x * (Real.pi / 180)) (loc c) = Real.pi / 180 := by
      have := ((hasDerivAt_id (loc c)).mul_const (Real.pi / 180)).deriv
      simpa using this
    rw [hd]
    exact ⟨by simp, by positivity⟩
  · have h1 : angleOf "sin" = Real.arcsin := by funext x; simp [angleOf]
    rw [h1] at hi ⊢
    rcases hr with ⟨h, _⟩ | ⟨h, _⟩ | ⟨_, hl, hu⟩
    · exact absurd h (by decide)
    · exact absurd h (by decide)
    have hlt := abs_lt.1 hi
    have hl' : loc c ≠ -1 := by
      intro h; rw [h, Real.arcsin_neg_one] at hlt; linarith [hlt.1]
    have hu' : loc c ≠ 1 := by
      intro h; rw [h, Real.arcsin_one] at hlt; linarith [hlt.2]
    have hcos : 0 < Real.cos (Real.arcsin (loc c)) := Real.cos_pos_of_mem_Ioo ⟨hlt.1, hlt.2⟩
    have hd : deriv Real.arcsin (loc c) = (Real.cos (Real.arcsin (loc c)))⁻¹ := by
      rw [(Real.hasDerivAt_arcsin hl' hu').deriv, Real.cos_arcsin, one_div]
    rw [hd]
    exact ⟨by simp, by positivity⟩

/-- The phase delays and their derivatives in terms of angles. -/
theorem phaseDelay_deriv {s : FF1D k} (hs : Valid1D s) (hi : Interior s) (L : Mat ℝ) (wl : ℝ) [NeZero wl] :
    s.phaseDelay L wl true = if 1 ≤ L.ncols ∧ L.ncols ≤ 3 then
      .ok ⟨fun i c => 2 * Real.pi / wl * (L.at0 i 0 * Real.sin (angleOf s.unit (s.loc c)) + L.at0 i 1 * Real.cos (angleOf s.unit (s.loc c))),
        [fun i c => deriv (angleOf s.unit) (s.loc c) *
          (2 * Real.pi / wl * (L.at0 i 0 * Real.cos (angleOf s.unit (s.loc c)) - L.at0 i 1 * Real.sin (angleOf s.unit (s.loc c))))]⟩
      else .error .valueError := by
  split
  swap
  · rename_i h
    have : validSensorDim L = false := by
      rw [← Bool.not_eq_true, validSensorDim_iff]; exact h
    unfold FF1D.phaseDelay
    rw [if_pos (by rw [this]; rfl)]
  rename_i h
  have hv := (validSensorDim_iff L).2 h
  have hrate := fun c => (angle_rate hs hi c).1
  have hdir := FF1D.dir_angle s hs
  simp only [hrate]
  have hpos : ∀ c, 0 < Real.cos (angleOf s.unit (s.loc c)) := fun c =>
    Real.cos_pos_of_mem_Ioo ⟨(abs_lt.1 (hi c)).1, (abs_lt.1 (hi c)).2⟩
  have hnn : s.unit = "sin" → ¬ s.sinNaN L true := by
    rintro hu ⟨-, -, c, hc⟩
    have h1 := hdir c
    rw [FF1D.dir, if_pos hu] at h1
    have h2 : s.loc c = Real.sin (angleOf s.unit (s.loc c)) := congrArg Prod.fst h1
    have h3 := Real.sin_sq_add_cos_sq (angleOf s.unit (s.loc c))
    rw [h2] at hc
    rw [← one_le_sq_iff_one_le_abs] at hc
    nlinarith [pow_pos (hpos c) 2]
  clear hi hrate
  unfold FF1D.phaseDelay
  rw [hv]
  simp only [Bool.not_true, Bool.false_eq_true, if_false, if_neg (NeZero.ne wl)]
  obtain ⟨hu, hr⟩ := hs
  obtain ⟨loc, u⟩ := s
  simp only at hu hdir hpos hnn ⊢
  rcases hu with rfl | rfl | rfl
  · simp only [String.reduceEq, if_false, FF1D.phaseDelayRad, angleOf, if_true, one_mul]
    by_cases h1 : L.ncols = 1
    · simp only [h1, if_true]
      congr 4
      · funext i c; rw [Mat.at0_of_ge L (i := i) (j := 1) (by omega)]; ring
      · funext i c; rw [Mat.at0_of_ge L (i := i) (j := 1) (by omega)]; ring
    · simp only [h1, if_false]
  · simp only [String.reduceEq, if_false, FF1D.phaseDelayRad, angleOf, if_true, deg2rad, mul_div_assoc]
    by_cases h1 : L.ncols = 1
    · simp only [h1, if_true]
      congr 4
      · funext i c; rw [Mat.at0_of_ge L (i := i) (j := 1) (by omega)]; ring
      · funext i c; rw [Mat.at0_of_ge L (i := i) (j := 1) (by omega)]; ring
    · simp only [h1, if_false]
      congr 4
      funext i c; ring
  · rw [if_pos rfl, if_neg (hnn rfl)]
    simp only [FF1D.phaseDelaySin]
    have e1 : ∀ c, Real.sin (angleOf "sin" (loc c)) = loc c := fun c => by
      have := congrArg Prod.fst (hdir c)
      simpa [FF1D.dir] using this.symm
    have e2 : ∀ c, Real.sqrt (1 - loc c * loc c) = Real.cos (angleOf "sin" (loc c)) := fun c => by
      have := congrArg (fun x => x.2.1) (hdir c)
      simpa [FF1D.dir] using this
    simp only [e1, e2, String.reduceEq, if_false, if_true]
    by_cases h1 : L.ncols = 1
    · simp only [h1, if_true]
      congr 4
      · funext i c; rw [Mat.at0_of_ge L (i := i) (j := 1) (by omega)]; ring
      · funext i c; rw [Mat.at0_of_ge L (i := i) (j := 1) (by omega)]
        have := (hpos c).ne'
        field_simp
        ring
    · simp only [h1, if_false]
      congr 4
      funext i c
      have := (hpos c).ne'
      field_simp

/-- Derivatives are only computed for isotropic scalar elements. -/
theorem element_of_deriv {a : ArrayDesign} {src : Sources k} {wl : ℝ} {mode : String} {out} (h : steering a src wl true mode = .ok out) :
    a.element = .isotropicScalar := by
  unfold steering at h
  cases hps : a.filterPerturbations mode with
  | error e => rw [hps] at h; cases h
  | ok ps =>
    rw [hps] at h
    replace h : steerWith a.element a.locations ps src wl true = .ok out := h
    unfold steerWith at h
    cases hel : a.element with
    | isotropicScalar => rfl
    | custom n r =>
      simp only [show a.element.isIsotropic = false by rw [hel]; rfl, Bool.not_false, Bool.true_or, Bool.true_and, if_true] at h
      cases h

/-- The derivative matrix in another unit: the columns are rescaled. -/
theorem steerPair_unit {a : ArrayDesign} {s s' : FF1D k} (hs : Valid1D s) (hi : Interior s) (hs' : Valid1D s')
    (hang : ∀ c, angleOf s'.unit (s'.loc c) = angleOf s.unit (s.loc c)) {wl : ℝ} {mode : String}
    {A D : Matrix (Fin a.size) (Fin k) ℂ} (h : steerPair a (.ff1 s) wl mode = .ok (A, D)) :
    steerPair a (.ff1 s') wl mode = .ok (A, D * diagonal fun c =>
      ((deriv (angleOf s'.unit) (s'.loc c) / deriv (angleOf s.unit) (s.loc c) : ℝ) : ℂ)) := by
  have hi' : Interior s' := fun c => by rw [hang]; exact hi c
  obtain ⟨out, DA, h1, h2, h3, h4, h5⟩ := steers_iff.2 h
  have hel := element_of_deriv h1
  obtain ⟨ps, T, hrows, hps, hT, hsh, hA, hDA⟩ := steering_iso_inv hel h1
  have hT1 : s.phaseDelay _ wl true = .ok T := hT
  have := steering_wl h1
  rw [phaseDelay_deriv hs hi] at hT1
  split at hT1
  swap
  · cases hT1
  rename_i hd
  cases hT1
  have hT' : (Sources.ff1 s').phaseDelay _ wl true = .ok _ := (phaseDelay_deriv hs' hi' _ wl).trans (if_pos hd)
  have hst := steering_iso hel hps hrows hT' hsh
  rw [← steers_iff]
  refine ⟨_, _, hst, h2, rfl, fun l => ?_, fun l => ?_⟩
  · rw [← h4 l, hA]
    dsimp only
    congr 2
    funext i c
    simp only [hang]
  · rw [h3, List.map_singleton, List.cons.injEq] at hDA
    rw [← h5 l, hDA.1]
    beta_reduce
    rw [Matrix.mul_assoc]
    congr 1
    ext i c
    have hne : ((deriv (angleOf s.unit) (s.loc c) : ℝ) : ℂ) ≠ 0 := by exact_mod_cast (angle_rate hs hi c).2.ne'
    rw [mul_diagonal]
    simp only [idealDeriv, hang]
    push_cast
    field_simp

/-! ### Scaling of the numerical parts -/

section
variable {ι : Type} [Fintype ι] [DecidableEq ι]

theorem scale_unit {t : ι → ℝ} (ht : ∀ i, t i ≠ 0) (M : Matrix ι ι ℝ) :
    (IsUnit (diagonal t * M * diagonal t).det ↔ IsUnit M.det) ∧
    (diagonal t * M * diagonal t)⁻¹ = diagonal (fun i => (t i)⁻¹) * M⁻¹ * diagonal fun i => (t i)⁻¹ := by
  have hd : IsUnit (diagonal t).det := by
    rw [det_diagonal]
    exact isUnit_iff_ne_zero.2 (Finset.prod_ne_zero_iff.2 fun i _ => ht i)
  constructor
  · rw [det_mul, det_mul, IsUnit.mul_iff, IsUnit.mul_iff]
    tauto
  · have : (diagonal t)⁻¹ = diagonal fun i => (t i)⁻¹ := by
      refine inv_eq_right_inv ?_
      rw [diagonal_mul_diagonal, ← diagonal_one]
      congr 1
      funext i
      exact mul_inv_cancel₀ (ht i)
    rw [Matrix.mul_inv_rev, Matrix.mul_inv_rev, this, Matrix.mul_assoc]

end

theorem Hmat_scale (A D : Matrix (Fin m) (Fin k) ℂ) (t : Fin k → ℝ) :
    Hmat A (D * diagonal fun c => (t c : ℂ)) = (diagonal fun c => (t c : ℂ)) * Hmat A D * diagonal fun c => (t c : ℂ) := by
  unfold Hmat
  have : (diagonal fun c => (t c : ℂ))ᴴ = diagonal fun c => (t c : ℂ) := by
    rw [diagonal_conjTranspose]
    congr 1
    funext c
    exact Complex.conj_ofReal _
  rw [conjTranspose_mul, this]
  simp only [Matrix.mul_assoc]

theorem reMat_scale (H X : Matrix (Fin k) (Fin k) ℂ) (t : Fin k → ℝ) :
    reMat (((diagonal fun c => (t c : ℂ)) * H * diagonal fun c => (t c : ℂ)) ⊙ X) = diagonal t * reMat (H ⊙ X) * diagonal t := by
  ext i j
  rw [mul_diagonal, diagonal_mul]
  simp only [reMat, of_apply, hadamard_apply, mul_diagonal, diagonal_mul]
  have : (t i : ℂ) * H i j * (t j : ℂ) * X i j = ((t i * t j : ℝ) : ℂ) * (H i j * X i j) := by push_cast; ring
  rw [this, Complex.re_ofReal_mul]
  ring

theorem symPart_scale (X : Matrix (Fin k) (Fin k) ℝ) (c : ℝ) (t : Fin k → ℝ) :
    symPart (c • (diagonal t * X * diagonal t)) = diagonal t * symPart (c • X) * diagonal t := by
  ext i j
  simp only [symPart, of_apply, mul_diagonal, diagonal_mul, Matrix.smul_apply, smul_eq_mul]
  ring

theorem crbStoCore_scale {A D : Matrix (Fin m) (Fin k) ℂ} {P : Matrix (Fin k) (Fin k) ℂ} {σ : ℝ} {n : ℕ} {C : Matrix (Fin k) (Fin k) ℝ}
    {t : Fin k → ℝ} (ht : ∀ c, t c ≠ 0) (h : crbStoCore A D P σ n = .ok C) :
    crbStoCore A (D * diagonal fun c => (t c : ℂ)) P σ n = .ok (diagonal (fun c => (t c)⁻¹) * C * diagonal fun c => (t c)⁻¹) := by
  have := crbStoCore_n h
  obtain ⟨h1, h2, h3, rfl⟩ := crbStoCore_iff.1 h
  rw [crbStoCore_iff, Hmat_scale, reMat_scale, (scale_unit ht _).1, (scale_unit ht _).2, symPart_scale]
  exact ⟨h1, h2, h3, rfl⟩

theorem crbDetCore_scale {A D : Matrix (Fin m) (Fin k) ℂ} {P : Matrix (Fin k) (Fin k) ℂ} {σ : ℝ} {n : ℕ} {C : Matrix (Fin k) (Fin k) ℝ}
    {t : Fin k → ℝ} (ht : ∀ c, t c ≠ 0) (h : crbDetCore A D P σ n = .ok C) :
    crbDetCore A (D * diagonal fun c => (t c : ℂ)) P σ n = .ok (diagonal (fun c => (t c)⁻¹) * C * diagonal fun c => (t c)⁻¹) := by
  have := crbDetCore_n h
  obtain ⟨h1, h3, rfl⟩ := crbDetCore_iff.1 h
  rw [crbDetCore_iff, Hmat_scale, reMat_scale, (scale_unit ht _).1, (scale_unit ht _).2, symPart_scale]
  exact ⟨h1, h3, rfl⟩

theorem ecovMusicCore_scale {A D : Matrix (Fin m) (Fin k) ℂ} {P : Matrix (Fin k) (Fin k) ℂ} {σ : ℝ} {n : ℕ} {C : Matrix (Fin k) (Fin k) ℝ}
    {t : Fin k → ℝ} (ht : ∀ c, t c ≠ 0) (h : ecovMusicCore A D P σ n = .ok C) :
    ecovMusicCore A (D * diagonal fun c => (t c : ℂ)) P σ n = .ok (diagonal (fun c => (t c)⁻¹) * C * diagonal fun c => (t c)⁻¹) := by
  have := ecovMusicCore_n h
  obtain ⟨h1, h3, hnz, rfl⟩ := ecovMusicCore_iff.1 h
  rw [ecovMusicCore_iff, Hmat_scale, reMat_scale]
  refine ⟨h1, h3, ?_⟩
  have hre : ∀ i, (((diagonal fun c => (t c : ℂ)) * Hmat A D * diagonal fun c => (t c : ℂ)) i i).re = t i * t i * (Hmat A D i i).re := by
    intro i
    rw [mul_diagonal, diagonal_mul]
    have : (t i : ℂ) * Hmat A D i i * (t i : ℂ) = ((t i * t i : ℝ) : ℂ) * Hmat A D i i := by push_cast; ring
    rw [this, Complex.re_ofReal_mul]
  simp only [hre]
  refine ⟨fun i => mul_ne_zero (mul_ne_zero (ht i) (ht i)) (hnz i), ?_⟩
  ext i j
  simp only [mul_diagonal, diagonal_mul, Matrix.smul_apply, smul_eq_mul, hadamard_apply, of_apply, mul_inv]
  have hi := ht i
  have hj := ht j
  field_simp

theorem stoucFim_scale (A D : Matrix (Fin m) (Fin k) ℂ) (p : Fin k → ℂ) (W : Matrix (Fin m) (Fin m) ℂ) (t : Fin k → ℝ) :
    stoucFim A (D * diagonal fun c => (t c : ℂ)) p W =
      diagonal (Sum.elim t fun _ => (1 : ℝ)) * stoucFim A D p W * diagonal (Sum.elim t fun _ => (1 : ℝ)) := by
  have hd : (diagonal fun c => (t c : ℂ))ᴴ = diagonal fun c => (t c : ℂ) := by
    rw [diagonal_conjTranspose]
    congr 1
    funext c
    exact Complex.conj_ofReal _
  have e1 : (D * diagonal fun c => (t c : ℂ))ᴴ * W * (D * diagonal fun c => (t c : ℂ)) =
      (diagonal fun c => (t c : ℂ)) * (Dᴴ * W * D) * diagonal fun c => (t c : ℂ) := by
    rw [conjTranspose_mul, hd]; simp only [Matrix.mul_assoc]
  have e2 : (D * diagonal fun c => (t c : ℂ))ᴴ * W * A = (diagonal fun c => (t c : ℂ)) * (Dᴴ * W * A) := by
    rw [conjTranspose_mul, hd]; simp only [Matrix.mul_assoc]
  have e3 : Aᴴ * W * (D * diagonal fun c => (t c : ℂ)) = (Aᴴ * W * D) * diagonal fun c => (t c : ℂ) := by
    simp only [Matrix.mul_assoc]
  ext i j
  rw [mul_diagonal, diagonal_mul]
  unfold stoucFim
  simp only [e1, e2, e3]
  generalize Dᴴ * W * D = X
  generalize Dᴴ * W * A = Y
  generalize Aᴴ * W * D = Z
  generalize Aᴴ * W * A = V
  have hre : ∀ (r : ℝ) (z : ℂ), ((r : ℂ) * z).re = r * z.re := fun r z => Complex.re_ofReal_mul r z
  have hc : ∀ r : ℝ, (starRingEnd ℂ) (r : ℂ) = r := Complex.conj_ofReal
  rcases i with i | i | i <;> rcases j with j | j | j
  · have := congrArg Complex.re (show ((t j : ℂ) * X j i * (t i : ℂ) * V i j + (t i : ℂ) * (starRingEnd ℂ) (Y i j) * (Z i j * (t j : ℂ))) * (p i * p j) =
      ((t i * t j : ℝ) : ℂ) * ((X j i * V i j + (starRingEnd ℂ) (Y i j) * Z i j) * (p i * p j)) by push_cast; ring)
    rw [hre] at this
    simp only [fromBlocks_apply₁₁, Sum.elim_inl, Matrix.smul_apply, smul_eq_mul, reMat, of_apply, hadamard_apply, Matrix.add_apply,
      transpose_apply, map_apply, mul_diagonal, diagonal_mul, Complex.star_def, map_mul, hc]
    linarith
  · have := congrArg Complex.re (show (t i : ℂ) * (starRingEnd ℂ) (Y i j) * (p i * V i j) =
      ((t i : ℝ) : ℂ) * ((starRingEnd ℂ) (Y i j) * (p i * V i j)) by ring)
    rw [hre] at this
    simp only [fromBlocks_apply₁₂, Sum.elim_inl, Sum.elim_inr, Matrix.smul_apply, smul_eq_mul, reMat, of_apply, hadamard_apply,
      map_apply, diagonal_mul, Complex.star_def, map_mul, hc]
    linarith
  · have := congrArg Complex.re (show (p i * ∑ x, (starRingEnd ℂ) (D x i) * (t i : ℂ) * (W * W * A) x i) =
      ((t i : ℝ) : ℂ) * (p i * ∑ x, (starRingEnd ℂ) (D x i) * (W * W * A) x i) by
        rw [Finset.mul_sum, Finset.mul_sum, Finset.mul_sum]
        exact Finset.sum_congr rfl fun x _ => by ring)
    rw [hre] at this
    simp only [fromBlocks_apply₁₂, Sum.elim_inl, Sum.elim_inr, of_apply, mul_diagonal, Complex.star_def, map_mul, hc]
    linarith
  · have := congrArg Complex.re (show (t j : ℂ) * (starRingEnd ℂ) (Y j i) * (p j * V j i) =
      ((t j : ℝ) : ℂ) * ((starRingEnd ℂ) (Y j i) * (p j * V j i)) by ring)
    rw [hre] at this
    simp only [fromBlocks_apply₂₁, Sum.elim_inl, Sum.elim_inr, Matrix.smul_apply, smul_eq_mul, reMat, of_apply, hadamard_apply,
      map_apply, diagonal_mul, Complex.star_def, map_mul, hc]
    linarith
  · simp only [fromBlocks_apply₂₂, Sum.elim_inr]
    ring
  · simp only [fromBlocks_apply₂₂, Sum.elim_inr]
    ring
  · have := congrArg Complex.re (show (p j * ∑ x, (starRingEnd ℂ) (D x j) * (t j : ℂ) * (W * W * A) x j) =
      ((t j : ℝ) : ℂ) * (p j * ∑ x, (starRingEnd ℂ) (D x j) * (W * W * A) x j) by
        rw [Finset.mul_sum, Finset.mul_sum, Finset.mul_sum]
        exact Finset.sum_congr rfl fun x _ => by ring)
    rw [hre] at this
    simp only [fromBlocks_apply₂₁, Sum.elim_inl, Sum.elim_inr, of_apply, mul_diagonal, Complex.star_def, map_mul, hc]
    linarith
  · simp only [fromBlocks_apply₂₂, Sum.elim_inr]
    ring
  · simp only [fromBlocks_apply₂₂, Sum.elim_inr]
    ring

theorem crbStoucCore_scale {A D : Matrix (Fin m) (Fin k) ℂ} {p : Fin k → ℂ} {σ : ℝ} {n : ℕ} {C : Matrix (Fin k) (Fin k) ℝ}
    {t : Fin k → ℝ} (ht : ∀ c, t c ≠ 0) (h : crbStoucCore A D p σ n = .ok C) :
    crbStoucCore A (D * diagonal fun c => (t c : ℂ)) p σ n = .ok (diagonal (fun c => (t c)⁻¹) * C * diagonal fun c => (t c)⁻¹) := by
  have := crbStoucCore_n h
  obtain ⟨h1, h3, rfl⟩ := crbStoucCore_iff.1 h
  have ht' : ∀ i, (Sum.elim t fun _ : Fin k ⊕ Unit => (1 : ℝ)) i ≠ 0 := by
    rintro (i | i)
    · exact ht i
    · exact one_ne_zero
  rw [crbStoucCore_iff, stoucFim_scale, (scale_unit ht' _).1, (scale_unit ht' _).2, ← symPart_scale]
  refine ⟨h1, h3, ?_⟩
  congr 2
  ext i j
  simp [toBlocks₁₁, mul_diagonal, diagonal_mul]

/-- The coarray covariance: every column of `Xi` is divided by the rate of its source. -/
theorem ecovCoarrayNaN_scale (eigh : Eigh) {mv : ℕ} (p : Fin k → ℂ) (σ : ℝ) (n : ℕ)
    (Av DAv : Matrix (Fin mv) (Fin k) ℂ) {t : Fin k → ℝ} (ht : ∀ c, t c ≠ 0) :
    ecovCoarrayNaN eigh p σ n Av (DAv * diagonal fun c => (t c : ℂ)) ↔ ecovCoarrayNaN eigh p σ n Av DAv := by
  unfold ecovCoarrayNaN
  dsimp only
  generalize noiseCols (eigh.run (scaleCols Av p * Avᴴ + (σ : ℂ) • (1 : Matrix (Fin mv) (Fin mv) ℂ))).2 k *
    (noiseCols (eigh.run (scaleCols Av p * Avᴴ + (σ : ℂ) • (1 : Matrix (Fin mv) (Fin mv) ℂ))).2 k)ᴴ = Q
  have hb : ∀ c, (Q *ᵥ fun i => (DAv * diagonal fun c => (t c : ℂ)) i c) = (t c : ℂ) • (Q *ᵥ fun i => DAv i c) := by
    intro c
    rw [← mulVec_smul]
    congr 1
    funext i
    rw [mul_diagonal, Pi.smul_apply, smul_eq_mul, mul_comm]
  have h2 : ∀ c, (star ((t c : ℂ) • (Q *ᵥ fun i => DAv i c)) ⬝ᵥ ((t c : ℂ) • (Q *ᵥ fun i => DAv i c))).re =
      t c * t c * (star (Q *ᵥ fun i => DAv i c) ⬝ᵥ (Q *ᵥ fun i => DAv i c)).re := by
    intro c
    rw [star_smul, smul_dotProduct, dotProduct_smul, Complex.star_def, Complex.conj_ofReal, smul_eq_mul, smul_eq_mul, Complex.re_ofReal_mul,
      Complex.re_ofReal_mul, mul_assoc]
  refine or_congr Iff.rfl (exists_congr fun c => or_congr Iff.rfl ?_)
  rw [hb, h2, mul_eq_zero, mul_eq_zero, or_self]
  exact ⟨fun h => h.resolve_left (ht c), .inr⟩

theorem ecovCoarrayCore_scale (eigh : Eigh) {mv : ℕ} (A : Matrix (Fin m) (Fin k) ℂ) (p : Fin k → ℂ) (σ : ℝ) (n : ℕ)
    (Av DAv : Matrix (Fin mv) (Fin k) ℂ) (F : Matrix (Fin (2 * mv - 1)) (Fin (m * m)) ℂ) {t : Fin k → ℝ} (ht : ∀ c, t c ≠ 0) :
    ecovCoarrayCore eigh A p σ n Av (DAv * diagonal fun c => (t c : ℂ)) F =
      diagonal (fun c => (t c)⁻¹) * ecovCoarrayCore eigh A p σ n Av DAv F * diagonal fun c => (t c)⁻¹ := by
  unfold ecovCoarrayCore
  dsimp only
  generalize noiseCols (eigh.run (scaleCols Av p * Avᴴ + (σ : ℂ) • (1 : Matrix (Fin mv) (Fin mv) ℂ))).2 k *
    (noiseCols (eigh.run (scaleCols Av p * Avᴴ + (σ : ℂ) • (1 : Matrix (Fin mv) (Fin mv) ℂ))).2 k)ᴴ = Q
  generalize (subarraySelection mv * F)ᵀ = G
  generalize hK : (Matrix.of fun r c : Fin (m * m) =>
    (scaleCols A p * Aᴴ + (σ : ℂ) • (1 : Matrix (Fin m) (Fin m) ℂ)) (finProdFinEquiv.symm r).1 (finProdFinEquiv.symm c).1 *
    (scaleCols A p * Aᴴ + (σ : ℂ) • (1 : Matrix (Fin m) (Fin m) ℂ))ᵀ (finProdFinEquiv.symm r).2 (finProdFinEquiv.symm c).2) = K
  generalize hX : (Matrix.of fun (r : Fin (m * m)) (c : Fin k) =>
    (G *ᵥ outerFlat (Q *ᵥ fun i => DAv i c) fun j => -npPinv Av c j / p c) r /
      (((star (Q *ᵥ fun i => DAv i c) ⬝ᵥ (Q *ᵥ fun i => DAv i c)).re : ℝ) : ℂ)) = X
  have hb : ∀ c, (Q *ᵥ fun i => (DAv * diagonal fun c => (t c : ℂ)) i c) = (t c : ℂ) • (Q *ᵥ fun i => DAv i c) := by
    intro c
    rw [← mulVec_smul]
    congr 1
    funext i
    rw [mul_diagonal, Pi.smul_apply, smul_eq_mul, mul_comm]
  have hXt : (Matrix.of fun (r : Fin (m * m)) (c : Fin k) =>
      (G *ᵥ outerFlat (Q *ᵥ fun i => (DAv * diagonal fun c => (t c : ℂ)) i c) fun j => -npPinv Av c j / p c) r /
        (((star (Q *ᵥ fun i => (DAv * diagonal fun c => (t c : ℂ)) i c) ⬝ᵥ (Q *ᵥ fun i => (DAv * diagonal fun c => (t c : ℂ)) i c)).re : ℝ) : ℂ)) =
      X * diagonal fun c => (((t c)⁻¹ : ℝ) : ℂ) := by
    subst hX
    ext r c
    rw [mul_diagonal, of_apply, of_apply, hb]
    have h1 : outerFlat ((t c : ℂ) • (Q *ᵥ fun i => DAv i c)) (fun j => -npPinv Av c j / p c) =
        (t c : ℂ) • outerFlat (Q *ᵥ fun i => DAv i c) (fun j => -npPinv Av c j / p c) := by
      funext x
      simp only [outerFlat, Pi.smul_apply, smul_eq_mul]
      ring
    have h2 : (star ((t c : ℂ) • (Q *ᵥ fun i => DAv i c)) ⬝ᵥ ((t c : ℂ) • (Q *ᵥ fun i => DAv i c))).re =
        t c * t c * (star (Q *ᵥ fun i => DAv i c) ⬝ᵥ (Q *ᵥ fun i => DAv i c)).re := by
      rw [star_smul, smul_dotProduct, dotProduct_smul, Complex.star_def, Complex.conj_ofReal, smul_eq_mul, smul_eq_mul, Complex.re_ofReal_mul,
        Complex.re_ofReal_mul, mul_assoc]
    rw [h1, h2, mulVec_smul, Pi.smul_apply, smul_eq_mul]
    have hne : (t c : ℂ) ≠ 0 := by exact_mod_cast ht c
    push_cast
    field_simp
  refine (congrArg (fun Y : Matrix (Fin (m * m)) (Fin k) ℂ => (n : ℝ)⁻¹ • reMat (Yᴴ * K * Y)) hXt).trans ?_
  have hd : (diagonal fun c => (((t c)⁻¹ : ℝ) : ℂ))ᴴ = diagonal fun c => (((t c)⁻¹ : ℝ) : ℂ) := by
    rw [diagonal_conjTranspose]
    congr 1
    funext c
    exact Complex.conj_ofReal _
  rw [conjTranspose_mul, hd]
  ext i j
  have h1 : ((diagonal fun c => (((t c)⁻¹ : ℝ) : ℂ)) * Xᴴ * K * (X * diagonal fun c => (((t c)⁻¹ : ℝ) : ℂ))) i j =
      (((t i)⁻¹ * (t j)⁻¹ : ℝ) : ℂ) * (Xᴴ * K * X) i j := by
    rw [← Matrix.mul_assoc, mul_diagonal, Matrix.mul_assoc (diagonal _), Matrix.mul_assoc (diagonal _), diagonal_mul]
    push_cast
    ring
  rw [mul_diagonal, diagonal_mul, Matrix.smul_apply, Matrix.smul_apply, reMat, of_apply, h1, Complex.re_ofReal_mul, reMat, of_apply,
    smul_eq_mul, smul_eq_mul]
  ring

theorem ecovCoarrayWith_scale (eigh : Eigh) (spacing : ℝ) {s s' : FF1D k} (hs : Valid1D s) (hi : Interior s) {u : String} (hu : Unit1D u)
    (h : s.asUnit u = .ok s') (hs' : Valid1D s') (hang : ∀ c, angleOf s'.unit (s'.loc c) = angleOf s.unit (s.loc c))
    (a : GridArray) (wl : ℝ) (p : PowerArg) (σ : ℝ) (n : ℕ) (C : Matrix (Fin k) (Fin k) ℝ)
    (ht : ∀ c, deriv (angleOf s'.unit) (s'.loc c) / deriv (angleOf s.unit) (s.loc c) ≠ 0)
    (hC : ecovCoarrayWith eigh spacing a (.ff1 s) wl p σ n "full" = .ok (.full C)) :
    ecovCoarrayWith eigh spacing a (.ff1 s') wl p σ n "full" = .ok (.full
      (diagonal (fun c => (deriv (angleOf s'.unit) (s'.loc c) / deriv (angleOf s.unit) (s.loc c))⁻¹) * C *
        diagonal fun c => (deriv (angleOf s'.unit) (s'.loc c) / deriv (angleOf s.unit) (s.loc c))⁻¹)) := by
  unfold ecovCoarrayWith at hC ⊢
  rw [(C15_unit_independent_1d s s' hs u hu h wl).2]
  have hf : ∀ x : FF1D k, (Sources.ff1 x).isFF1 = true := fun _ => rfl
  simp only [hf, Bool.not_true, Bool.false_eq_true, if_false] at hC ⊢
  split at hC
  · cases hC
  rename_i hper
  rw [if_neg hper]
  cases hq : unifyPToVector p k with
  | error e => rw [hq] at hC; cases hC
  | ok q =>
    rw [hq] at hC
    simp only at hC ⊢
    cases hw : WeightFunction.init a with
    | error e => rw [hw] at hC; cases hC
    | ok wf =>
      rw [hw] at hC
      simp only at hC ⊢
      cases hF : (wf.selectionMatrix ℂ false).1 with
      | error e => rw [hF] at hC; cases hC
      | ok F =>
        rw [hF] at hC
        simp only at hC ⊢
        split at hC
        · cases hC
        rename_i hk
        rw [if_neg hk]
        cases hst : steering a.toArrayDesign (.ff1 s) wl false "all" with
        | error e => rw [hst] at hC; cases hC
        | ok out =>
          rw [hst] at hC
          simp only at hC ⊢
          cases hv : ula ((F.length + 1) / 2) (.scalar spacing) none {} with
          | error e => rw [hv] at hC; cases hC
          | ok v =>
            rw [hv] at hC
            simp only at hC ⊢
            cases hsp : steerPair v.toArrayDesign (.ff1 s) wl "all" with
            | error e => rw [hsp] at hC; cases hC
            | ok r =>
              obtain ⟨Av, DAv⟩ := r
              rw [hsp] at hC
              rw [steerPair_unit hs hi hs' hang hsp]
              simp only at hC ⊢
              split at hC
              · rename_i h1
                rw [dif_pos h1]
                split at hC
                · cases hC
                rename_i hN
                rw [if_neg (fun h => hN ((ecovCoarrayNaN_scale eigh _ _ _ _ _ ht).1 h))]
                rw [reduceOutput_full_iff] at hC ⊢
                rw [ecovCoarrayCore_scale eigh _ _ _ _ _ _ _ ht, hC]
              · cases hC

/-! ### C71 -/

/-- **C71**. Give the same directions in two units: `s' = s.as_unit(u)`. Whenever one of the five performance functions returns a bound for
`s`, it returns a bound for `s'`, and converted to radians the two are equal. No source may be at endfire. -/
theorem C71_units {s s' : FF1D k} (hs : Valid1D s) (hi : Interior s) {u : String} (hu : Unit1D u) (h : s.asUnit u = .ok s')
    (a : ArrayDesign) (g : GridArray) (eigh : Eigh) (wl : ℝ) (p : PowerArg) (σ : ℝ) (n : ℕ) (pert : String) (C : Matrix (Fin k) (Fin k) ℝ) :
    (crbSto a (.ff1 s) wl p σ n "full" = .ok (.full C) →
      ∃ C', crbSto a (.ff1 s') wl p σ n "full" = .ok (.full C') ∧ inRadians s' C' = inRadians s C) ∧
    (crbDet a (.ff1 s) wl p σ n "full" = .ok (.full C) →
      ∃ C', crbDet a (.ff1 s') wl p σ n "full" = .ok (.full C') ∧ inRadians s' C' = inRadians s C) ∧
    (crbStouc a (.ff1 s) wl p σ n "full" = .ok (.full C) →
      ∃ C', crbStouc a (.ff1 s') wl p σ n "full" = .ok (.full C') ∧ inRadians s' C' = inRadians s C) ∧
    (ecovMusic a (.ff1 s) wl p σ n pert "full" = .ok (.full C) →
      ∃ C', ecovMusic a (.ff1 s') wl p σ n pert "full" = .ok (.full C') ∧ inRadians s' C' = inRadians s C) ∧
    (ecovCoarray eigh g (.ff1 s) wl p σ n "full" = .ok (.full C) →
      ∃ C', ecovCoarray eigh g (.ff1 s') wl p σ n "full" = .ok (.full C') ∧ inRadians s' C' = inRadians s C) := by
  obtain ⟨s'', h1, h2, hs', hang, _⟩ := C14_as_unit_1d s hs u hu
  obtain rfl : s' = s'' := by rw [h] at h1; exact Except.ok.inj h1
  have hi' : Interior s' := fun c => by rw [hang]; exact hi c
  set t : Fin k → ℝ := fun c => deriv (angleOf s'.unit) (s'.loc c) / deriv (angleOf s.unit) (s.loc c) with htdef
  have hp1 := fun c => (angle_rate hs hi c).2
  have hp2 := fun c => (angle_rate hs' hi' c).2
  have ht : ∀ c, t c ≠ 0 := fun c => (div_pos (hp2 c) (hp1 c)).ne'
  have hrad : ∀ C : Matrix (Fin k) (Fin k) ℝ, inRadians s' (diagonal (fun c => (t c)⁻¹) * C * diagonal fun c => (t c)⁻¹) = inRadians s C := by
    intro C
    ext i j
    simp only [inRadians, of_apply, mul_diagonal, diagonal_mul, htdef, inv_div]
    have h1 := (hp2 i).ne'
    have h2 := (hp2 j).ne'
    field_simp
  refine ⟨fun hC => ?_, fun hC => ?_, fun hC => ?_, fun hC => ?_, fun hC => ?_⟩
  · obtain ⟨_, P, A, D, g1, g2, g3⟩ := crbSto_full_iff.1 hC
    exact ⟨_, crbSto_full_iff.2 ⟨rfl, P, A, _, g1, steerPair_unit hs hi hs' hang g2, crbStoCore_scale ht g3⟩, hrad C⟩
  · obtain ⟨_, P, A, D, g1, g2, g3⟩ := crbDet_full_iff.1 hC
    exact ⟨_, crbDet_full_iff.2 ⟨rfl, P, A, _, g1, steerPair_unit hs hi hs' hang g2, crbDetCore_scale ht g3⟩, hrad C⟩
  · obtain ⟨_, P, A, D, g1, g2, g3⟩ := crbStouc_full_iff.1 hC
    exact ⟨_, crbStouc_full_iff.2 ⟨rfl, P, A, _, g1, steerPair_unit hs hi hs' hang g2, crbStoucCore_scale ht g3⟩, hrad C⟩
  · obtain ⟨_, hk, P, A, D, g1, g2, g3⟩ := ecovMusic_full_iff.1 hC
    exact ⟨_, ecovMusic_full_iff.2 ⟨rfl, hk, P, A, _, g1, steerPair_unit hs hi hs' hang g2, ecovMusicCore_scale ht g3⟩, hrad C⟩
  · exact ⟨_, ecovCoarrayWith_scale eigh _ hs hi hu h hs' hang g wl p σ n C ht hC, hrad C⟩

/-- Non-vacuity: two sources at sines 0 and 1/2 on a three-element ULA; the bound exists, and the
stochastic bound in degrees is the one in sines after conversion. -/
example : ∃ (a : GridArray) (s' : FF1D 2) (C C' : Matrix (Fin 2) (Fin 2) ℝ),
    ula 3 (.scalar (1 / 2)) none {} = .ok a ∧ (⟨![0, 1 / 2], "sin"⟩ : FF1D 2).asUnit "deg" = .ok s' ∧
    crbSto a.toArrayDesign (.ff1 (⟨![0, 1 / 2], "sin"⟩ : FF1D 2)) 1 (.scalar 1) 1 10 "full" = .ok (.full C) ∧ C.PosDef ∧
    crbSto a.toArrayDesign (.ff1 s') 1 (.scalar 1) 1 10 "full" = .ok (.full C') ∧
    inRadians s' C' = inRadians (⟨![0, 1 / 2], "sin"⟩ : FF1D 2) C := by
  obtain ⟨a, ha⟩ := ula_ok 3 (1 / 2) none
  have hP : (Matrix.diagonal fun _ : Fin 2 => ((1 : ℝ) : ℂ)).PosDef := by
    rw [Complex.ofReal_one]; exact (diagonal_one (n := Fin 2) (α := ℂ)) ▸ PosDef.one
  obtain ⟨⟨C, h1, h2⟩, _⟩ := C58_ula exampleScene ha (p := .scalar 1) rfl hP one_pos (N := 10) (by norm_num)
  obtain ⟨s', hs', -⟩ := C14_as_unit_1d _ exampleScene.valid "deg" (by simp [Unit1D])
  have hi : Interior (⟨![0, 1 / 2], "sin"⟩ : FF1D 2) := by
    intro c
    have hpi := Real.pi_pos
    have e : ∀ x : ℝ, angleOf "sin" x = Real.arcsin x := fun x => by simp [angleOf]
    fin_cases c
    · show |angleOf "sin" 0| < _
      rw [e, Real.arcsin_zero, abs_zero]
      positivity
    · show |angleOf "sin" (1 / 2)| < _
      rw [e, abs_lt]
      exact ⟨Real.neg_pi_div_two_lt_arcsin.2 (by norm_num), Real.arcsin_lt_pi_div_two.2 (by norm_num)⟩
  obtain ⟨C', h3, h4⟩ := (C71_units exampleScene.valid hi (by simp [Unit1D]) hs' a.toArrayDesign a someEigh 1 (.scalar 1) 1 10 "all" C).1 h1
  exact ⟨a, s', C, C', ha, hs', h1, h2, h3, h4⟩

end Doa.Props
