import Verif.Props.Units

/-!
# C72: performance bounds and the position of the array
-/

namespace Doa.Props

open Doa Doa.Spec Matrix
open scoped ComplexOrder

variable {m k : ℕ}

/-! ### Perturbed locations of a translated array -/

theorem perturbLocations_size (err L : Mat ℝ) : (perturbLocations err L).nrows = min L.nrows err.nrows := by
  unfold perturbLocations
  split <;> simp [Mat.nrows]

theorem perturbLocations_at0_of_lt (err L : Mat ℝ) (i j : ℕ) (hi : i < L.nrows) (hi' : i < err.nrows) :
    (perturbLocations err L).at0 i j = L.at0 i j + err.at0 i j := by
  have hc := perturbLocations_ncols err L
  have h1 : i < L.rows.length := hi
  have h2 : i < err.rows.length := hi'
  by_cases hj : j < max L.ncols err.ncols
  · by_cases hle : err.ncols ≤ L.ncols
    · have hjL : j < L.ncols := by omega
      unfold perturbLocations
      rw [if_pos hle, Mat.at0_eq L hi hjL]
      refine (Mat.at0_mk _ (by simp; omega) hjL).trans ?_
      simp only [List.getElem_zipWith]
      by_cases hje : j < err.ncols
      · rw [Mat.at0_eq err hi' hje, dif_pos hje]; rfl
      · rw [Mat.at0_of_ge err (by omega), dif_neg hje, add_zero]; rfl
    · have hje : j < err.ncols := by omega
      unfold perturbLocations
      rw [if_neg hle, Mat.at0_eq err hi' hje]
      refine (Mat.at0_mk _ (by simp; omega) hje).trans ?_
      simp only [List.getElem_zipWith]
      by_cases hjL : j < L.ncols
      · rw [Mat.at0_eq L hi hjL, dif_pos hjL, add_comm]; rfl
      · rw [Mat.at0_of_ge L (by omega), dif_neg hjL, zero_add]; rfl
  · rw [Mat.at0_of_ge _ (by omega), Mat.at0_of_ge _ (by omega), Mat.at0_of_ge _ (by omega), add_zero]

/-- Location errors act on the translated array as on the original one. -/
theorem foldl_translated (τ : ℕ → ℝ) (ps : List Perturbation) : ∀ (L L' : Mat ℝ), L'.nrows = L.nrows → L'.ncols = L.ncols →
    (∀ i j, i < L.nrows → L'.at0 i j = L.at0 i j + τ j) →
    (ps.foldl (fun l p => p.perturbSensorLocations l) L').nrows = (ps.foldl (fun l p => p.perturbSensorLocations l) L).nrows ∧
    (ps.foldl (fun l p => p.perturbSensorLocations l) L').ncols = (ps.foldl (fun l p => p.perturbSensorLocations l) L).ncols ∧
    ∀ i j, i < (ps.foldl (fun l p => p.perturbSensorLocations l) L).nrows →
      (ps.foldl (fun l p => p.perturbSensorLocations l) L').at0 i j = (ps.foldl (fun l p => p.perturbSensorLocations l) L).at0 i j + τ j := by
  induction ps with
  | nil => intro L L' h1 h2 h3; exact ⟨h1, h2, h3⟩
  | cons p ps ih =>
    intro L L' h1 h2 h3
    simp only [List.foldl_cons]
    cases p with
    | location err kn =>
      show (ps.foldl (fun l p => p.perturbSensorLocations l) (perturbLocations err L')).nrows =
        (ps.foldl (fun l p => p.perturbSensorLocations l) (perturbLocations err L)).nrows ∧ _
      refine ih (perturbLocations err L) (perturbLocations err L') ?_ ?_ ?_
      · rw [perturbLocations_size, perturbLocations_size, h1]
      · rw [perturbLocations_ncols, perturbLocations_ncols, h2]
      · intro i j hi
        rw [perturbLocations_size, lt_min_iff] at hi
        rw [perturbLocations_at0_of_lt _ _ _ _ (h1 ▸ hi.1) hi.2, perturbLocations_at0_of_lt _ _ _ _ hi.1 hi.2, h3 i j hi.1]
        ring
    | base kn => exact ih L L' h1 h2 h3
    | gain g kn => exact ih L L' h1 h2 h3
    | phase g kn => exact ih L L' h1 h2 h3
    | coupling C kn => exact ih L L' h1 h2 h3

/-- When derivatives of the phase delays exist for sensors with `d` coordinates. -/
def DerivOk (s : FF1D k) (wl : ℝ) (d : ℕ) : Prop :=
  (1 ≤ d ∧ d ≤ 3) ∧ wl ≠ 0 ∧ ¬ (s.unit = "sin" ∧ d ≠ 1 ∧ ∃ c, 1 ≤ |s.loc c|)

open Classical in
theorem phaseDelay_ok (s : FF1D k) (wl : ℝ) (L : Mat ℝ) :
    (DerivOk s wl L.ncols → s.phaseDelay L wl true =
      if s.unit = "sin" then .ok (s.phaseDelaySin L wl true) else .ok (s.phaseDelayRad L wl true)) ∧
    (∀ T, s.phaseDelay L wl true = .ok T → DerivOk s wl L.ncols) := by
  constructor
  · rintro ⟨h, hw, hn⟩
    unfold FF1D.phaseDelay
    rw [(validSensorDim_iff L).2 h]
    simp only [Bool.not_true, Bool.false_eq_true, if_false, if_neg hw]
    split
    · rename_i hu
      exact if_neg fun hc => hn ⟨hu, hc.2⟩
    · rfl
  · intro T hT
    unfold FF1D.phaseDelay at hT
    split at hT
    · cases hT
    rename_i hv
    split at hT
    · cases hT
    rename_i hw
    refine ⟨(validSensorDim_iff L).1 (by simpa using hv), hw, ?_⟩
    rintro ⟨hu, hc⟩
    rw [if_pos hu, if_pos ⟨rfl, hc⟩] at hT
    cases hT

/-- The phase delays and their derivatives are linear in the coordinates of a sensor. -/
theorem phaseDelay_linear (s : FF1D k) (wl : ℝ) : ∃ γ δ : Fin k → ℝ, ∀ L : Mat ℝ, DerivOk s wl L.ncols → s.phaseDelay L wl true =
      .ok ⟨fun i c => 2 * Real.pi / wl * (L.at0 i 0 * (s.dir c).1 + L.at0 i 1 * (s.dir c).2.1),
        [fun i c => L.at0 i 0 * γ c + L.at0 i 1 * δ c]⟩ := by
  by_cases hu : s.unit = "sin"
  · refine ⟨fun c => 2 * Real.pi / wl, fun c => -(2 * Real.pi / wl) * (s.loc c / Real.sqrt (1 - s.loc c * s.loc c)), fun L h => ?_⟩
    rw [(phaseDelay_ok s wl L).1 h, if_pos hu]
    unfold FF1D.phaseDelaySin FF1D.dir
    by_cases h1 : L.ncols = 1
    · simp only [h1, hu, if_true]
      congr 4
      · funext i c; rw [Mat.at0_of_ge L (i := i) (j := 1) (by omega)]; ring
      · funext i c; rw [Mat.at0_of_ge L (i := i) (j := 1) (by omega)]; ring
    · simp only [h1, hu, if_false, if_true]
      congr 4
      funext i c
      ring
  · refine ⟨fun c => (if s.unit = "deg" then Real.pi / 180 else 1) * (2 * Real.pi / wl) * (s.dir c).2.1,
      fun c => -((if s.unit = "deg" then Real.pi / 180 else 1) * (2 * Real.pi / wl) * (s.dir c).1), fun L h => ?_⟩
    rw [(phaseDelay_ok s wl L).1 h, if_neg hu]
    unfold FF1D.phaseDelayRad FF1D.dir
    by_cases hd : s.unit = "deg" <;> by_cases h1 : L.ncols = 1
    · simp only [h1, hd, if_true]
      congr 4
      · funext i c; rw [Mat.at0_of_ge L (i := i) (j := 1) (by omega)]; simp
      · funext i c; rw [Mat.at0_of_ge L (i := i) (j := 1) (by omega)]; simp; ring
    · simp only [h1, hd, if_true, if_false, String.reduceEq]
      congr 4
      funext i c; ring
    · simp only [h1, hu, hd, if_true, if_false]
      congr 4
      · funext i c; rw [Mat.at0_of_ge L (i := i) (j := 1) (by omega)]; simp
      · funext i c; rw [Mat.at0_of_ge L (i := i) (j := 1) (by omega)]; simp; ring
    · simp only [h1, hu, hd, if_true, if_false]
      congr 4
      funext i c; ring

/-- Renumbering of the rows along an equality of sizes. -/
def castRows {m' : ℕ} (h : m' = m) (A : Matrix (Fin m) (Fin k) ℂ) : Matrix (Fin m') (Fin k) ℂ := fun i => A (Fin.cast h i)

/-- Steering matrix and derivative matrix of the translated array. -/
theorem steerPair_translate {a a' : ArrayDesign} (hel : a'.element = a.element) (hpt : a'.perts = a.perts) {t : ℕ → ℝ}
    (ht : Translated a.locations a'.locations t) {s : FF1D k} {wl : ℝ} {mode : String}
    {A D : Matrix (Fin a.size) (Fin k) ℂ} (h : steerPair a (.ff1 s) wl mode = .ok (A, D)) :
    ∃ ψ' : Fin k → ℝ, ∃ φ : Fin k → ℂ, (∀ c, φ c = Complex.exp (Complex.I *
        ((2 * Real.pi / wl * ((if 0 < a.ndim then t 0 else 0) * (s.dir c).1 + (if 1 < a.ndim then t 1 else 0) * (s.dir c).2.1) : ℝ) : ℂ))) ∧
      steerPair a' (.ff1 s) wl mode = .ok
        (castRows (m' := a'.size) (m := a.size) ht.1 (A * diagonal φ), castRows (m' := a'.size) (m := a.size) ht.1 ((D + A * diagonal fun c => Complex.I * ((ψ' c : ℝ) : ℂ)) * diagonal φ)) := by
  obtain ⟨out, DA, h1, h2, h3, h4, h5⟩ := steers_iff.2 h
  have hiso := element_of_deriv h1
  obtain ⟨ps, T, hrows, hps, hT, hsh, hA, hDA⟩ := steering_iso_inv hiso h1
  obtain ⟨γ, δ, hlin⟩ := phaseDelay_linear s wl
  set τ : ℕ → ℝ := fun j => if j < a.ndim then t j else 0 with hτ
  obtain ⟨q1, q2, q3⟩ := foldl_translated τ ps a.locations a'.locations ht.1 ht.2.1 (by
    intro i j hi
    by_cases hj : j < a.locations.ncols
    · rw [ht.2.2 i j hi hj]
      exact congrArg _ (if_pos hj : (if j < a.ndim then t j else 0) = t j).symm
    · rw [Mat.at0_of_ge _ (by rw [ht.2.1]; omega), Mat.at0_of_ge _ (by omega), zero_add]
      exact (if_neg hj : (if j < a.ndim then t j else 0) = 0).symm)
  have hT1 : s.phaseDelay _ wl true = .ok T := hT
  have hd := (phaseDelay_ok s wl _).2 _ hT1
  rw [hlin _ hd] at hT1
  cases hT1
  have hT' : (Sources.ff1 s).phaseDelay (ps.foldl (fun l p => p.perturbSensorLocations l) a'.locations) wl true = .ok _ :=
    hlin _ (q2 ▸ hd)
  have hrows' : (ps.foldl (fun l p => p.perturbSensorLocations l) a'.locations).nrows = a'.size := by
    rw [q1, hrows]; exact ht.1.symm
  have hps' : a'.filterPerturbations mode = .ok ps := by
    rw [← hps]
    unfold ArrayDesign.filterPerturbations
    rw [hpt]
  have hsize : a'.size = a.size := ht.1
  have hst := steering_iso (hel.trans hiso) hps' hrows' hT' (by rw [hsize]; exact hsh)
  refine ⟨fun c => τ 0 * γ c + τ 1 * δ c, _, fun c => rfl, ?_⟩
  have hat : ∀ (i : Fin a'.size) j, (ps.foldl (fun l p => p.perturbSensorLocations l) a'.locations).at0 i j =
      (ps.foldl (fun l p => p.perturbSensorLocations l) a.locations).at0 i j + τ j := fun i j => q3 i j (by rw [hrows, ← hsize]; exact i.2)
  have hF : totalFactor a'.size ps = (totalFactor a.size ps).submatrix (Fin.cast hsize) (Fin.cast hsize) := by
    have : ∀ m m' (e : m' = m), totalFactor m' ps = (totalFactor m ps).submatrix (Fin.cast e) (Fin.cast e) := by
      rintro m _ rfl; rfl
    exact this _ _ hsize
  have hmul : ∀ (X : Matrix (Fin a.size) (Fin k) ℂ), totalFactor a'.size ps * castRows hsize X = castRows hsize (totalFactor a.size ps * X) := by
    intro X
    rw [hF]
    have : ∀ m m' (e : m' = m) (F : Matrix (Fin m) (Fin m) ℂ) (X : Matrix (Fin m) (Fin k) ℂ),
        F.submatrix (Fin.cast e) (Fin.cast e) * castRows e X = castRows e (F * X) := by
      rintro m _ rfl F X; rfl
    exact this _ _ hsize _ X
  have hA' : totalFactor a.size ps * ideal hrows (fun (i : Fin _) c => 2 * Real.pi / wl *
      ((ps.foldl (fun l p => p.perturbSensorLocations l) a.locations).at0 i 0 * (s.dir c).1 +
        (ps.foldl (fun l p => p.perturbSensorLocations l) a.locations).at0 i 1 * (s.dir c).2.1)) = A := by
    have := congrFun hA ⟨0, by omega⟩
    rw [h4] at this
    exact this.symm
  have hD' : totalFactor a.size ps * idealDeriv hrows (fun (i : Fin _) c => 2 * Real.pi / wl *
      ((ps.foldl (fun l p => p.perturbSensorLocations l) a.locations).at0 i 0 * (s.dir c).1 +
        (ps.foldl (fun l p => p.perturbSensorLocations l) a.locations).at0 i 1 * (s.dir c).2.1))
      (fun i c => (ps.foldl (fun l p => p.perturbSensorLocations l) a.locations).at0 i 0 * γ c +
        (ps.foldl (fun l p => p.perturbSensorLocations l) a.locations).at0 i 1 * δ c) = D := by
    rw [h3, List.map_singleton, List.cons.injEq] at hDA
    have := congrFun hDA.1 ⟨0, by omega⟩
    rw [h5] at this
    exact this.symm
  rw [← steers_iff]
  refine ⟨_, _, hst, by rw [hel]; exact h2, rfl, fun l => ?_, fun l => ?_⟩
  · rw [← hA', Matrix.mul_assoc, ← hmul]
    dsimp only
    congr 1
    funext i c
    unfold castRows
    rw [mul_diagonal]
    simp only [ideal, Fin.val_cast, hat]
    rw [← Complex.exp_add]
    congr 1
    push_cast
    ring
  · rw [← hA', ← hD', Matrix.mul_assoc, ← Matrix.mul_add, Matrix.mul_assoc, ← hmul]
    beta_reduce
    congr 1
    funext i c
    unfold castRows
    rw [mul_diagonal, Matrix.add_apply, mul_diagonal]
    simp only [ideal, idealDeriv, Fin.val_cast, hat]
    rw [show ∀ u v w x : ℂ, (u * v + u * w) * x = (u * x) * (v + w) by intros; ring, ← Complex.exp_add]
    congr 1
    · congr 1
      push_cast
      ring
    · push_cast
      ring

/-! ### Rephased sources -/

/-- The covariance of the sources after their phases are referred to another origin. -/
noncomputable def rephased (φ : Fin k → ℂ) (P : Matrix (Fin k) (Fin k) ℂ) : Matrix (Fin k) (Fin k) ℂ :=
  Matrix.of fun i j => star (φ i) * P i j * φ j

section
variable {φ : Fin k → ℂ} (hφ : ∀ c, ‖φ c‖ = 1)
include hφ

theorem unit_mul (c : Fin k) : star (φ c) * φ c = 1 := by
  have := Complex.conj_mul' (φ c)
  rw [hφ c] at this
  simpa using this

theorem diag_unit : (diagonal φ)ᴴ * diagonal φ = 1 ∧ diagonal φ * (diagonal φ)ᴴ = 1 := by
  have h : (diagonal φ)ᴴ * diagonal φ = 1 := by
    rw [diagonal_conjTranspose, diagonal_mul_diagonal, ← diagonal_one]
    congr 1
    funext c
    exact unit_mul hφ c
  exact ⟨h, mul_eq_one_comm.1 h⟩

omit hφ in
theorem rephased_eq (P : Matrix (Fin k) (Fin k) ℂ) : rephased φ P = (diagonal φ)ᴴ * P * diagonal φ := by
  ext i j
  rw [mul_diagonal, diagonal_conjTranspose, diagonal_mul]
  rfl

theorem rephased_unit (P : Matrix (Fin k) (Fin k) ℂ) :
    (IsUnit (rephased φ P).det ↔ IsUnit P.det) ∧ (rephased φ P)⁻¹ = rephased φ P⁻¹ := by
  obtain ⟨h1, h2⟩ := diag_unit hφ
  rw [rephased_eq, rephased_eq]
  constructor
  · have hd : (diagonal φ)ᴴ.det * (diagonal φ).det = 1 := by rw [← det_mul, h1, det_one]
    rw [det_mul, det_mul, mul_right_comm, hd, one_mul]
  · have e1 : (diagonal φ)⁻¹ = (diagonal φ)ᴴ := inv_eq_left_inv h1
    have e2 : ((diagonal φ)ᴴ)⁻¹ = diagonal φ := inv_eq_left_inv h2
    rw [Matrix.mul_inv_rev, Matrix.mul_inv_rev, e1, e2, Matrix.mul_assoc]

theorem rephased_mul (P Q : Matrix (Fin k) (Fin k) ℂ) : rephased φ P * rephased φ Q = rephased φ (P * Q) := by
  rw [rephased_eq, rephased_eq, rephased_eq]
  simp only [Matrix.mul_assoc]
  rw [← Matrix.mul_assoc (diagonal φ), (diag_unit hφ).2, Matrix.one_mul]

omit hφ in
theorem rephased_gram (A : Matrix (Fin m) (Fin k) ℂ) : (A * diagonal φ)ᴴ * (A * diagonal φ) = rephased φ (Aᴴ * A) := by
  rw [rephased_eq, conjTranspose_mul]
  simp only [Matrix.mul_assoc]

theorem rephased_cov (A : Matrix (Fin m) (Fin k) ℂ) (P : Matrix (Fin k) (Fin k) ℂ) :
    (A * diagonal φ) * rephased φ P * (A * diagonal φ)ᴴ = A * P * Aᴴ := by
  rw [rephased_eq, conjTranspose_mul]
  have h := (diag_unit hφ).2
  calc A * diagonal φ * ((diagonal φ)ᴴ * P * diagonal φ) * ((diagonal φ)ᴴ * Aᴴ)
      = A * (diagonal φ * (diagonal φ)ᴴ) * P * (diagonal φ * (diagonal φ)ᴴ) * Aᴴ := by simp only [Matrix.mul_assoc]
    _ = A * P * Aᴴ := by rw [h, Matrix.mul_one, Matrix.mul_one]

theorem rephased_Hmat (A D X : Matrix (Fin m) (Fin k) ℂ) (Y : Matrix (Fin k) (Fin k) ℂ) (hG : IsUnit (Aᴴ * A).det) (hX : X = A * Y) :
    Hmat (A * diagonal φ) ((D + X) * diagonal φ) = rephased φ (Hmat A D) := by
  subst hX
  have hproj : A * diagonal φ * (((A * diagonal φ)ᴴ * (A * diagonal φ))⁻¹ * (A * diagonal φ)ᴴ) = A * ((Aᴴ * A)⁻¹ * Aᴴ) := by
    rw [rephased_gram, (rephased_unit hφ _).2, rephased_eq, conjTranspose_mul]
    have h := (diag_unit hφ).2
    calc A * diagonal φ * ((diagonal φ)ᴴ * (Aᴴ * A)⁻¹ * diagonal φ * ((diagonal φ)ᴴ * Aᴴ))
        = A * (diagonal φ * (diagonal φ)ᴴ) * (Aᴴ * A)⁻¹ * (diagonal φ * (diagonal φ)ᴴ) * Aᴴ := by simp only [Matrix.mul_assoc]
      _ = A * ((Aᴴ * A)⁻¹ * Aᴴ) := by rw [h, Matrix.mul_one, Matrix.mul_one, Matrix.mul_assoc]
  have hA : (1 - A * ((Aᴴ * A)⁻¹ * Aᴴ)) * A = 0 := by
    rw [Matrix.sub_mul, Matrix.one_mul, Matrix.mul_assoc, Matrix.mul_assoc, nonsing_inv_mul _ hG, Matrix.mul_one, sub_self]
  have hA' : Aᴴ * (1 - A * ((Aᴴ * A)⁻¹ * Aᴴ)) = 0 := by
    rw [Matrix.mul_sub, Matrix.mul_one, ← Matrix.mul_assoc, ← Matrix.mul_assoc, mul_nonsing_inv _ hG, Matrix.one_mul, sub_self]
  unfold Hmat
  rw [hproj, rephased_eq]
  generalize 1 - A * ((Aᴴ * A)⁻¹ * Aᴴ) = Q at hA hA'
  have h1 : Q * (D + A * Y) = Q * D := by rw [Matrix.mul_add, ← Matrix.mul_assoc, hA, Matrix.zero_mul, add_zero]
  have h2 : (D + A * Y)ᴴ * Q = Dᴴ * Q := by
    rw [conjTranspose_add, conjTranspose_mul, Matrix.add_mul, Matrix.mul_assoc, hA', Matrix.mul_zero, add_zero]
  calc ((D + A * Y) * diagonal φ)ᴴ * Q * ((D + A * Y) * diagonal φ)
      = (diagonal φ)ᴴ * ((D + A * Y)ᴴ * Q) * (D + A * Y) * diagonal φ := by rw [conjTranspose_mul]; simp only [Matrix.mul_assoc]
    _ = (diagonal φ)ᴴ * Dᴴ * (Q * (D + A * Y)) * diagonal φ := by rw [h2]; simp only [Matrix.mul_assoc]
    _ = _ := by rw [h1]; simp only [Matrix.mul_assoc]

theorem rephased_Wmat (A : Matrix (Fin m) (Fin k) ℂ) (P : Matrix (Fin k) (Fin k) ℂ) (σ : ℝ) :
    Wmat (A * diagonal φ) (rephased φ P) σ = rephased φ (Wmat A P σ) := by
  unfold Wmat
  rw [rephased_cov hφ]
  have : (A * diagonal φ)ᴴ * ((A * P * Aᴴ + (σ : ℂ) • (1 : Matrix (Fin m) (Fin m) ℂ))⁻¹ * (A * diagonal φ)) =
      rephased φ (Aᴴ * ((A * P * Aᴴ + (σ : ℂ) • (1 : Matrix (Fin m) (Fin m) ℂ))⁻¹ * A)) := by
    rw [rephased_eq, conjTranspose_mul]
    simp only [Matrix.mul_assoc]
  rw [this, rephased_mul hφ, rephased_mul hφ]

theorem rephased_hadamard (X Y : Matrix (Fin k) (Fin k) ℂ) : rephased φ X ⊙ (rephased φ Y)ᵀ = X ⊙ Yᵀ := by
  ext i j
  simp only [hadamard_apply, transpose_apply, rephased, of_apply]
  have h1 := unit_mul hφ i
  have h2 := unit_mul hφ j
  calc star (φ i) * X i j * φ j * (star (φ j) * Y j i * φ i)
      = (star (φ i) * φ i) * (star (φ j) * φ j) * (X i j * Y j i) := by ring
    _ = _ := by rw [h1, h2, one_mul, one_mul]

theorem rephased_diag (X : Matrix (Fin k) (Fin k) ℂ) (i : Fin k) : rephased φ X i i = X i i := by
  simp only [rephased, of_apply]
  rw [mul_right_comm, unit_mul hφ, one_mul]

theorem crbStoCore_rephased (A D : Matrix (Fin m) (Fin k) ℂ) (P Y : Matrix (Fin k) (Fin k) ℂ) (σ : ℝ) (n : ℕ) (C : Matrix (Fin k) (Fin k) ℝ)
    (h : crbStoCore A D P σ n = .ok C) : crbStoCore (A * diagonal φ) ((D + A * Y) * diagonal φ) (rephased φ P) σ n = .ok C := by
  have := crbStoCore_n h
  obtain ⟨h1, h2, h3, rfl⟩ := crbStoCore_iff.1 h
  rw [crbStoCore_iff, rephased_Hmat hφ A D _ Y h1 rfl, rephased_Wmat hφ, rephased_hadamard hφ, rephased_cov hφ, rephased_gram,
    (rephased_unit hφ _).1]
  exact ⟨h1, h2, h3, rfl⟩

theorem crbDetCore_rephased (A D : Matrix (Fin m) (Fin k) ℂ) (P Y : Matrix (Fin k) (Fin k) ℂ) (σ : ℝ) (n : ℕ) (C : Matrix (Fin k) (Fin k) ℝ)
    (h : crbDetCore A D P σ n = .ok C) : crbDetCore (A * diagonal φ) ((D + A * Y) * diagonal φ) (rephased φ P) σ n = .ok C := by
  have := crbDetCore_n h
  obtain ⟨h1, h3, rfl⟩ := crbDetCore_iff.1 h
  rw [crbDetCore_iff, rephased_Hmat hφ A D _ Y h1 rfl, rephased_hadamard hφ, rephased_gram, (rephased_unit hφ _).1]
  exact ⟨h1, h3, rfl⟩

theorem ecovMusicCore_rephased (A D : Matrix (Fin m) (Fin k) ℂ) (P Y : Matrix (Fin k) (Fin k) ℂ) (σ : ℝ) (n : ℕ)
    (C : Matrix (Fin k) (Fin k) ℝ) (h : ecovMusicCore A D P σ n = .ok C) :
    ecovMusicCore (A * diagonal φ) ((D + A * Y) * diagonal φ) (rephased φ P) σ n = .ok C := by
  have := ecovMusicCore_n h
  obtain ⟨h1, h3, hnz, rfl⟩ := ecovMusicCore_iff.1 h
  have h4 : (rephased φ P)⁻¹ * (1 + (σ : ℂ) • (((A * diagonal φ)ᴴ * (A * diagonal φ))⁻¹ * (rephased φ P)⁻¹)) =
      rephased φ (P⁻¹ * (1 + (σ : ℂ) • ((Aᴴ * A)⁻¹ * P⁻¹))) := by
    have e : (1 : Matrix (Fin k) (Fin k) ℂ) + (σ : ℂ) • rephased φ ((Aᴴ * A)⁻¹ * P⁻¹) = rephased φ (1 + (σ : ℂ) • ((Aᴴ * A)⁻¹ * P⁻¹)) := by
      rw [rephased_eq, rephased_eq, Matrix.mul_add, Matrix.add_mul, Matrix.mul_one, (diag_unit hφ).1, Matrix.mul_smul, Matrix.smul_mul]
    rw [rephased_gram, (rephased_unit hφ _).2, (rephased_unit hφ _).2, rephased_mul hφ, e, rephased_mul hφ]
  rw [ecovMusicCore_iff, h4, rephased_Hmat hφ A D _ Y h1 rfl, rephased_hadamard hφ, rephased_gram, (rephased_unit hφ _).1,
    (rephased_unit hφ _).1]
  simp only [rephased_diag hφ]
  exact ⟨h1, h3, hnz, trivial⟩

end

/-- The core functions do not see the numbering of the rows. -/
theorem core_castRows {m' : ℕ} (e : m' = m) (A D : Matrix (Fin m) (Fin k) ℂ) (P : Matrix (Fin k) (Fin k) ℂ) (q : Fin k → ℂ) (σ : ℝ) (n : ℕ) :
    crbStoCore (castRows e A) (castRows e D) P σ n = crbStoCore A D P σ n ∧
    crbDetCore (castRows e A) (castRows e D) P σ n = crbDetCore A D P σ n ∧
    ecovMusicCore (castRows e A) (castRows e D) P σ n = ecovMusicCore A D P σ n ∧
    crbStoucCore (castRows e A) (castRows e D) q σ n = crbStoucCore A D q σ n := by
  subst e
  exact ⟨rfl, rfl, rfl, rfl⟩

theorem stoucCore_castRows {m' : ℕ} (e : m' = m) {A D : Matrix (Fin m) (Fin k) ℂ} {q : Fin k → ℂ} {σ : ℝ} {n : ℕ} {C : Matrix (Fin k) (Fin k) ℝ}
    (h : crbStoucCore A D q σ n = .ok C) : crbStoucCore (castRows e A) (castRows e D) q σ n = .ok C :=
  (core_castRows e A D 0 q σ n).2.2.2.trans h

/-! ### C72 -/

/-- `a'` is the array `a` moved by `t`: the same elements and perturbations, all nominal sensor positions shifted. -/
def Moved (a a' : ArrayDesign) (t : ℕ → ℝ) : Prop :=
  a'.element = a.element ∧ a'.perts = a.perts ∧ Translated a.locations a'.locations t

/-- The phase a far-field source gains on the way to the new origin. -/
noncomputable def originPhase (a : ArrayDesign) (t : ℕ → ℝ) (s : FF1D k) (wl : ℝ) (c : Fin k) : ℂ :=
  Complex.exp (Complex.I * ((2 * Real.pi / wl * ((if 0 < a.ndim then t 0 else 0) * (s.dir c).1 +
    (if 1 < a.ndim then t 1 else 0) * (s.dir c).2.1) : ℝ) : ℂ))

theorem originPhase_norm (a : ArrayDesign) (t : ℕ → ℝ) (s : FF1D k) (wl : ℝ) (c : Fin k) : ‖originPhase a t s wl c‖ = 1 := by
  unfold originPhase
  rw [mul_comm, Complex.norm_exp_ofReal_mul_I]

theorem moved_steerPair {a a' : ArrayDesign} {t : ℕ → ℝ} (h : Moved a a' t) {s : FF1D k} {wl : ℝ} {mode : String}
    {A D : Matrix (Fin a.size) (Fin k) ℂ} (hs : steerPair a (.ff1 s) wl mode = .ok (A, D)) :
    ∃ ψ : Fin k → ℝ, steerPair a' (.ff1 s) wl mode = .ok
      (castRows (m' := a'.size) (m := a.size) h.2.2.1 (A * diagonal (originPhase a t s wl)),
        castRows (m' := a'.size) (m := a.size) h.2.2.1
          ((D + A * diagonal fun c => Complex.I * ((ψ c : ℝ) : ℂ)) * diagonal (originPhase a t s wl))) := by
  obtain ⟨ψ, φ, h1, h2⟩ := steerPair_translate h.1 h.2.1 h.2.2 hs
  obtain rfl : φ = originPhase a t s wl := funext h1
  exact ⟨ψ, h2⟩

theorem moved_forward {a a' : ArrayDesign} {t : ℕ → ℝ} (h : Moved a a' t) (s : FF1D k) (wl : ℝ) {p p' : PowerArg} {P : Matrix (Fin k) (Fin k) ℂ}
    (hp : PowerDenotes k p P) (hp' : PowerDenotes k p' (rephased (originPhase a t s wl) P)) (σ : ℝ) (n : ℕ) (pert : String)
    (C : Matrix (Fin k) (Fin k) ℝ) :
    (crbSto a (.ff1 s) wl p σ n "full" = .ok (.full C) → crbSto a' (.ff1 s) wl p' σ n "full" = .ok (.full C)) ∧
    (crbDet a (.ff1 s) wl (.matrix ⟨k, k, P⟩) σ n "full" = .ok (.full C) →
      crbDet a' (.ff1 s) wl (.matrix ⟨k, k, rephased (originPhase a t s wl) P⟩) σ n "full" = .ok (.full C)) ∧
    (ecovMusic a (.ff1 s) wl p σ n pert "full" = .ok (.full C) → ecovMusic a' (.ff1 s) wl p' σ n pert "full" = .ok (.full C)) := by
  have hφ := originPhase_norm a t s wl
  refine ⟨fun hC => ?_, fun hC => ?_, fun hC => ?_⟩
  · obtain ⟨_, P', A, D, g1, g2, g3⟩ := crbSto_full_iff.1 hC
    cases powerDenotes_unique hp g1
    obtain ⟨ψ, h'⟩ := moved_steerPair h g2
    exact crbSto_full_iff.2 ⟨rfl, _, _, _, hp', h', (core_castRows _ _ _ _ 0 _ _).1.trans (crbStoCore_rephased hφ A D P _ σ n C g3)⟩
  · obtain ⟨_, P', A, D, g1, g2, g3⟩ := crbDet_full_iff.1 hC
    cases g1
    obtain ⟨ψ, h'⟩ := moved_steerPair h g2
    exact crbDet_full_iff.2 ⟨rfl, _, _, _, rfl, h', (core_castRows _ _ _ _ 0 _ _).2.1.trans (crbDetCore_rephased hφ A D P _ σ n C g3)⟩
  · obtain ⟨_, hk, P', A, D, g1, g2, g3⟩ := ecovMusic_full_iff.1 hC
    cases powerDenotes_unique hp g1
    obtain ⟨ψ, h'⟩ := moved_steerPair h g2
    have hsize : a'.size = a.size := h.2.2.1
    exact ecovMusic_full_iff.2 ⟨rfl, hsize ▸ hk, _, _, _, hp', h',
      (core_castRows _ _ _ _ 0 _ _).2.2.1.trans (ecovMusicCore_rephased hφ A D P _ σ n C g3)⟩

theorem Moved.symm {a a' : ArrayDesign} {t : ℕ → ℝ} (h : Moved a a' t) : Moved a' a (fun j => -t j) := by
  obtain ⟨h1, h2, h3, h4, h5⟩ := h
  refine ⟨h1.symm, h2.symm, h3.symm, h4.symm, fun i j hi hj => ?_⟩
  rw [h5 i j (h3 ▸ hi) (h4 ▸ hj)]
  ring

theorem originPhase_back {a a' : ArrayDesign} {t : ℕ → ℝ} (h : Moved a a' t) (s : FF1D k) (wl : ℝ) (P : Matrix (Fin k) (Fin k) ℂ) :
    rephased (originPhase a' (fun j => -t j) s wl) (rephased (originPhase a t s wl) P) = P := by
  have hb : ∀ c, originPhase a t s wl c * originPhase a' (fun j => -t j) s wl c = 1 := by
    intro c
    have hd : a'.ndim = a.ndim := h.2.2.2.1
    unfold originPhase
    rw [hd, ← Complex.exp_add, ← Complex.exp_zero]
    congr 1
    push_cast
    split <;> split <;> push_cast <;> ring
  ext i j
  simp only [rephased, of_apply]
  have h1 := congrArg star (hb i)
  rw [star_mul, star_one] at h1
  calc star (originPhase a' (fun j => -t j) s wl i) * (star (originPhase a t s wl i) * P i j * originPhase a t s wl j) *
        originPhase a' (fun j => -t j) s wl j
      = (star (originPhase a' (fun j => -t j) s wl i) * star (originPhase a t s wl i)) * P i j *
        (originPhase a t s wl j * originPhase a' (fun j => -t j) s wl j) := by ring
    _ = P i j := by rw [h1, hb, one_mul, mul_one]

/-- **C72**. Moving the whole array, with its perturbations, and referring the phases of the source signals to the new origin changes neither
whether `crb_sto`, `crb_det` and `ecov_music` return nor the matrices they return. -/
theorem C72_translation_partial {a a' : ArrayDesign} {t : ℕ → ℝ} (h : Moved a a' t) (s : FF1D k) (wl : ℝ) {p p' : PowerArg}
    {P : Matrix (Fin k) (Fin k) ℂ} (hp : PowerDenotes k p P) (hp' : PowerDenotes k p' (rephased (originPhase a t s wl) P)) (σ : ℝ) (n : ℕ)
    (pert : String) (C : Matrix (Fin k) (Fin k) ℝ) :
    (∀ c, ‖originPhase a t s wl c‖ = 1) ∧
    (crbSto a' (.ff1 s) wl p' σ n "full" = .ok (.full C) ↔ crbSto a (.ff1 s) wl p σ n "full" = .ok (.full C)) ∧
    (crbDet a' (.ff1 s) wl (.matrix ⟨k, k, rephased (originPhase a t s wl) P⟩) σ n "full" = .ok (.full C) ↔
      crbDet a (.ff1 s) wl (.matrix ⟨k, k, P⟩) σ n "full" = .ok (.full C)) ∧
    (ecovMusic a' (.ff1 s) wl p' σ n pert "full" = .ok (.full C) ↔ ecovMusic a (.ff1 s) wl p σ n pert "full" = .ok (.full C)) := by
  obtain ⟨f1, f2, f3⟩ := moved_forward h s wl hp hp' σ n pert C
  have hb := originPhase_back h s wl P
  obtain ⟨b1, b2, b3⟩ := moved_forward h.symm s wl hp' (by rw [hb]; exact hp) σ n pert C
  rw [hb] at b2
  exact ⟨originPhase_norm a t s wl, ⟨b1, f1⟩, ⟨b2, f2⟩, ⟨b3, f3⟩⟩

/-- **C72** (uncorrelated sources). For uncorrelated sources the same call on the moved array gives the same result. -/
theorem C72_uncorrelated_partial {a a' : ArrayDesign} {t : ℕ → ℝ} (h : Moved a a' t) (s : FF1D k) (wl : ℝ) {p : PowerArg}
    {P : Matrix (Fin k) (Fin k) ℂ} (hp : PowerDenotes k p P) (hP : ∀ i j, i ≠ j → P i j = 0) (σ : ℝ) (n : ℕ)
    (pert : String) (C : Matrix (Fin k) (Fin k) ℝ) :
    (crbSto a' (.ff1 s) wl p σ n "full" = .ok (.full C) ↔ crbSto a (.ff1 s) wl p σ n "full" = .ok (.full C)) ∧
    (crbDet a' (.ff1 s) wl (.matrix ⟨k, k, P⟩) σ n "full" = .ok (.full C) ↔
      crbDet a (.ff1 s) wl (.matrix ⟨k, k, P⟩) σ n "full" = .ok (.full C)) ∧
    (ecovMusic a' (.ff1 s) wl p σ n pert "full" = .ok (.full C) ↔ ecovMusic a (.ff1 s) wl p σ n pert "full" = .ok (.full C)) := by
  have e : rephased (originPhase a t s wl) P = P := by
    ext i j
    by_cases hij : i = j
    · subst hij
      exact rephased_diag (originPhase_norm a t s wl) P i
    · simp only [rephased, of_apply, hP i j hij, mul_zero, zero_mul]
  have := C72_translation_partial h s wl hp (by rw [e]; exact hp) σ n pert C
  rw [e] at this
  exact this.2

/-! ### The bound for uncorrelated sources -/

theorem cdiag_cov {φ : Fin k → ℂ} (hφ : ∀ c, ‖φ c‖ = 1) (A : Matrix (Fin m) (Fin k) ℂ) (q : Fin k → ℝ) :
    A * diagonal φ * cdiag q * (A * diagonal φ)ᴴ = A * cdiag q * Aᴴ := by
  have e : rephased φ (cdiag q) = cdiag q := by
    ext i j
    by_cases hij : i = j
    · subst hij
      exact rephased_diag hφ _ i
    · simp only [rephased, of_apply, cdiag, diagonal_apply_ne _ hij, mul_zero, zero_mul]
  have := rephased_cov hφ A (cdiag q)
  rwa [e] at this

/-- The Fisher information of uncorrelated sources does not depend on the origin. -/
theorem stoucFisher_moved {φ : Fin k → ℂ} (hφ : ∀ c, ‖φ c‖ = 1) (A D : Matrix (Fin m) (Fin k) ℂ) (ψ : Fin k → ℝ) (q : Fin k → ℝ) (σ : ℝ) :
    stoucFisher (A * diagonal φ) ((D + A * diagonal fun c => Complex.I * ((ψ c : ℝ) : ℂ)) * diagonal φ) q σ = stoucFisher A D q σ := by
  have hu : ∀ c, φ c * star (φ c) = 1 := fun c => by rw [mul_comm]; exact unit_mul hφ c
  have hd : ∀ x, stoucDeriv (A * diagonal φ) ((D + A * diagonal fun c => Complex.I * ((ψ c : ℝ) : ℂ)) * diagonal φ) q x = stoucDeriv A D q x := by
    rintro (i | i | u)
    · rw [stoucDeriv_doa, stoucDeriv_doa]
      ext r c
      simp only [Matrix.smul_apply, Matrix.add_apply, vecMulVec_apply, Pi.star_apply, col_apply, mul_diagonal, star_mul, star_add,
        Complex.star_def, map_mul, Complex.conj_I, Complex.conj_ofReal, smul_eq_mul]
      have h := hu i
      rw [Complex.star_def] at h
      linear_combination (q i * (D r i * (starRingEnd ℂ) (A c i) + A r i * (starRingEnd ℂ) (D c i))) * h
    · rw [stoucDeriv_power, stoucDeriv_power]
      ext r c
      simp only [vecMulVec_apply, Pi.star_apply, col_apply, mul_diagonal, star_mul]
      linear_combination (A r i * star (A c i)) * hu i
    · rw [stoucDeriv_noise, stoucDeriv_noise]
  unfold stoucFisher
  rw [cdiag_cov hφ]
  simp only [hd]

theorem castRows_fisher {m' : ℕ} (e : m' = m) (A D : Matrix (Fin m) (Fin k) ℂ) (q : Fin k → ℝ) (σ : ℝ) (n : ℕ) :
    stoucFisher (castRows e A) (castRows e D) q σ = stoucFisher A D q σ ∧
    stoucBound (castRows e A) (castRows e D) q σ n = stoucBound A D q σ n := by
  subst e
  exact ⟨rfl, rfl⟩

/-- The information matrix of the code agrees with the Fisher information if the cross terms are real. -/
theorem stoucFim_real {A D : Matrix (Fin m) (Fin k) ℂ} {q : Fin k → ℝ} {σ : ℝ}
    (hreal : ∀ i j, ((Aᴴ * (A * cdiag q * Aᴴ + (σ : ℂ) • (1 : Matrix (Fin m) (Fin m) ℂ))⁻¹ * A) i j).im = 0) :
    stoucFim A D (fun c => (q c : ℂ)) (stoucRi A (fun c => (q c : ℂ)) σ) = stoucFisher A D q σ := by
  obtain ⟨c1, c2⟩ := C59_information_partial A D q σ
  ext x y
  by_cases hxy : ∃ i j, x = .inr (.inl i) ∧ y = .inr (.inl j)
  · obtain ⟨i, j, rfl, rfl⟩ := hxy
    obtain ⟨g, hg, e1, e2, e3⟩ := c2 i j
    rw [e1, e2]
    exact e3.2 (by rw [hg]; exact hreal i j)
  · push Not at hxy
    exact c1 x y fun i j ⟨h1, h2⟩ => hxy i j h1 h2

/-- **C72** (one source). `crb_stouc` of a single source does not depend on the position of the array. -/
theorem C72_stouc_single_partial {a a' : ArrayDesign} {t : ℕ → ℝ} (h : Moved a a' t) (s : FF1D 1) (wl : ℝ) {p : PowerArg} {q : ℝ}
    (hp : PowerDenotes 1 p (Matrix.of fun _ _ => (q : ℂ))) (σ : ℝ) (n : ℕ) (C : Matrix (Fin 1) (Fin 1) ℝ) :
    crbStouc a' (.ff1 s) wl p σ n "full" = .ok (.full C) ↔ crbStouc a (.ff1 s) wl p σ n "full" = .ok (.full C) := by
  have key : ∀ {a a' : ArrayDesign} {t : ℕ → ℝ}, Moved a a' t → crbStouc a (.ff1 s) wl p σ n "full" = .ok (.full C) →
      crbStouc a' (.ff1 s) wl p σ n "full" = .ok (.full C) := by
    intro a a' t h hC
    obtain ⟨_, P', A, D, g1, g2, g3⟩ := crbStouc_full_iff.1 hC
    cases powerDenotes_unique hp g1
    obtain ⟨ψ, h'⟩ := moved_steerPair h g2
    refine crbStouc_full_iff.2 ⟨rfl, _, _, _, hp, h', (core_castRows _ _ _ 0 _ _ _).2.2.2.trans ?_⟩
    have hφ := originPhase_norm a t s wl
    have hreal : ∀ (A : Matrix (Fin a.size) (Fin 1) ℂ) (i j : Fin 1),
        ((Aᴴ * (A * cdiag (fun _ : Fin 1 => q) * Aᴴ + (σ : ℂ) • (1 : Matrix (Fin a.size) (Fin a.size) ℂ))⁻¹ * A) i j).im = 0 := by
      intro A i j
      obtain ⟨h1, h2⟩ := stoucRi_eq A (fun _ => q) σ
      rw [← h1]
      have : (Aᴴ * stoucRi A (fun _ => (q : ℂ)) σ * A)ᴴ = Aᴴ * stoucRi A (fun _ => (q : ℂ)) σ * A := by
        rw [conjTranspose_mul, conjTranspose_mul, conjTranspose_conjTranspose, h2, Matrix.mul_assoc]
      have h3 := congrFun (congrFun this i) j
      rw [conjTranspose_apply, Subsingleton.elim j i] at h3
      rw [Subsingleton.elim j i]
      exact Complex.conj_eq_iff_im.1 h3
    have := crbStoucCore_n g3
    obtain ⟨r1, r2, r3⟩ := crbStoucCore_iff.1 g3
    have e : (fun i : Fin 1 => (Matrix.of fun _ _ => (q : ℂ) : Matrix (Fin 1) (Fin 1) ℂ) i i) = fun _ => (q : ℂ) := rfl
    rw [e] at r1 r2 r3 ⊢
    rw [stoucFim_real (q := fun _ => q) (hreal A)] at r2 r3
    refine crbStoucCore_iff.2 ?_
    rw [stoucFim_real (q := fun _ => q) (hreal _), stoucFisher_moved hφ, stouc_cov _ fun _ => q, cdiag_cov hφ, ← stouc_cov]
    exact ⟨r1, r2, r3⟩
  exact ⟨key h.symm, key h⟩

/-- The example of `C59_violated` with the middle sensor at the origin. -/
theorem stouc_centred_core {m : ℕ} (hm : m = 3) {t : ℝ} (ht : t ≠ 0) (ψ : Fin 2 → ℝ) :
    ∃ C, crbStoucCore (ulaMat m ![1, Complex.I] * diagonal ![1, -Complex.I])
        ((ulaDeriv m ![1, Complex.I] (fun _ => Complex.I * ((t : ℝ) : ℂ)) + ulaMat m ![1, Complex.I] * diagonal fun c => Complex.I * ((ψ c : ℝ) : ℂ)) *
          diagonal ![1, -Complex.I]) (fun _ => ((1 : ℝ) : ℂ)) 1 1 = .ok C ∧ C 0 0 = 611 / 608 / t ^ 2 := by
  subst hm
  have hφ : ∀ c, ‖(![1, -Complex.I] : Fin 2 → ℂ) c‖ = 1 := by
    intro c
    fin_cases c <;> simp
  have hu : IsUnit (exampleF 1 t).det := by
    have := congrArg Matrix.det (exInvTrue_mul ht)
    rw [det_mul, det_one] at this
    exact IsUnit.of_mul_eq_one _ this
  have hW := exW_eq
  rw [(stoucRi_eq _ (fun _ => 1) 1).1] at hW
  have hreal : ∀ i j, (((ulaMat 3 ![1, Complex.I] * diagonal ![1, -Complex.I])ᴴ *
      (ulaMat 3 ![1, Complex.I] * diagonal ![1, -Complex.I] * cdiag (fun _ : Fin 2 => (1 : ℝ)) * (ulaMat 3 ![1, Complex.I] * diagonal ![1, -Complex.I])ᴴ +
        ((1 : ℝ) : ℂ) • (1 : Matrix (Fin 3) (Fin 3) ℂ))⁻¹ * (ulaMat 3 ![1, Complex.I] * diagonal ![1, -Complex.I])) i j).im = 0 := by
    intro i j
    rw [cdiag_cov hφ, hW, exA_eq]
    have : (exA * diagonal ![1, -Complex.I])ᴴ * exW * (exA * diagonal ![1, -Complex.I]) = rephased ![1, -Complex.I] (exAᴴ * exW * exA) := by
      rw [rephased_eq, conjTranspose_mul]
      simp only [Matrix.mul_assoc]
    rw [this, exARA]
    fin_cases i <;> fin_cases j <;> simp [rephased]
  have hfim := stoucFim_real (D := (ulaDeriv 3 ![1, Complex.I] (fun _ => Complex.I * ((t : ℝ) : ℂ)) +
      ulaMat 3 ![1, Complex.I] * diagonal fun c => Complex.I * ((ψ c : ℝ) : ℂ)) * diagonal ![1, -Complex.I]) hreal
  rw [stoucFisher_moved hφ, stouc_example_fisher] at hfim
  refine ⟨_, crbStoucCore_iff.2 ⟨?_, ?_, rfl⟩, ?_⟩
  · have h1 : (A : Matrix (Fin 3) (Fin 2) ℂ) → ((scaleCols A fun _ => ((1 : ℝ) : ℂ)) * Aᴴ + ((1 : ℝ) : ℂ) • (1 : Matrix (Fin 3) (Fin 3) ℂ)).PosDef := by
      intro A
      rw [stouc_cov A fun _ => 1]
      have hc : cdiag (fun _ : Fin 2 => (1 : ℝ)) = 1 := by unfold cdiag; simp
      rw [hc, Matrix.mul_one, Complex.ofReal_one, one_smul]
      exact PosDef.posSemidef_add (posSemidef_self_mul_conjTranspose A) PosDef.one
    exact ((Matrix.isUnit_iff_isUnit_det _).1 (h1 _).isUnit)
  · rw [hfim]; exact hu
  · rw [hfim, inv_eq_right_inv (exInvTrue_mul ht)]
    simp [symPart, exInvTrue, Matrix.smul_apply]
    ring

/-- **C72** is violated by `crb_stouc`: for two unit-power uncorrelated sources at sines 0 and 1/2, moving the origin from the first to the
middle sensor of a half-wavelength ULA with three sensors changes the returned bound. -/
theorem C72_stouc_violated :
    ∃ (a : GridArray) (a' : ArrayDesign), ula 3 (.scalar (1 / 2)) none {} = .ok a ∧ Moved a.toArrayDesign a' (fun _ => -(1 / 2)) ∧
    ∃ C C', crbStouc a.toArrayDesign (.ff1 (⟨![0, 1 / 2], "sin"⟩ : FF1D 2)) 1 (.scalar 1) 1 1 "full" = .ok (.full C) ∧
      crbStouc a' (.ff1 (⟨![0, 1 / 2], "sin"⟩ : FF1D 2)) 1 (.scalar 1) 1 1 "full" = .ok (.full C') ∧
      C 0 0 = 2287885 / 2282148 / Real.pi ^ 2 ∧ C' 0 0 = 611 / 608 / Real.pi ^ 2 ∧ C ≠ C' := by
  obtain ⟨a, ha⟩ := ula_ok 3 (1 / 2) none
  have hst := example_steerPair ha
  obtain ⟨hsz, hnd, hat⟩ := C01_ula_geometry 3 (1 / 2) none {} a ha
  obtain ⟨C, c1, c2, -⟩ := stouc_example_core hsz Real.pi_ne_zero
  obtain ⟨a', hmv⟩ : ∃ a', Moved a.toArrayDesign a' (fun _ => -(1 / 2)) := by
    refine ⟨{ a.toArrayDesign with locations := Mat.col [-(1 / 2), 0, 1 / 2] }, rfl, rfl, hsz.symm, hnd.symm, fun i j hi hj => ?_⟩
    have hi' : i < 3 := by rw [← hsz]; exact hi
    have hj' : j < 1 := by rw [← hnd]; exact hj
    obtain rfl : j = 0 := by omega
    have h2 : a.locations.at0 i 0 = (i : ℝ) * (1 / 2) := by
      unfold Mat.at0
      rw [hat i hi']
      rfl
    rw [h2]
    interval_cases i
    · show (-(1 / 2) : ℝ) = _; norm_num
    · show (0 : ℝ) = _; norm_num
    · show (1 / 2 : ℝ) = _; norm_num
  obtain ⟨ψ, hst'⟩ := moved_steerPair hmv hst
  have hφ : originPhase a.toArrayDesign (fun _ => -(1 / 2)) (⟨![0, 1 / 2], "sin"⟩ : FF1D 2) 1 = ![1, -Complex.I] := by
    have hn : a.toArrayDesign.ndim = 1 := hnd
    funext c
    unfold originPhase
    rw [hn]
    fin_cases c
    · simp [FF1D.dir]
    · simp only [FF1D.dir, if_true, Fin.mk_one, Matrix.cons_val_one, Matrix.cons_val_fin_one]
      have : Complex.I * ((2 * Real.pi / 1 * ((if 0 < 1 then -(1 / 2) else 0) * (1 / 2) + (if 1 < 1 then -(1 / 2) else 0) *
          Real.sqrt (1 - 1 / 2 * (1 / 2))) : ℝ) : ℂ) = -((Real.pi : ℂ) / 2 * Complex.I) := by
        norm_num
        ring
      rw [this, Complex.exp_neg, Complex.exp_pi_div_two_mul_I, Complex.inv_I]
  rw [hφ] at hst'
  obtain ⟨C', d1, d2⟩ := stouc_centred_core (t := Real.pi) hsz Real.pi_ne_zero ψ
  have hdiag : (fun i : Fin 2 => (Matrix.diagonal fun _ : Fin 2 => ((1 : ℝ) : ℂ)) i i) = fun _ => ((1 : ℝ) : ℂ) := by
    funext i; exact diagonal_apply_eq _ _
  have e1 : crbStouc a.toArrayDesign (.ff1 (⟨![0, 1 / 2], "sin"⟩ : FF1D 2)) 1 (.scalar 1) 1 1 "full" = .ok (.full C) := by
    refine crbStouc_full_iff.2 ⟨rfl, _, _, _, rfl, hst, ?_⟩
    rw [hdiag]
    exact c1
  have e2 : crbStouc a' (.ff1 (⟨![0, 1 / 2], "sin"⟩ : FF1D 2)) 1 (.scalar 1) 1 1 "full" = .ok (.full C') := by
    refine crbStouc_full_iff.2 ⟨rfl, _, _, _, rfl, hst', ?_⟩
    rw [hdiag]
    exact stoucCore_castRows (m := a.toArrayDesign.size) (m' := a'.size) (k := 2) hmv.2.2.1 d1
  refine ⟨a, a', ha, hmv, C, C', e1, e2, c2, d2, fun h => ?_⟩
  have h00 := congrFun (congrFun h 0) 0
  rw [c2, d2] at h00
  have hpi : (Real.pi ^ 2 : ℝ) ≠ 0 := by positivity
  rw [div_left_inj' hpi] at h00
  norm_num at h00

/-- Non-vacuity of the positive part: on the arrays of `C72_stouc_violated`, the stochastic bound exists and is the same. -/
example : ∃ (a : GridArray) (a' : ArrayDesign) (C : Matrix (Fin 2) (Fin 2) ℝ), ula 3 (.scalar (1 / 2)) none {} = .ok a ∧
    Moved a.toArrayDesign a' (fun _ => -(1 / 2)) ∧
    crbSto a.toArrayDesign (.ff1 (⟨![0, 1 / 2], "sin"⟩ : FF1D 2)) 1 (.scalar 1) 1 10 "full" = .ok (.full C) ∧
    crbSto a' (.ff1 (⟨![0, 1 / 2], "sin"⟩ : FF1D 2)) 1 (.scalar 1) 1 10 "full" = .ok (.full C) ∧ C.PosDef := by
  obtain ⟨a, a', ha, hm, -⟩ := C72_stouc_violated
  have hP : (Matrix.diagonal fun _ : Fin 2 => ((1 : ℝ) : ℂ)).PosDef := by
    rw [Complex.ofReal_one]; exact (diagonal_one (n := Fin 2) (α := ℂ)) ▸ PosDef.one
  obtain ⟨⟨C, h1, h2⟩, _⟩ := C58_ula exampleScene ha (p := .scalar 1) rfl hP one_pos (N := 10) (by norm_num)
  exact ⟨a, a', C, ha, hm, h1, (C72_uncorrelated_partial hm _ 1 (p := .scalar 1) rfl (fun i j hij => diagonal_apply_ne _ hij) 1 10 "all" C).1.2 h1, h2⟩

end Doa.Props
