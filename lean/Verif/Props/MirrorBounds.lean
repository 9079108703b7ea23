import Verif.Props.MirrorEsprit
import Verif.Props.Ecov
import Verif.Props.Translation

/-!
# C104: performance bounds of mirrored sources
-/

namespace Doa.Props

open Doa Doa.Spec Matrix
open scoped ComplexOrder

variable {m k : ℕ}

/-! ### Specification -/

/-- The power argument with the complex conjugate of the source covariance matrix. -/
noncomputable def conjPower : PowerArg → PowerArg
  | .matrix P => .matrix ⟨P.r, P.c, conjM P.A⟩
  | p => p

/-! ### Steering matrices with derivatives -/

theorem filter_line {a : ArrayDesign} (h : OnLine a) {mode : String} (hm : mode ∈ ["all", "known", "none"]) :
    a.filterPerturbations mode = .ok [] := by
  simp only [List.mem_cons, List.not_mem_nil, or_false] at hm
  rcases hm with rfl | rfl | rfl <;> simp [ArrayDesign.filterPerturbations, h.perts, PyDict.values]

/-- The rate of change of the phase delay per unit of length, as a function of the location of the source. -/
noncomputable def delayRate (s : FF1D k) (wl : ℝ) (c : Fin k) : ℝ :=
  if s.unit = "sin" then 2 * Real.pi / wl
  else if s.unit = "deg" then 2 * Real.pi / wl * Real.cos (s.loc c * Real.pi / 180) * (Real.pi / 180)
  else 2 * Real.pi / wl * Real.cos (s.loc c)

theorem delayRate_neg {s s' : FF1D k} (hu' : s'.unit = s.unit) (hl : ∀ c, s'.loc c = -s.loc c) (wl : ℝ) (c : Fin k) :
    delayRate s' wl c = delayRate s wl c := by
  unfold delayRate
  rw [hu', hl, neg_mul, neg_div, Real.cos_neg, Real.cos_neg]

theorem line_steerPair {a : ArrayDesign} (h : OnLine a) (s : FF1D k) (wl : ℝ) [NeZero wl] {mode : String} (hm : mode ∈ ["all", "known", "none"]) :
    ∃ A D, steerPair a (.ff1 s) wl mode = .ok (A, D) ∧
      (∀ i c, A i c = Complex.exp (Complex.I * ((2 * Real.pi / wl * (s.dir c).1 * a.locations.at0 i.1 0 : ℝ) : ℂ))) ∧
      ∀ i c, D i c = A i c * (Complex.I * ((delayRate s wl c * a.locations.at0 i.1 0 : ℝ) : ℂ)) := by
  have hd := h.dim
  have hph : (Sources.ff1 s).phaseDelay a.locations wl true =
      .ok ⟨fun i c => 2 * Real.pi / wl * (s.dir c).1 * a.locations.at0 i 0, [fun i c => delayRate s wl c * a.locations.at0 i 0]⟩ := by
    have hok : DerivOk s wl a.locations.ncols := ⟨by omega, NeZero.ne wl, by simp [hd]⟩
    refine ((phaseDelay_ok s wl a.locations).1 hok).trans ?_
    unfold FF1D.phaseDelaySin FF1D.phaseDelayRad FF1D.dir delayRate
    simp only [hd, if_true]
    split_ifs <;> congr 3 <;> funext i c <;> (try simp only [deg2rad]) <;> ring
  have hst := steering_iso (ps := []) h.element (filter_line h hm) rfl hph (by simp)
  have key : ∀ X : Matrix (Fin a.size) (Fin k) ℂ, totalFactor a.size [] * X = X := fun X => by simp [totalFactor]
  refine ⟨_, _, steers_iff.1 ⟨_, _, hst, by rw [h.element]; rfl, rfl, fun l => key _, fun l => key _⟩, fun i c => rfl, fun i c => ?_⟩
  simp only [ideal, idealDeriv, Fin.val_cast]

theorem mirror_steerPair {a : ArrayDesign} (h : OnLine a) (s s' : FF1D k) (hu : Unit1D s.unit) (hu' : s'.unit = s.unit)
    (hl : ∀ c, s'.loc c = -s.loc c) (wl : ℝ) [NeZero wl] {mode : String} (hm : mode ∈ ["all", "known", "none"]) :
    ∃ A D, steerPair a (.ff1 s) wl mode = .ok (A, D) ∧ steerPair a (.ff1 s') wl mode = .ok (conjM A, -conjM D) := by
  obtain ⟨A, D, h1, h2, h3⟩ := line_steerPair h s wl hm
  obtain ⟨A', D', h1', h2', h3'⟩ := line_steerPair h s' wl hm
  have hA : A' = conjM A := by
    ext i c
    rw [h2', dir_neg hu hu' hl]
    simp only [conjM, Matrix.map_apply]
    rw [h2, ← Complex.exp_conj, map_mul, Complex.conj_I, Complex.conj_ofReal]
    congr 1
    push_cast
    ring
  have hD : D' = -conjM D := by
    ext i c
    rw [h3', hA, delayRate_neg hu' hl]
    simp only [conjM, Matrix.map_apply, Matrix.neg_apply]
    rw [h3, map_mul, map_mul, Complex.conj_I, Complex.conj_ofReal]
    ring
  exact ⟨A, D, h1, by rw [h1', hA, hD]⟩

/-! ### The numerical parts -/

theorem conjM_apply {n : ℕ} (M : Matrix (Fin m) (Fin n) ℂ) (i : Fin m) (j : Fin n) : conjM M i j = star (M i j) := rfl

theorem conjM_sub {n : ℕ} (M N : Matrix (Fin m) (Fin n) ℂ) : conjM (M - N) = conjM M - conjM N := by
  ext i j; simp [conjM]

theorem conjM_add {n : ℕ} (M N : Matrix (Fin m) (Fin n) ℂ) : conjM (M + N) = conjM M + conjM N := by
  ext i j; simp [conjM]

theorem conjM_smul {n : ℕ} (x : ℝ) (M : Matrix (Fin m) (Fin n) ℂ) : conjM ((x : ℂ) • M) = (x : ℂ) • conjM M := by
  ext i j; simp [conjM]

theorem reMat_conjM {n : ℕ} (M : Matrix (Fin m) (Fin n) ℂ) : reMat (conjM M) = reMat M := by
  ext i j; simp [conjM, reMat]

theorem conjM_hadamard {n : ℕ} (M N : Matrix (Fin m) (Fin n) ℂ) : conjM M ⊙ conjM N = conjM (M ⊙ N) := by
  ext i j; simp [conjM]

theorem conjM_transpose {n : ℕ} (M : Matrix (Fin m) (Fin n) ℂ) : (conjM M)ᵀ = conjM Mᵀ := rfl

theorem conjM_cov (A : Matrix (Fin m) (Fin k) ℂ) (P : Matrix (Fin k) (Fin k) ℂ) (σ : ℝ) :
    conjM A * conjM P * (conjM A)ᴴ + (σ : ℂ) • (1 : Matrix (Fin m) (Fin m) ℂ) = conjM (A * P * Aᴴ + (σ : ℂ) • (1 : Matrix (Fin m) (Fin m) ℂ)) := by
  rw [conjM_add, conjM_smul, conjM_one, conjM_mul, conjM_mul, conjM_herm]

theorem conjM_H (A D : Matrix (Fin m) (Fin k) ℂ) (X : Matrix (Fin k) (Fin m) ℂ) :
    (-conjM D)ᴴ * (1 - conjM A * conjM X) * (-conjM D) = conjM (Dᴴ * (1 - A * X) * D) := by
  rw [conjM_mul, conjM_mul, conjM_sub, conjM_one, conjM_mul, ← conjM_herm, conjTranspose_neg, Matrix.neg_mul, Matrix.neg_mul, Matrix.mul_neg,
    neg_neg]

theorem gram_conj {n : ℕ} (A : Matrix (Fin m) (Fin k) ℂ) (B : Matrix (Fin m) (Fin n) ℂ) : (conjM A)ᴴ * conjM B = conjM (Aᴴ * B) := by
  rw [conjM_mul, conjM_herm]

theorem crbStoCore_conj (A D : Matrix (Fin m) (Fin k) ℂ) (P : Matrix (Fin k) (Fin k) ℂ) (σ : ℝ) (n : ℕ) :
    crbStoCore (conjM A) (-conjM D) (conjM P) σ n = crbStoCore A D P σ n := by
  unfold crbStoCore
  simp only
  rw [gram_conj, conjM_herm, npSolve_conj]
  cases npSolve (Aᴴ * A) Aᴴ with
  | error e => rfl
  | ok X =>
    simp only [Except.map]
    rw [← conjM_herm, conjM_cov, npSolve_conj]
    cases npSolve (A * P * Aᴴ + (σ : ℂ) • (1 : Matrix (Fin m) (Fin m) ℂ)) A with
    | error e => rfl
    | ok Y =>
      simp only [Except.map]
      rw [conjM_H, gram_conj, ← conjM_mul, ← conjM_mul, conjM_transpose, conjM_hadamard, reMat_conjM]

theorem npInv_conj (M : Matrix (Fin m) (Fin m) ℂ) : npInv (conjM M) = (npInv M).map conjM := by
  have h := npSolve_conj M (1 : Matrix (Fin m) (Fin m) ℂ)
  rw [conjM_one] at h
  unfold npSolve at h
  unfold npInv
  simp only [Matrix.mul_one] at h
  exact h

theorem crbDetCore_conj (A D : Matrix (Fin m) (Fin k) ℂ) (P : Matrix (Fin k) (Fin k) ℂ) (σ : ℝ) (n : ℕ) :
    crbDetCore (conjM A) (-conjM D) (conjM P) σ n = crbDetCore A D P σ n := by
  unfold crbDetCore projm
  simp only [Bool.false_eq_true, if_false]
  rw [gram_conj, conjM_herm, npSolve_conj]
  cases npSolve (Aᴴ * A) Aᴴ with
  | error e => rfl
  | ok X =>
    simp only [Except.map]
    rw [conjM_H, conjM_transpose, conjM_hadamard, reMat_conjM]

theorem ecovMusicCore_conj (A D : Matrix (Fin m) (Fin k) ℂ) (P : Matrix (Fin k) (Fin k) ℂ) (σ : ℝ) (n : ℕ) :
    ecovMusicCore (conjM A) (-conjM D) (conjM P) σ n = ecovMusicCore A D P σ n := by
  unfold ecovMusicCore
  simp only
  rw [gram_conj, conjM_herm, npSolve_conj]
  cases npSolve (Aᴴ * A) Aᴴ with
  | error e => rfl
  | ok X =>
    simp only [Except.map]
    rw [npInv_conj]
    cases npInv P with
    | error e => rfl
    | ok Q =>
      simp only [Except.map]
      rw [npSolve_conj]
      cases npSolve (Aᴴ * A) Q with
      | error e => rfl
      | ok Y =>
        simp only [Except.map]
        rw [conjM_H, ← conjM_smul, ← conjM_one (m := k), ← conjM_add, ← conjM_mul, conjM_transpose, conjM_hadamard, reMat_conjM]
        simp only [conjM_apply, Complex.star_def, Complex.conj_re]
        rw [conjM_one]
        split_ifs with h1 h2 <;> first | rfl | exact if_pos h2 | exact if_neg h2

/-- The sign change of the directions of arrival. -/
noncomputable def doaSign (k : ℕ) : Matrix (Fin k ⊕ (Fin k ⊕ Unit)) (Fin k ⊕ (Fin k ⊕ Unit)) ℝ :=
  diagonal (Sum.elim (fun _ => -1) fun _ => 1)

theorem doaSign_sq (k : ℕ) : doaSign k * doaSign k = 1 := by
  unfold doaSign
  rw [diagonal_mul_diagonal, ← diagonal_one]
  congr 1
  funext x
  rcases x with x | x <;> simp

theorem stoucFim_conj (A D : Matrix (Fin m) (Fin k) ℂ) (p : Fin k → ℂ) (Ri : Matrix (Fin m) (Fin m) ℂ) :
    stoucFim (conjM A) (-conjM D) (fun i => star (p i)) (conjM Ri) = doaSign k * stoucFim A D p Ri * doaSign k := by
  have e1 : (-conjM D)ᴴ * conjM Ri * (-conjM D) = conjM (Dᴴ * Ri * D) := by
    rw [conjM_mul, conjM_mul, ← conjM_herm, conjTranspose_neg, Matrix.neg_mul, Matrix.neg_mul, Matrix.mul_neg, neg_neg]
  have e2 : (-conjM D)ᴴ * conjM Ri * conjM A = -conjM (Dᴴ * Ri * A) := by
    rw [conjM_mul, conjM_mul, ← conjM_herm, conjTranspose_neg, Matrix.neg_mul, Matrix.neg_mul]
  have e3 : (conjM A)ᴴ * conjM Ri * (-conjM D) = -conjM (Aᴴ * Ri * D) := by
    rw [conjM_mul, conjM_mul, ← conjM_herm, Matrix.mul_neg]
  have e4 : (conjM A)ᴴ * conjM Ri * conjM A = conjM (Aᴴ * Ri * A) := by
    rw [conjM_mul, conjM_mul, ← conjM_herm]
  have e5 : ∀ i c, (conjM Ri * conjM Ri * conjM A) i c = star ((Ri * Ri * A) i c) := fun i c => by
    rw [← conjM_mul, ← conjM_mul]; rfl
  have e6 : (conjM Ri * conjM Ri).trace = star (Ri * Ri).trace := by
    rw [← conjM_mul]; simp [Matrix.trace, conjM_apply]
  have e7 : ∀ c, ∑ i, star ((-conjM D) i c) * (conjM Ri * conjM Ri * conjM A) i c = -star (∑ i, star (D i c) * (Ri * Ri * A) i c) := fun c => by
    rw [star_sum, ← Finset.sum_neg_distrib]
    refine Finset.sum_congr rfl fun i _ => ?_
    rw [e5, Matrix.neg_apply, conjM_apply, star_neg, star_mul, star_star]
    ring
  have e8 : ∀ c, ∑ i, star (conjM A i c) * (conjM Ri * conjM Ri * conjM A) i c = star (∑ i, star (A i c) * (Ri * Ri * A) i c) := fun c => by
    rw [star_sum]
    refine Finset.sum_congr rfl fun i _ => ?_
    rw [e5, conjM_apply, star_mul, star_star]
    ring
  unfold doaSign
  ext x y
  rw [mul_diagonal, diagonal_mul]
  unfold stoucFim
  simp only [e7, e8]
  rw [e1, e2, e3, e4, e6]
  have g1 : ∃ T : Fin k → ℂ, ∀ c, ∑ i, star (D i c) * (Ri * Ri * A) i c = T c := ⟨_, fun _ => rfl⟩
  have g2 : ∃ T : Fin k → ℂ, ∀ c, ∑ i, star (A i c) * (Ri * Ri * A) i c = T c := ⟨_, fun _ => rfl⟩
  obtain ⟨T1, g1⟩ := g1
  obtain ⟨T2, g2⟩ := g2
  simp only [g1, g2]
  generalize (Ri * Ri).trace = t
  generalize Dᴴ * Ri * D = E1
  generalize Dᴴ * Ri * A = E2
  generalize Aᴴ * Ri * D = E3
  generalize Aᴴ * Ri * A = E4
  rcases x with i | i | i <;> rcases y with j | j | j <;>
    simp [reMat, conjM_apply, Matrix.fromBlocks] <;> ring

theorem npInv_doaSign (F : Matrix (Fin k ⊕ (Fin k ⊕ Unit)) (Fin k ⊕ (Fin k ⊕ Unit)) ℝ) :
    npInv (doaSign k * F * doaSign k) = (npInv F).map fun X => doaSign k * X * doaSign k := by
  have h := doaSign_sq k
  have hinv : (doaSign k)⁻¹ = doaSign k := inv_eq_left_inv h
  have hu : IsUnit (doaSign k).det := by
    refine IsUnit.of_mul_eq_one (doaSign k).det ?_
    rw [← det_mul, h, det_one]
  unfold npInv
  have hd : IsUnit (doaSign k * F * doaSign k).det ↔ IsUnit F.det := by
    rw [det_mul, det_mul, IsUnit.mul_iff, IsUnit.mul_iff]
    exact ⟨fun x => x.1.2, fun x => ⟨⟨hu, x⟩, hu⟩⟩
  by_cases hF : IsUnit F.det
  · rw [if_pos hF, if_pos (hd.2 hF), Matrix.mul_inv_rev, Matrix.mul_inv_rev, hinv]
    simp only [Except.map, Matrix.mul_assoc]
  · rw [if_neg hF, if_neg (mt hd.1 hF)]
    rfl

theorem doaSign_block (X : Matrix (Fin k ⊕ (Fin k ⊕ Unit)) (Fin k ⊕ (Fin k ⊕ Unit)) ℝ) :
    (doaSign k * X * doaSign k).toBlocks₁₁ = X.toBlocks₁₁ := by
  ext i j
  simp only [doaSign, toBlocks₁₁, of_apply, mul_diagonal, diagonal_mul, Sum.elim_inl]
  ring

theorem scaleCols_conj (A : Matrix (Fin m) (Fin k) ℂ) (p : Fin k → ℂ) : scaleCols (conjM A) (fun i => star (p i)) = conjM (scaleCols A p) := by
  ext i c
  simp [scaleCols, conjM_apply]

theorem crbStoucCore_conj (A D : Matrix (Fin m) (Fin k) ℂ) (p : Fin k → ℂ) (σ : ℝ) (n : ℕ) :
    crbStoucCore (conjM A) (-conjM D) (fun i => star (p i)) σ n = crbStoucCore A D p σ n := by
  have hR : scaleCols (conjM A) (fun i => star (p i)) * (conjM A)ᴴ + (σ : ℂ) • (1 : Matrix (Fin m) (Fin m) ℂ) =
      conjM (scaleCols A p * Aᴴ + (σ : ℂ) • (1 : Matrix (Fin m) (Fin m) ℂ)) := by
    rw [scaleCols_conj, conjM_herm, ← conjM_mul, conjM_add, conjM_smul, conjM_one]
  unfold crbStoucCore
  simp only
  rw [hR, npInv_conj]
  cases npInv (scaleCols A p * Aᴴ + (σ : ℂ) • (1 : Matrix (Fin m) (Fin m) ℂ)) with
  | error e => rfl
  | ok Ri =>
    simp only [Except.map]
    have hRi : (0.5 : ℂ) • (conjM Ri + (conjM Ri)ᴴ) = conjM ((0.5 : ℂ) • (Ri + Riᴴ)) := by
      have : ((0.5 : ℝ) : ℂ) = 0.5 := by norm_num
      rw [← this, conjM_herm, ← conjM_add, conjM_smul]
    rw [hRi, stoucFim_conj, npInv_doaSign]
    cases npInv (stoucFim A D p ((0.5 : ℂ) • (Ri + Riᴴ))) with
    | error e => rfl
    | ok F =>
      simp only [Except.map]
      rw [doaSign_block]

/-! ### The bounds -/

theorem unifyP_conj (p : PowerArg) (k : ℕ) : unifyPToMatrix (conjPower p) k = (unifyPToMatrix p k).map conjM ∧
    unifyPToVector (conjPower p) k = (unifyPToVector p k).map fun q i => star (q i) := by
  have hdiag : ∀ q : Fin k → ℝ, conjM (diagonal fun i => ((q i : ℝ) : ℂ)) = diagonal fun i => ((q i : ℝ) : ℂ) := fun q => by
    ext i j
    by_cases hij : i = j <;> simp [conjM, hij]
  cases p with
  | scalar p =>
    refine ⟨?_, ?_⟩
    · simp only [conjPower, unifyPToMatrix, Except.map]
      congr 1
      ext i j
      by_cases hij : i = j <;> simp [conjM, hij]
    · simp [conjPower, unifyPToVector, Except.map]
  | list p =>
    refine ⟨?_, ?_⟩
    · simp only [conjPower, unifyPToMatrix]
      split_ifs
      · rfl
      · simp only [Except.map, hdiag]
    · simp only [conjPower, unifyPToVector]
      split_ifs
      · rfl
      · simp [Except.map]
  | vector p =>
    refine ⟨?_, ?_⟩
    · simp only [conjPower, unifyPToMatrix]
      split_ifs
      · rfl
      · simp only [Except.map, hdiag]
    · simp only [conjPower, unifyPToVector]
      split_ifs
      · rfl
      · simp [Except.map]
  | matrix P =>
    refine ⟨?_, ?_⟩
    · simp only [conjPower, unifyPToMatrix]
      split_ifs
      · rfl
      · rfl
    · simp only [conjPower, unifyPToVector]
      split_ifs
      · rfl
      · rfl
  | nd n => exact ⟨rfl, rfl⟩

/-- **C104** (performance bounds). For an unperturbed array on a line, the stochastic, deterministic and uncorrelated Cramér-Rao bounds and the
MUSIC error covariance of mirrored sources, with complex conjugated source covariance, are the ones of the sources: for every power
argument, noise power, number of snapshots and output mode, including the exceptions. -/
theorem C104_bounds {a : ArrayDesign} (h : OnLine a) (s s' : FF1D k) (hu : Unit1D s.unit) (hu' : s'.unit = s.unit)
    (hl : ∀ c, s'.loc c = -s.loc c) (wl : ℝ) [NeZero wl] (p : PowerArg) (σ : ℝ) (n : ℕ) (mode : String) :
    crbSto a (.ff1 s') wl (conjPower p) σ n mode = crbSto a (.ff1 s) wl p σ n mode ∧
    crbDet a (.ff1 s') wl (conjPower p) σ n mode = crbDet a (.ff1 s) wl p σ n mode ∧
    crbStouc a (.ff1 s') wl (conjPower p) σ n mode = crbStouc a (.ff1 s) wl p σ n mode ∧
    ∀ pert ∈ ["all", "known", "none"], ecovMusic a (.ff1 s') wl (conjPower p) σ n pert mode = ecovMusic a (.ff1 s) wl p σ n pert mode := by
  obtain ⟨A, D, h1, h2⟩ := mirror_steerPair h s s' hu hu' hl wl (mode := "all") (by simp)
  obtain ⟨e1, e2⟩ := unifyP_conj p k
  refine ⟨?_, ?_, ?_, fun pert hpert => ?_⟩
  · unfold crbSto
    simp only [Sources.isFF1, e1]
    cases unifyPToMatrix p k with
    | error e => rfl
    | ok P => simp only [Except.map, h1, h2, crbStoCore_conj]
  · unfold crbDet
    cases p with
    | matrix P =>
      simp only [conjPower, Sources.isFF1]
      by_cases hP : P.r ≠ k ∨ P.c ≠ k
      · simp only [dif_pos hP]
      · simp only [dif_neg hP, h1, h2]
        have e := not_or.1 hP
        have key := crbDetCore_conj A D (P.A.submatrix (Fin.cast (not_not.1 e.1).symm) (Fin.cast (not_not.1 e.2).symm)) σ n
        have hc : conjM (P.A.submatrix (Fin.cast (not_not.1 e.1).symm) (Fin.cast (not_not.1 e.2).symm)) =
          (conjM P.A).submatrix (Fin.cast (not_not.1 e.1).symm) (Fin.cast (not_not.1 e.2).symm) := rfl
        rw [hc] at key
        simp only [key]
    | scalar p => rfl
    | list p => rfl
    | vector p => rfl
    | nd n => rfl
  · unfold crbStouc
    simp only [Sources.isFF1, e2]
    cases unifyPToVector p k with
    | error e => rfl
    | ok P => simp only [Except.map, h1, h2, crbStoucCore_conj]
  · obtain ⟨A, D, h1, h2⟩ := mirror_steerPair h s s' hu hu' hl wl hpert
    unfold ecovMusic
    simp only [Sources.isFF1, e1]
    cases unifyPToMatrix p k with
    | error e => rfl
    | ok P => simp only [Except.map, h1, h2, ecovMusicCore_conj]

end Doa.Props
