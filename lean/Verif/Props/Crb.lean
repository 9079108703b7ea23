import Verif.Lemmas.Crb
import Verif.Props.Performance

/-!
# Cramér-Rao bounds: C58
-/

namespace Doa.Props

open Doa Matrix
open scoped ComplexOrder

variable {m k : ℕ}

/-! ### Calls that return -/

theorem crbSto_full_iff {a : ArrayDesign} {src : Sources k} {wl : ℝ} {p : PowerArg} {σ : ℝ} {n : ℕ} {C : Matrix (Fin k) (Fin k) ℝ} :
    crbSto a src wl p σ n "full" = .ok (.full C) ↔
      src.isFF1 = true ∧ ∃ P A D, PowerDenotes k p P ∧ steerPair a src wl "all" = .ok (A, D) ∧ crbStoCore A D P σ n = .ok C := by
  rw [crbSto_eq, full_iff]
  unfold crbStoFull
  by_cases h : (!src.isFF1) = true
  · rw [if_pos h]
    refine ⟨fun h' => (by cases h'), fun h' => ?_⟩
    rw [h'.1] at h; cases h
  · rw [if_neg h]
    have h' : src.isFF1 = true := by simpa using h
    have hm := C61_matrix p k
    cases hp : unifyPToMatrix p k with
    | error e =>
      refine ⟨fun h' => (by cases h'), ?_⟩
      rintro ⟨_, P, A, D, h1, -⟩
      rw [(hm.1 P).2 h1] at hp; cases hp
    | ok P =>
      have hP := (hm.1 P).1 hp
      simp only
      cases hs : steerPair a src wl "all" with
      | error e =>
        refine ⟨fun h' => (by cases h'), ?_⟩
        rintro ⟨_, P, A, D, _, h2, -⟩
        cases h2
      | ok q =>
        obtain ⟨A, D⟩ := q
        constructor
        · intro hC; exact ⟨h', P, A, D, hP, rfl, hC⟩
        · rintro ⟨_, P', A', D', h1, h2, h3⟩
          cases h2
          have := ((hm.1 P').2 h1).symm.trans hp
          cases this
          exact h3

theorem crbStouc_full_iff {a : ArrayDesign} {src : Sources k} {wl : ℝ} {p : PowerArg} {σ : ℝ} {n : ℕ} {C : Matrix (Fin k) (Fin k) ℝ} :
    crbStouc a src wl p σ n "full" = .ok (.full C) ↔
      src.isFF1 = true ∧ ∃ P A D, PowerDenotes k p P ∧ steerPair a src wl "all" = .ok (A, D) ∧
        crbStoucCore A D (fun i => P i i) σ n = .ok C := by
  rw [crbStouc_eq, full_iff]
  unfold crbStoucFull
  by_cases h : (!src.isFF1) = true
  · rw [if_pos h]
    refine ⟨fun h' => (by cases h'), fun h' => ?_⟩
    rw [h'.1] at h; cases h
  · rw [if_neg h]
    have h' : src.isFF1 = true := by simpa using h
    have hm := C61_vector p k
    cases hp : unifyPToVector p k with
    | error e =>
      refine ⟨fun h' => (by cases h'), ?_⟩
      rintro ⟨_, P, A, D, h1, -⟩
      rw [(hm.1 _).2 ⟨P, h1, rfl⟩] at hp; cases hp
    | ok P =>
      obtain ⟨M, hM, rfl⟩ := (hm.1 P).1 hp
      simp only
      cases hs : steerPair a src wl "all" with
      | error e =>
        refine ⟨fun h' => (by cases h'), ?_⟩
        rintro ⟨_, P, A, D, _, h2, -⟩
        cases h2
      | ok q =>
        obtain ⟨A, D⟩ := q
        constructor
        · intro hC; exact ⟨h', M, A, D, hM, rfl, hC⟩
        · rintro ⟨_, P', A', D', h1, h2, h3⟩
          cases h2
          have := ((hm.1 _).2 ⟨P', h1, rfl⟩).symm.trans hp
          rw [Except.ok.inj this] at h3
          exact h3

theorem crbDet_full_iff {a : ArrayDesign} {src : Sources k} {wl : ℝ} {p : PowerArg} {σ : ℝ} {n : ℕ} {C : Matrix (Fin k) (Fin k) ℝ} :
    crbDet a src wl p σ n "full" = .ok (.full C) ↔
      src.isFF1 = true ∧ ∃ P A D, p = .matrix ⟨k, k, P⟩ ∧ steerPair a src wl "all" = .ok (A, D) ∧ crbDetCore A D P σ n = .ok C := by
  rw [crbDet_eq, full_iff]
  unfold crbDetFull
  by_cases h : (!src.isFF1) = true
  · rw [if_pos h]
    refine ⟨fun h' => (by cases h'), fun h' => ?_⟩
    rw [h'.1] at h; cases h
  · rw [if_neg h]
    have h' : src.isFF1 = true := by simpa using h
    cases p with
    | scalar _ => exact ⟨fun h' => (by cases h'), fun ⟨_, _, _, _, h, _⟩ => (by cases h)⟩
    | list _ => exact ⟨fun h' => (by cases h'), fun ⟨_, _, _, _, h, _⟩ => (by cases h)⟩
    | vector _ => exact ⟨fun h' => (by cases h'), fun ⟨_, _, _, _, h, _⟩ => (by cases h)⟩
    | nd _ => exact ⟨fun h' => (by cases h'), fun ⟨_, _, _, _, h, _⟩ => (by cases h)⟩
    | matrix M =>
      have hm := C61_matrix (.matrix M) k
      simp only
      cases hp : unifyPToMatrix (.matrix M) k with
      | error e =>
        refine ⟨fun h' => (by cases h'), ?_⟩
        rintro ⟨_, P, A, D, h1, -⟩
        rw [(hm.1 P).2 (PowerArg.matrix.inj h1)] at hp; cases hp
      | ok P =>
        have hP : M = ⟨k, k, P⟩ := (hm.1 P).1 hp
        simp only
        cases hs : steerPair a src wl "all" with
        | error e =>
          refine ⟨fun h' => (by cases h'), ?_⟩
          rintro ⟨_, P, A, D, _, h2, -⟩
          cases h2
        | ok q =>
          obtain ⟨A, D⟩ := q
          constructor
          · intro hC; exact ⟨h', P, A, D, by rw [hP], rfl, hC⟩
          · rintro ⟨_, P', A', D', h1, h2, h3⟩
            cases h2
            have := ((hm.1 P').2 (PowerArg.matrix.inj h1)).symm.trans hp
            cases this
            exact h3

/-- The covariance used by the uncorrelated bound and its symmetrised inverse. -/
noncomputable def stoucRi (A : Matrix (Fin m) (Fin k) ℂ) (p : Fin k → ℂ) (σ : ℝ) : Matrix (Fin m) (Fin m) ℂ :=
  (0.5 : ℂ) • ((scaleCols A p * Aᴴ + (σ : ℂ) • (1 : Matrix (Fin m) (Fin m) ℂ))⁻¹ +
    ((scaleCols A p * Aᴴ + (σ : ℂ) • (1 : Matrix (Fin m) (Fin m) ℂ))⁻¹)ᴴ)

theorem crbStoucCore_n {A D : Matrix (Fin m) (Fin k) ℂ} {p : Fin k → ℂ} {σ : ℝ} {n : ℕ} {C : Matrix (Fin k) (Fin k) ℝ}
    (h : crbStoucCore A D p σ n = .ok C) : NeZero n := by
  refine ⟨?_⟩
  rintro rfl
  unfold crbStoucCore at h
  dsimp only at h
  split at h
  · cases h
  · split at h <;> cases h

theorem crbStoucCore_iff {A D : Matrix (Fin m) (Fin k) ℂ} {p : Fin k → ℂ} {σ : ℝ} {n : ℕ} [NeZero n] {C : Matrix (Fin k) (Fin k) ℝ} :
    crbStoucCore A D p σ n = .ok C ↔
      IsUnit (scaleCols A p * Aᴴ + (σ : ℂ) • (1 : Matrix (Fin m) (Fin m) ℂ)).det ∧
      IsUnit (stoucFim A D p (stoucRi A p σ)).det ∧
      C = symPart ((n : ℝ)⁻¹ • ((stoucFim A D p (stoucRi A p σ))⁻¹).toBlocks₁₁) := by
  classical
  unfold crbStoucCore npInv
  simp only [if_neg (NeZero.ne n)]
  by_cases h1 : IsUnit (scaleCols A p * Aᴴ + (σ : ℂ) • (1 : Matrix (Fin m) (Fin m) ℂ)).det
  · by_cases h3 : IsUnit (stoucFim A D p (stoucRi A p σ)).det
    · simp only [if_pos h1]
      have h3' := h3
      unfold stoucRi at h3'
      rw [if_pos h3']
      simp only [h1, h3, true_and, Except.ok.injEq]
      exact eq_comm
    · simp only [if_pos h1]
      have h3' := h3
      unfold stoucRi at h3'
      rw [if_neg h3']
      exact ⟨fun h => (by cases h), fun h => absurd h.2.1 h3⟩
  · simp only [if_neg h1]
    exact ⟨fun h => (by cases h), fun h => absurd h.1 h1⟩

/-! ### C58: symmetry and scaling -/

/-- **C58** (symmetry). Whatever the powers and the noise variance, a returned bound is a symmetric matrix. -/
theorem C58_symmetric (a : ArrayDesign) (src : Sources k) (wl : ℝ) (p : PowerArg) (σ : ℝ) (n : ℕ) (C : Matrix (Fin k) (Fin k) ℝ)
    (h : crbSto a src wl p σ n "full" = .ok (.full C) ∨ crbDet a src wl p σ n "full" = .ok (.full C) ∨
      crbStouc a src wl p σ n "full" = .ok (.full C)) : Cᵀ = C := by
  have key : ∀ X : Matrix (Fin k) (Fin k) ℝ, (symPart X)ᵀ = symPart X := fun X => by
    have := (symPart_isHermitian X).eq
    rwa [conjTranspose_eq_transpose_of_trivial] at this
  rcases h with h | h | h
  · obtain ⟨_, P, A, D, _, _, h3⟩ := crbSto_full_iff.1 h
    have := crbStoCore_n h3
    rw [(crbStoCore_iff.1 h3).2.2.2]; exact key _
  · obtain ⟨_, P, A, D, _, _, h3⟩ := crbDet_full_iff.1 h
    have := crbDetCore_n h3
    rw [(crbDetCore_iff.1 h3).2.2]; exact key _
  · obtain ⟨_, P, A, D, _, _, h3⟩ := crbStouc_full_iff.1 h
    have := crbStoucCore_n h3
    rw [(crbStoucCore_iff.1 h3).2.2]; exact key _

theorem crbStoucCore_scaling {A D : Matrix (Fin m) (Fin k) ℂ} {p : Fin k → ℂ} {σ : ℝ} {n : ℕ} (hn : 1 ≤ n)
    {C : Matrix (Fin k) (Fin k) ℝ} : crbStoucCore A D p σ n = .ok C ↔ crbStoucCore A D p σ 1 = .ok ((n : ℝ) • C) := by
  have hn0 : (n : ℝ) ≠ 0 := by positivity
  have : NeZero n := ⟨by omega⟩
  rw [crbStoucCore_iff, crbStoucCore_iff]
  simp only [symPart_smul, Nat.cast_one, inv_one, one_smul]
  refine and_congr_right fun _ => and_congr_right fun _ => ?_
  constructor
  · rintro rfl; rw [smul_smul, mul_inv_cancel₀ hn0, one_smul]
  · intro h; rw [← h, smul_smul, inv_mul_cancel₀ hn0, one_smul]

/-- **C58** (scaling). The bound for `n` snapshots is exactly the bound for one snapshot divided by `n`; in
particular one of them exists if and only if the other does. -/
theorem C58_scaling (a : ArrayDesign) (src : Sources k) (wl : ℝ) (p : PowerArg) (σ : ℝ) {n : ℕ} (hn : 1 ≤ n)
    (C : Matrix (Fin k) (Fin k) ℝ) :
    (crbSto a src wl p σ n "full" = .ok (.full C) ↔ crbSto a src wl p σ 1 "full" = .ok (.full ((n : ℝ) • C))) ∧
    (crbDet a src wl p σ n "full" = .ok (.full C) ↔ crbDet a src wl p σ 1 "full" = .ok (.full ((n : ℝ) • C))) ∧
    (crbStouc a src wl p σ n "full" = .ok (.full C) ↔ crbStouc a src wl p σ 1 "full" = .ok (.full ((n : ℝ) • C))) := by
  have hn0 : (n : ℝ) ≠ 0 := by positivity
  have : NeZero n := ⟨by omega⟩
  have key : ∀ X : Matrix (Fin k) (Fin k) ℝ, C = symPart ((σ / n / 2) • X) ↔ (n : ℝ) • C = symPart ((σ / (1 : ℕ) / 2) • X) := by
    intro X
    rw [symPart_smul, symPart_smul, Nat.cast_one]
    constructor
    · rintro rfl; rw [smul_smul]; congr 1; field_simp
    · intro h
      have := congrArg ((n : ℝ)⁻¹ • ·) h
      simp only [smul_smul, inv_mul_cancel₀ hn0, one_smul] at this
      rw [this]; congr 1; field_simp
  refine ⟨?_, ?_, ?_⟩
  · rw [crbSto_full_iff, crbSto_full_iff]
    simp only [crbStoCore_iff]
    constructor
    · rintro ⟨h, P, A, D, h1, h2, h3, h4, h5, h6⟩; exact ⟨h, P, A, D, h1, h2, h3, h4, h5, (key _).1 h6⟩
    · rintro ⟨h, P, A, D, h1, h2, h3, h4, h5, h6⟩; exact ⟨h, P, A, D, h1, h2, h3, h4, h5, (key _).2 h6⟩
  · rw [crbDet_full_iff, crbDet_full_iff]
    simp only [crbDetCore_iff]
    constructor
    · rintro ⟨h, P, A, D, h1, h2, h3, h4, h6⟩; exact ⟨h, P, A, D, h1, h2, h3, h4, (key _).1 h6⟩
    · rintro ⟨h, P, A, D, h1, h2, h3, h4, h6⟩; exact ⟨h, P, A, D, h1, h2, h3, h4, (key _).2 h6⟩
  · rw [crbStouc_full_iff, crbStouc_full_iff]
    simp only [crbStoucCore_scaling hn]

/-! ### C58: positivity and existence -/

theorem powerDenotes_unique {p : PowerArg} {P P' : Matrix (Fin k) (Fin k) ℂ} (h : PowerDenotes k p P) (h' : PowerDenotes k p P') :
    P = P' := by
  have h1 := ((C61_matrix p k).1 P).2 h
  have h2 := ((C61_matrix p k).1 P').2 h'
  exact Except.ok.inj (h1.symm.trans h2)

theorem stoInfo_posDef {A D : Matrix (Fin m) (Fin k) ℂ} {P : Matrix (Fin k) (Fin k) ℂ} {σ : ℝ} {n : ℕ} {C : Matrix (Fin k) (Fin k) ℝ}
    (hP : P.PosSemidef) (hσ : 0 < σ) (hn : 1 ≤ n) (h : crbStoCore A D P σ n = .ok C) :
    (reMat (Hmat A D ⊙ (Wmat A P σ)ᵀ)).PosDef ∧ C = (σ / n / 2) • (reMat (Hmat A D ⊙ (Wmat A P σ)ᵀ))⁻¹ := by
  have := crbStoCore_n h
  obtain ⟨h1, h2, h3, h4⟩ := crbStoCore_iff.1 h
  have hp : (reMat (Hmat A D ⊙ (Wmat A P σ)ᵀ)).PosDef :=
    posDef_of_unit (reMat_posSemidef ((Hmat_posSemidef h1).hadamard (Wmat_posSemidef hP hσ).transpose)) h3
  refine ⟨hp, ?_⟩
  rw [h4, symPart_smul, symPart_of_symm hp.inv.isHermitian]

theorem detInfo_posDef {A D : Matrix (Fin m) (Fin k) ℂ} {P : Matrix (Fin k) (Fin k) ℂ} {σ : ℝ} {n : ℕ} {C : Matrix (Fin k) (Fin k) ℝ}
    (hP : P.PosSemidef) (h : crbDetCore A D P σ n = .ok C) :
    (reMat (Hmat A D ⊙ Pᵀ)).PosDef ∧ C = (σ / n / 2) • (reMat (Hmat A D ⊙ Pᵀ))⁻¹ := by
  have := crbDetCore_n h
  obtain ⟨h1, h3, h4⟩ := crbDetCore_iff.1 h
  have hp : (reMat (Hmat A D ⊙ Pᵀ)).PosDef :=
    posDef_of_unit (reMat_posSemidef ((Hmat_posSemidef h1).hadamard hP.transpose)) h3
  refine ⟨hp, ?_⟩
  rw [h4, symPart_smul, symPart_of_symm hp.inv.isHermitian]

/-- **C58** (positivity). For a positive semidefinite source covariance, a positive noise variance and at
least one snapshot, the stochastic and the deterministic bound are positive definite. -/
theorem C58_positive (a : ArrayDesign) (src : Sources k) (wl : ℝ) {p : PowerArg} {P : Matrix (Fin k) (Fin k) ℂ}
    (hp : PowerDenotes k p P) (hP : P.PosSemidef) {σ : ℝ} (hσ : 0 < σ) {n : ℕ} (hn : 1 ≤ n) (C : Matrix (Fin k) (Fin k) ℝ)
    (h : crbSto a src wl p σ n "full" = .ok (.full C) ∨ crbDet a src wl p σ n "full" = .ok (.full C)) : C.PosDef := by
  have hs : 0 < σ / n / 2 := by
    have : (0 : ℝ) < n := by exact_mod_cast hn
    positivity
  rcases h with h | h
  · obtain ⟨_, P', A, D, h1, _, h3⟩ := crbSto_full_iff.1 h
    cases powerDenotes_unique hp h1
    obtain ⟨h4, rfl⟩ := stoInfo_posDef hP hσ hn h3
    exact h4.inv.smul hs
  · obtain ⟨_, P', A, D, rfl, _, h3⟩ := crbDet_full_iff.1 h
    cases powerDenotes_unique hp rfl
    obtain ⟨h4, rfl⟩ := detInfo_posDef hP h3
    exact h4.inv.smul hs

theorem Hmat_eq (A D : Matrix (Fin m) (Fin k) ℂ) : Hmat A D = Dᴴ * compProj A * D := rfl

theorem Wmat_posDef {A : Matrix (Fin m) (Fin k) ℂ} {P : Matrix (Fin k) (Fin k) ℂ} (hA : Function.Injective A.mulVec) (hP : P.PosDef)
    {σ : ℝ} (hσ : 0 < σ) : (Wmat A P σ).PosDef := by
  have hPi : Function.Injective P.mulVec := mulVec_injective_of_isUnit hP.isUnit
  have h := ((modelR_posDef (A := A) hP.posSemidef hσ).inv.conjTranspose_mul_mul_same hA).conjTranspose_mul_mul_same hPi
  rw [hP.isHermitian.eq] at h
  unfold Wmat
  simpa only [Matrix.mul_assoc] using h

/-- **C58** (existence). For a positive definite source covariance and positive noise variance the stochastic
and the deterministic bound are returned exactly if the steering vectors are linearly independent and no
derivative vector lies in their span; otherwise `LinAlgError` is raised. -/
theorem C58_returns (a : ArrayDesign) {src : Sources k} (hsrc : src.isFF1 = true) (wl : ℝ) {p : PowerArg}
    {P : Matrix (Fin k) (Fin k) ℂ} (hp : PowerDenotes k p P) (hP : P.PosDef) {σ : ℝ} (hσ : 0 < σ) (n : ℕ) (hn : 1 ≤ n)
    {A D : Matrix (Fin a.size) (Fin k) ℂ} (hs : Spec.Steers a src wl "all" A D) :
    ((∃ C, crbSto a src wl p σ n "full" = .ok (.full C)) ↔
      Function.Injective A.mulVec ∧ ∀ j, ¬ ∃ x, A *ᵥ x = fun i => D i j) ∧
    ((∃ C, crbDet a src wl (.matrix ⟨k, k, P⟩) σ n "full" = .ok (.full C)) ↔
      Function.Injective A.mulVec ∧ ∀ j, ¬ ∃ x, A *ᵥ x = fun i => D i j) := by
  have : NeZero n := ⟨by omega⟩
  rw [steers_iff] at hs
  constructor
  · constructor
    · rintro ⟨C, h⟩
      obtain ⟨_, P', A', D', h1, h2, h3⟩ := crbSto_full_iff.1 h
      rw [hs] at h2
      cases h2
      have := crbStoCore_n h3
      obtain ⟨g1, g2, g3, g4⟩ := crbStoCore_iff.1 h3
      refine ⟨(fullRank_iff A).1 g1, fun j hj => ?_⟩
      rw [← compProj_col g1] at hj
      rw [Hmat_eq, hmat_factor g1] at g3
      exact hadamard_not_unit hj g3
    · rintro ⟨hA, hD⟩
      have g1 := (fullRank_iff A).2 hA
      refine ⟨_, crbSto_full_iff.2 ⟨hsrc, P, A, D, hp, hs, crbStoCore_iff.2 ⟨g1, ?_, ?_, rfl⟩⟩⟩
      · exact (isUnit_iff_isUnit_det _).1 (modelR_posDef hP.posSemidef hσ).isUnit
      · rw [Hmat_eq, hmat_factor g1]
        refine (isUnit_iff_isUnit_det _).1 (hadamard_posDef (Wmat_posDef hA hP hσ) fun j hj => ?_).isUnit
        exact hD j ((compProj_col g1 D j).1 hj)
  · constructor
    · rintro ⟨C, h⟩
      obtain ⟨_, P', A', D', h1, h2, h3⟩ := crbDet_full_iff.1 h
      rw [hs] at h2
      cases h2
      have := crbDetCore_n h3
      obtain ⟨g1, g3, g4⟩ := crbDetCore_iff.1 h3
      refine ⟨(fullRank_iff A).1 g1, fun j hj => ?_⟩
      rw [← compProj_col g1] at hj
      rw [Hmat_eq, hmat_factor g1] at g3
      exact hadamard_not_unit hj g3
    · rintro ⟨hA, hD⟩
      have g1 := (fullRank_iff A).2 hA
      refine ⟨_, crbDet_full_iff.2 ⟨hsrc, P, A, D, rfl, hs, crbDetCore_iff.2 ⟨g1, ?_, rfl⟩⟩⟩
      rw [Hmat_eq, hmat_factor g1]
      refine (isUnit_iff_isUnit_det _).1 (hadamard_posDef hP fun j hj => ?_).isUnit
      exact hD j ((compProj_col g1 D j).1 hj)

/-! ### C58: the bounds are inverse Fisher informations -/

/-- The Fisher information about a parameter `t` carried by `n` independent samples of a circular complex
Gaussian vector with mean zero and covariance `R(t)`, where `Z = dR/dt` (Slepian-Bangs formula). -/
noncomputable def gaussInfo (n : ℕ) (R Z : Matrix (Fin m) (Fin m) ℂ) : ℝ := n * (R⁻¹ * Z * R⁻¹ * Z).trace.re

/-- The Fisher information about `t` carried by `n` independent circular complex Gaussian vectors with
covariance `σ I` and means `x_1(t), …, x_n(t)`; the columns of `Y` are the derivatives of the means. -/
noncomputable def meanInfo {n : ℕ} (σ : ℝ) (Y : Matrix (Fin m) (Fin n) ℂ) : ℝ := 2 / σ * ∑ t, ∑ i, ‖Y i t‖ ^ 2

/-- **C58** (stochastic bound). Let the unknowns be the DOAs, the Hermitian source covariance and the noise
variance. For each velocity `v` of the DOAs the quadratic form of the inverse of the returned matrix is the
least Fisher information over all velocities `S`, `s` of the nuisance parameters, i.e. the returned matrix is
the Cramér-Rao bound of the DOAs. (`covVelocity_hasDerivAt`: `covVelocity` is the derivative of the covariance.) -/
theorem C58_sto_information (a : ArrayDesign) (src : Sources k) (wl : ℝ) {p : PowerArg}
    {P : Matrix (Fin k) (Fin k) ℂ} (hp : PowerDenotes k p P) (hP : P.PosSemidef) {σ : ℝ} (hσ : 0 < σ) {n : ℕ} (hn : 1 ≤ n)
    {A D : Matrix (Fin a.size) (Fin k) ℂ} (hs : Spec.Steers a src wl "all" A D) (C : Matrix (Fin k) (Fin k) ℝ)
    (h : crbSto a src wl p σ n "full" = .ok (.full C)) (v : Fin k → ℝ) :
    IsLeast {x : ℝ | ∃ (S : Matrix (Fin k) (Fin k) ℂ) (s : ℝ), S.IsHermitian ∧
        x = gaussInfo n (A * P * Aᴴ + (σ : ℂ) • (1 : Matrix (Fin a.size) (Fin a.size) ℂ)) (covVelocity A D P v S s)}
      (v ⬝ᵥ C⁻¹ *ᵥ v) := by
  rw [steers_iff] at hs
  obtain ⟨_, P', A', D', h1, h2, h3⟩ := crbSto_full_iff.1 h
  rw [hs] at h2
  cases h2
  cases powerDenotes_unique hp h1
  have := crbStoCore_n h3
  obtain ⟨g1, _, _, _⟩ := crbStoCore_iff.1 h3
  obtain ⟨h4, rfl⟩ := stoInfo_posDef hP hσ hn h3
  have hn0 : (0 : ℝ) < n := by exact_mod_cast hn
  have hc : σ / n / 2 ≠ 0 := by positivity
  have hinv : ((σ / n / 2) • (reMat (Hmat A D ⊙ (Wmat A P σ)ᵀ))⁻¹)⁻¹ = (n * (2 / σ)) • reMat (Hmat A D ⊙ (Wmat A P σ)ᵀ) := by
    refine inv_eq_right_inv ?_
    rw [Matrix.smul_mul, Matrix.mul_smul, smul_smul, nonsing_inv_mul _ ((isUnit_iff_isUnit_det _).1 h4.isUnit)]
    rw [show σ / n / 2 * (n * (2 / σ)) = 1 by field_simp, one_smul]
  rw [hinv, smul_mulVec, dotProduct_smul, smul_eq_mul, mul_assoc]
  have key := sto_information (D := D) g1 hP hσ v rfl
  constructor
  · obtain ⟨S, s, hS, hx⟩ := key.1
    exact ⟨S, s, hS, congrArg (fun x : ℝ => (n : ℝ) * x) hx⟩
  · rintro _ ⟨S, s, hS, rfl⟩
    exact mul_le_mul_of_nonneg_left (key.2 ⟨S, s, hS, rfl⟩) hn0.le

/-- **C58** (deterministic bound). Let the unknowns be the DOAs and the complex source amplitudes `X` (one
column per snapshot), and let `P = X Xᴴ / n` be the sample covariance passed to `crb_det_farfield_1d`. For each
velocity `v` of the DOAs the quadratic form of the inverse of the returned matrix is the least Fisher
information over all velocities `U` of the amplitudes. -/
theorem C58_det_information (a : ArrayDesign) (src : Sources k) (wl : ℝ) {σ : ℝ} (hσ : 0 < σ) {n : ℕ} (hn : 1 ≤ n)
    (X : Matrix (Fin k) (Fin n) ℂ)
    {A D : Matrix (Fin a.size) (Fin k) ℂ} (hs : Spec.Steers a src wl "all" A D) (C : Matrix (Fin k) (Fin k) ℝ)
    (h : crbDet a src wl (.matrix ⟨k, k, (n : ℂ)⁻¹ • (X * Xᴴ)⟩) σ n "full" = .ok (.full C)) (v : Fin k → ℝ) :
    IsLeast (Set.range fun U : Matrix (Fin k) (Fin n) ℂ => meanInfo σ (D * cdiag v * X + A * U)) (v ⬝ᵥ C⁻¹ *ᵥ v) := by
  rw [steers_iff] at hs
  obtain ⟨_, P', A', D', h1, h2, h3⟩ := crbDet_full_iff.1 h
  rw [hs] at h2
  cases h2
  have hP' : P' = (n : ℂ)⁻¹ • (X * Xᴴ) := by cases h1; rfl
  subst hP'
  have hn0 : (0 : ℝ) < n := by exact_mod_cast hn
  have hn1 : (0 : ℂ) ≤ (n : ℂ)⁻¹ := by
    rw [show (n : ℂ)⁻¹ = (((n : ℝ)⁻¹ : ℝ) : ℂ) by push_cast; rfl]
    exact Complex.zero_le_real.2 (by positivity)
  have := crbDetCore_n h3
  obtain ⟨g1, _, _⟩ := crbDetCore_iff.1 h3
  obtain ⟨h4, rfl⟩ := detInfo_posDef ((posSemidef_self_mul_conjTranspose X).smul hn1) h3
  set P := (n : ℂ)⁻¹ • (X * Xᴴ) with hPd
  have hinv : ((σ / n / 2) • (reMat (Hmat A D ⊙ Pᵀ))⁻¹)⁻¹ = (n * (2 / σ)) • reMat (Hmat A D ⊙ Pᵀ) := by
    refine inv_eq_right_inv ?_
    rw [Matrix.smul_mul, Matrix.mul_smul, smul_smul, nonsing_inv_mul _ ((isUnit_iff_isUnit_det _).1 h4.isUnit)]
    rw [show σ / n / 2 * (n * (2 / σ)) = 1 by field_simp, one_smul]
  have hnorm : ∀ Y : Matrix (Fin a.size) (Fin n) ℂ, meanInfo σ Y = 2 / σ * (Yᴴ * Y).trace.re := by
    intro Y
    unfold meanInfo
    congr 1
    simp only [trace, diag_apply, Matrix.mul_apply, conjTranspose_apply, Complex.re_sum]
    refine Finset.sum_congr rfl fun t _ => Finset.sum_congr rfl fun i _ => ?_
    rw [Complex.star_def, ← Complex.normSq_eq_conj_mul_self, Complex.ofReal_re, Complex.normSq_eq_norm_sq]
  set Q := compProj A with hQ
  have hQh : Qᴴ = Q := compProj_herm A
  have hQQ : Q * Q = Q := compProj_idem g1
  have hQA : Q * A = 0 := compProj_mul g1
  have hquad : (v ⬝ᵥ ((n * (2 / σ)) • reMat (Hmat A D ⊙ Pᵀ)) *ᵥ v) =
      2 / σ * ((Q * (D * cdiag v * X))ᴴ * (Q * (D * cdiag v * X))).trace.re := by
    rw [smul_mulVec, dotProduct_smul, smul_eq_mul, reMat_hadamard_quad, hPd, Matrix.mul_smul, trace_smul, smul_eq_mul,
      show (n : ℂ)⁻¹ = (((n : ℝ)⁻¹ : ℝ) : ℂ) by push_cast; rfl, Complex.re_ofReal_mul]
    have : (cdiag v * Hmat A D * cdiag v * (X * Xᴴ)).trace = ((Q * (D * cdiag v * X))ᴴ * (Q * (D * cdiag v * X))).trace := by
      rw [Hmat_eq, hmat_factor g1, ← Matrix.mul_assoc _ X, Matrix.trace_mul_comm]
      simp only [conjTranspose_mul, cdiag_herm, Matrix.mul_assoc, hQ]
    rw [this]
    field_simp
  have hsplit : ∀ Y : Matrix (Fin a.size) (Fin n) ℂ, (Yᴴ * Y).trace.re =
      ((Q * Y)ᴴ * (Q * Y)).trace.re + (((1 - Q) * Y)ᴴ * ((1 - Q) * Y)).trace.re := by
    intro Y
    rw [← Complex.add_re, ← trace_add]
    congr 2
    simp only [conjTranspose_mul, conjTranspose_sub, conjTranspose_one, hQh]
    have e1 : Yᴴ * Q * (Q * Y) = Yᴴ * Q * Y := by rw [Matrix.mul_assoc, ← Matrix.mul_assoc Q Q, hQQ, ← Matrix.mul_assoc]
    have e2 : (1 - Q) * (1 - Q) = 1 - Q := compl_idem hQQ
    have e3 : Yᴴ * (1 - Q) * ((1 - Q) * Y) = Yᴴ * Y - Yᴴ * Q * Y := by
      rw [Matrix.mul_assoc, ← Matrix.mul_assoc (1 - Q) (1 - Q), e2, Matrix.sub_mul, Matrix.one_mul, Matrix.mul_sub, Matrix.mul_assoc Yᴴ Q]
    rw [e1, e3, add_sub_cancel]
  have hQY : ∀ U : Matrix (Fin k) (Fin n) ℂ, Q * (D * cdiag v * X + A * U) = Q * (D * cdiag v * X) := fun U => by
    rw [Matrix.mul_add, ← Matrix.mul_assoc Q A, hQA, Matrix.zero_mul, add_zero]
  rw [hinv, hquad]
  have h2σ : 0 < 2 / σ := by positivity
  constructor
  · refine ⟨-((Aᴴ * A)⁻¹ * Aᴴ * (D * cdiag v * X)), ?_⟩
    simp only
    rw [hnorm, hsplit, hQY]
    have e : (1 - Q) * (D * cdiag v * X + A * -((Aᴴ * A)⁻¹ * Aᴴ * (D * cdiag v * X))) = 0 := by
      have h1Q : 1 - Q = A * ((Aᴴ * A)⁻¹ * Aᴴ) := by rw [hQ]; unfold compProj; rw [sub_sub_cancel]
      have hA1 : (1 - Q) * A = A := by rw [Matrix.sub_mul, Matrix.one_mul, hQA, sub_zero]
      rw [Matrix.mul_add, ← Matrix.mul_assoc (1 - Q) A, hA1, h1Q]
      simp only [Matrix.mul_neg, Matrix.mul_assoc, add_neg_cancel]
    rw [e]
    simp
  · rintro _ ⟨U, rfl⟩
    simp only
    rw [hnorm, hsplit (_ + _), hQY]
    have := (Complex.le_def.1 (posSemidef_conjTranspose_mul_self ((1 - Q) * (D * cdiag v * X + A * U))).trace_nonneg).1
    rw [Complex.zero_re] at this
    exact mul_le_mul_of_nonneg_left (le_add_of_nonneg_right this) h2σ.le

end Doa.Props
