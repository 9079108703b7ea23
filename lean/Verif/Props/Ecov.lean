import Mathlib.Data.Matrix.ColumnRowPartitioned
import Verif.Props.CrbUla

/-!
# Error covariance of MUSIC: C64, and its relation to the Cramér-Rao bounds: C69
-/

namespace Doa.Props

open Doa Doa.Spec Matrix
open scoped ComplexOrder

variable {m k : ℕ}

theorem ecovMusic_full_iff {a : ArrayDesign} {src : Sources k} {wl : ℝ} {p : PowerArg} {σ : ℝ} {n : ℕ} {pert : String}
    {C : Matrix (Fin k) (Fin k) ℝ} :
    ecovMusic a src wl p σ n pert "full" = .ok (.full C) ↔
      src.isFF1 = true ∧ k < a.size ∧ ∃ P A D, PowerDenotes k p P ∧ steerPair a src wl pert = .ok (A, D) ∧ ecovMusicCore A D P σ n = .ok C := by
  rw [ecovMusic_eq, full_iff]
  unfold ecovMusicFull
  by_cases h : (!src.isFF1) = true
  · rw [if_pos h]
    refine ⟨fun h' => (by cases h'), fun h' => ?_⟩
    rw [h'.1] at h; cases h
  · rw [if_neg h]
    have h' : src.isFF1 = true := by simpa using h
    by_cases hk : k ≥ a.size
    · rw [if_pos hk]
      exact ⟨fun h' => (by cases h'), fun h' => absurd h'.2.1 (by omega)⟩
    · rw [if_neg hk]
      have hm := C61_matrix p k
      cases hp : unifyPToMatrix p k with
      | error e =>
        refine ⟨fun h' => (by cases h'), ?_⟩
        rintro ⟨_, _, P, A, D, h1, -⟩
        rw [(hm.1 P).2 h1] at hp; cases hp
      | ok P =>
        have hP := (hm.1 P).1 hp
        simp only
        cases hs : steerPair a src wl pert with
        | error e =>
          refine ⟨fun h' => (by cases h'), ?_⟩
          rintro ⟨_, _, P, A, D, _, h2, -⟩
          cases h2
        | ok q =>
          obtain ⟨A, D⟩ := q
          constructor
          · intro hC; exact ⟨h', by omega, P, A, D, hP, rfl, hC⟩
          · rintro ⟨_, _, P', A', D', h1, h2, h3⟩
            cases h2
            have := ((hm.1 P').2 h1).symm.trans hp
            cases this
            exact h3

/-- **C64** (guard). As many sources as sensors, or more, raise `ValueError`. -/
theorem C64_too_many (a : ArrayDesign) (src : Sources k) (h : k ≥ a.size) (wl : ℝ) (p : PowerArg) (σ : ℝ) (n : ℕ) (pert mode : String) :
    ecovMusic a src wl p σ n pert mode = .error .valueError := by
  unfold ecovMusic
  by_cases h' : (!src.isFF1) = true
  · rw [if_pos h']
  · rw [if_neg h', if_pos h]

/-- **C64** (return modes). -/
theorem C64_modes (a : ArrayDesign) (src : Sources k) (wl : ℝ) (p : PowerArg) (σ : ℝ) (n : ℕ) (pert : String) :
    ModesAgree (ecovMusic a src wl p σ n pert) :=
  modesAgree_of (ecovMusic_eq a src wl p σ n pert)

/-- **C64** (scaling). The error covariance for `n` snapshots is that of one snapshot divided by `n`. -/
theorem C64_scaling (a : ArrayDesign) (src : Sources k) (wl : ℝ) (p : PowerArg) (σ : ℝ) {n : ℕ} (hn : 1 ≤ n) (pert : String)
    (C : Matrix (Fin k) (Fin k) ℝ) :
    ecovMusic a src wl p σ n pert "full" = .ok (.full C) ↔ ecovMusic a src wl p σ 1 pert "full" = .ok (.full ((n : ℝ) • C)) := by
  have hn0 : (n : ℝ) ≠ 0 := by positivity
  have : NeZero n := ⟨by omega⟩
  have key : ∀ X : Matrix (Fin k) (Fin k) ℝ, C = (σ / 2 / n) • X ↔ (n : ℝ) • C = (σ / 2 / (1 : ℕ)) • X := by
    intro X
    rw [Nat.cast_one]
    constructor
    · rintro rfl; rw [smul_smul]; congr 1; field_simp
    · intro h
      have := congrArg ((n : ℝ)⁻¹ • ·) h
      simp only [smul_smul, inv_mul_cancel₀ hn0, one_smul] at this
      rw [this]; congr 1; field_simp
  rw [ecovMusic_full_iff, ecovMusic_full_iff]
  simp only [ecovMusicCore_iff]
  constructor
  · rintro ⟨h, h', P, A, D, h1, h2, h3, h4, h5, h6⟩; exact ⟨h, h', P, A, D, h1, h2, h3, h4, h5, (key _).1 h6⟩
  · rintro ⟨h, h', P, A, D, h1, h2, h3, h4, h5, h6⟩; exact ⟨h, h', P, A, D, h1, h2, h3, h4, h5, (key _).2 h6⟩

/-- The weight `P⁻¹ + σ P⁻¹ (Aᴴ A)⁻¹ P⁻¹` of the MUSIC error covariance. -/
noncomputable def Bmat (A : Matrix (Fin m) (Fin k) ℂ) (P : Matrix (Fin k) (Fin k) ℂ) (σ : ℝ) : Matrix (Fin k) (Fin k) ℂ :=
  P⁻¹ * (1 + (σ : ℂ) • ((Aᴴ * A)⁻¹ * P⁻¹))

theorem gram_posDef {A : Matrix (Fin m) (Fin k) ℂ} (hG : IsUnit (Aᴴ * A).det) : (Aᴴ * A).PosDef :=
  posDef_of_unit (posSemidef_conjTranspose_mul_self A) hG

theorem Bmat_posDef {A : Matrix (Fin m) (Fin k) ℂ} (hG : IsUnit (Aᴴ * A).det) {P : Matrix (Fin k) (Fin k) ℂ} (hP : P.PosDef)
    {σ : ℝ} (hσ : 0 ≤ σ) : (Bmat A P σ).PosDef := by
  have e : Bmat A P σ = P⁻¹ + (σ : ℂ) • ((P⁻¹)ᴴ * (Aᴴ * A)⁻¹ * P⁻¹) := by
    unfold Bmat
    rw [Matrix.mul_add, Matrix.mul_one, Matrix.mul_smul, hP.inv.isHermitian.eq, Matrix.mul_assoc]
  rw [e]
  exact hP.inv.add_posSemidef (((gram_posDef hG).inv.posSemidef.conjTranspose_mul_mul_same _).smul (Complex.zero_le_real.2 hσ))

/-- The weights of the stochastic bound and of the MUSIC error covariance are inverse to each other. -/
theorem Wmat_mul_Bmat {A : Matrix (Fin m) (Fin k) ℂ} (hG : IsUnit (Aᴴ * A).det) {P : Matrix (Fin k) (Fin k) ℂ} (hP : P.PosDef)
    {σ : ℝ} (hσ : 0 < σ) : Wmat A P σ * Bmat A P σ = 1 := by
  have hPu := (isUnit_iff_isUnit_det _).1 hP.isUnit
  have hR := (isUnit_iff_isUnit_det _).1 (modelR_posDef (A := A) hP.posSemidef hσ).isUnit
  have hw := weight_identity hG hR
  set Y := Aᴴ * ((A * P * Aᴴ + (σ : ℂ) • (1 : Matrix (Fin m) (Fin m) ℂ))⁻¹ * A) with hY
  have e : Wmat A P σ * Bmat A P σ = P * (Y * (P + (σ : ℂ) • (Aᴴ * A)⁻¹)) * P⁻¹ := by
    unfold Wmat Bmat
    rw [← hY]
    calc P * Y * P * (P⁻¹ * (1 + (σ : ℂ) • ((Aᴴ * A)⁻¹ * P⁻¹)))
        = P * Y * ((P * P⁻¹) * (1 + (σ : ℂ) • ((Aᴴ * A)⁻¹ * P⁻¹))) := by simp only [Matrix.mul_assoc]
      _ = P * Y * (1 + (σ : ℂ) • ((Aᴴ * A)⁻¹ * P⁻¹)) := by rw [mul_nonsing_inv _ hPu, Matrix.one_mul]
      _ = P * Y * (P * P⁻¹ + (σ : ℂ) • ((Aᴴ * A)⁻¹ * P⁻¹)) := by rw [mul_nonsing_inv _ hPu]
      _ = P * Y * ((P + (σ : ℂ) • (Aᴴ * A)⁻¹) * P⁻¹) := by rw [Matrix.add_mul, Matrix.smul_mul]
      _ = _ := by simp only [Matrix.mul_assoc]
  rw [e, hw, Matrix.mul_one, mul_nonsing_inv _ hPu]

/-- The error covariance in terms of a diagonal scaling. -/
theorem ecov_form (X : Matrix (Fin k) (Fin k) ℝ) (h : Fin k → ℝ) (c : ℝ) :
    c • (X ⊙ Matrix.of fun i j => h i * h j) = c • ((diagonal h)ᴴ * X * diagonal h) := by
  congr 1
  ext i j
  rw [diagonal_conjTranspose, star_trivial, mul_diagonal, diagonal_mul, hadamard_apply, of_apply]
  ring

/-- **C64** (shape). For a positive definite source covariance, a noise variance that is not negative and any
number of snapshots the returned matrix is symmetric and positive semidefinite; in particular the variances on its
diagonal are not negative. -/
theorem C64_covariance (a : ArrayDesign) (src : Sources k) (wl : ℝ) {p : PowerArg} {P : Matrix (Fin k) (Fin k) ℂ}
    (hp : PowerDenotes k p P) (hP : P.PosDef) {σ : ℝ} (hσ : 0 ≤ σ) (n : ℕ) (pert : String) (C : Matrix (Fin k) (Fin k) ℝ)
    (h : ecovMusic a src wl p σ n pert "full" = .ok (.full C)) : Cᵀ = C ∧ C.PosSemidef ∧ ∀ i, 0 ≤ C i i := by
  obtain ⟨_, _, P', A, D, h1, _, h3⟩ := ecovMusic_full_iff.1 h
  cases powerDenotes_unique hp h1
  have := ecovMusicCore_n h3
  obtain ⟨g1, g2, hnz, rfl⟩ := ecovMusicCore_iff.1 h3
  have hpos : ((σ / 2 / n) • (reMat (Hmat A D ⊙ (Bmat A P σ)ᵀ) ⊙
        Matrix.of fun i j => ((Hmat A D i i).re)⁻¹ * ((Hmat A D j j).re)⁻¹)).PosSemidef := by
    rw [ecov_form _ fun i => ((Hmat A D i i).re)⁻¹]
    refine PosSemidef.smul (PosSemidef.conjTranspose_mul_mul_same ?_ _) (by positivity)
    exact reMat_posSemidef ((Hmat_posSemidef g1).hadamard (Bmat_posDef g1 hP hσ).posSemidef.transpose)
  refine ⟨?_, hpos, fun i => hpos.diag_nonneg⟩
  have := hpos.isHermitian.eq
  rwa [conjTranspose_eq_transpose_of_trivial] at this

/-- A diagonal entry of `Dᴴ P_A^⊥ D` vanishes exactly if the derivative vector lies in the span of the steering vectors. -/
theorem Hmat_diag {A D : Matrix (Fin m) (Fin k) ℂ} (hG : IsUnit (Aᴴ * A).det) (j : Fin k) :
    (Hmat A D j j).re = 0 ↔ ∃ x, A *ᵥ x = fun i => D i j := by
  have him : (Hmat A D j j).im = 0 := ((Complex.le_def.1 (Hmat_posSemidef hG).diag_nonneg).2).symm
  rw [← compProj_col hG]
  have e : Hmat A D j j = star (fun i => (compProj A * D) i j) ⬝ᵥ (fun i => (compProj A * D) i j) := by
    rw [Hmat_eq, hmat_factor hG]
    rfl
  constructor
  · intro h
    have h0 : Hmat A D j j = 0 := Complex.ext h him
    rw [e, dotProduct_star_self_eq_zero] at h0
    exact h0
  · intro h
    rw [e]
    rw [dotProduct_star_self_eq_zero.2 h, Complex.zero_re]

/-- **C64** (existence). With a positive definite source covariance, `k < m` sources and at least one snapshot the function returns finite
numbers exactly if the steering vectors are linearly independent and no derivative vector lies in their span. -/
theorem C64_returns (a : ArrayDesign) {src : Sources k} (hsrc : src.isFF1 = true) (hk : k < a.size) (wl : ℝ) {p : PowerArg}
    {P : Matrix (Fin k) (Fin k) ℂ} (hp : PowerDenotes k p P) (hP : P.PosDef) (σ : ℝ) (n : ℕ) (hn : 1 ≤ n) (pert : String)
    {A D : Matrix (Fin a.size) (Fin k) ℂ} (hs : Spec.Steers a src wl pert A D) :
    (∃ C, ecovMusic a src wl p σ n pert "full" = .ok (.full C)) ↔
      Function.Injective A.mulVec ∧ ∀ j, ¬ ∃ x, A *ᵥ x = fun i => D i j := by
  have : NeZero n := ⟨by omega⟩
  rw [steers_iff] at hs
  constructor
  · rintro ⟨C, h⟩
    obtain ⟨_, _, P', A', D', h1, h2, h3⟩ := ecovMusic_full_iff.1 h
    rw [hs] at h2
    cases h2
    obtain ⟨g1, _, g3, _⟩ := ecovMusicCore_iff.1 h3
    exact ⟨(fullRank_iff A).1 g1, fun j => (not_congr (Hmat_diag g1 j)).1 (g3 j)⟩
  · rintro ⟨hA, hD⟩
    have g1 := (fullRank_iff A).2 hA
    exact ⟨_, ecovMusic_full_iff.2 ⟨hsrc, hk, P, A, D, hp, hs, ecovMusicCore_iff.2
      ⟨g1, (isUnit_iff_isUnit_det _).1 hP.isUnit, fun j => (not_congr (Hmat_diag g1 j)).2 (hD j), rfl⟩⟩⟩

/-! ### C69: ordering -/

theorem Wmat_le {A : Matrix (Fin m) (Fin k) ℂ} (hG : IsUnit (Aᴴ * A).det) {P : Matrix (Fin k) (Fin k) ℂ} (hP : P.PosDef)
    {σ : ℝ} (hσ : 0 < σ) : (P - Wmat A P σ).PosSemidef := by
  -- P - P Y P with Y = (P + σ G⁻¹)⁻¹
  have hR := (isUnit_iff_isUnit_det _).1 (modelR_posDef (A := A) hP.posSemidef hσ).isUnit
  have hw := weight_identity hG hR
  set Y := Aᴴ * ((A * P * Aᴴ + (σ : ℂ) • (1 : Matrix (Fin m) (Fin m) ℂ))⁻¹ * A) with hY
  set S := P + (σ : ℂ) • (Aᴴ * A)⁻¹ with hS
  have hSp : S.PosDef := hP.add_posSemidef ((gram_posDef hG).inv.posSemidef.smul (Complex.zero_le_real.2 hσ.le))
  have hYi : Y = S⁻¹ := (inv_eq_left_inv hw).symm
  letI := hSp.isUnit.invertible
  letI := hP.isUnit.invertible
  have h1 : (fromBlocks P P Pᴴ S).PosSemidef := by
    rw [PosDef.fromBlocks₁₁ _ _ hP, hP.isHermitian.eq, mul_nonsing_inv _ ((isUnit_iff_isUnit_det _).1 hP.isUnit), Matrix.one_mul, hS,
      add_sub_cancel_left]
    exact (gram_posDef hG).inv.posSemidef.smul (Complex.zero_le_real.2 hσ.le)
  rw [PosDef.fromBlocks₂₂ _ _ hSp, hP.isHermitian.eq, ← hYi] at h1
  exact h1

theorem reMat_sub (M N : Matrix (Fin k) (Fin k) ℂ) : reMat M - reMat N = reMat (M - N) := by
  ext i j; simp [reMat_apply]

/-- The information matrix of MUSIC-type estimates. -/
theorem music_bound {H W B : Matrix (Fin k) (Fin k) ℂ} (hH : H.PosSemidef) (hW : W.PosDef) (hWB : W * B = 1) (hB : B.PosDef)
    (hd : ∀ i, 0 < (H i i).re) (hF : (reMat (H ⊙ Wᵀ)).PosDef) :
    (((diagonal fun i => ((H i i).re)⁻¹)ᴴ * reMat (H ⊙ Bᵀ) * diagonal fun i => ((H i i).re)⁻¹) - (reMat (H ⊙ Wᵀ))⁻¹).PosSemidef := by
  have hWi : W⁻¹ = B := inv_eq_right_inv hWB
  letI := hW.isUnit.invertible
  -- block matrices
  have b1 : (fromBlocks W 1 (1 : Matrix (Fin k) (Fin k) ℂ)ᴴ B).PosSemidef := by
    rw [PosDef.fromBlocks₁₁ _ _ hW, hWi]
    simpa using PosSemidef.zero
  have b2 : (fromBlocks H H H H).PosSemidef := by
    obtain ⟨L, hL⟩ := exists_factor hH
    have : fromBlocks H H H H = (fromCols L L)ᴴ * fromCols L L := by
      rw [conjTranspose_fromCols_eq_fromRows_conjTranspose, fromRows_mul_fromCols, hL]
    rw [this]
    exact posSemidef_conjTranspose_mul_self _
  have b3 := reMat_posSemidef (b2.hadamard b1.transpose)
  set Δ : Matrix (Fin k) (Fin k) ℝ := diagonal fun i => (H i i).re with hΔ
  have e : reMat (fromBlocks H H H H ⊙ (fromBlocks W 1 (1 : Matrix (Fin k) (Fin k) ℂ)ᴴ B)ᵀ) =
      fromBlocks (reMat (H ⊙ Wᵀ)) Δ Δᴴ (reMat (H ⊙ Bᵀ)) := by
    have hΔ' : ∀ i j, (H i j * (1 : Matrix (Fin k) (Fin k) ℂ) j i).re = Δ i j := by
      intro i j
      rw [hΔ, diagonal_apply, Matrix.one_apply]
      by_cases h : i = j
      · subst h; simp
      · rw [if_neg h, if_neg (Ne.symm h)]; simp
    ext i j
    rcases i with i | i <;> rcases j with j | j
    · rfl
    · simp only [reMat_apply, hadamard_apply, transpose_apply, fromBlocks_apply₁₂, fromBlocks_apply₂₁, conjTranspose_one]
      exact hΔ' i j
    · simp only [reMat_apply, hadamard_apply, transpose_apply, fromBlocks_apply₁₂, fromBlocks_apply₂₁]
      rw [hΔ' i j, conjTranspose_apply, star_trivial, hΔ, diagonal_apply, diagonal_apply]
      by_cases h : i = j
      · subst h; rfl
      · rw [if_neg h, if_neg (Ne.symm h)]
    · rfl
  rw [e] at b3
  letI := hF.isUnit.invertible
  rw [PosDef.fromBlocks₁₁ _ _ hF] at b3
  have b4 := b3.conjTranspose_mul_mul_same (diagonal fun i => ((H i i).re)⁻¹)
  have hinv : Δ * (diagonal fun i => ((H i i).re)⁻¹) = 1 := by
    rw [hΔ, diagonal_mul_diagonal, ← diagonal_one]
    congr 1
    funext i
    exact mul_inv_cancel₀ (hd i).ne'
  have hinv' : (diagonal fun i => ((H i i).re)⁻¹)ᴴ * Δᴴ = 1 := by
    rw [← conjTranspose_mul, hinv, conjTranspose_one]
  rw [Matrix.mul_sub, Matrix.sub_mul] at b4
  have e2 : (diagonal fun i => ((H i i).re)⁻¹)ᴴ * (Δᴴ * (reMat (H ⊙ Wᵀ))⁻¹ * Δ) * (diagonal fun i => ((H i i).re)⁻¹) = (reMat (H ⊙ Wᵀ))⁻¹ := by
    calc _ = ((diagonal fun i => ((H i i).re)⁻¹)ᴴ * Δᴴ) * (reMat (H ⊙ Wᵀ))⁻¹ * (Δ * (diagonal fun i => ((H i i).re)⁻¹)) := by
          simp only [Matrix.mul_assoc]
      _ = _ := by rw [hinv, hinv', Matrix.one_mul, Matrix.mul_one]
  rwa [e2] at b4

/-- **C69**. For a positive definite source covariance, positive noise variance and at least one snapshot, the
deterministic bound never exceeds the stochastic bound, and the stochastic bound never exceeds the error
covariance of MUSIC, in the order of symmetric matrices (so in particular for every DOA separately). -/
theorem C69_ordering (a : ArrayDesign) (src : Sources k) (wl : ℝ) {p : PowerArg} {P : Matrix (Fin k) (Fin k) ℂ}
    (hp : PowerDenotes k p P) (hP : P.PosDef) {σ : ℝ} (hσ : 0 < σ) {n : ℕ} (hn : 1 ≤ n) {Cd Cs Cm : Matrix (Fin k) (Fin k) ℝ}
    (hd : crbDet a src wl (.matrix ⟨k, k, P⟩) σ n "full" = .ok (.full Cd))
    (hs : crbSto a src wl p σ n "full" = .ok (.full Cs))
    (hm : ecovMusic a src wl p σ n "all" "full" = .ok (.full Cm)) :
    (Cs - Cd).PosSemidef ∧ (Cm - Cs).PosSemidef ∧ ∀ i, Cd i i ≤ Cs i i ∧ Cs i i ≤ Cm i i := by
  obtain ⟨_, _, P1, A, D, h1, h2, h3⟩ := ecovMusic_full_iff.1 hm
  obtain ⟨_, P2, A2, D2, h4, h5, h6⟩ := crbSto_full_iff.1 hs
  obtain ⟨_, P3, A3, D3, h7, h8, h9⟩ := crbDet_full_iff.1 hd
  rw [h2] at h5 h8
  cases h5; cases h8; cases h7
  cases powerDenotes_unique h1 h4
  cases powerDenotes_unique hp h1
  have := ecovMusicCore_n h3
  obtain ⟨g1, g2, hnz, rfl⟩ := ecovMusicCore_iff.1 h3
  have hA := (fullRank_iff A).1 g1
  obtain ⟨s1, rfl⟩ := stoInfo_posDef hP.posSemidef hσ hn h6
  obtain ⟨d1, rfl⟩ := detInfo_posDef hP.posSemidef h9
  have hn0 : (0 : ℝ) < n := by exact_mod_cast hn
  have hc : 0 ≤ σ / n / 2 := by positivity
  have hH := Hmat_posSemidef (D := D) g1
  have o1 : ((σ / n / 2) • (reMat (Hmat A D ⊙ (Wmat A P σ)ᵀ))⁻¹ - (σ / n / 2) • (reMat (Hmat A D ⊙ Pᵀ))⁻¹).PosSemidef := by
    rw [← smul_sub]
    refine PosSemidef.smul (inv_antitone s1 d1 ?_) hc
    rw [reMat_sub]
    have : Hmat A D ⊙ Pᵀ - Hmat A D ⊙ (Wmat A P σ)ᵀ = Hmat A D ⊙ (P - Wmat A P σ)ᵀ := by
      ext i j; simp [hadamard_apply, mul_sub]
    rw [this]
    exact reMat_posSemidef (hH.hadamard (Wmat_le g1 hP hσ).transpose)
  have o2 : ((σ / 2 / n) • (reMat (Hmat A D ⊙ (Bmat A P σ)ᵀ) ⊙
        Matrix.of fun i j => ((Hmat A D i i).re)⁻¹ * ((Hmat A D j j).re)⁻¹) -
      (σ / n / 2) • (reMat (Hmat A D ⊙ (Wmat A P σ)ᵀ))⁻¹).PosSemidef := by
    rw [ecov_form _ fun i => ((Hmat A D i i).re)⁻¹, show σ / 2 / n = σ / n / 2 by ring, ← smul_sub]
    refine PosSemidef.smul (music_bound hH (Wmat_posDef hA hP hσ) (Wmat_mul_Bmat g1 hP hσ) (Bmat_posDef g1 hP hσ.le) ?_ s1) hc
    intro i
    have hu : IsUnit (reMat (Hmat A D ⊙ (Wmat A P σ)ᵀ)).det := (isUnit_iff_isUnit_det _).1 s1.isUnit
    have h0 : 0 ≤ (Hmat A D i i).re := (Complex.le_def.1 hH.diag_nonneg).1
    refine lt_of_le_of_ne h0 fun h => ?_
    -- a positive definite matrix has a positive diagonal
    have hp' := s1.diag_pos (i := i)
    rw [reMat_apply, hadamard_apply, transpose_apply, Complex.mul_re, ← h, zero_mul, zero_sub] at hp'
    have him : (Hmat A D i i).im = 0 := ((Complex.le_def.1 hH.diag_nonneg).2).symm
    rw [him, zero_mul, neg_zero] at hp'
    exact lt_irrefl _ hp'
  refine ⟨o1, o2, fun i => ⟨?_, ?_⟩⟩
  · have := o1.diag_nonneg (i := i)
    rw [Matrix.sub_apply] at this
    exact sub_nonneg.1 this
  · have := o2.diag_nonneg (i := i)
    rw [Matrix.sub_apply] at this
    exact sub_nonneg.1 this

/-- The hypotheses of **C64** and **C69** hold for every ULA scene. -/
theorem C69_ula {d wl : ℝ} {n : ℕ} {s : FF1D k} (h : UlaScene d wl n s) {name : Option String} {a : GridArray}
    (ha : ula n (.scalar d) name {} = .ok a) {p : PowerArg} {P : Matrix (Fin k) (Fin k) ℂ} (hp : PowerDenotes k p P) (hP : P.PosDef)
    {σ : ℝ} (hσ : 0 < σ) {N : ℕ} (hN : 1 ≤ N) :
    ∃ Cd Cs Cm, crbDet a.toArrayDesign (.ff1 s) wl (.matrix ⟨k, k, P⟩) σ N "full" = .ok (.full Cd) ∧
      crbSto a.toArrayDesign (.ff1 s) wl p σ N "full" = .ok (.full Cs) ∧
      ecovMusic a.toArrayDesign (.ff1 s) wl p σ N "all" "full" = .ok (.full Cm) ∧
      (Cs - Cd).PosSemidef ∧ (Cm - Cs).PosSemidef := by
  obtain ⟨⟨Cs, hs, _⟩, ⟨Cd, hd, _⟩⟩ := C58_ula h ha hp hP hσ hN
  obtain ⟨A, D, h1, h2, h3⟩ := h.facts ha "all" (by simp)
  have hsz : a.toArrayDesign.size = n := (C01_ula_geometry n d name {} a ha).1
  obtain ⟨Cm, hm⟩ := (C64_returns a.toArrayDesign (src := .ff1 s) rfl (hsz ▸ h.few) wl hp hP σ N hN "all" (steers_iff.2 h1)).2 ⟨h2, h3⟩
  obtain ⟨o1, o2, _⟩ := C69_ordering a.toArrayDesign (.ff1 s) wl hp hP hσ hN hd hs hm
  exact ⟨Cd, Cs, Cm, hd, hs, hm, o1, o2⟩

example : ∃ (a : GridArray) (C : Matrix (Fin 2) (Fin 2) ℝ),
    ecovMusic a.toArrayDesign (.ff1 ⟨![0, 1 / 2], "sin"⟩) 1 (.scalar 1) 1 10 "all" "full" = .ok (.full C) ∧ C.PosSemidef := by
  obtain ⟨a, ha⟩ := ula_ok 3 (1 / 2) none
  have hP : (Matrix.diagonal fun _ : Fin 2 => ((1 : ℝ) : ℂ)).PosDef := by
    rw [Complex.ofReal_one]; exact (diagonal_one (n := Fin 2) (α := ℂ)) ▸ PosDef.one
  obtain ⟨_, _, C, _, _, h, _⟩ := C69_ula exampleScene ha (p := .scalar 1) rfl hP one_pos (N := 10) (by norm_num)
  exact ⟨a, C, h, (C64_covariance _ _ _ (p := .scalar 1) rfl hP zero_le_one _ _ _ h).2.1⟩

end Doa.Props
