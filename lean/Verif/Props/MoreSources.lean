import Verif.Props.Numbering

/-!
# C94: additional sources never improve a bound
-/

namespace Doa.Props

open Doa Doa.Spec Matrix
open scoped ComplexOrder

variable {m k k' : ℕ}

/-! ### Principal submatrices -/

section
variable {𝕜 : Type} [RCLike 𝕜]

/-- The matrix that picks the entries `ι 0`, `ι 1`, ... of a vector. -/
def pick (ι : Fin k → Fin k') : Matrix (Fin k) (Fin k') 𝕜 := (1 : Matrix (Fin k') (Fin k') 𝕜).submatrix ι id

theorem pick_mul {l : Type} (ι : Fin k → Fin k') (M : Matrix (Fin k') l 𝕜) : pick ι * M = M.submatrix ι id := by
  unfold pick
  ext i j
  simp [Matrix.mul_apply, Matrix.one_apply]

theorem mul_pick {l : Type} (ι : Fin k → Fin k') (M : Matrix l (Fin k') 𝕜) : M * (pick ι)ᴴ = M.submatrix id ι := by
  unfold pick
  ext i j
  simp [Matrix.mul_apply, Matrix.one_apply, apply_ite]

theorem pick_mul_pick {ι : Fin k → Fin k'} (hι : Function.Injective ι) : (pick ι : Matrix (Fin k) (Fin k') 𝕜) * (pick ι : Matrix (Fin k) (Fin k') 𝕜)ᴴ = 1 := by
  rw [pick_mul, pick]
  ext i j
  simp [Matrix.one_apply, hι.eq_iff, eq_comm]

theorem sub_eq_pick (ι : Fin k → Fin k') (M : Matrix (Fin k') (Fin k') 𝕜) : M.submatrix ι ι = pick ι * M * (pick ι)ᴴ := by
  rw [pick_mul, mul_pick]
  rfl

end

theorem sub_inv_complex {ι : Fin k → Fin k'} (hι : Function.Injective ι) {F : Matrix (Fin k') (Fin k') ℂ} (hF : F.PosDef) :
    (F⁻¹.submatrix ι ι - (F.submatrix ι ι)⁻¹).PosSemidef := by
  have hG : (F.submatrix ι ι).PosDef := hF.submatrix hι
  set S : Matrix (Fin k) (Fin k') ℂ := pick ι with hS
  set G := F.submatrix ι ι with hGd
  have hGe : G = S * F * Sᴴ := sub_eq_pick ι F
  have hFu := (isUnit_iff_isUnit_det _).1 hF.isUnit
  have hGu := (isUnit_iff_isUnit_det _).1 hG.isUnit
  have hSS : S * Sᴴ = 1 := pick_mul_pick hι
  have key : (Sᴴ - F * (Sᴴ * G⁻¹))ᴴ * F⁻¹ * (Sᴴ - F * (Sᴴ * G⁻¹)) = S * F⁻¹ * Sᴴ - G⁻¹ := by
    have e1 : (Sᴴ - F * (Sᴴ * G⁻¹))ᴴ = S - G⁻¹ * S * F := by
      rw [conjTranspose_sub, conjTranspose_conjTranspose, conjTranspose_mul, conjTranspose_mul, conjTranspose_conjTranspose,
        hF.isHermitian.eq, hG.inv.isHermitian.eq]
    have e2 : (S - G⁻¹ * S * F) * F⁻¹ = S * F⁻¹ - G⁻¹ * S := by
      rw [Matrix.sub_mul, Matrix.mul_assoc _ F, mul_nonsing_inv _ hFu, Matrix.mul_one]
    have e3 : (S * F⁻¹ - G⁻¹ * S) * (F * (Sᴴ * G⁻¹)) = 0 := by
      rw [Matrix.sub_mul, Matrix.mul_assoc S, ← Matrix.mul_assoc F⁻¹, nonsing_inv_mul _ hFu, Matrix.one_mul, ← Matrix.mul_assoc S, hSS,
        Matrix.one_mul, show G⁻¹ * S * (F * (Sᴴ * G⁻¹)) = G⁻¹ * ((S * F * Sᴴ) * G⁻¹) by simp only [Matrix.mul_assoc], ← hGe,
        mul_nonsing_inv _ hGu, Matrix.mul_one, sub_self]
    rw [e1, e2, Matrix.mul_sub, e3, sub_zero, Matrix.sub_mul, Matrix.mul_assoc G⁻¹, hSS, Matrix.mul_one]
  rw [sub_eq_pick, ← key]
  exact hF.inv.posSemidef.conjTranspose_mul_mul_same _

theorem sub_inv_real {ι : Fin k → Fin k'} (hι : Function.Injective ι) {F : Matrix (Fin k') (Fin k') ℝ} (hF : F.PosDef) :
    (F⁻¹.submatrix ι ι - (F.submatrix ι ι)⁻¹).PosSemidef := by
  have hG : (F.submatrix ι ι).PosDef := hF.submatrix hι
  set S : Matrix (Fin k) (Fin k') ℝ := pick ι with hS
  set G := F.submatrix ι ι with hGd
  have hGe : G = S * F * Sᴴ := sub_eq_pick ι F
  have hFu := (isUnit_iff_isUnit_det _).1 hF.isUnit
  have hGu := (isUnit_iff_isUnit_det _).1 hG.isUnit
  have hSS : S * Sᴴ = 1 := pick_mul_pick hι
  have key : (Sᴴ - F * (Sᴴ * G⁻¹))ᴴ * F⁻¹ * (Sᴴ - F * (Sᴴ * G⁻¹)) = S * F⁻¹ * Sᴴ - G⁻¹ := by
    have e1 : (Sᴴ - F * (Sᴴ * G⁻¹))ᴴ = S - G⁻¹ * S * F := by
      rw [conjTranspose_sub, conjTranspose_conjTranspose, conjTranspose_mul, conjTranspose_mul, conjTranspose_conjTranspose,
        hF.isHermitian.eq, hG.inv.isHermitian.eq]
    have e2 : (S - G⁻¹ * S * F) * F⁻¹ = S * F⁻¹ - G⁻¹ * S := by
      rw [Matrix.sub_mul, Matrix.mul_assoc _ F, mul_nonsing_inv _ hFu, Matrix.mul_one]
    have e3 : (S * F⁻¹ - G⁻¹ * S) * (F * (Sᴴ * G⁻¹)) = 0 := by
      rw [Matrix.sub_mul, Matrix.mul_assoc S, ← Matrix.mul_assoc F⁻¹, nonsing_inv_mul _ hFu, Matrix.one_mul, ← Matrix.mul_assoc S, hSS,
        Matrix.one_mul, show G⁻¹ * S * (F * (Sᴴ * G⁻¹)) = G⁻¹ * ((S * F * Sᴴ) * G⁻¹) by simp only [Matrix.mul_assoc], ← hGe,
        mul_nonsing_inv _ hGu, Matrix.mul_one, sub_self]
    rw [e1, e2, Matrix.mul_sub, e3, sub_zero, Matrix.sub_mul, Matrix.mul_assoc G⁻¹, hSS, Matrix.mul_one]
  rw [sub_eq_pick, ← key]
  exact hF.inv.posSemidef.conjTranspose_mul_mul_same _

/-! ### Fewer sources -/

theorem fullRank_fewer {ι : Fin k → Fin k'} (hι : Function.Injective ι) {A : Matrix (Fin m) (Fin k') ℂ} (hG : IsUnit (Aᴴ * A).det) :
    IsUnit ((A.submatrix id ι)ᴴ * A.submatrix id ι).det := by
  have : (A.submatrix id ι)ᴴ * A.submatrix id ι = (Aᴴ * A).submatrix ι ι := by
    ext i j; rfl
  rw [this]
  exact (isUnit_iff_isUnit_det _).1 ((gram_posDef hG).submatrix hι).isUnit

/-- Removing sources enlarges the complement of the signal subspace. -/
theorem Hmat_fewer {ι : Fin k → Fin k'} (hι : Function.Injective ι) {A D : Matrix (Fin m) (Fin k') ℂ} (hG : IsUnit (Aᴴ * A).det) :
    (Hmat (A.submatrix id ι) (D.submatrix id ι) - (Hmat A D).submatrix ι ι).PosSemidef := by
  have hG' := fullRank_fewer hι hG
  set B := A.submatrix id ι with hB
  set E := D.submatrix id ι with hE
  set Q := compProj A with hQ
  set Q' := compProj B with hQ'
  have h1 : Q * B = 0 := by
    rw [hB, ← mul_pick, ← Matrix.mul_assoc, compProj_mul hG, Matrix.zero_mul]
  have h2 : Q * Q' = Q := by
    rw [hQ']
    unfold compProj
    rw [Matrix.mul_sub, Matrix.mul_one, ← Matrix.mul_assoc, h1, Matrix.zero_mul, sub_zero]
  have hQh : Qᴴ = Q := compProj_herm A
  have hQh' : Q'ᴴ = Q' := compProj_herm B
  have h3 : Q' * Q = Q := by
    have := congrArg conjTranspose h2
    rwa [conjTranspose_mul, hQh, hQh'] at this
  have h4 : (Q' - Q)ᴴ * (Q' - Q) = Q' - Q := by
    rw [conjTranspose_sub, hQh, hQh', Matrix.sub_mul, Matrix.mul_sub, Matrix.mul_sub, h2, h3, compProj_idem hG', compProj_idem hG, sub_self, sub_zero]
  have h5 : Hmat B E - (Hmat A D).submatrix ι ι = ((Q' - Q) * E)ᴴ * ((Q' - Q) * E) := by
    have e : (Hmat A D).submatrix ι ι = Eᴴ * Q * E := by
      rw [Hmat_eq]; ext i j; rfl
    have e' : ((Q' - Q) * E)ᴴ * ((Q' - Q) * E) = Eᴴ * ((Q' - Q)ᴴ * (Q' - Q)) * E := by
      rw [conjTranspose_mul]; simp only [Matrix.mul_assoc]
    rw [e, Hmat_eq, e', h4, Matrix.mul_sub, Matrix.sub_mul]
  rw [h5]
  exact posSemidef_conjTranspose_mul_self _

/-- The added sources are uncorrelated with the ones listed by `ι`. -/
def UncorrelatedWith (ι : Fin k → Fin k') (P : Matrix (Fin k') (Fin k') ℂ) : Prop :=
  ∀ (i : Fin k) (j : Fin k'), j ∉ Set.range ι → P (ι i) j = 0 ∧ P j (ι i) = 0

theorem UncorrelatedWith.mul_pick {ι : Fin k → Fin k'} (hι : Function.Injective ι) {P : Matrix (Fin k') (Fin k') ℂ} (h : UncorrelatedWith ι P) :
    P * (pick ι)ᴴ = (pick ι)ᴴ * P.submatrix ι ι := by
  rw [Doa.Props.mul_pick]
  ext j i
  have e : ((pick ι : Matrix _ _ ℂ)ᴴ * P.submatrix ι ι) j i = ∑ l, (if ι l = j then 1 else 0) * P (ι l) (ι i) := by
    simp [Matrix.mul_apply, pick, Matrix.one_apply, eq_comm]
  rw [e, submatrix_apply, id]
  by_cases hj : j ∈ Set.range ι
  · obtain ⟨l, rfl⟩ := hj
    simp [hι.eq_iff]
  · rw [(h i j hj).2, Finset.sum_eq_zero]
    intro l _
    rw [if_neg fun hl => hj ⟨l, hl⟩, zero_mul]

theorem Wmat_fewer {ι : Fin k → Fin k'} (hι : Function.Injective ι) {A : Matrix (Fin m) (Fin k') ℂ} {P : Matrix (Fin k') (Fin k') ℂ}
    (hP : P.PosSemidef) (hu : UncorrelatedWith ι P) {σ : ℝ} (hσ : 0 < σ) :
    (Wmat (A.submatrix id ι) (P.submatrix ι ι) σ - (Wmat A P σ).submatrix ι ι).PosSemidef := by
  set S : Matrix (Fin k) (Fin k') ℂ := pick ι with hS
  set P1 := P.submatrix ι ι with hP1
  have hSS : S * Sᴴ = 1 := pick_mul_pick hι
  have hc : P * Sᴴ = Sᴴ * P1 := hu.mul_pick hι
  have hP1p : P1.PosSemidef := hP.submatrix ι
  have hc' : S * P = P1 * S := by
    have := congrArg conjTranspose hc
    rwa [conjTranspose_mul, conjTranspose_mul, conjTranspose_conjTranspose, hP.isHermitian.eq, hP1p.isHermitian.eq] at this
  have hB : A.submatrix id ι = A * Sᴴ := (mul_pick ι A).symm
  set R := A * P * Aᴴ + (σ : ℂ) • (1 : Matrix (Fin m) (Fin m) ℂ) with hR
  set R1 := A.submatrix id ι * P1 * (A.submatrix id ι)ᴴ + (σ : ℂ) • (1 : Matrix (Fin m) (Fin m) ℂ) with hR1
  have hRp : R.PosDef := modelR_posDef hP hσ
  have hR1p : R1.PosDef := modelR_posDef hP1p hσ
  have hle : (R - R1).PosSemidef := by
    have e1 : (1 - Sᴴ * S)ᴴ * P * (1 - Sᴴ * S) = P - Sᴴ * P1 * S := by
      have a1 : (1 - Sᴴ * S)ᴴ = 1 - Sᴴ * S := by
        rw [conjTranspose_sub, conjTranspose_one, conjTranspose_mul, conjTranspose_conjTranspose]
      have a2 : P * (1 - Sᴴ * S) = P - Sᴴ * P1 * S := by
        rw [Matrix.mul_sub, Matrix.mul_one, ← Matrix.mul_assoc, hc]
      have a3 : Sᴴ * S * (P - Sᴴ * P1 * S) = 0 := by
        rw [Matrix.mul_sub, Matrix.mul_assoc Sᴴ S P, hc', show Sᴴ * S * (Sᴴ * P1 * S) = Sᴴ * ((S * Sᴴ) * (P1 * S)) by simp only [Matrix.mul_assoc],
          hSS, Matrix.one_mul, sub_self]
      rw [a1, Matrix.mul_assoc, a2, Matrix.sub_mul, Matrix.one_mul, a3, sub_zero]
    have e2 : R - R1 = A * (P - Sᴴ * P1 * S) * Aᴴ := by
      rw [hR, hR1, hB, add_sub_add_right_eq_sub, conjTranspose_mul, conjTranspose_conjTranspose, Matrix.mul_sub, Matrix.sub_mul]
      simp only [Matrix.mul_assoc]
    rw [e2, ← e1]
    exact (hP.conjTranspose_mul_mul_same _).mul_mul_conjTranspose_same A
  have e : Wmat (A.submatrix id ι) P1 σ - (Wmat A P σ).submatrix ι ι = (A * Sᴴ * P1)ᴴ * (R1⁻¹ - R⁻¹) * (A * Sᴴ * P1) := by
    have e3 : (Wmat A P σ).submatrix ι ι = (A * Sᴴ * P1)ᴴ * R⁻¹ * (A * Sᴴ * P1) := by
      rw [sub_eq_pick, conjTranspose_mul, conjTranspose_mul, conjTranspose_conjTranspose, hP1p.isHermitian.eq]
      unfold Wmat
      calc S * (P * (Aᴴ * (R⁻¹ * A)) * P) * Sᴴ = (S * P) * (Aᴴ * (R⁻¹ * A)) * (P * Sᴴ) := by simp only [Matrix.mul_assoc]
        _ = _ := by rw [hc, hc']; simp only [Matrix.mul_assoc]
    have e4 : Wmat (A.submatrix id ι) P1 σ = (A * Sᴴ * P1)ᴴ * R1⁻¹ * (A * Sᴴ * P1) := by
      unfold Wmat
      rw [← hR1, hB, conjTranspose_mul (A * Sᴴ), hP1p.isHermitian.eq]
      simp only [Matrix.mul_assoc]
    rw [e3, e4, Matrix.mul_sub, Matrix.sub_mul]
  rw [e]
  exact (inv_antitone_complex hR1p hRp hle).conjTranspose_mul_mul_same _

theorem Bmat_fewer {ι : Fin k → Fin k'} (hι : Function.Injective ι) {A : Matrix (Fin m) (Fin k') ℂ} (hG : IsUnit (Aᴴ * A).det)
    {P : Matrix (Fin k') (Fin k') ℂ} (hP : P.PosDef) (hu : UncorrelatedWith ι P) {σ : ℝ} (hσ : 0 ≤ σ) :
    ((Bmat A P σ).submatrix ι ι - Bmat (A.submatrix id ι) (P.submatrix ι ι) σ).PosSemidef := by
  set S : Matrix (Fin k) (Fin k') ℂ := pick ι with hS
  set P1 := P.submatrix ι ι with hP1
  have hSS : S * Sᴴ = 1 := pick_mul_pick hι
  have hc : P * Sᴴ = Sᴴ * P1 := hu.mul_pick hι
  have hP1p : P1.PosDef := hP.submatrix hι
  have hPu := (isUnit_iff_isUnit_det _).1 hP.isUnit
  have hP1u := (isUnit_iff_isUnit_det _).1 hP1p.isUnit
  have hci : P⁻¹ * Sᴴ = Sᴴ * P1⁻¹ := by
    have : P⁻¹ * (P * Sᴴ) * P1⁻¹ = P⁻¹ * (Sᴴ * P1) * P1⁻¹ := by rw [hc]
    rw [← Matrix.mul_assoc, nonsing_inv_mul _ hPu, Matrix.one_mul, Matrix.mul_assoc, Matrix.mul_assoc, mul_nonsing_inv _ hP1u, Matrix.mul_one] at this
    exact this.symm
  have hci' : S * (P⁻¹)ᴴ = (P1⁻¹)ᴴ * S := by
    have := congrArg conjTranspose hci
    rwa [conjTranspose_mul, conjTranspose_mul, conjTranspose_conjTranspose] at this
  have hgram : (A.submatrix id ι)ᴴ * A.submatrix id ι = (Aᴴ * A).submatrix ι ι := by
    ext i j; rfl
  rw [Bmat_eq hP, Bmat_eq hP1p, hgram, sub_eq_pick]
  have e1 : S * (P⁻¹ + (σ : ℂ) • ((P⁻¹)ᴴ * (Aᴴ * A)⁻¹ * P⁻¹)) * Sᴴ = P1⁻¹ + (σ : ℂ) • ((P1⁻¹)ᴴ * ((Aᴴ * A)⁻¹.submatrix ι ι) * P1⁻¹) := by
    rw [Matrix.mul_add, Matrix.add_mul, Matrix.mul_assoc S, hci, ← Matrix.mul_assoc, hSS, Matrix.one_mul, Matrix.mul_smul, Matrix.smul_mul]
    congr 2
    calc S * ((P⁻¹)ᴴ * (Aᴴ * A)⁻¹ * P⁻¹) * Sᴴ = (S * (P⁻¹)ᴴ) * (Aᴴ * A)⁻¹ * (P⁻¹ * Sᴴ) := by simp only [Matrix.mul_assoc]
      _ = _ := by rw [hci, hci', sub_eq_pick]; simp only [Matrix.mul_assoc]; rfl
  rw [e1, add_sub_add_left_eq_sub, ← smul_sub]
  refine PosSemidef.smul ?_ (Complex.zero_le_real.2 hσ)
  rw [← Matrix.sub_mul, ← Matrix.mul_sub]
  exact (sub_inv_complex hι (gram_posDef hG)).conjTranspose_mul_mul_same _

/-- Bound for the smaller problem from the information matrix of the larger one. -/
theorem bound_fewer {ι : Fin k → Fin k'} (hι : Function.Injective ι) {F' : Matrix (Fin k') (Fin k') ℝ} {F : Matrix (Fin k) (Fin k) ℝ}
    (hF' : F'.PosDef) (h : (F - F'.submatrix ι ι).PosSemidef) {c : ℝ} (hc : 0 ≤ c) :
    F.PosDef ∧ ((c • F'⁻¹).submatrix ι ι - c • F⁻¹).PosSemidef := by
  have hs : (F'.submatrix ι ι).PosDef := hF'.submatrix hι
  refine ⟨posDef_of_le hs h, ?_⟩
  have h1 := ((sub_inv_real hι hF').smul hc).add (scaled_inv_mono hs h hc le_rfl)
  rwa [smul_sub, sub_add_sub_cancel] at h1

/-! ### The theorems -/

/-- **C94** (deterministic bound). Take some of the sources of `s` (those listed by `ι`) together with their block of the source
covariance. If `crb_det_farfield_1d` returned a bound for all the sources, it returns one for the chosen ones, and
this one does not exceed the corresponding block of the first in the order of symmetric matrices: whatever further sources are
present, and however they are correlated with the chosen ones, no variance becomes smaller. -/
theorem C94_det {ι : Fin k → Fin k'} (hι : Function.Injective ι) (a : ArrayDesign) (s : FF1D k') (wl : ℝ) {P : Matrix (Fin k') (Fin k') ℂ}
    (hP : P.PosSemidef) {σ : ℝ} (hσ : 0 ≤ σ) (n : ℕ) (C' : Matrix (Fin k') (Fin k') ℝ)
    (hC : crbDet a (.ff1 s) wl (.matrix ⟨k', k', P⟩) σ n "full" = .ok (.full C')) :
    ∃ C, crbDet a (.ff1 (⟨fun i => s.loc (ι i), s.unit⟩ : FF1D k)) wl (.matrix ⟨k, k, P.submatrix ι ι⟩) σ n "full" = .ok (.full C) ∧
      (C'.submatrix ι ι - C).PosSemidef ∧ ∀ i, C i i ≤ C' (ι i) (ι i) := by
  obtain ⟨-, P0, A, D, h1, h2, h3⟩ := crbDet_full_iff.1 hC
  cases h1
  obtain ⟨hF, rfl⟩ := detInfo_posDef hP h3
  have := crbDetCore_n h3
  obtain ⟨hG, -⟩ := crbDetCore_iff.1 h3
  have hP1 : (P.submatrix ι ι).PosSemidef := hP.submatrix ι
  have hle := info_mono (Hmat_fewer (D := D) hι hG) (W := P.submatrix ι ι) (W' := P.submatrix ι ι) (by rw [sub_self]; exact PosSemidef.zero)
    ((Hmat_posSemidef (D := D) hG).submatrix ι) hP1
  obtain ⟨hF1, hord⟩ := bound_fewer hι hF hle (c := σ / n / 2) (by positivity)
  refine ⟨_, crbDet_full_iff.2 ⟨rfl, _, _, _, rfl, steerPair_reorder ι h2, crbDetCore_iff.2 ⟨fullRank_fewer hι hG,
    (isUnit_iff_isUnit_det _).1 hF1.isUnit, rfl⟩⟩, ?_⟩
  rw [symPart_smul, symPart_of_symm hF1.inv.isHermitian]
  exact ⟨hord, fun i => diag_le hord i⟩

/-- **C94** (stochastic bound). The same for `crb_sto_farfield_1d` when the additional sources are uncorrelated with the chosen ones. -/
theorem C94_sto {ι : Fin k → Fin k'} (hι : Function.Injective ι) (a : ArrayDesign) (s : FF1D k') (wl : ℝ) {p p' : PowerArg}
    {P : Matrix (Fin k') (Fin k') ℂ} (hp' : PowerDenotes k' p' P) (hp : PowerDenotes k p (P.submatrix ι ι)) (hP : P.PosSemidef)
    (hu : ∀ (i : Fin k) (j : Fin k'), j ∉ Set.range ι → P (ι i) j = 0 ∧ P j (ι i) = 0) {σ : ℝ} (hσ : 0 < σ) {n : ℕ} (hn : 1 ≤ n)
    (C' : Matrix (Fin k') (Fin k') ℝ) (hC : crbSto a (.ff1 s) wl p' σ n "full" = .ok (.full C')) :
    ∃ C, crbSto a (.ff1 (⟨fun i => s.loc (ι i), s.unit⟩ : FF1D k)) wl p σ n "full" = .ok (.full C) ∧
      (C'.submatrix ι ι - C).PosSemidef ∧ ∀ i, C i i ≤ C' (ι i) (ι i) := by
  obtain ⟨-, P0, A, D, h1, h2, h3⟩ := crbSto_full_iff.1 hC
  cases powerDenotes_unique hp' h1
  obtain ⟨hF, rfl⟩ := stoInfo_posDef hP hσ hn h3
  have := crbStoCore_n h3
  obtain ⟨hG, -⟩ := crbStoCore_iff.1 h3
  have hP1 : (P.submatrix ι ι).PosSemidef := hP.submatrix ι
  have hle := info_mono (Hmat_fewer (D := D) hι hG) (Wmat_fewer (A := A) hι hP hu hσ)
    ((Hmat_posSemidef (D := D) hG).submatrix ι) (Wmat_posSemidef hP1 hσ)
  obtain ⟨hF1, hord⟩ := bound_fewer hι hF hle (c := σ / n / 2) (by positivity)
  refine ⟨_, crbSto_full_iff.2 ⟨rfl, _, _, _, hp, steerPair_reorder ι h2, crbStoCore_iff.2 ⟨fullRank_fewer hι hG,
    (isUnit_iff_isUnit_det _).1 (modelR_posDef hP1 hσ).isUnit, (isUnit_iff_isUnit_det _).1 hF1.isUnit, rfl⟩⟩, ?_⟩
  rw [symPart_smul, symPart_of_symm hF1.inv.isHermitian]
  exact ⟨hord, fun i => diag_le hord i⟩

/-- **C94** (MUSIC). The same for the variances of `ecov_music_1d`. -/
theorem C94_music {ι : Fin k → Fin k'} (hι : Function.Injective ι) (a : ArrayDesign) (s : FF1D k') (wl : ℝ) {p p' : PowerArg}
    {P : Matrix (Fin k') (Fin k') ℂ} (hp' : PowerDenotes k' p' P) (hp : PowerDenotes k p (P.submatrix ι ι)) (hP : P.PosDef)
    (hu : ∀ (i : Fin k) (j : Fin k'), j ∉ Set.range ι → P (ι i) j = 0 ∧ P j (ι i) = 0) {σ : ℝ} (hσ : 0 ≤ σ) (n : ℕ) (pert : String)
    (C' : Matrix (Fin k') (Fin k') ℝ) (hC : ecovMusic a (.ff1 s) wl p' σ n pert "full" = .ok (.full C')) :
    ∃ C, ecovMusic a (.ff1 (⟨fun i => s.loc (ι i), s.unit⟩ : FF1D k)) wl p σ n pert "full" = .ok (.full C) ∧ ∀ i, C i i ≤ C' (ι i) (ι i) := by
  obtain ⟨-, hk, P0, A, D, h1, h2, h3⟩ := ecovMusic_full_iff.1 hC
  cases powerDenotes_unique hp' h1
  have := ecovMusicCore_n h3
  obtain ⟨hG, hPu, hnz, rfl⟩ := ecovMusicCore_iff.1 h3
  have hG1 := fullRank_fewer hι hG
  have hP1 : (P.submatrix ι ι).PosDef := hP.submatrix hι
  have hk1 : k < a.size := lt_of_le_of_lt (by simpa using Fintype.card_le_of_injective ι hι) hk
  have hpos : ∀ i, 0 < (Hmat A D i i).re := fun i =>
    lt_of_le_of_ne (Complex.le_def.1 ((Hmat_posSemidef hG).diag_nonneg (i := i))).1 (hnz i).symm
  have hH : ∀ i, (Hmat A D (ι i) (ι i)).re ≤ (Hmat (A.submatrix id ι) (D.submatrix id ι) i i).re := fun i =>
    re_diag_le (Hmat_fewer (D := D) hι hG) i
  have hB : ∀ i, (Bmat (A.submatrix id ι) (P.submatrix ι ι) σ i i).re ≤ (Bmat A P σ (ι i) (ι i)).re := fun i =>
    re_diag_le (Bmat_fewer hι hG hP hu hσ) i
  refine ⟨_, ecovMusic_full_iff.2 ⟨rfl, hk1, _, _, _, hp, steerPair_reorder ι h2, ecovMusicCore_iff.2 ⟨hG1, (isUnit_iff_isUnit_det _).1 hP1.isUnit,
    fun i => ((hpos (ι i)).trans_le (hH i)).ne', rfl⟩⟩, fun i => ?_⟩
  have e1 := ecov_diag (D := D.submatrix id ι) hG1 (P := P.submatrix ι ι) (σ := σ) (n := n) i
  have e2 := ecov_diag (D := D) hG (P := P) (σ := σ) (n := n) (ι i)
  unfold Bmat at e1 e2 hB
  rw [e1, e2]
  have hB0 : 0 ≤ (Bmat (A.submatrix id ι) (P.submatrix ι ι) σ i i).re :=
    (Complex.le_def.1 ((Bmat_posDef hG1 hP1 hσ).posSemidef.diag_nonneg (i := i))).1
  unfold Bmat at hB0
  refine mul_le_mul_of_nonneg_left ?_ (by positivity)
  exact mul_le_mul (hB i) (inv_anti₀ (hpos (ι i)) (hH i)) (inv_nonneg.2 ((hpos (ι i)).le.trans (hH i))) (hB0.trans (hB i))

/-- Non-vacuity: of the two sources of the running example keep the second one; both bounds exist. -/
example : ∃ (a : GridArray) (C' : Matrix (Fin 2) (Fin 2) ℝ) (C : Matrix (Fin 1) (Fin 1) ℝ),
    crbSto a.toArrayDesign (.ff1 (⟨![0, 1 / 2], "sin"⟩ : FF1D 2)) 1 (.list [1, 2]) 1 10 "full" = .ok (.full C') ∧
    crbSto a.toArrayDesign (.ff1 (⟨![1 / 2], "sin"⟩ : FF1D 1)) 1 (.list [2]) 1 10 "full" = .ok (.full C) ∧ C 0 0 ≤ C' 1 1 := by
  obtain ⟨a, ha⟩ := ula_ok 3 (1 / 2) none
  have hp : PowerDenotes 2 (.list [1, 2]) (Matrix.diagonal fun i : Fin 2 => (([1, 2].getD i.1 0 : ℝ) : ℂ)) := ⟨rfl, rfl⟩
  have hP : (Matrix.diagonal fun i : Fin 2 => (([1, 2].getD i.1 0 : ℝ) : ℂ)).PosDef := by
    rw [posDef_diagonal_iff]
    intro i
    fin_cases i
    · exact Complex.zero_lt_real.2 one_pos
    · exact Complex.zero_lt_real.2 two_pos
  obtain ⟨⟨C, h1, h2⟩, _⟩ := C58_ula exampleScene ha (p := .list [1, 2]) hp hP one_pos (N := 10) (by norm_num)
  have hp1 : PowerDenotes 1 (.list [2]) ((Matrix.diagonal fun i : Fin 2 => (([1, 2].getD i.1 0 : ℝ) : ℂ)).submatrix
      (fun _ : Fin 1 => (1 : Fin 2)) (fun _ : Fin 1 => (1 : Fin 2))) := by
    refine ⟨rfl, ?_⟩
    ext i j
    fin_cases i; fin_cases j; simp
  obtain ⟨C1, g1, -, g2⟩ := C94_sto (ι := fun _ : Fin 1 => (1 : Fin 2)) (Function.injective_of_subsingleton _) a.toArrayDesign
    (⟨![0, 1 / 2], "sin"⟩ : FF1D 2) 1 hp hp1 hP.posSemidef (fun i j hj => by
      have hj' : j ≠ 1 := fun h => hj ⟨0, h.symm⟩
      exact ⟨diagonal_apply_ne' _ hj', diagonal_apply_ne _ hj'⟩) one_pos (by norm_num) C h1
  have hs : (⟨fun _ : Fin 1 => ![0, 1 / 2] (1 : Fin 2), "sin"⟩ : FF1D 1) = ⟨![1 / 2], "sin"⟩ := by
    congr 1
    funext i
    fin_cases i; simp
  refine ⟨a, C, C1, h1, ?_, g2 0⟩
  rw [← hs]
  exact g1

end Doa.Props
