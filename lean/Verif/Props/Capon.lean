import Verif.Props.Consistency
import Verif.Props.Ecov

/-!
# C95: what the MVDR spectrum says about powers, and when it resolves the sources
-/

namespace Doa.Props

open Doa Doa.Spec Matrix
open scoped ComplexOrder Topology
open MeasureTheory Filter

variable {m k : ℕ}

/-! ### Values of the MVDR spectrum -/

/-- The value of the MVDR spectrum at a vector, for a positive definite matrix. -/
theorem mvdr_value {R : Matrix (Fin m) (Fin m) ℂ} (hR : R.PosDef) {L : List (Fin m → ℂ)} {j : ℕ} {v : Fin m → ℂ} (h : L[j]? = some v)
    {q : ℝ} (hq : 0 < q) (hv : (star v ⬝ᵥ R⁻¹ *ᵥ v).re = q) : (fMvdr R L)[j]? = some ((1 / q : ℝ) : WithTop ℝ) := by
  rw [fMvdr, List.getElem?_map, h, Option.map_some, mvdrRaw_eq hR, hv]
  unfold npRecip
  rw [if_neg hq.ne']

theorem quad_re {M : Matrix (Fin m) (Fin m) ℂ} (hM : M.PosSemidef) (v : Fin m → ℂ) : 0 ≤ (star v ⬝ᵥ M *ᵥ v).re :=
  (Complex.le_def.1 (hM.dotProduct_mulVec_nonneg v)).1

/-- `aᴴ M b` for columns of a matrix. -/
theorem quad_col (A : Matrix (Fin m) (Fin k) ℂ) (M : Matrix (Fin m) (Fin m) ℂ) (c : Fin k) :
    star (A.col c) ⬝ᵥ M *ᵥ A.col c = (Aᴴ * (M * A)) c c := by
  rw [Matrix.mul_apply]
  refine Finset.sum_congr rfl fun i _ => ?_
  rw [conjTranspose_apply]
  rfl

/-- At a source, the quadratic form of the inverse covariance matrix is an entry of `(P + σ (AᴴA)⁻¹)⁻¹`. -/
theorem inv_form {A : Matrix (Fin m) (Fin k) ℂ} (hA : Function.Injective A.mulVec) {P : Matrix (Fin k) (Fin k) ℂ} (hP : P.PosSemidef) {σ : ℝ}
    (hσ : 0 < σ) : Aᴴ * ((covModel A P σ)⁻¹ * A) = (P + (σ : ℂ) • (Aᴴ * A)⁻¹)⁻¹ :=
  (inv_eq_left_inv (weight_identity ((fullRank_iff A).2 hA) ((isUnit_iff_isUnit_det _).1 (modelR_posDef (A := A) hP hσ).isUnit))).symm

theorem loaded_posDef {A : Matrix (Fin m) (Fin k) ℂ} (hA : Function.Injective A.mulVec) {P : Matrix (Fin k) (Fin k) ℂ} (hP : P.PosSemidef) {σ : ℝ}
    (hσ : 0 < σ) : (P + (σ : ℂ) • (Aᴴ * A)⁻¹).PosDef :=
  PosDef.posSemidef_add hP ((gram_posDef ((fullRank_iff A).2 hA)).inv.smul (Complex.zero_lt_real.2 hσ))

theorem diag_re_pos {M : Matrix (Fin k) (Fin k) ℂ} (hM : M.PosDef) (c : Fin k) : 0 < (M c c).re :=
  (Complex.lt_def.1 (hM.diag_pos (i := c))).1

theorem diag_re_mono {M N : Matrix (Fin k) (Fin k) ℂ} (h : (N - M).PosSemidef) (i : Fin k) : (M i i).re ≤ (N i i).re := by
  have := (Complex.le_def.1 (h.diag_nonneg (i := i))).1
  rw [Matrix.sub_apply, Complex.sub_re, Complex.zero_re] at this
  linarith

theorem inv_antitone_psd {ι : Type} [Fintype ι] [DecidableEq ι] {M N : Matrix ι ι ℂ} (hM : M.PosDef) (hN : N.PosDef)
    (h : (N - M).PosSemidef) : (M⁻¹ - N⁻¹).PosSemidef := by
  have hMi : M⁻¹⁻¹ = M := nonsing_inv_nonsing_inv _ ((isUnit_iff_isUnit_det _).1 hM.isUnit)
  let _ := hM.inv.isUnit.invertible
  let _ := hN.isUnit.invertible
  have h1 : (fromBlocks M⁻¹ 1 (1 : Matrix ι ι ℂ)ᴴ N).PosSemidef := by
    rw [PosDef.fromBlocks₁₁ _ _ hM.inv, hMi]
    simpa using h
  rw [PosDef.fromBlocks₂₂ _ _ hN] at h1
  simpa using h1

/-- **C95** (monotone). Adding power of any kind to the data never lowers the MVDR spectrum, nor the Bartlett spectrum. -/
theorem C95_monotone {R R' : Matrix (Fin m) (Fin m) ℂ} (hR : R.PosDef) (h : (R' - R).PosSemidef) (L : List (Fin m → ℂ))
    (hL : ∀ a ∈ L, a ≠ 0) (j : ℕ) :
    (∀ y y', (fMvdr R L)[j]? = some y → (fMvdr R' L)[j]? = some y' → y ≤ y') ∧
    (∀ y y', (fBartlett R L)[j]? = some y → (fBartlett R' L)[j]? = some y' → y ≤ y') := by
  have hR' : R'.PosDef := by
    have := hR.add_posSemidef h
    rwa [add_sub_cancel] at this
  constructor
  · intro y y' hy hy'
    obtain ⟨v, hv, -⟩ : ∃ v, L[j]? = some v ∧ _ := by
      rw [fMvdr, List.getElem?_map, Option.map_eq_some_iff] at hy
      exact hy
    have hv0 := hL v (List.mem_of_getElem? hv)
    have p1 := (Complex.lt_def.1 (hR.inv.dotProduct_mulVec_pos hv0)).1
    have p2 := (Complex.lt_def.1 (hR'.inv.dotProduct_mulVec_pos hv0)).1
    rw [mvdr_value hR hv p1 rfl, Option.some.injEq] at hy
    rw [mvdr_value hR' hv p2 rfl, Option.some.injEq] at hy'
    rw [← hy, ← hy']
    have hle := quad_re (inv_antitone_psd hR hR' h) v
    rw [Matrix.sub_mulVec, dotProduct_sub, Complex.sub_re] at hle
    exact_mod_cast one_div_le_one_div_of_le p2 (by linarith)
  · intro y y' hy hy'
    rw [fBartlett, List.getElem?_map, Option.map_eq_some_iff] at hy hy'
    obtain ⟨v, hv, rfl⟩ := hy
    obtain ⟨v', hv', rfl⟩ := hy'
    obtain rfl : v = v' := Option.some.inj (hv.symm.trans hv')
    have hle := quad_re h v
    rw [Matrix.sub_mulVec, dotProduct_sub, Complex.sub_re] at hle
    rw [bartlettRaw_eq, bartlettRaw_eq]
    linarith

/-- **C95** (power of a source). For the exact covariance `A P Aᴴ + σ I` of sources with linearly independent responses the MVDR spectrum at
the response of source `c` is the reciprocal of the entry of `(P + σ (AᴴA)⁻¹)⁻¹`. -/
theorem C95_value {A : Matrix (Fin m) (Fin k) ℂ} (hA : Function.Injective A.mulVec) {P : Matrix (Fin k) (Fin k) ℂ} (hP : P.PosSemidef) {σ : ℝ}
    (hσ : 0 < σ) {L : List (Fin m → ℂ)} {j : ℕ} {c : Fin k} (h : L[j]? = some (A.col c)) :
    ∃ q : ℝ, 0 < q ∧ (q : ℂ) = (P + (σ : ℂ) • (Aᴴ * A)⁻¹)⁻¹ c c ∧ (fMvdr (covModel A P σ) L)[j]? = some ((1 / q : ℝ) : WithTop ℝ) := by
  have hpd := (loaded_posDef hA hP hσ).inv
  refine ⟨_, diag_re_pos hpd c, ?_, mvdr_value (covModel_posDef A hP hσ) h (diag_re_pos hpd c) ?_⟩
  · exact (Complex.eq_re_of_ofReal_le (r := 0) (by exact_mod_cast hpd.posSemidef.diag_nonneg (i := c))).symm
  · rw [quad_col, inv_form hA hP hσ]

theorem inv_diag_le {M : Matrix (Fin k) (Fin k) ℂ} (hM : M.PosDef) (c : Fin k) : 1 / (M⁻¹ c c).re ≤ (M c c).re := by
  -- 1 = |e_cᴴ M⁻¹ M e_c|² ≤ ...: take the minimum of wᴴ M w over w_c = 1
  set d : ℝ := (M⁻¹ c c).re with hd
  have hd0 : 0 < d := diag_re_pos hM.inv c
  have hMu := (isUnit_iff_isUnit_det _).1 hM.isUnit
  have hdc : M⁻¹ c c = (d : ℂ) := Complex.eq_re_of_ofReal_le (r := 0) (by exact_mod_cast hM.inv.posSemidef.diag_nonneg (i := c))
  -- the vector e_c − d⁻¹ M⁻¹ e_c
  set w : Fin k → ℂ := Pi.single c 1 - ((d⁻¹ : ℝ) : ℂ) • M⁻¹.col c with hw
  have h0 := quad_re hM.posSemidef w
  have hMw : M *ᵥ w = M.col c - ((d⁻¹ : ℝ) : ℂ) • Pi.single c 1 := by
    rw [hw, mulVec_sub, mulVec_smul, mulVec_single_one, ← mulVec_single_one M⁻¹, mulVec_mulVec, mul_nonsing_inv _ hMu, one_mulVec]
  have hcol : star (M⁻¹.col c) ⬝ᵥ M.col c = 1 := by
    have h1 : star (M⁻¹.col c) ⬝ᵥ M.col c = (M⁻¹ * M) c c := by
      rw [Matrix.mul_apply]
      refine Finset.sum_congr rfl fun i _ => ?_
      rw [← hM.inv.isHermitian.apply c i]
      rfl
    rw [h1, nonsing_inv_mul _ hMu, one_apply_eq]
  have hq : star w ⬝ᵥ M *ᵥ w = M c c - ((d⁻¹ : ℝ) : ℂ) := by
    rw [hMw, hw, star_sub, star_smul, sub_dotProduct, dotProduct_sub, dotProduct_sub, smul_dotProduct, smul_dotProduct, hcol, dotProduct_smul,
      dotProduct_smul, ← Pi.single_star, star_one, single_one_dotProduct, dotProduct_single_one, dotProduct_single_one]
    simp only [Matrix.col_apply, Pi.star_apply, Pi.single_eq_same, smul_eq_mul, hdc, Complex.star_def, Complex.conj_ofReal, mul_one]
    have : ((d⁻¹ : ℝ) : ℂ) * d = 1 := by rw [← Complex.ofReal_mul, inv_mul_cancel₀ hd0.ne', Complex.ofReal_one]
    linear_combination -(((d⁻¹ : ℝ) : ℂ)) * this * (-1)
  rw [hq, Complex.sub_re, Complex.ofReal_re] at h0
  rw [one_div]
  linarith

/-- **C95** (bounds). With linearly independent responses and a positive definite source covariance `P` the MVDR spectrum at source `c`
lies between `1 / (P⁻¹)_cc` and `P_cc + σ ((AᴴA)⁻¹)_cc`. -/
theorem C95_bounds {A : Matrix (Fin m) (Fin k) ℂ} (hA : Function.Injective A.mulVec) {P : Matrix (Fin k) (Fin k) ℂ} (hP : P.PosDef) {σ : ℝ}
    (hσ : 0 < σ) {L : List (Fin m → ℂ)} {j : ℕ} {c : Fin k} (h : L[j]? = some (A.col c)) :
    ∃ y : ℝ, (fMvdr (covModel A P σ) L)[j]? = some (y : WithTop ℝ) ∧ 1 / (P⁻¹ c c).re ≤ y ∧
      y ≤ (P c c).re + σ * ((Aᴴ * A)⁻¹ c c).re := by
  obtain ⟨q, hq, hqe, hv⟩ := C95_value hA hP.posSemidef hσ h
  have hl := loaded_posDef hA hP.posSemidef hσ
  have hqr : q = ((P + (σ : ℂ) • (Aᴴ * A)⁻¹)⁻¹ c c).re := by rw [← hqe, Complex.ofReal_re]
  refine ⟨_, hv, one_div_le_one_div_of_le hq ?_, ?_⟩
  · rw [hqr]
    refine diag_re_mono (inv_antitone_psd hP hl ?_) c
    rw [add_sub_cancel_left]
    exact (gram_posDef ((fullRank_iff A).2 hA)).inv.posSemidef.smul (Complex.zero_le_real.2 hσ.le)
  · have := inv_diag_le hl c
    rw [← hqr, Matrix.add_apply, Matrix.smul_apply, smul_eq_mul, Complex.add_re, Complex.re_ofReal_mul] at this
    exact this

/-- **C95** (uncorrelated sources). If the sources are uncorrelated, with powers `p c > 0`, the MVDR spectrum at source `c` never
underestimates `p c` and exceeds it by at most `σ ((AᴴA)⁻¹)_cc`, which tends to zero with the noise. -/
theorem C95_uncorrelated {A : Matrix (Fin m) (Fin k) ℂ} (hA : Function.Injective A.mulVec) {p : Fin k → ℝ} (hp : ∀ c, 0 < p c) {σ : ℝ}
    (hσ : 0 < σ) {L : List (Fin m → ℂ)} {j : ℕ} {c : Fin k} (h : L[j]? = some (A.col c)) :
    ∃ y : ℝ, (fMvdr (covModel A (Matrix.diagonal fun c => (p c : ℂ)) σ) L)[j]? = some (y : WithTop ℝ) ∧ p c ≤ y ∧
      y ≤ p c + σ * ((Aᴴ * A)⁻¹ c c).re := by
  have hP : (Matrix.diagonal fun c => (p c : ℂ)).PosDef := posDef_diagonal_iff.2 fun c => Complex.zero_lt_real.2 (hp c)
  obtain ⟨y, h1, h2, h3⟩ := C95_bounds hA hP hσ h
  refine ⟨y, h1, ?_, ?_⟩
  · have : (Matrix.diagonal fun c => (p c : ℂ))⁻¹ = Matrix.diagonal fun c => (p c : ℂ)⁻¹ := by
      refine inv_eq_right_inv ?_
      rw [diagonal_mul_diagonal, ← diagonal_one]
      congr 1
      funext c
      exact mul_inv_cancel₀ (by exact_mod_cast (hp c).ne')
    rw [this, diagonal_apply_eq, ← Complex.ofReal_inv, Complex.ofReal_re, one_div, inv_inv] at h2
    exact h2
  · rwa [diagonal_apply_eq, Complex.ofReal_re] at h3

/-! ### Resolution -/

/-- Away from the sources the quadratic form is at least the squared distance from the signal subspace, divided by the noise variance. -/
theorem noise_form {A : Matrix (Fin m) (Fin k) ℂ} (hA : Function.Injective A.mulVec) {P : Matrix (Fin k) (Fin k) ℂ} (hP : P.PosSemidef) {σ : ℝ}
    (hσ : 0 < σ) (v : Fin m → ℂ) : ∃ y : Fin k → ℂ, (∑ i, ‖v i - (A *ᵥ y) i‖ ^ 2) / σ ≤ (star v ⬝ᵥ (covModel A P σ)⁻¹ *ᵥ v).re := by
  have hG := (fullRank_iff A).2 hA
  have hR := covModel_posDef A hP hσ
  have hRu := (isUnit_iff_isUnit_det _).1 hR.isUnit
  set R := covModel A P σ with hRd
  set Q := compProj A with hQ
  have hQh : Qᴴ = Q := compProj_herm A
  have hQQ : Q * Q = Q := compProj_idem hG
  have hAQ : Aᴴ * Q = 0 := by
    have := congrArg conjTranspose (compProj_mul (A := A) hG)
    rwa [conjTranspose_mul, hQh, conjTranspose_zero] at this
  have hs : (σ : ℂ) ≠ 0 := by exact_mod_cast hσ.ne'
  have hRQ : R * Q = (σ : ℂ) • Q := by
    rw [hRd, covModel, Matrix.add_mul, Matrix.mul_assoc (A * P), hAQ, Matrix.mul_zero, zero_add, Matrix.smul_mul, Matrix.one_mul]
  have hRiQ : R⁻¹ * Q = (σ : ℂ)⁻¹ • Q := by
    have := congrArg (fun M => R⁻¹ * M) hRQ
    simp only [← Matrix.mul_assoc, nonsing_inv_mul _ hRu, Matrix.one_mul, Matrix.mul_smul] at this
    have h2 := congrArg (fun M => (σ : ℂ)⁻¹ • M) this
    simp only [smul_smul, inv_mul_cancel₀ hs, one_smul] at h2
    exact h2.symm
  have hQRi : Q * R⁻¹ = (σ : ℂ)⁻¹ • Q := by
    have := congrArg conjTranspose hRiQ
    rwa [conjTranspose_mul, hR.inv.isHermitian.eq, hQh, conjTranspose_smul, hQh, star_inv₀, Complex.star_def, Complex.conj_ofReal] at this
  have key : (R⁻¹ - (σ : ℂ)⁻¹ • Q).PosSemidef := by
    have e : (1 - Q)ᴴ * R⁻¹ * (1 - Q) = R⁻¹ - (σ : ℂ)⁻¹ • Q := by
      rw [conjTranspose_sub, conjTranspose_one, hQh, Matrix.sub_mul, Matrix.one_mul, hQRi, Matrix.mul_sub, Matrix.mul_one, Matrix.sub_mul, hRiQ,
        Matrix.smul_mul, hQQ, sub_self, sub_zero]
    rw [← e]
    exact hR.inv.posSemidef.conjTranspose_mul_mul_same _
  refine ⟨((Aᴴ * A)⁻¹ * Aᴴ) *ᵥ v, ?_⟩
  have hQv : ∀ i, v i - (A *ᵥ (((Aᴴ * A)⁻¹ * Aᴴ) *ᵥ v)) i = (Q *ᵥ v) i := by
    intro i
    rw [hQ]
    unfold compProj
    rw [Matrix.sub_mulVec, one_mulVec, mulVec_mulVec]
    rfl
  have h1 : (∑ i, ‖(Q *ᵥ v) i‖ ^ 2 : ℝ) = (star v ⬝ᵥ Q *ᵥ v).re := by
    have e : star v ⬝ᵥ Q *ᵥ v = star (Q *ᵥ v) ⬝ᵥ (Q *ᵥ v) := by
      rw [star_mulVec, hQh, ← dotProduct_mulVec, mulVec_mulVec, hQQ]
    rw [e, dotProduct, Complex.re_sum]
    refine Finset.sum_congr rfl fun i _ => ?_
    rw [Pi.star_apply, Complex.star_def, Complex.conj_mul']
    norm_cast
  simp only [hQv]
  rw [h1]
  have h2 := quad_re key v
  rw [Matrix.sub_mulVec, dotProduct_sub, Complex.sub_re, Matrix.smul_mulVec, dotProduct_smul, smul_eq_mul, ← Complex.ofReal_inv,
    Complex.re_ofReal_mul] at h2
  rw [div_eq_inv_mul]
  linarith

/-- The MVDR spectrum is higher at the sources than elsewhere, if the noise is low enough. -/
theorem mvdr_resolves {A : Matrix (Fin m) (Fin k) ℂ} (hA : Function.Injective A.mulVec) {P : Matrix (Fin k) (Fin k) ℂ} (hP : P.PosDef) {σ : ℝ}
    (hσ : 0 < σ) {L : List (Fin m → ℂ)} {idx : Fin k → ℕ} (hL : ∀ c, L[idx c]? = some (A.col c))
    (hlow : ∀ (j : ℕ) (v : Fin m → ℂ), L[j]? = some v → (∀ c, j ≠ idx c) → ∀ (c : Fin k) (y : Fin k → ℂ),
      σ * (P⁻¹ c c).re < ∑ i, ‖v i - (A *ᵥ y) i‖ ^ 2) : Dominant (fMvdr (covModel A P σ) L) idx := by
  intro c j v w hj hv hw
  obtain ⟨y, hy, hlo, -⟩ := C95_bounds hA hP hσ (hL c)
  rw [hw, Option.some.injEq] at hy
  obtain ⟨x, hx, -⟩ : ∃ x, L[j]? = some x ∧ _ := by
    rw [fMvdr, List.getElem?_map, Option.map_eq_some_iff] at hv
    exact hv
  obtain ⟨z, hz⟩ := noise_form hA hP.posSemidef hσ x
  have h1 := hlow j x hx hj c z
  have hpc := diag_re_pos hP.inv c
  have h2 : (P⁻¹ c c).re < (star x ⬝ᵥ (covModel A P σ)⁻¹ *ᵥ x).re := by
    refine lt_of_lt_of_le ?_ hz
    rw [lt_div_iff₀ hσ, mul_comm]
    exact h1
  rw [mvdr_value (covModel_posDef A hP.posSemidef hσ) hx (hpc.trans h2) rfl, Option.some.injEq] at hv
  rw [← hv, hy]
  exact_mod_cast lt_of_lt_of_le (one_div_lt_one_div_of_lt hpc h2) hlo

/-- For every scene with identifiable sources the noise can be low enough. -/
theorem low_noise {A : Matrix (Fin m) (Fin k) ℂ} (hA : Function.Injective A.mulVec) (P : Matrix (Fin k) (Fin k) ℂ)
    {L : List (Fin m → ℂ)} {idx : Fin k → ℕ} (hident : ∀ (j : ℕ) (v : Fin m → ℂ), L[j]? = some v → (∃ y, v = A *ᵥ y) → ∃ c, j = idx c) :
    ∃ σ₀ : ℝ, 0 < σ₀ ∧ ∀ σ, 0 < σ → σ < σ₀ → ∀ (j : ℕ) (v : Fin m → ℂ), L[j]? = some v → (∀ c, j ≠ idx c) → ∀ (c : Fin k) (y : Fin k → ℂ),
      σ * (P⁻¹ c c).re < ∑ i, ‖v i - (A *ᵥ y) i‖ ^ 2 := by
  have hG := (fullRank_iff A).2 hA
  -- a lower bound of the distances
  have hdist : ∀ v : Fin m → ℂ, ∀ y : Fin k → ℂ, (star v ⬝ᵥ compProj A *ᵥ v).re ≤ ∑ i, ‖v i - (A *ᵥ y) i‖ ^ 2 := by
    intro v y
    set Q := compProj A with hQ
    have hQh : Qᴴ = Q := compProj_herm A
    have hQQ : Q * Q = Q := compProj_idem hG
    set w := v - A *ᵥ y with hw
    have hQA : Q *ᵥ (A *ᵥ y) = 0 := by rw [mulVec_mulVec, compProj_mul hG, zero_mulVec]
    have hQw : Q *ᵥ w = Q *ᵥ v := by rw [hw, mulVec_sub, hQA, sub_zero]
    have hsame : star v ⬝ᵥ Q *ᵥ v = star w ⬝ᵥ Q *ᵥ w := by
      have e : ∀ u : Fin m → ℂ, star u ⬝ᵥ Q *ᵥ u = star (Q *ᵥ u) ⬝ᵥ (Q *ᵥ u) := fun u => by
        rw [star_mulVec, hQh, ← dotProduct_mulVec, mulVec_mulVec, hQQ]
      rw [e, e, hQw]
    have hI : (1 - Q).PosSemidef := by
      have e : (1 - Q)ᴴ * (1 - Q) = 1 - Q := by
        rw [conjTranspose_sub, conjTranspose_one, hQh, compl_idem hQQ]
      rw [← e]
      exact posSemidef_conjTranspose_mul_self _
    have h1 := quad_re hI w
    rw [Matrix.sub_mulVec, one_mulVec, dotProduct_sub, Complex.sub_re, ← hsame] at h1
    have h2 : (star w ⬝ᵥ w).re = ∑ i, ‖v i - (A *ᵥ y) i‖ ^ 2 := by
      rw [dotProduct, Complex.re_sum]
      refine Finset.sum_congr rfl fun i _ => ?_
      rw [Pi.star_apply, Complex.star_def, Complex.conj_mul']
      norm_cast
    linarith
  have hpos : ∀ (j : ℕ) (v : Fin m → ℂ), L[j]? = some v → (∀ c, j ≠ idx c) → 0 < (star v ⬝ᵥ compProj A *ᵥ v).re := by
    intro j v hv hj
    have hQh : (compProj A)ᴴ = compProj A := compProj_herm A
    have hQQ : compProj A * compProj A = compProj A := compProj_idem hG
    have e : star v ⬝ᵥ compProj A *ᵥ v = star (compProj A *ᵥ v) ⬝ᵥ (compProj A *ᵥ v) := by
      rw [star_mulVec, hQh, ← dotProduct_mulVec, mulVec_mulVec, hQQ]
    have hne : compProj A *ᵥ v ≠ 0 := by
      intro h0
      obtain ⟨c, hc⟩ := hident j v hv ⟨((Aᴴ * A)⁻¹ * Aᴴ) *ᵥ v, by
        unfold compProj at h0
        rw [Matrix.sub_mulVec, one_mulVec, sub_eq_zero] at h0
        rw [mulVec_mulVec]
        exact h0⟩
      exact hj c hc
    rw [e]
    exact (Complex.lt_def.1 (dotProduct_star_self_pos_iff.2 hne)).1
  have hev : ∀ᶠ σ : ℝ in nhds 0, ∀ j ∈ Finset.range L.length, ∀ c : Fin k, (∀ c, j ≠ idx c) →
      σ * (P⁻¹ c c).re < (star (L.getD j 0) ⬝ᵥ compProj A *ᵥ L.getD j 0).re := by
    rw [Filter.eventually_all_finset]
    intro j hj
    rw [Filter.eventually_all]
    intro c
    by_cases h : ∀ c, j ≠ idx c
    · have hv : L[j]? = some (L.getD j 0) := by
        rw [List.getD_eq_getElem?_getD, List.getElem?_eq_getElem (Finset.mem_range.1 hj)]; rfl
      have hcont : Filter.Tendsto (fun σ : ℝ => σ * (P⁻¹ c c).re) (nhds 0) (nhds (0 * (P⁻¹ c c).re)) :=
        (continuous_id.mul continuous_const).tendsto 0
      rw [zero_mul] at hcont
      filter_upwards [hcont.eventually (gt_mem_nhds (hpos j _ hv h))] with σ hσ _ using hσ
    · exact Filter.Eventually.of_forall fun σ h' => absurd h' h
  obtain ⟨ε, hε, hball⟩ := Metric.eventually_nhds_iff.1 hev
  refine ⟨ε, hε, fun σ hσ hlt j v hv hj c y => ?_⟩
  have hjl := (List.getElem?_eq_some_iff.1 hv).1
  have h1 := hball (y := σ) (by rw [Real.dist_eq, sub_zero, abs_of_pos hσ]; exact hlt) j (Finset.mem_range.2 hjl) c hj
  have hvd : L.getD j 0 = v := by
    rw [List.getD_eq_getElem?_getD, hv]; rfl
  rw [hvd] at h1
  exact h1.trans_le (hdist v y)

/-- All atoms are non-zero, if the sources are identifiable. -/
theorem atoms_ne {A : Matrix (Fin m) (Fin k) ℂ} (hA : Function.Injective A.mulVec) {P : Matrix (Fin k) (Fin k) ℂ} (hP : P.PosDef) {σ : ℝ}
    (hσ : 0 < σ) (hk : 1 ≤ k) {L : List (Fin m → ℂ)} {idx : Fin k → ℕ} (hL : ∀ c, L[idx c]? = some (A.col c))
    (hlow : ∀ (j : ℕ) (v : Fin m → ℂ), L[j]? = some v → (∀ c, j ≠ idx c) → ∀ (c : Fin k) (y : Fin k → ℂ),
      σ * (P⁻¹ c c).re < ∑ i, ‖v i - (A *ᵥ y) i‖ ^ 2) : ∀ v ∈ L, v ≠ 0 := by
  intro v hv h0
  obtain ⟨j, hj, hje⟩ := List.getElem_of_mem hv
  have hjs : L[j]? = some v := by rw [List.getElem?_eq_getElem hj, hje]
  by_cases h : ∃ c, j = idx c
  · obtain ⟨c, rfl⟩ := h
    rw [hL c, Option.some.injEq, h0] at hjs
    have : A *ᵥ Pi.single c 1 = A *ᵥ 0 := by rw [mulVec_single_one, hjs, mulVec_zero]
    have := congrFun (hA this) c
    simp at this
  · push Not at h
    have := hlow j v hjs h ⟨0, hk⟩ 0
    rw [h0, mulVec_zero] at this
    simp only [Pi.zero_apply, sub_zero, norm_zero, ne_eq, OfNat.ofNat_ne_zero, not_false_eq_true, zero_pow, Finset.sum_const_zero] at this
    have := mul_pos hσ (diag_re_pos hP.inv ⟨0, hk⟩)
    linarith

/-- **C95** (resolution). Sources at interior, pairwise non-adjacent points of a one-dimensional grid, seen by an array with isotropic
scalar elements whose perturbations are all known: if `σ (P⁻¹)_cc` is below the squared distance of the response at every other grid point from
the span of the responses of the sources, `MVDRBeamformer` returns exactly the sources from the exact covariance matrix `A P Aᴴ + σ I` and from
every matrix close enough to it, after every history of calls. -/
theorem C95_resolves {a : ArrayDesign} (hel : a.element = .isotropicScalar)
    (hknown : ∀ p ∈ a.perturbations, p.isKnown = true) {ps : List Perturbation} (hps : Usable a "all" ps)
    (l : Fin a.element.outputSize) (wl : ℝ) (cfg : EstCfg (WithTop ℝ) (List (Fin a.size → ℂ)))
    {x : List ℝ} {names : List String} {u : String}
    (hg : cfg.grid = ⟨.ff1, [⟨x, false⟩], names, [u]⟩) (hu : Unit1D u) (hx : ∀ v ∈ x, InRange1D u v)
    (hpf : cfg.peakFinder = findPeaksSimple) (hsort : IsArgsort cfg.argsort)
    (hcomp : cfg.compute = atomColumns1D a l wl u)
    (src : FF1D k) (hsu : src.unit = u) (idx : Fin k → ℕ) (hidx : ∀ c, x[idx c]? = some (src.loc c))
    (hsep : ∀ c e, c < e → idx c + 1 < idx e) (h1 : ∀ c, 1 ≤ idx c) (h2 : ∀ c, idx c + 1 < x.length) (hk : 1 ≤ k)
    {S : Steering a.element.outputSize a.size k} (hS : steering a (.ff1 src) wl false "all" = .ok S)
    (hA : Function.Injective (S.A l).mulVec) {P : Matrix (Fin k) (Fin k) ℂ} (hP : P.PosDef) {σ : ℝ} (hσ : 0 < σ)
    (hlow : ∀ j v, x[j]? = some v → (∀ c, j ≠ idx c) → ∀ (c : Fin k) (y : Fin k → ℂ),
      σ * (P⁻¹ c c).re < ∑ i, ‖response a l wl u "all" v i - (S.A l *ᵥ y) i‖ ^ 2) :
    ∃ δ > 0, ∀ R : Matrix (Fin a.size) (Fin a.size) ℂ, (∀ i j, ‖R i j - covModel (S.A l) P σ i j‖ < δ) →
      ∀ ops : List (EstOp (WithTop ℝ) (List (Fin a.size → ℂ))),
        ∃ o st', mvdrEstimate cfg (cfg.run ops).1 R k {} = (.ok o, st') ∧
          ∃ sp, o.observe st' = (true, some (some (List.ofFn fun c => [src.loc c], u)), sp) := by
  have : NeZero wl := steering_wl hS
  have hat := atoms_known hel hknown hps l wl u x
  have hcol : ∀ c, (x.map fun v => response a l wl u "all" v)[idx c]? = some ((S.A l).col c) := by
    intro c
    rw [List.getElem?_map, hidx c, Option.map_some, Option.some.injEq]
    funext i
    rw [Matrix.col_apply, steering_columns hel l wl "all" src hS, hsu]
  have hlow' : ∀ (j : ℕ) (v : Fin a.size → ℂ), (x.map fun v => response a l wl u "all" v)[j]? = some v → (∀ c, j ≠ idx c) →
      ∀ (c : Fin k) (y : Fin k → ℂ), σ * (P⁻¹ c c).re < ∑ i, ‖v i - (S.A l *ᵥ y) i‖ ^ 2 := by
    intro j v hv hj
    rw [List.getElem?_map, Option.map_eq_some_iff] at hv
    obtain ⟨t, ht, rfl⟩ := hv
    exact hlow j t ht hj
  obtain ⟨δ, hδ, hn⟩ := near_entries (mvdr_near (covModel_posDef (S.A l) hP.posSemidef hσ) _ (atoms_ne hA hP hσ hk hcol hlow') idx
    (mvdr_resolves hA hP hσ hcol hlow'))
  refine ⟨δ, hδ, fun R hnear ops => ?_⟩
  obtain ⟨o, st', h3, h4⟩ := recovers_sep cfg hg hu hx hpf hsort ops ⟨fMvdr R, k, false, 10, 3⟩ hk rfl
    (by simp [hcomp, hat, fMvdr]) idx hsep h1 h2 src.loc hidx (by simp only [hcomp, hat]; exact hn R hnear)
  refine ⟨o, st', ?_, _, h4⟩
  unfold mvdrEstimate
  rw [beamArgs_ok]
  exact h3

/-- **C95** (uniform linear arrays). For a uniform linear array with invertible known gain, phase and coupling errors, fewer sources than
sensors and an unambiguous grid there is a noise level below which `MVDRBeamformer` returns exactly the sources, from the exact covariance
matrix and from every matrix close enough to it. -/
theorem C95_ula {a : ArrayDesign} (hel : a.element = .isotropicScalar)
    (hknown : ∀ p ∈ a.perturbations, p.isKnown = true) (hps : Usable a "all" a.perturbations)
    (hkd : (a.perturbations.map Perturbation.kind).Nodup)
    (hno : ∀ err kn, Perturbation.location err kn ∉ a.perturbations) (hinv : IsUnit (totalFactor a.size a.perturbations))
    {d wl : ℝ} (hd : 0 < d) (hwl : 0 < wl) (hnd : a.ndim = 1) (hloc : ∀ i, i < a.size → a.locations.at0 i 0 = (i : ℝ) * d)
    (l : Fin a.element.outputSize) (cfg : EstCfg (WithTop ℝ) (List (Fin a.size → ℂ)))
    {x : List ℝ} {names : List String} {u : String}
    (hg : cfg.grid = ⟨.ff1, [⟨x, false⟩], names, [u]⟩) (hu : Unit1D u) (hx : ∀ v ∈ x, InRange1D u v) (hxd : x.Nodup)
    (hamb : ∀ v ∈ x, ∀ w ∈ x, d * |Real.sin (angleOf u v) - Real.sin (angleOf u w)| < wl)
    (hpf : cfg.peakFinder = findPeaksSimple) (hsort : IsArgsort cfg.argsort)
    (hcomp : cfg.compute = atomColumns1D a l wl u)
    (src : FF1D k) (hsu : src.unit = u) (idx : Fin k → ℕ) (hidx : ∀ c, x[idx c]? = some (src.loc c))
    (hsep : ∀ c e, c < e → idx c + 1 < idx e) (h1 : ∀ c, 1 ≤ idx c)
    (h2 : ∀ c, idx c + 1 < x.length) (hk : 1 ≤ k) (hka : k < a.size)
    {P : Matrix (Fin k) (Fin k) ℂ} (hP : P.PosDef) :
    ∃ S, steering a (.ff1 src) wl false "all" = .ok S ∧
      ∃ σ₀ > 0, ∀ σ : ℝ, 0 < σ → σ < σ₀ →
        ∃ δ > 0, ∀ R : Matrix (Fin a.size) (Fin a.size) ℂ, (∀ i j, ‖R i j - covModel (S.A l) P σ i j‖ < δ) →
          ∀ ops : List (EstOp (WithTop ℝ) (List (Fin a.size → ℂ))),
            ∃ o st', mvdrEstimate cfg (cfg.run ops).1 R k {} = (.ok o, st') ∧
              ∃ sp, o.observe st' = (true, some (some (List.ofFn fun c => [src.loc c], u)), sp) := by
  obtain ⟨S, hS, -, hA, hident⟩ := uniform_identified hel hps hkd hno hinv hd hwl hnd hloc l hu hx hxd hamb src hsu idx hidx hsep hka
  obtain ⟨σ₀, hσ₀, hlow⟩ := low_noise hA P (L := x.map fun v => response a l wl u "all" v) (idx := idx) (by
    intro j v hv hy
    rw [List.getElem?_map, Option.map_eq_some_iff] at hv
    obtain ⟨t, ht, rfl⟩ := hv
    exact hident j t ht hy)
  refine ⟨S, hS, σ₀, hσ₀, fun σ hσ hlt => ?_⟩
  exact C95_resolves hel hknown hps l wl cfg hg hu hx hpf hsort hcomp src hsu idx hidx hsep h1 h2 hk hS hA hP hσ fun j v hv hj c y =>
    hlow σ hσ hlt j _ (by rw [List.getElem?_map, hv]; rfl) hj c y

/-- **C95** (snapshots). Below this noise level the probability that `MVDRBeamformer` does not return exactly the sources from the sample
covariance matrix of `n` snapshots tends to 0. -/
theorem C95_snapshots {sqrtm : Sqrtm} (hs : IsSqrtm sqrtm) {a : ArrayDesign} (hel : a.element = .isotropicScalar)
    (hknown : ∀ p ∈ a.perturbations, p.isKnown = true) (hps : Usable a "all" a.perturbations)
    (hkd : (a.perturbations.map Perturbation.kind).Nodup)
    (hno : ∀ err kn, Perturbation.location err kn ∉ a.perturbations) (hinv : IsUnit (totalFactor a.size a.perturbations))
    {d wl : ℝ} (hd : 0 < d) (hwl : 0 < wl) (hnd : a.ndim = 1) (hloc : ∀ i, i < a.size → a.locations.at0 i 0 = (i : ℝ) * d)
    (l : Fin a.element.outputSize) (cfg : EstCfg (WithTop ℝ) (List (Fin a.size → ℂ)))
    {x : List ℝ} {names : List String} {u : String}
    (hg : cfg.grid = ⟨.ff1, [⟨x, false⟩], names, [u]⟩) (hu : Unit1D u) (hx : ∀ v ∈ x, InRange1D u v) (hxd : x.Nodup)
    (hamb : ∀ v ∈ x, ∀ w ∈ x, d * |Real.sin (angleOf u v) - Real.sin (angleOf u w)| < wl)
    (hpf : cfg.peakFinder = findPeaksSimple) (hsort : IsArgsort cfg.argsort)
    (hcomp : cfg.compute = atomColumns1D a l wl u)
    (src : FF1D k) (hsu : src.unit = u) (idx : Fin k → ℕ) (hidx : ∀ c, x[idx c]? = some (src.loc c))
    (hsep : ∀ c e, c < e → idx c + 1 < idx e) (h1 : ∀ c, 1 ≤ idx c)
    (h2 : ∀ c, idx c + 1 < x.length) (hk : 1 ≤ k) (hka : k < a.size)
    {C1 : CovArg} {g1 : StoGen k} (hg1 : stoInit sqrtm k C1 = .ok g1)
    {P : Matrix (Fin k) (Fin k) ℂ} (hPd : Denotes k C1 P) (hP : P.PosDef) {ν : Measure ℝ} [IsProbabilityMeasure ν] (hν : UnitLaw ν) :
    ∃ σ₀ > 0, ∀ σ : ℝ, 0 < σ → σ < σ₀ → ∀ (C2 : CovArg) (g2 : StoGen a.size), stoInit sqrtm a.size C2 = .ok g2 →
      Denotes a.size C2 ((σ : ℂ) • (1 : Matrix (Fin a.size) (Fin a.size) ℂ)) →
      Tendsto (fun n => (Measure.pi fun _ : Fin n => Measure.pi fun _ => ν)
        {d : Fin n → SnapshotDraw k a.size | ¬ ∃ Y R, experiment a (.ff1 src) wl g1 g2 n d = .ok ⟨n, Y, R⟩ ∧
          ∀ ops : List (EstOp (WithTop ℝ) (List (Fin a.size → ℂ))), ∃ o st', mvdrEstimate cfg (cfg.run ops).1 (R l) k {} = (.ok o, st') ∧
            ∃ sp, o.observe st' = (true, some (some (List.ofFn fun c => [src.loc c], u)), sp)}) atTop (𝓝 0) := by
  obtain ⟨S, hS, σ₀, hσ₀, h⟩ := C95_ula hel hknown hps hkd hno hinv hd hwl hnd hloc l cfg hg hu hx hxd hamb hpf hsort hcomp src hsu idx hidx hsep
    h1 h2 hk hka hP
  refine ⟨σ₀, hσ₀, fun σ hσ hlt C2 g2 hg2 hQd => ?_⟩
  obtain ⟨δ, hδ, hn⟩ := h σ hσ hlt
  exact C84_probability hs a (.ff1 src) wl S hS (by rw [hel]; rfl) hg1 hg2 hPd hQd hP.posSemidef (scaled_one_posSemidef hσ.le) hν l _
    ⟨δ, hδ, fun R _ hR => hn R hR⟩

/-- The hypotheses of `C95_ula` (and hence of `C95_resolves` for some noise level) hold for two sources and an array of three sensors with gain
and coupling errors. -/
example : ∃ (S : Steering calibratedArray.element.outputSize calibratedArray.size 2) (i : Fin calibratedArray.element.outputSize)
    (cfg : EstCfg (WithTop ℝ) (List (Fin calibratedArray.size → ℂ))),
    steering calibratedArray (.ff1 ⟨![-0.5, 0.5], "sin"⟩) 1 false "all" = .ok S ∧
    ∃ σ > 0, ∃ o st', mvdrEstimate cfg cfg.init (covModel (S.A i) 1 σ) 2 {} = (.ok o, st') ∧
        ∃ sp, o.observe st' = (true, some (some ([[-0.5], [0.5]], "sin")), sp) := by
  obtain ⟨h1, h2, h3, h4, h5, h6, h7⟩ := calibratedArray_ok
  let cfg : EstCfg (WithTop ℝ) (List (Fin calibratedArray.size → ℂ)) :=
    ⟨⟨.ff1, [⟨exGrid, false⟩], [], ["sin"]⟩, atomColumns1D calibratedArray ⟨0, by decide⟩ 1 "sin", findPeaksSimple, stableArgsort, true, false⟩
  obtain ⟨S, hS, σ₀, hσ₀, hn⟩ := C95_ula (k := 2) (a := calibratedArray) rfl h2 h1 h3 h4 h5 (d := 1 / 2) (wl := 1) (by norm_num) one_pos h6 h7
    ⟨0, by decide⟩ cfg
    rfl (Or.inr (Or.inr rfl)) exGrid_inRange (by norm_num [exGrid]) exGrid_unambiguous rfl stableArgsort_isArgsort rfl ⟨![-0.5, 0.5], "sin"⟩ rfl ![1, 3]
    (by intro c; fin_cases c <;> rfl) (by decide) (by decide) (by decide) (by norm_num) (by decide) (P := 1) PosDef.one
  obtain ⟨δ, hδ, hr⟩ := hn (σ₀ / 2) (by linarith) (by linarith)
  obtain ⟨o, st', ho, sp, hsp⟩ := hr (covModel (S.A ⟨0, by decide⟩) 1 (σ₀ / 2)) (fun i j => by rw [sub_self, norm_zero]; exact hδ) []
  refine ⟨S, ⟨0, by decide⟩, cfg, hS, σ₀ / 2, by linarith, o, st', ho, sp, ?_⟩
  rw [hsp]
  simp [List.ofFn_succ]

end Doa.Props
