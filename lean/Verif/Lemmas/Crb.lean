import Mathlib.Analysis.Calculus.Deriv.Star
import Verif.Lemmas.Performance

/-!
# Lemmas on Fisher information matrices
-/

namespace Doa

open Matrix
open scoped ComplexOrder MatrixOrder

section
variable {m k : ℕ}

/-- The velocity `v` as a diagonal matrix. -/
noncomputable def cdiag (v : Fin k → ℝ) : Matrix (Fin k) (Fin k) ℂ := diagonal fun i => (v i : ℂ)

theorem cdiag_herm (v : Fin k → ℝ) : (cdiag v)ᴴ = cdiag v := by
  unfold cdiag
  rw [diagonal_conjTranspose]
  congr 1
  funext i
  simp

theorem reMat_hadamard_quad (H W : Matrix (Fin k) (Fin k) ℂ) (v : Fin k → ℝ) :
    v ⬝ᵥ reMat (H ⊙ Wᵀ) *ᵥ v = (cdiag v * H * cdiag v * W).trace.re := by
  have e : ∀ i j, (cdiag v * H * cdiag v) i j = (v i : ℂ) * H i j * (v j : ℂ) := fun i j => by
    unfold cdiag
    rw [mul_diagonal, diagonal_mul]
  simp only [dotProduct, mulVec, reMat_apply, hadamard_apply, transpose_apply, trace, diag_apply, 
    Matrix.mul_apply (M := cdiag v * H * cdiag v), e, Complex.re_sum]
  refine Finset.sum_congr rfl fun i _ => ?_
  rw [Finset.mul_sum]
  refine Finset.sum_congr rfl fun j _ => ?_
  rw [show (v i : ℂ) * H i j * (v j : ℂ) * W j i = (v i : ℂ) * ((v j : ℂ) * (H i j * W j i)) by ring,
    Complex.re_ofReal_mul, Complex.re_ofReal_mul]
  ring

theorem exists_factor {ι : Type} [Fintype ι] [DecidableEq ι] {M : Matrix ι ι ℂ} (h : M.PosSemidef) :
    ∃ B : Matrix ι ι ℂ, M = Bᴴ * B :=
  (CStarAlgebra.nonneg_iff_eq_star_mul_self (a := M)).1 h.nonneg

theorem trace_mul_nonneg {ι : Type} [Fintype ι] [DecidableEq ι] {M N : Matrix ι ι ℂ} (hM : M.PosSemidef) (hN : N.PosSemidef) :
    0 ≤ (M * N).trace := by
  obtain ⟨B, rfl⟩ := exists_factor hM
  rw [Matrix.mul_assoc, Matrix.trace_mul_comm, Matrix.mul_assoc]
  have := (hN.mul_mul_conjTranspose_same B).trace_nonneg
  simpa only [Matrix.mul_assoc] using this

/-- The weighted squared size of a Hermitian matrix is nonnegative. -/
theorem fisher_nonneg {ι : Type} [Fintype ι] [DecidableEq ι] {W M : Matrix ι ι ℂ} (hW : W.PosSemidef) (hM : Mᴴ = M) :
    0 ≤ (W * M * W * M).trace := by
  have h := trace_mul_nonneg hW (hW.conjTranspose_mul_mul_same M)
  rw [hM] at h
  simpa only [Matrix.mul_assoc] using h

/-- Positive definiteness of a Schur product. -/
theorem hadamard_posDef {L : Matrix (Fin m) (Fin k) ℂ} {W : Matrix (Fin k) (Fin k) ℂ} (hW : W.PosDef)
    (hL : ∀ j, (fun i => L i j) ≠ 0) : (reMat ((Lᴴ * L) ⊙ Wᵀ)).PosDef := by
  have hH : (Lᴴ * L).PosSemidef := posSemidef_conjTranspose_mul_self L
  refine PosDef.of_dotProduct_mulVec_pos (reMat_isHermitian (hH.hadamard hW.posSemidef.transpose).isHermitian) fun v hv => ?_
  rw [star_trivial, reMat_hadamard_quad]
  obtain ⟨B, hB⟩ := exists_factor hW.posSemidef
  have hBu : IsUnit B := by
    have h := (isUnit_iff_isUnit_det _).1 hW.isUnit
    rw [hB, det_mul] at h
    exact (isUnit_iff_isUnit_det _).2 (isUnit_of_mul_isUnit_right h)
  set X := L * cdiag v * Bᴴ with hX
  have e : (cdiag v * (Lᴴ * L) * cdiag v * W).trace = (Xᴴ * X).trace := by
    rw [hB, ← Matrix.mul_assoc _ Bᴴ B, Matrix.trace_mul_comm]
    simp only [hX, conjTranspose_mul, conjTranspose_conjTranspose, cdiag_herm, Matrix.mul_assoc]
  rw [e]
  have h0 : 0 ≤ (Xᴴ * X).trace := (posSemidef_conjTranspose_mul_self X).trace_nonneg
  have hne : (Xᴴ * X).trace ≠ 0 := by
    intro h
    rw [trace_conjTranspose_mul_self_eq_zero_iff] at h
    apply hv
    have hBH : IsUnit (Bᴴ) := (isUnit_conjTranspose _).2 hBu
    have h2 : L * cdiag v = 0 := by
      obtain ⟨U, hU⟩ := hBH.exists_right_inv
      have := congrArg (· * U) h
      simp only [hX, Matrix.mul_assoc, hU, Matrix.mul_one, Matrix.zero_mul] at this
      exact this
    funext j
    by_contra hj
    apply hL j
    funext i
    have := congrFun (congrFun h2 i) j
    simp only [cdiag, mul_diagonal, Matrix.zero_apply, mul_eq_zero, Complex.ofReal_eq_zero] at this
    exact this.resolve_right hj
  exact (Complex.lt_def.1 (lt_of_le_of_ne h0 (Ne.symm hne))).1

/-- A vanishing column makes the Schur product singular. -/
theorem hadamard_not_unit {L : Matrix (Fin m) (Fin k) ℂ} {W : Matrix (Fin k) (Fin k) ℂ} {j : Fin k}
    (hj : (fun i => L i j) = 0) : ¬ IsUnit (reMat ((Lᴴ * L) ⊙ Wᵀ)).det := by
  have h0 : (reMat ((Lᴴ * L) ⊙ Wᵀ)).det = 0 := by
    refine det_eq_zero_of_column_eq_zero j fun i => ?_
    have : (Lᴴ * L) i j = 0 := by
      rw [Matrix.mul_apply]
      exact Finset.sum_eq_zero fun a _ => by rw [show L a j = 0 from congrFun hj a, mul_zero]
    rw [reMat_apply, hadamard_apply, this, zero_mul, Complex.zero_re]
  rw [h0]
  exact not_isUnit_zero

/-! ### The projection -/

/-- The complementary projection of the range of `A`. -/
noncomputable def compProj (A : Matrix (Fin m) (Fin k) ℂ) : Matrix (Fin m) (Fin m) ℂ := 1 - A * ((Aᴴ * A)⁻¹ * Aᴴ)

theorem gram_inv_herm (A : Matrix (Fin m) (Fin k) ℂ) : ((Aᴴ * A)⁻¹)ᴴ = (Aᴴ * A)⁻¹ := by
  rw [conjTranspose_nonsing_inv, conjTranspose_mul, conjTranspose_conjTranspose]

theorem compProj_herm (A : Matrix (Fin m) (Fin k) ℂ) : (compProj A)ᴴ = compProj A := by
  unfold compProj
  rw [conjTranspose_sub, conjTranspose_one, conjTranspose_mul, conjTranspose_mul, conjTranspose_conjTranspose, gram_inv_herm,
    Matrix.mul_assoc]

theorem compProj_mul {A : Matrix (Fin m) (Fin k) ℂ} (hG : IsUnit (Aᴴ * A).det) : compProj A * A = 0 := by
  unfold compProj
  rw [Matrix.sub_mul, Matrix.one_mul, Matrix.mul_assoc, Matrix.mul_assoc, nonsing_inv_mul _ hG, Matrix.mul_one, sub_self]

theorem mul_compProj {A : Matrix (Fin m) (Fin k) ℂ} (hG : IsUnit (Aᴴ * A).det) : Aᴴ * compProj A = 0 := by
  have := congrArg conjTranspose (compProj_mul hG)
  rwa [conjTranspose_mul, compProj_herm, conjTranspose_zero] at this

theorem compProj_idem {A : Matrix (Fin m) (Fin k) ℂ} (hG : IsUnit (Aᴴ * A).det) : compProj A * compProj A = compProj A := by
  conv_lhs => rw [show compProj A * compProj A = compProj A * (1 - A * ((Aᴴ * A)⁻¹ * Aᴴ)) from rfl]
  rw [Matrix.mul_sub, Matrix.mul_one, ← Matrix.mul_assoc, compProj_mul hG, Matrix.zero_mul, sub_zero]

theorem hmat_factor {A : Matrix (Fin m) (Fin k) ℂ} (hG : IsUnit (Aᴴ * A).det) (D : Matrix (Fin m) (Fin k) ℂ) :
    Dᴴ * compProj A * D = (compProj A * D)ᴴ * (compProj A * D) := by
  rw [conjTranspose_mul, compProj_herm, Matrix.mul_assoc, Matrix.mul_assoc, ← Matrix.mul_assoc (compProj A) (compProj A),
    compProj_idem hG]

/-- The column `j` of `Π⊥ D` vanishes exactly if `d_j` lies in the range of `A`. -/
theorem compProj_col {A : Matrix (Fin m) (Fin k) ℂ} (hG : IsUnit (Aᴴ * A).det) (D : Matrix (Fin m) (Fin k) ℂ) (j : Fin k) :
    (fun i => (compProj A * D) i j) = 0 ↔ ∃ x, A *ᵥ x = fun i => D i j := by
  have e : (fun i => (compProj A * D) i j) = compProj A *ᵥ fun i => D i j := by
    funext i; rfl
  rw [e]
  constructor
  · intro h
    refine ⟨((Aᴴ * A)⁻¹ * Aᴴ) *ᵥ fun i => D i j, ?_⟩
    unfold compProj at h
    rw [sub_mulVec, one_mulVec, sub_eq_zero] at h
    rw [mulVec_mulVec]
    exact h.symm
  · rintro ⟨x, hx⟩
    rw [← hx, mulVec_mulVec, compProj_mul hG, zero_mulVec]

/-! ### The stochastic model -/

/-- The directional derivative of `A P Aᴴ + σ I` if the DOAs move with velocities `v` (the columns of `A` then
change at the rates `v_j d_j`), the source covariance with velocity `S` and the noise variance with velocity `s`. -/
noncomputable def covVelocity (A D : Matrix (Fin m) (Fin k) ℂ) (P : Matrix (Fin k) (Fin k) ℂ)
    (v : Fin k → ℝ) (S : Matrix (Fin k) (Fin k) ℂ) (s : ℝ) : Matrix (Fin m) (Fin m) ℂ :=
  D * cdiag v * P * Aᴴ + A * P * cdiag v * Dᴴ + A * S * Aᴴ + (s : ℂ) • (1 : Matrix (Fin m) (Fin m) ℂ)

theorem trace_split {Q W Z : Matrix (Fin m) (Fin m) ℂ} (hQ : Q * Q = Q) (hc : Q * W = W * Q) :
    (W * Z * W * Z).trace = (W * (Q * Z * Q) * W * (Q * Z * Q)).trace +
      (W * ((1 - Q) * Z * (1 - Q)) * W * ((1 - Q) * Z * (1 - Q))).trace +
      2 * (W * (Q * Z * (1 - Q)) * W * ((1 - Q) * Z * Q)).trace := by
  have hQ' : (1 - Q) * (1 - Q) = 1 - Q := by
    rw [Matrix.sub_mul, Matrix.one_mul, Matrix.mul_sub, Matrix.mul_one, hQ, sub_self, sub_zero]
  have hc' : (1 - Q) * W = W * (1 - Q) := by
    rw [Matrix.sub_mul, Matrix.one_mul, Matrix.mul_sub, Matrix.mul_one, hc]
  -- for projections commuting with `W`
  have key : ∀ E F : Matrix (Fin m) (Fin m) ℂ, E * E = E → F * F = F → E * W = W * E → F * W = W * F →
      (W * (E * Z * F) * W * (F * Z * E)).trace = (E * (W * Z) * F * (W * Z)).trace := by
    intro E F hE hF hE' hF'
    calc (W * (E * Z * F) * W * (F * Z * E)).trace
        = ((W * E) * Z * (F * W) * F * Z * E).trace := by simp only [Matrix.mul_assoc]
      _ = ((E * W) * Z * (F * W) * F * Z * E).trace := by rw [hE']
      _ = (E * ((E * W) * Z * (F * W) * F * Z)).trace := by rw [Matrix.trace_mul_comm]
      _ = ((E * E) * W * Z * (F * (W * F)) * Z).trace := by simp only [Matrix.mul_assoc]
      _ = (E * W * Z * ((F * F) * W) * Z).trace := by rw [hE, ← hF', Matrix.mul_assoc F F W]
      _ = (E * (W * Z) * F * (W * Z)).trace := by rw [hF]; simp only [Matrix.mul_assoc]
  have h1 := key Q Q hQ hQ hc hc
  have h2 := key _ _ hQ' hQ' hc' hc'
  have h3 := key Q (1 - Q) hQ hQ' hc hc'
  rw [h1, h2, h3]
  have h4 : (Q * (W * Z) * (1 - Q) * (W * Z)).trace = ((1 - Q) * (W * Z) * Q * (W * Z)).trace := by
    rw [show Q * (W * Z) * (1 - Q) * (W * Z) = (Q * (W * Z)) * ((1 - Q) * (W * Z)) by simp only [Matrix.mul_assoc],
      Matrix.trace_mul_comm]
    simp only [Matrix.mul_assoc]
  rw [two_mul]
  nth_rw 2 [h4]
  rw [← trace_add, ← trace_add, ← trace_add]
  congr 1
  rw [show W * Z * W * Z = (W * Z) * (W * Z) by simp only [Matrix.mul_assoc]]
  generalize W * Z = Y
  noncomm_ring

/-- The product `Π⊥ R⁻¹`. -/
theorem compProj_inv {A : Matrix (Fin m) (Fin k) ℂ} (hG : IsUnit (Aᴴ * A).det) {P : Matrix (Fin k) (Fin k) ℂ} {σ : ℝ}
    (hσ : σ ≠ 0) (hR : IsUnit (A * P * Aᴴ + (σ : ℂ) • (1 : Matrix (Fin m) (Fin m) ℂ)).det) :
    compProj A * (A * P * Aᴴ + (σ : ℂ) • (1 : Matrix (Fin m) (Fin m) ℂ))⁻¹ = ((σ : ℂ)⁻¹) • compProj A ∧
    (A * P * Aᴴ + (σ : ℂ) • (1 : Matrix (Fin m) (Fin m) ℂ))⁻¹ * compProj A = ((σ : ℂ)⁻¹) • compProj A := by
  have hσ' : (σ : ℂ) ≠ 0 := by exact_mod_cast hσ
  set R := A * P * Aᴴ + (σ : ℂ) • (1 : Matrix (Fin m) (Fin m) ℂ) with hRd
  have h1 : compProj A * R = (σ : ℂ) • compProj A := by
    rw [hRd, Matrix.mul_add, ← Matrix.mul_assoc, ← Matrix.mul_assoc, compProj_mul hG, Matrix.zero_mul, Matrix.zero_mul, zero_add,
      Matrix.mul_smul, Matrix.mul_one]
  have h2 : R * compProj A = (σ : ℂ) • compProj A := by
    rw [hRd, Matrix.add_mul, Matrix.mul_assoc, mul_compProj hG, Matrix.mul_zero, zero_add, Matrix.smul_mul, Matrix.one_mul]
  constructor
  · have h := congrArg (· * R⁻¹) h1
    simp only [Matrix.mul_assoc, mul_nonsing_inv _ hR, Matrix.mul_one, Matrix.smul_mul] at h
    conv_rhs => rw [h]
    rw [smul_smul, inv_mul_cancel₀ hσ', one_smul]
  · have h := congrArg (R⁻¹ * ·) h2
    simp only [← Matrix.mul_assoc, nonsing_inv_mul _ hR, Matrix.one_mul, Matrix.mul_smul] at h
    conv_rhs => rw [h]
    rw [smul_smul, inv_mul_cancel₀ hσ', one_smul]

theorem sto_information {A D : Matrix (Fin m) (Fin k) ℂ} (hG : IsUnit (Aᴴ * A).det) {P : Matrix (Fin k) (Fin k) ℂ}
    (hP : P.PosSemidef) {σ : ℝ} (hσ : 0 < σ) (v : Fin k → ℝ) {Ri : Matrix (Fin m) (Fin m) ℂ}
    (hRi : Ri = (A * P * Aᴴ + (σ : ℂ) • (1 : Matrix (Fin m) (Fin m) ℂ))⁻¹) :
    IsLeast {x : ℝ | ∃ (S : Matrix (Fin k) (Fin k) ℂ) (s : ℝ), Sᴴ = S ∧
        x = (Ri * covVelocity A D P v S s * Ri * covVelocity A D P v S s).trace.re}
      (2 / σ * (v ⬝ᵥ reMat ((Dᴴ * compProj A * D) ⊙ (P * (Aᴴ * (Ri * A)) * P)ᵀ) *ᵥ v)) := by
  have hRd : (A * P * Aᴴ + (σ : ℂ) • (1 : Matrix (Fin m) (Fin m) ℂ)).PosDef :=
    PosDef.posSemidef_add (hP.mul_mul_conjTranspose_same A) (PosDef.one.smul (Complex.zero_lt_real.2 hσ))
  have hRu := (isUnit_iff_isUnit_det _).1 hRd.isUnit
  obtain ⟨c1, c2⟩ := compProj_inv hG (P := P) hσ.ne' hRu
  rw [← hRi] at c1 c2
  have hRp : Ri.PosSemidef := hRi ▸ hRd.inv.posSemidef
  have hQ := compProj_idem hG
  have hQA := compProj_mul hG
  have hAQ := mul_compProj hG
  have hPh : Pᴴ = P := hP.isHermitian.eq
  set Q := compProj A with hQd
  have hQh : Qᴴ = Q := compProj_herm A
  -- the off-diagonal part
  set X := D * cdiag v * P * Aᴴ with hX
  have hXh : Xᴴ = A * P * cdiag v * Dᴴ := by
    rw [hX]
    simp only [conjTranspose_mul, conjTranspose_conjTranspose, cdiag_herm, hPh, Matrix.mul_assoc]
  have hZ : ∀ S s, covVelocity A D P v S s = X + Xᴴ + A * S * Aᴴ + (s : ℂ) • (1 : Matrix (Fin m) (Fin m) ℂ) := fun S s => by
    rw [hXh]; rfl
  have hXQ : X * Q = 0 := by rw [hX, Matrix.mul_assoc, hAQ, Matrix.mul_zero]
  have hQX : Q * Xᴴ = 0 := by rw [hXh, ← Matrix.mul_assoc, ← Matrix.mul_assoc, ← Matrix.mul_assoc, hQA]; simp
  have hMQ : ∀ S, A * S * Aᴴ * Q = 0 := fun S => by rw [Matrix.mul_assoc, hAQ, Matrix.mul_zero]
  have hQM : ∀ S, Q * (A * S * Aᴴ) = 0 := fun S => by rw [← Matrix.mul_assoc, ← Matrix.mul_assoc, hQA]; simp
  have hQZ : ∀ S s, Q * covVelocity A D P v S s = Q * X + (s : ℂ) • Q := fun S s => by
    rw [hZ, Matrix.mul_add, Matrix.mul_add, Matrix.mul_add, hQX, hQM, Matrix.mul_smul, Matrix.mul_one, add_zero, add_zero]
  have hZQ : ∀ S s, covVelocity A D P v S s * Q = Xᴴ * Q + (s : ℂ) • Q := fun S s => by
    rw [hZ, Matrix.add_mul, Matrix.add_mul, Matrix.add_mul, hXQ, hMQ, Matrix.smul_mul, Matrix.one_mul, add_zero, zero_add]
  have hQZQ : ∀ S s, Q * covVelocity A D P v S s * Q = (s : ℂ) • Q := fun S s => by
    rw [hQZ, Matrix.add_mul, Matrix.mul_assoc, hXQ, Matrix.mul_zero, zero_add, Matrix.smul_mul, hQ]
  have hoff : ∀ S s, Q * covVelocity A D P v S s * (1 - Q) = Q * X := fun S s => by
    rw [Matrix.mul_sub, Matrix.mul_one, hQZQ, hQZ, add_sub_cancel_right]
  have hoff' : ∀ S s, (1 - Q) * covVelocity A D P v S s * Q = Xᴴ * Q := fun S s => by
    rw [Matrix.sub_mul, Matrix.sub_mul, Matrix.one_mul, hQZQ, hZQ, add_sub_cancel_right]
  have hval : (Ri * (Q * X) * Ri * (Xᴴ * Q)).trace = (σ : ℂ)⁻¹ * (cdiag v * (Dᴴ * Q * D) * cdiag v * (P * (Aᴴ * (Ri * A)) * P)).trace := by
    calc (Ri * (Q * X) * Ri * (Xᴴ * Q)).trace = ((Ri * Q) * (X * Ri * Xᴴ * Q)).trace := by simp only [Matrix.mul_assoc]
      _ = (σ : ℂ)⁻¹ * (Q * (X * Ri * Xᴴ * Q)).trace := by rw [c2, Matrix.smul_mul, trace_smul, smul_eq_mul]
      _ = (σ : ℂ)⁻¹ * ((Q * Q) * (X * Ri * Xᴴ)).trace := by
          rw [Matrix.trace_mul_comm, Matrix.mul_assoc, Matrix.trace_mul_comm (X * Ri * Xᴴ)]
      _ = (σ : ℂ)⁻¹ * ((Q * D * cdiag v * P * Aᴴ * Ri * A * P) * (cdiag v * Dᴴ)).trace := by
          rw [hQ, hXh, hX]; simp only [Matrix.mul_assoc]
      _ = (σ : ℂ)⁻¹ * (cdiag v * (Dᴴ * Q * D) * cdiag v * (P * (Aᴴ * (Ri * A)) * P)).trace := by
          rw [Matrix.trace_mul_comm]; simp only [Matrix.mul_assoc]
  have hquad : (2 * (Ri * (Q * X) * Ri * (Xᴴ * Q)).trace).re =
      2 / σ * (v ⬝ᵥ reMat ((Dᴴ * Q * D) ⊙ (P * (Aᴴ * (Ri * A)) * P)ᵀ) *ᵥ v) := by
    rw [hval, reMat_hadamard_quad, ← Complex.ofReal_inv, show (2 : ℂ) = ((2 : ℝ) : ℂ) by norm_num, Complex.re_ofReal_mul,
      Complex.re_ofReal_mul]
    ring
  have hsplit : ∀ S s, (Ri * covVelocity A D P v S s * Ri * covVelocity A D P v S s).trace =
      (Ri * ((s : ℂ) • Q) * Ri * ((s : ℂ) • Q)).trace +
      (Ri * ((1 - Q) * covVelocity A D P v S s * (1 - Q)) * Ri * ((1 - Q) * covVelocity A D P v S s * (1 - Q))).trace +
      2 * (Ri * (Q * X) * Ri * (Xᴴ * Q)).trace := fun S s => by
    have := trace_split (Z := covVelocity A D P v S s) hQ (c1.trans c2.symm)
    rwa [hQZQ, hoff, hoff'] at this
  constructor
  · -- the bound is attained
    set B := (Aᴴ * A)⁻¹ * (Aᴴ * (D * cdiag v * P)) with hB
    refine ⟨-(B + Bᴴ), 0, ?_, ?_⟩
    · rw [conjTranspose_neg, conjTranspose_add, conjTranspose_conjTranspose, add_comm]
    · have h1Q : 1 - Q = A * ((Aᴴ * A)⁻¹ * Aᴴ) := by rw [hQd]; unfold compProj; rw [sub_sub_cancel]
      have hAB : (1 - Q) * X = A * B * Aᴴ := by
        rw [h1Q, hX, hB]; simp only [Matrix.mul_assoc]
      have hAB' : Xᴴ * (1 - Q) = A * Bᴴ * Aᴴ := by
        have := congrArg conjTranspose hAB
        simp only [conjTranspose_mul, conjTranspose_sub, conjTranspose_one, hQh, conjTranspose_conjTranspose] at this
        rw [this, Matrix.mul_assoc]
      have hA1 : (1 - Q) * A = A := by rw [Matrix.sub_mul, Matrix.one_mul, hQA, sub_zero]
      have hA2 : Aᴴ * (1 - Q) = Aᴴ := by rw [Matrix.mul_sub, Matrix.mul_one, hAQ, sub_zero]
      have h0 : (1 - Q) * covVelocity A D P v (-(B + Bᴴ)) 0 * (1 - Q) = 0 := by
        have hX1 : (1 - Q) * X * (1 - Q) = A * B * Aᴴ := by
          rw [hAB, Matrix.mul_assoc (A * B), hA2]
        have hX2 : (1 - Q) * Xᴴ * (1 - Q) = A * Bᴴ * Aᴴ := by
          rw [Matrix.mul_assoc, hAB', ← Matrix.mul_assoc, ← Matrix.mul_assoc, hA1]
        have hX3 : (1 - Q) * (A * (-(B + Bᴴ)) * Aᴴ) * (1 - Q) = A * (-(B + Bᴴ)) * Aᴴ := by
          rw [← Matrix.mul_assoc, ← Matrix.mul_assoc, hA1, Matrix.mul_assoc (A * _), hA2]
        rw [hZ, Complex.ofReal_zero, zero_smul, add_zero, Matrix.mul_add, Matrix.mul_add, Matrix.add_mul, Matrix.add_mul, hX1, hX2, hX3,
          Matrix.mul_neg, Matrix.neg_mul, Matrix.mul_add, Matrix.add_mul, add_neg_cancel]
      rw [hsplit, h0, ← hquad]
      simp
  · rintro x ⟨S, s, hS, rfl⟩
    rw [hsplit, ← hquad, Complex.add_re, Complex.add_re]
    have hZh : (covVelocity A D P v S s)ᴴ = covVelocity A D P v S s := by
      rw [hZ]
      simp only [conjTranspose_add, conjTranspose_smul, conjTranspose_one, conjTranspose_mul, conjTranspose_conjTranspose, hS,
        Complex.star_def, Complex.conj_ofReal, Matrix.mul_assoc]
      rw [add_comm Xᴴ X]
    have n1 := (Complex.le_def.1 (fisher_nonneg hRp (M := (s : ℂ) • Q) (by
      rw [conjTranspose_smul, hQh, Complex.star_def, Complex.conj_ofReal]))).1
    have n2 := (Complex.le_def.1 (fisher_nonneg hRp (M := (1 - Q) * covVelocity A D P v S s * (1 - Q)) (by
      simp only [conjTranspose_mul, conjTranspose_sub, conjTranspose_one, hQh, hZh, Matrix.mul_assoc]))).1
    rw [Complex.zero_re] at n1 n2
    linarith

/-- `covVelocity` is the derivative of the covariance model along every path with these velocities. -/
theorem covVelocity_hasDerivAt {A : ℝ → Matrix (Fin m) (Fin k) ℂ} {P : ℝ → Matrix (Fin k) (Fin k) ℂ} {σ : ℝ → ℝ}
    {D : Matrix (Fin m) (Fin k) ℂ} {v : Fin k → ℝ} {S : Matrix (Fin k) (Fin k) ℂ} {s t : ℝ}
    (hA : ∀ i j, HasDerivAt (fun t => A t i j) (D i j * v j) t) (hP : ∀ i j, HasDerivAt (fun t => P t i j) (S i j) t)
    (hσ : HasDerivAt σ s t) (i j : Fin m) :
    HasDerivAt (fun t => (A t * P t * (A t)ᴴ + (σ t : ℂ) • (1 : Matrix (Fin m) (Fin m) ℂ)) i j)
      (covVelocity (A t) D (P t) v S s i j) t := by
  have hAP : ∀ i j, HasDerivAt (fun t => (A t * P t) i j) ((D * cdiag v * P t + A t * S) i j) t := by
    intro i j
    simp only [Matrix.mul_apply, Matrix.add_apply]
    rw [← Finset.sum_add_distrib]
    refine HasDerivAt.fun_sum fun c _ => ?_
    have := (hA i c).mul (hP c j)
    have e : (∑ x, D i x * cdiag v x c) = D i c * v c := by
      have : (D * cdiag v) i c = D i c * v c := by unfold cdiag; rw [mul_diagonal]
      rw [← this, Matrix.mul_apply]
    rw [e]
    exact this
  have hAs : ∀ i j, HasDerivAt (fun t => (A t)ᴴ i j) ((cdiag v * Dᴴ) i j) t := by
    intro i j
    have := (hA j i).star
    have e : (cdiag v * Dᴴ) i j = star (D j i * v i) := by
      unfold cdiag
      rw [diagonal_mul, conjTranspose_apply, star_mul', mul_comm]
      simp
    rw [e]
    exact this
  have h1 : HasDerivAt (fun t => (A t * P t * (A t)ᴴ) i j) (((D * cdiag v * P t + A t * S) * (A t)ᴴ + A t * P t * (cdiag v * Dᴴ)) i j) t := by
    simp only [Matrix.mul_apply (M := A _ * P _), Matrix.add_apply, Matrix.mul_apply (M := D * cdiag v * P t + A t * S)]
    rw [← Finset.sum_add_distrib]
    exact HasDerivAt.fun_sum fun c _ => (hAP i c).mul (hAs c j)
  have h2 : HasDerivAt (fun t => ((σ t : ℂ) • (1 : Matrix (Fin m) (Fin m) ℂ)) i j) (((s : ℂ) • (1 : Matrix (Fin m) (Fin m) ℂ)) i j) t := by
    simp only [Matrix.smul_apply, smul_eq_mul]
    exact hσ.ofReal_comp.mul_const _
  have h3 := h1.add h2
  refine h3.congr_deriv ?_
  unfold covVelocity
  simp only [Matrix.add_apply, Matrix.add_mul, Matrix.mul_assoc]
  ring

end

end Doa
