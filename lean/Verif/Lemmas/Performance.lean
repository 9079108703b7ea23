import Mathlib.Analysis.Matrix.Order
import Verif.Model.Performance
import Verif.Props.MLObjective

/-!
# Lemmas on real parts, Schur products and Loewner order
-/

namespace Doa

open Matrix
open scoped ComplexOrder

variable {ι κ : Type} [Fintype ι] [DecidableEq ι] [Fintype κ] [DecidableEq κ]

theorem reMat_apply (M : Matrix ι κ ℂ) (i : ι) (j : κ) : reMat M i j = (M i j).re := rfl

theorem reMat_quad (M : Matrix ι ι ℂ) (v : ι → ℝ) :
    star v ⬝ᵥ reMat M *ᵥ v = (star (fun i => (v i : ℂ)) ⬝ᵥ M *ᵥ fun i => (v i : ℂ)).re := by
  simp only [dotProduct, mulVec, reMat_apply, Pi.star_apply, Complex.re_sum, Finset.mul_sum, star_trivial]
  refine Finset.sum_congr rfl fun i _ => Finset.sum_congr rfl fun j _ => ?_
  simp [Complex.mul_re]

theorem reMat_isHermitian {M : Matrix ι ι ℂ} (h : M.IsHermitian) : (reMat M).IsHermitian := by
  ext i j
  have := congrFun (congrFun h.eq i) j
  rw [conjTranspose_apply] at this
  simp only [conjTranspose_apply, reMat_apply, star_trivial, ← this, Complex.star_def, Complex.conj_re]

theorem reMat_posSemidef {M : Matrix ι ι ℂ} (h : M.PosSemidef) : (reMat M).PosSemidef := by
  refine PosSemidef.of_dotProduct_mulVec_nonneg (reMat_isHermitian h.isHermitian) fun v => ?_
  rw [reMat_quad]
  exact (Complex.le_def.1 (h.dotProduct_mulVec_nonneg _)).1

theorem reMat_posDef {M : Matrix ι ι ℂ} (h : M.PosDef) : (reMat M).PosDef := by
  refine PosDef.of_dotProduct_mulVec_pos (reMat_isHermitian h.isHermitian) fun v hv => ?_
  rw [reMat_quad]
  refine (Complex.lt_def.1 (h.dotProduct_mulVec_pos ?_)).1
  intro h0
  apply hv
  funext i
  have := congrFun h0 i
  simpa using this

/-- Inversion reverses the Loewner order. -/
theorem inv_antitone {M N : Matrix ι ι ℝ} (hM : M.PosDef) (hN : N.PosDef) (h : (N - M).PosSemidef) :
    (M⁻¹ - N⁻¹).PosSemidef := by
  have hMi : M⁻¹⁻¹ = M := nonsing_inv_nonsing_inv _ ((isUnit_iff_isUnit_det _).1 hM.isUnit)
  letI := hM.inv.isUnit.invertible
  letI := hN.isUnit.invertible
  have h1 : (fromBlocks M⁻¹ 1 (1 : Matrix ι ι ℝ)ᴴ N).PosSemidef := by
    rw [PosDef.fromBlocks₁₁ _ _ hM.inv, hMi]
    simpa using h
  rw [PosDef.fromBlocks₂₂ _ _ hN] at h1
  simpa using h1

/-- A positive semidefinite invertible matrix is positive definite. -/
theorem posDef_of_unit {𝕜 : Type} [RCLike 𝕜] {M : Matrix ι ι 𝕜} (h : M.PosSemidef) (hu : IsUnit M.det) : M.PosDef :=
  (h.posDef_iff_isUnit).2 ((isUnit_iff_isUnit_det _).2 hu)

theorem symPart_of_symm {k : ℕ} {C : Matrix (Fin k) (Fin k) ℝ} (h : C.IsHermitian) : symPart C = C := by
  ext i j
  have := congrFun (congrFun h.eq i) j
  rw [conjTranspose_apply, star_trivial] at this
  simp only [symPart, of_apply, this]
  ring

theorem symPart_isHermitian {k : ℕ} (C : Matrix (Fin k) (Fin k) ℝ) : (symPart C).IsHermitian := by
  ext i j
  simp only [symPart, conjTranspose_apply, of_apply, star_trivial]
  ring

theorem symPart_smul {k : ℕ} (c : ℝ) (C : Matrix (Fin k) (Fin k) ℝ) : symPart (c • C) = c • symPart C := by
  ext i j
  simp only [symPart, of_apply, Matrix.smul_apply, smul_eq_mul]
  ring

/-- `P (Aᴴ R⁻¹ A) P = (P⁻¹ + σ P⁻¹ (Aᴴ A)⁻¹ P⁻¹)⁻¹` for `R = A P Aᴴ + σ I`. -/
theorem weight_identity {m k : ℕ} {A : Matrix (Fin m) (Fin k) ℂ} {P : Matrix (Fin k) (Fin k) ℂ} {σ : ℝ}
    (hG : IsUnit (Aᴴ * A).det)
    (hR : IsUnit (A * P * Aᴴ + (σ : ℂ) • (1 : Matrix (Fin m) (Fin m) ℂ)).det) :
    (Aᴴ * ((A * P * Aᴴ + (σ : ℂ) • (1 : Matrix (Fin m) (Fin m) ℂ))⁻¹ * A)) * (P + (σ : ℂ) • (Aᴴ * A)⁻¹) = 1 := by
  set R := A * P * Aᴴ + (σ : ℂ) • (1 : Matrix (Fin m) (Fin m) ℂ) with hRdef
  have h1 : R * (A * (Aᴴ * A)⁻¹) = A * (P + (σ : ℂ) • (Aᴴ * A)⁻¹) := by
    rw [hRdef, Matrix.add_mul, Matrix.mul_add, Matrix.smul_mul, Matrix.one_mul, Matrix.mul_smul]
    congr 1
    calc A * P * Aᴴ * (A * (Aᴴ * A)⁻¹) = A * P * ((Aᴴ * A) * (Aᴴ * A)⁻¹) := by simp only [Matrix.mul_assoc]
      _ = A * P := by rw [mul_nonsing_inv _ hG, Matrix.mul_one]
  calc Aᴴ * (R⁻¹ * A) * (P + (σ : ℂ) • (Aᴴ * A)⁻¹) = Aᴴ * (R⁻¹ * (A * (P + (σ : ℂ) • (Aᴴ * A)⁻¹))) := by
        simp only [Matrix.mul_assoc]
    _ = Aᴴ * ((R⁻¹ * R) * (A * (Aᴴ * A)⁻¹)) := by rw [← h1]; simp only [Matrix.mul_assoc]
    _ = (Aᴴ * A) * (Aᴴ * A)⁻¹ := by rw [nonsing_inv_mul _ hR, Matrix.one_mul]; simp only [Matrix.mul_assoc]
    _ = 1 := mul_nonsing_inv _ hG

end Doa
