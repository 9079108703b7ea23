import Mathlib.LinearAlgebra.Matrix.Rank
import Mathlib.LinearAlgebra.Matrix.PosDef
import Mathlib.Analysis.Matrix.Spectrum
import Mathlib.LinearAlgebra.Vandermonde
import Verif.Model.Subspace
import Verif.Spec.Subspace
import Verif.Props.MathUtils

/-!
# The eigenstructure of `R = A P Aᴴ + σ I`
-/

namespace Doa

open Matrix Doa.Props Doa.Spec
open scoped ComplexOrder

variable {m k : ℕ}

/-- Thresholding a monotone vector. -/
theorem monotone_threshold {w : Fin m → ℝ} (hw : Monotone w) {σ : ℝ}
    (hc : (Finset.univ.filter fun j => σ < w j).card = k) (j : Fin m) : σ < w j ↔ m - k ≤ j.1 := by
  constructor
  · intro h
    have : (Finset.Ici j).card ≤ (Finset.univ.filter fun j => σ < w j).card := by
      apply Finset.card_le_card
      intro i hi
      rw [Finset.mem_filter]
      exact ⟨Finset.mem_univ _, h.trans_le (hw (Finset.mem_Ici.1 hi))⟩
    rw [hc, Fin.card_Ici] at this
    omega
  · intro h
    by_contra hn
    have : (Finset.Iic j).card ≤ (Finset.univ.filter fun j => ¬ σ < w j).card := by
      apply Finset.card_le_card
      intro i hi
      rw [Finset.mem_filter]
      exact ⟨Finset.mem_univ _, fun h' => hn (h'.trans_le (hw (Finset.mem_Iic.1 hi)))⟩
    have h2 := Finset.card_filter_add_card_filter_not (s := (Finset.univ : Finset (Fin m))) (fun j => σ < w j)
    rw [hc, Finset.card_univ, Fintype.card_fin] at h2
    rw [Fin.card_Iic] at this
    omega

theorem IsEigh.orth' {R : Matrix (Fin m) (Fin m) ℂ} {w : Fin m → ℝ} {E : Matrix (Fin m) (Fin m) ℂ}
    (h : IsEigh R w E) : E * Eᴴ = 1 := mul_eq_one_comm.1 h.orth

/-- Hermitian matrices have an eigendecomposition as returned by `eigh`. -/
theorem exists_isEigh (R : Matrix (Fin m) (Fin m) ℂ) (hR : R.IsHermitian) : ∃ w E, IsEigh R w E := by
  classical
  let U : Matrix (Fin m) (Fin m) ℂ := hR.eigenvectorUnitary
  obtain ⟨τ, hτ⟩ : ∃ τ : Equiv.Perm (Fin m), Monotone (hR.eigenvalues ∘ τ) :=
    ⟨Tuple.sort hR.eigenvalues, Tuple.monotone_sort _⟩
  refine ⟨hR.eigenvalues ∘ τ, U.submatrix id τ, hτ, ?_, ?_⟩
  · have hU : Uᴴ * U = 1 := by
      have := Unitary.coe_star_mul_self hR.eigenvectorUnitary
      simpa [star_eq_conjTranspose] using this
    rw [conjTranspose_submatrix, ← submatrix_mul _ _ _ id _ Function.bijective_id, hU]
    exact submatrix_one _ τ.injective
  · have hU : R * U = U * diagonal fun j => (hR.eigenvalues j : ℂ) := by
      have h1 := hR.conjStarAlgAut_star_eigenvectorUnitary
      rw [Unitary.conjStarAlgAut_star_apply] at h1
      have h2 := Unitary.coe_mul_star_self hR.eigenvectorUnitary
      have h3 : U * diagonal (fun j => (hR.eigenvalues j : ℂ)) = U * (star U * R * U) := by
        rw [h1]; rfl
      have h2' : U * star U = 1 := h2
      rw [h3, ← Matrix.mul_assoc, ← Matrix.mul_assoc, h2', Matrix.one_mul]
    have h4 : R * U.submatrix id τ = (R * U).submatrix id τ := by
      rw [submatrix_mul _ _ id id _ Function.bijective_id, submatrix_id_id]
    have h5 : (diagonal fun j => ((hR.eigenvalues ∘ τ) j : ℂ)) =
        (diagonal fun j => (hR.eigenvalues j : ℂ)).submatrix τ τ := by
      rw [submatrix_diagonal _ _ τ.injective]; rfl
    rw [h4, hU, h5, submatrix_mul _ _ id τ _ τ.bijective]

theorem covModel_isHermitian (A : Matrix (Fin m) (Fin k) ℂ) {P : Matrix (Fin k) (Fin k) ℂ}
    (hP : P.IsHermitian) (σ : ℝ) : (covModel A P σ).IsHermitian := by
  unfold covModel
  refine IsHermitian.add ?_ ?_
  · rw [IsHermitian, conjTranspose_mul, conjTranspose_mul, conjTranspose_conjTranspose, hP.eq,
      Matrix.mul_assoc]
  · rw [IsHermitian, conjTranspose_smul, conjTranspose_one, Complex.star_def, Complex.conj_ofReal]

theorem rank_signal {A : Matrix (Fin m) (Fin k) ℂ} (hA : Function.Injective A.mulVec)
    {P : Matrix (Fin k) (Fin k) ℂ} (hP : P.PosDef) : (A * P * Aᴴ).rank = k := by
  have hG : IsUnit (Aᴴ * A) := (isUnit_iff_isUnit_det _).2 ((fullRank_iff A).2 hA)
  apply le_antisymm
  · calc (A * P * Aᴴ).rank ≤ (A * P).rank := rank_mul_le_left _ _
      _ ≤ A.rank := rank_mul_le_left _ _
      _ ≤ k := rank_le_width A
  · have h1 : IsUnit (Aᴴ * (A * P * Aᴴ) * A) := by
      have : Aᴴ * (A * P * Aᴴ) * A = (Aᴴ * A) * P * (Aᴴ * A) := by simp only [Matrix.mul_assoc]
      rw [this]
      exact (hG.mul hP.isUnit).mul hG
    have h2 := rank_of_isUnit _ h1
    rw [Fintype.card_fin] at h2
    calc k = (Aᴴ * (A * P * Aᴴ) * A).rank := h2.symm
      _ ≤ (Aᴴ * (A * P * Aᴴ)).rank := rank_mul_le_left _ _
      _ ≤ (A * P * Aᴴ).rank := rank_mul_le_right _ _

variable {A : Matrix (Fin m) (Fin k) ℂ} {P : Matrix (Fin k) (Fin k) ℂ} {σ : ℝ}
  {w : Fin m → ℝ} {E : Matrix (Fin m) (Fin m) ℂ}

theorem IsEigh.signal (h : IsEigh (covModel A P σ) w E) :
    A * P * Aᴴ * E = E * diagonal fun j => ((w j - σ : ℝ) : ℂ) := by
  have h1 := h.eig
  unfold covModel at h1
  rw [Matrix.add_mul, smul_mul, Matrix.one_mul] at h1
  have h2 : A * P * Aᴴ * E = E * (diagonal fun j => (w j : ℂ)) - (σ : ℂ) • E := by
    rw [← h1]; simp
  rw [h2]
  ext i j
  simp [mul_diagonal]
  ring

theorem IsEigh.signal' (h : IsEigh (covModel A P σ) w E) :
    Eᴴ * (A * P * Aᴴ) * E = diagonal fun j => ((w j - σ : ℝ) : ℂ) := by
  rw [Matrix.mul_assoc, h.signal, ← Matrix.mul_assoc, h.orth, Matrix.one_mul]

theorem IsEigh.ge (hP : P.PosSemidef) (h : IsEigh (covModel A P σ) w E) (j : Fin m) : σ ≤ w j := by
  have h1 : (Eᴴ * (A * P * Aᴴ) * E).PosSemidef :=
    (hP.mul_mul_conjTranspose_same A).conjTranspose_mul_mul_same E
  rw [h.signal', posSemidef_diagonal_iff] at h1
  have := h1 j
  rw [Complex.zero_le_real] at this
  linarith

/-- The last `k` eigenvalues exceed the noise variance, the others equal it. -/
theorem IsEigh.split (hA : Function.Injective A.mulVec) (hP : P.PosDef)
    (h : IsEigh (covModel A P σ) w E) (j : Fin m) : σ < w j ↔ m - k ≤ j.1 := by
  classical
  refine monotone_threshold h.mono ?_ j
  have hE : IsUnit E := IsUnit.of_mul_eq_one Eᴴ h.orth'
  have h1 : (Eᴴ * (A * P * Aᴴ) * E).rank = k := by
    rw [rank_mul_eq_left_of_isUnit_det _ _ ((isUnit_iff_isUnit_det _).1 hE),
      rank_mul_eq_right_of_isUnit_det _ _ ((isUnit_iff_isUnit_det _).1 (by
        rw [← star_eq_conjTranspose]; exact hE.star)), rank_signal hA hP]
  rw [h.signal', rank_diagonal, Fintype.card_subtype] at h1
  rw [← h1]
  congr 1
  ext j
  simp only [Finset.mem_filter, Finset.mem_univ, true_and, ne_eq, Complex.ofReal_eq_zero]
  constructor
  · intro h2; linarith
  · intro h2
    exact lt_of_le_of_ne (h.ge hP.posSemidef j) fun h3 => h2 (by linarith)

/-- The noise eigenvectors are orthogonal to the steering vectors. -/
theorem IsEigh.noise (hA : Function.Injective A.mulVec) (hP : P.PosDef)
    (h : IsEigh (covModel A P σ) w E) (j : Fin m) (hj : j.1 < m - k) : w j = σ ∧ Aᴴ *ᵥ E.col j = 0 := by
  have hw : w j = σ := le_antisymm (not_lt.1 fun h' => by
    have := (h.split hA hP j).1 h'; omega) (h.ge hP.posSemidef j)
  refine ⟨hw, ?_⟩
  by_contra hne
  have h1 := hP.dotProduct_mulVec_pos hne
  have h2 := congrFun (congrFun h.signal' j) j
  rw [diagonal_apply_eq, hw, sub_self, Complex.ofReal_zero] at h2
  have h3 : (Eᴴ * (A * P * Aᴴ) * E) j j = star (Aᴴ *ᵥ E.col j) ⬝ᵥ P *ᵥ (Aᴴ *ᵥ E.col j) := by
    have e1 : Eᴴ * (A * P * Aᴴ) * E = (Aᴴ * E)ᴴ * (P * (Aᴴ * E)) := by
      rw [conjTranspose_mul, conjTranspose_conjTranspose]
      simp only [Matrix.mul_assoc]
    rw [e1, Matrix.mul_apply]
    rfl
  rw [h3] at h2
  rw [h2] at h1
  exact lt_irrefl _ h1

/-- The signal eigenvectors lie in the span of the steering vectors. -/
theorem IsEigh.signal_mem (hA : Function.Injective A.mulVec) (hP : P.PosDef)
    (h : IsEigh (covModel A P σ) w E) (j : Fin m) (hj : m - k ≤ j.1) : ∃ x, E.col j = A *ᵥ x := by
  have hw := (h.split hA hP j).2 hj
  have hne : ((w j - σ : ℝ) : ℂ) ≠ 0 := by
    rw [Complex.ofReal_ne_zero]; linarith
  refine ⟨(((w j - σ : ℝ) : ℂ)⁻¹) • (P *ᵥ (Aᴴ *ᵥ E.col j)), ?_⟩
  rw [mulVec_smul, mulVec_mulVec, mulVec_mulVec]
  funext i
  have h1 := congrFun (congrFun h.signal i) j
  rw [mul_diagonal] at h1
  have h2 : ((A * P * Aᴴ) *ᵥ E.col j) i = E i j * ((w j - σ : ℝ) : ℂ) := by
    rw [← h1]; rfl
  rw [Pi.smul_apply, h2, smul_eq_mul, mul_comm (E i j), ← mul_assoc,
    inv_mul_cancel₀ hne, one_mul]
  rfl

theorem noiseDim_eq (hk : 1 ≤ k) : noiseDim m k = m - k := by
  unfold noiseDim; rw [if_neg (by omega)]

theorem noiseCols_col (E : Matrix (Fin m) (Fin m) ℂ) (k : ℕ) (j : Fin (noiseDim m k)) :
    (noiseCols E k).col j = E.col (Fin.castLE (noiseDim_le m k) j) := rfl

/-- `En` has orthonormal columns. -/
theorem IsEigh.noise_orth {R : Matrix (Fin m) (Fin m) ℂ} (h : IsEigh R w E) (k : ℕ) :
    (noiseCols E k)ᴴ * noiseCols E k = 1 := by
  have h1 := congrArg (fun M : Matrix (Fin m) (Fin m) ℂ =>
    M.submatrix (Fin.castLE (noiseDim_le m k)) (Fin.castLE (noiseDim_le m k))) h.orth
  simp only [submatrix_one _ (Fin.castLE_injective (noiseDim_le m k))] at h1
  rw [← h1, submatrix_mul _ _ _ id _ Function.bijective_id]
  rfl

/-- The noise subspace is the orthogonal complement of the span of the steering vectors. -/
theorem IsEigh.noise_zero_iff (hk : 1 ≤ k) (hA : Function.Injective A.mulVec) (hP : P.PosDef)
    (h : IsEigh (covModel A P σ) w E) (a : Fin m → ℂ) :
    (noiseCols E k)ᴴ *ᵥ a = 0 ↔ ∃ x, a = A *ᵥ x := by
  have hent : ∀ j, ((noiseCols E k)ᴴ *ᵥ a) j = (Eᴴ *ᵥ a) (Fin.castLE (noiseDim_le m k) j) := fun j => rfl
  constructor
  · intro h0
    have h1 : ∀ j : Fin m, j.1 < m - k → (Eᴴ *ᵥ a) j = 0 := by
      intro j hj
      have := congrFun h0 ⟨j.1, by rw [noiseDim_eq hk]; exact hj⟩
      rw [hent] at this
      exact this
    have h2 : a = E *ᵥ (Eᴴ *ᵥ a) := by rw [mulVec_mulVec, h.orth', one_mulVec]
    have h3 : ∀ j : Fin m, ∃ x : Fin k → ℂ, (Eᴴ *ᵥ a) j • E.col j = A *ᵥ x := by
      intro j
      by_cases hj : j.1 < m - k
      · exact ⟨0, by rw [h1 j hj, zero_smul, mulVec_zero]⟩
      · obtain ⟨x, hx⟩ := h.signal_mem hA hP j (by omega)
        exact ⟨(Eᴴ *ᵥ a) j • x, by rw [mulVec_smul, hx]⟩
    choose x hx using h3
    refine ⟨∑ j, x j, ?_⟩
    rw [mulVec_sum, ← Finset.sum_congr rfl fun j _ => hx j]
    conv_lhs => rw [h2]
    rw [mulVec_eq_sum]
    refine Finset.sum_congr rfl fun j _ => ?_
    rw [op_smul_eq_smul]
    rfl
  · rintro ⟨x, rfl⟩
    funext j
    have hj : j.1 < m - k := noiseDim_eq (m := m) hk ▸ j.2
    have h1 := (h.noise hA hP (Fin.castLE (noiseDim_le m k) j) hj).2
    have h2 : (noiseCols E k)ᴴ *ᵥ (A *ᵥ x) = fun j => star (Aᴴ *ᵥ (noiseCols E k).col j) ⬝ᵥ x := by
      funext j
      rw [mulVec_mulVec]
      have : (noiseCols E k)ᴴ * A = (Aᴴ * noiseCols E k)ᴴ := by
        rw [conjTranspose_mul, conjTranspose_conjTranspose]
      rw [this]
      rfl
    rw [h2]
    simp only [noiseCols_col]
    rw [h1]
    simp

/-- Steering vectors of a ULA at distinct phase factors are linearly independent. -/
theorem ulaMat_injective {z : Fin k → ℂ} (hz : Function.Injective z) (hk : k ≤ m) :
    Function.Injective (ulaMat m z).mulVec := by
  intro x y hxy
  have h1 : (vandermonde z)ᵀ *ᵥ (x - y) = 0 := by
    have h2 : ulaMat m z *ᵥ (x - y) = 0 := by
      rw [mulVec_sub]; exact sub_eq_zero.2 hxy
    funext i
    have h3 := congrFun h2 (Fin.castLE hk i)
    simpa [mulVec, dotProduct, vandermonde, ulaMat] using h3
  have h4 := eq_zero_of_mulVec_eq_zero (by
    rw [det_transpose]; exact det_vandermonde_ne_zero_iff.2 hz) h1
  exact sub_eq_zero.1 h4

/-- A further ULA steering vector lies in the span of `k < m` others only if it is one of them. -/
theorem ulaVec_mem_span {z : Fin k → ℂ} (hz : Function.Injective z) (hk : k < m) (ζ : ℂ) :
    (∃ x, ulaVec m ζ = ulaMat m z *ᵥ x) ↔ ∃ c, ζ = z c := by
  constructor
  · rintro ⟨x, hx⟩
    by_contra hn
    push Not at hn
    have hz' : Function.Injective (Fin.cons ζ z : Fin (k + 1) → ℂ) := by
      rw [Fin.cons_injective_iff]
      exact ⟨fun ⟨c, hc⟩ => hn c hc.symm, hz⟩
    have h1 := ulaMat_injective (m := m) hz' hk
    have h2 : ulaMat m (Fin.cons ζ z : Fin (k + 1) → ℂ) *ᵥ (Fin.cons (-1) x) =
        ulaMat m (Fin.cons ζ z : Fin (k + 1) → ℂ) *ᵥ 0 := by
      rw [mulVec_zero]
      funext i
      have h3 := congrFun hx i
      simp only [mulVec, dotProduct, ulaMat, ulaVec] at h3
      simp [mulVec, dotProduct, ulaMat, Fin.sum_univ_succ, h3]
    have h4 := congrFun (h1 h2) 0
    simp at h4
  · rintro ⟨c, rfl⟩
    refine ⟨Pi.single c 1, ?_⟩
    rw [mulVec_single_one]
    rfl

end Doa
