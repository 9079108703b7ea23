import Verif.Lemmas.DavisKahan

/-! # Weyl's inequality for the eigenvalues returned by `eigh` -/

namespace Doa

open Matrix Doa.Spec

variable {m : ℕ}

/-- The quadratic form of a matrix in its eigenbasis. -/
theorem IsEigh.form {R E : Matrix (Fin m) (Fin m) ℂ} {w : Fin m → ℝ} (h : IsEigh R w E) (x : Fin m → ℂ) :
    (star x ⬝ᵥ R *ᵥ x).re = ∑ j, w j * ‖(Eᴴ *ᵥ x) j‖ ^ 2 := by
  have hR : R = E * diagonal (fun j => (w j : ℂ)) * Eᴴ := by
    rw [← h.eig, Matrix.mul_assoc, h.orth', Matrix.mul_one]
  have e : star x ⬝ᵥ R *ᵥ x = star (Eᴴ *ᵥ x) ⬝ᵥ (diagonal (fun j => (w j : ℂ)) *ᵥ (Eᴴ *ᵥ x)) := by
    rw [hR, ← mulVec_mulVec, ← mulVec_mulVec, dotProduct_mulVec, star_mulVec, conjTranspose_conjTranspose]
  rw [e, dotProduct, Complex.re_sum]
  refine Finset.sum_congr rfl fun j _ => ?_
  rw [mulVec_diagonal, Pi.star_apply, Complex.star_def, mul_left_comm, mul_comm ((starRingEnd ℂ) _), Complex.mul_conj, Complex.normSq_eq_norm_sq,
    ← Complex.ofReal_mul, Complex.ofReal_re]

/-- Unitary matrices preserve the norm. -/
theorem IsEigh.norm {R E : Matrix (Fin m) (Fin m) ℂ} {w : Fin m → ℝ} (h : IsEigh R w E) (x : Fin m → ℂ) :
    ∑ j, ‖(Eᴴ *ᵥ x) j‖ ^ 2 = ∑ j, ‖x j‖ ^ 2 := by
  have h1 : star (Eᴴ *ᵥ x) ⬝ᵥ (Eᴴ *ᵥ x) = star x ⬝ᵥ x := by
    rw [star_mulVec, conjTranspose_conjTranspose, ← dotProduct_mulVec, mulVec_mulVec, h.orth', one_mulVec]
  have h2 : ∀ y : Fin m → ℂ, (star y ⬝ᵥ y).re = ∑ j, ‖y j‖ ^ 2 := by
    intro y
    rw [dotProduct, Complex.re_sum]
    refine Finset.sum_congr rfl fun j _ => ?_
    rw [Pi.star_apply, Complex.star_def, mul_comm, Complex.mul_conj, Complex.normSq_eq_norm_sq, Complex.ofReal_re]
  rw [← h2, h1, h2]

theorem weyl_le {R R' E E' : Matrix (Fin m) (Fin m) ℂ} {w w' : Fin m → ℝ} (h : IsEigh R w E) (h' : IsEigh R' w' E')
    (i : Fin m) : w' i ≤ w i + Real.sqrt (frobSq (R' - R)) := by
  -- a vector in both subspaces
  let L : (Fin m → ℂ) →ₗ[ℂ] ({j : Fin m // j ≠ i} → ℂ) :=
    { toFun := fun x j => if i < j.1 then (Eᴴ *ᵥ x) j else (E'ᴴ *ᵥ x) j
      map_add' := by
        intro x y
        funext j
        simp only [mulVec_add, Pi.add_apply]
        split_ifs <;> rfl
      map_smul' := by
        intro c x
        funext j
        simp only [mulVec_smul, Pi.smul_apply, RingHom.id_apply]
        split_ifs <;> rfl }
  have hker : LinearMap.ker L ≠ ⊥ := by
    apply LinearMap.ker_ne_bot_of_finrank_lt
    rw [Module.finrank_fintype_fun_eq_card, Module.finrank_fintype_fun_eq_card]
    simp only [Fintype.card_fin, ne_eq, Fintype.card_subtype_compl, Fintype.card_subtype_eq]
    have := i.2
    omega
  obtain ⟨x, hx, hx0⟩ := Submodule.exists_mem_ne_zero_of_ne_bot hker
  have hLx : ∀ j : Fin m, j ≠ i → (if i < j then (Eᴴ *ᵥ x) j else (E'ᴴ *ᵥ x) j) = 0 := fun j hj =>
    congrFun (LinearMap.mem_ker.1 hx) ⟨j, hj⟩
  set S := ∑ j, ‖x j‖ ^ 2 with hS
  have hSpos : 0 < S := by
    obtain ⟨j, hj⟩ := Function.ne_iff.1 hx0
    refine Finset.sum_pos' (fun _ _ => by positivity) ⟨j, Finset.mem_univ _, ?_⟩
    have : 0 < ‖x j‖ := norm_pos_iff.2 hj
    positivity
  have h1 : (star x ⬝ᵥ R *ᵥ x).re ≤ w i * S := by
    rw [h.form, hS, ← h.norm, Finset.mul_sum]
    refine Finset.sum_le_sum fun j _ => ?_
    rcases lt_or_ge i j with hij | hij
    · have := hLx j hij.ne'
      rw [if_pos hij] at this
      simp [this]
    · exact mul_le_mul_of_nonneg_right (h.mono hij) (by positivity)
  have h2 : w' i * S ≤ (star x ⬝ᵥ R' *ᵥ x).re := by
    rw [h'.form, hS, ← h'.norm, Finset.mul_sum]
    refine Finset.sum_le_sum fun j _ => ?_
    rcases lt_or_ge j i with hij | hij
    · have := hLx j hij.ne
      rw [if_neg (not_lt.2 hij.le)] at this
      simp [this]
    · exact mul_le_mul_of_nonneg_right (h'.mono hij) (by positivity)
  have h3 : (star x ⬝ᵥ R' *ᵥ x).re - (star x ⬝ᵥ R *ᵥ x).re ≤ Real.sqrt (frobSq (R' - R)) * S := by
    rw [← Complex.sub_re, ← dotProduct_sub, ← sub_mulVec]
    refine (Complex.re_le_norm _).trans ?_
    refine (pow_le_pow_iff_left₀ (norm_nonneg _) (by positivity) two_ne_zero).1 ?_
    rw [mul_pow, Real.sq_sqrt (frobSq_nonneg _)]
    exact form_sq_le _ _
  have h4 : w' i * S ≤ (w i + Real.sqrt (frobSq (R' - R))) * S := by
    rw [add_mul]
    linarith
  exact le_of_mul_le_mul_right h4 hSpos

theorem frobSq_sub_comm (R R' : Matrix (Fin m) (Fin m) ℂ) : frobSq (R - R') = frobSq (R' - R) := by
  unfold frobSq
  refine Finset.sum_congr rfl fun i _ => Finset.sum_congr rfl fun j _ => ?_
  rw [Matrix.sub_apply, Matrix.sub_apply, norm_sub_rev]

/-- **Weyl's inequality** (with the Frobenius norm). -/
theorem weyl {R R' E E' : Matrix (Fin m) (Fin m) ℂ} {w w' : Fin m → ℝ} (h : IsEigh R w E) (h' : IsEigh R' w' E')
    (i : Fin m) : |w' i - w i| ≤ Real.sqrt (frobSq (R' - R)) := by
  have h1 := weyl_le h h' i
  have h2 := weyl_le h' h i
  rw [frobSq_sub_comm] at h2
  rw [abs_le]
  constructor <;> linarith

/-- Entrywise closeness. -/
theorem weyl_entries {R R' E E' : Matrix (Fin m) (Fin m) ℂ} {w w' : Fin m → ℝ} (h : IsEigh R w E) (h' : IsEigh R' w' E')
    {r : ℝ} (hr : ∀ i j, ‖R' i j - R i j‖ ≤ r) (i : Fin m) : |w' i - w i| ≤ m * r := by
  have hr0 : 0 ≤ r := (norm_nonneg _).trans (hr i i)
  refine (weyl h h' i).trans ?_
  rw [Real.sqrt_le_left (by positivity)]
  unfold frobSq
  refine (Finset.sum_le_sum fun i _ => Finset.sum_le_sum fun j _ => pow_le_pow_left₀ (norm_nonneg _) (hr i j) 2).trans (le_of_eq ?_)
  simp only [Finset.sum_const, Finset.card_univ, Fintype.card_fin, nsmul_eq_mul]
  ring

end Doa
