import Mathlib.LinearAlgebra.Matrix.Charpoly.Coeff
import Verif.Lemmas.Subspace
import Verif.Lemmas.MathUtils
import Verif.Model.Esprit

/-! # Lemmas about ESPRIT -/

namespace Doa

open Matrix Doa.Props Doa.Spec
open scoped ComplexOrder

variable {m k d : ℕ}

/-- The total weight of row `r` after the two in-place multiplications. -/
noncomputable def totalWeight (rw : Option (List ℝ)) (d r : ℕ) : ℝ :=
  match rw with
  | none => 1
  | some w => w.getD r 1 * (if d ≤ r then w.getD (r - d) 1 else 1)

theorem scaleRows_apply (buf : Matrix (Fin m) (Fin k) ℂ) (s : ℕ) (w : List ℝ) (r : Fin m) (c : Fin k) :
    scaleRows buf s w r c = buf r c * ((if s ≤ r.1 then w.getD (r.1 - s) 1 else 1 : ℝ) : ℂ) := by
  unfold scaleRows
  split_ifs with h
  · rw [List.getD_eq_getElem?_getD]
    cases w[r.1 - s]? <;> simp
  · simp

theorem applyWeights_apply (buf : Matrix (Fin m) (Fin k) ℂ) (d : ℕ) (rw : Option (List ℝ)) (r : Fin m)
    (c : Fin k) : applyWeights buf d rw r c = (totalWeight rw d r.1 : ℂ) * buf r c := by
  unfold applyWeights totalWeight
  cases rw with
  | none => simp
  | some w =>
    simp only [scaleRows_apply, Nat.zero_le, if_true, Nat.sub_zero]
    push_cast
    ring

/-- The signal eigenvectors are the steering matrix times an invertible matrix. -/
theorem signal_factor {A : Matrix (Fin m) (Fin k) ℂ} {P : Matrix (Fin k) (Fin k) ℂ} {σ : ℝ}
    {w : Fin m → ℝ} {E : Matrix (Fin m) (Fin m) ℂ} (hA : Function.Injective A.mulVec) (hP : P.PosDef)
    (h : IsEigh (covModel A P σ) w E) (hk : k ≤ m) :
    ∃ T : Matrix (Fin k) (Fin k) ℂ, IsUnit T.det ∧ signalCols E hk = A * T := by
  have h1 : ∀ c : Fin k, ∃ x, E.col ⟨m - k + c.1, by omega⟩ = A *ᵥ x := fun c =>
    h.signal_mem hA hP _ (by simp)
  choose x hx using h1
  have h2 : signalCols E hk = A * Matrix.of fun i c => x c i := by
    ext r c
    have := congrFun (hx c) r
    exact this
  refine ⟨_, ?_, h2⟩
  have h3 : (signalCols E hk)ᴴ * signalCols E hk = 1 := by
    have h4 := congrArg (fun M : Matrix (Fin m) (Fin m) ℂ =>
      M.submatrix (fun c : Fin k => (⟨m - k + c.1, by omega⟩ : Fin m))
        (fun c : Fin k => (⟨m - k + c.1, by omega⟩ : Fin m))) h.orth
    simp only [submatrix_one (fun c : Fin k => (⟨m - k + c.1, by omega⟩ : Fin m)) (by
      intro a b hab; simp only [Fin.mk.injEq] at hab; exact Fin.ext (by omega))] at h4
    rw [← h4, submatrix_mul _ _ _ id _ Function.bijective_id]
    rfl
  rw [h2, conjTranspose_mul, Matrix.mul_assoc] at h3
  have h5 := IsUnit.of_mul_eq_one_right _ h3
  set T : Matrix (Fin k) (Fin k) ℂ := Matrix.of fun i c => x c i
  have h6 : ((T ᴴ * Aᴴ) * A) * T = 1 := by rw [← h3]; simp only [Matrix.mul_assoc]
  exact (isUnit_iff_isUnit_det _).1 (IsUnit.of_mul_eq_one_right _ h6)

/-- The two views for a ULA. -/
theorem views_ula {z : Fin k → ℂ} (T : Matrix (Fin k) (Fin k) ℂ) (d : ℕ) (rw : Option (List ℝ)) :
    es1View (applyWeights (ulaMat m z * T) d rw) d =
        diagonal (fun r : Fin (m - d) => (totalWeight rw d r.1 : ℂ)) * ulaMat (m - d) z * T ∧
    es2View (applyWeights (ulaMat m z * T) d rw) d =
        diagonal (fun r : Fin (m - d) => (totalWeight rw d (r.1 + d) : ℂ)) * ulaMat (m - d) z *
          diagonal (fun c => z c ^ d) * T := by
  constructor
  · ext r c
    simp only [es1View, applyWeights_apply, Matrix.mul_assoc, diagonal_mul]
    rfl
  · ext r c
    simp only [es2View, applyWeights_apply, Matrix.mul_assoc, diagonal_mul]
    congr 1
    simp only [Matrix.mul_apply, ulaMat, diagonal_apply, ite_mul, zero_mul,
      Finset.sum_ite_eq, Finset.mem_univ, if_true]
    refine Finset.sum_congr rfl fun i _ => ?_
    rw [pow_add]; ring

/-- Least squares on `Es1 = B T`, `Es2 = B D T`. -/
theorem phiLS_exact {n : ℕ} {B : Matrix (Fin n) (Fin k) ℂ} (hB : Function.Injective B.mulVec)
    {T D : Matrix (Fin k) (Fin k) ℂ} (hT : IsUnit T.det) :
    phiLS (B * T) (B * D * T) = .ok (T⁻¹ * D * T) := by
  unfold phiLS npSolve
  have hBT : Function.Injective (B * T).mulVec := by
    intro x y hxy
    simp only [← mulVec_mulVec] at hxy
    have h1 := hB hxy
    have h2 := congrArg (fun v => T⁻¹ *ᵥ v) h1
    simpa [mulVec_mulVec, nonsing_inv_mul _ hT] using h2
  have hG : IsUnit ((B * T)ᴴ * (B * T)).det := (fullRank_iff _).2 hBT
  rw [if_pos hG]
  congr 1
  have : B * D * T = B * T * (T⁻¹ * D * T) := by
    simp only [Matrix.mul_assoc]
    rw [← Matrix.mul_assoc T T⁻¹, mul_nonsing_inv _ hT, Matrix.one_mul]
  rw [this]
  generalize B * T = Z at hG
  rw [← Matrix.mul_assoc Zᴴ, ← Matrix.mul_assoc, nonsing_inv_mul _ hG, Matrix.one_mul]

/-- Total least squares on `Es1 = B T`, `Es2 = B D T`: the blocks of any eigendecomposition. -/
theorem tls_blocks {n : ℕ} {B : Matrix (Fin n) (Fin k) ℂ}
    (hB : Function.Injective B.mulVec) {T D : Matrix (Fin k) (Fin k) ℂ} (hT : IsUnit T.det)
    {w : Fin (k + k) → ℝ} {E : Matrix (Fin (k + k)) (Fin (k + k)) ℂ}
    (hE : IsEigh ((hstack2 (B * T) (B * D * T))ᴴ * hstack2 (B * T) (B * D * T)) w E) :
    IsUnit (Matrix.of fun i j : Fin k => E (Fin.natAdd k i) (Fin.natAdd k j).rev).det ∧
    (Matrix.of fun i j : Fin k => E (Fin.castAdd k i) (Fin.natAdd k j).rev) =
      -(T⁻¹ * D * T) * Matrix.of fun i j : Fin k => E (Fin.natAdd k i) (Fin.natAdd k j).rev := by
  set G : Matrix (Fin k) (Fin (k + k)) ℂ := hstack2 T (D * T) with hG
  have hC : hstack2 (B * T) (B * D * T) = B * G := by
    ext i j
    refine Fin.addCases (fun j => ?_) (fun j => ?_) j
    · simp [hstack2, hG, Matrix.mul_apply]
    · simp only [hstack2, hG, Matrix.mul_assoc, Fin.addCases_right, Matrix.mul_apply]
  have hcov : (hstack2 (B * T) (B * D * T))ᴴ * hstack2 (B * T) (B * D * T) =
      covModel Gᴴ (Bᴴ * B) 0 := by
    rw [hC, covModel, conjTranspose_mul, conjTranspose_conjTranspose]
    simp [Matrix.mul_assoc]
  have hGinj : Function.Injective Gᴴ.mulVec := by
    intro x y hxy
    have h1 : Tᴴ *ᵥ x = Tᴴ *ᵥ y := by
      funext j
      have := congrFun hxy (Fin.castAdd k j)
      simpa [mulVec, dotProduct, hG, hstack2, conjTranspose_apply] using this
    have hT' : IsUnit Tᴴ.det := by rw [det_conjTranspose]; exact hT.star
    have h2 := congrArg (fun v => Tᴴ⁻¹ *ᵥ v) h1
    simpa [mulVec_mulVec, nonsing_inv_mul _ hT'] using h2
  have hP : (Bᴴ * B).PosDef := PosDef.conjTranspose_mul_self B hB
  rw [hcov] at hE
  set V12 : Matrix (Fin k) (Fin k) ℂ := Matrix.of fun i j => E (Fin.castAdd k i) (Fin.natAdd k j).rev with hV12
  set V22 : Matrix (Fin k) (Fin k) ℂ := Matrix.of fun i j => E (Fin.natAdd k i) (Fin.natAdd k j).rev with hV22
  have hnull : T * V12 + D * T * V22 = 0 := by
    ext i j
    have h1 := (hE.noise hGinj hP (Fin.natAdd k j).rev (by
      simp only [Fin.val_rev, Fin.val_natAdd]; omega)).2
    rw [conjTranspose_conjTranspose] at h1
    have h2 := congrFun h1 i
    rw [mulVec, dotProduct, Fin.sum_univ_add] at h2
    rw [Matrix.add_apply, Matrix.mul_apply, Matrix.mul_apply (M := D * T)]
    refine Eq.trans ?_ h2
    congr 1
    · refine Finset.sum_congr rfl fun l _ => ?_
      rw [hG, hstack2, Fin.addCases_left]; rfl
    · refine Finset.sum_congr rfl fun l _ => ?_
      rw [hG, hstack2, Fin.addCases_right]; rfl
  have hV : V12 = -(T⁻¹ * D * T) * V22 := by
    have h1 : T * V12 = -(D * T * V22) := eq_neg_of_add_eq_zero_left hnull
    have h2 := congrArg (fun M => T⁻¹ * M) h1
    simp only [← Matrix.mul_assoc, nonsing_inv_mul _ hT, Matrix.one_mul] at h2
    rw [h2]
    simp [Matrix.mul_assoc]
  have hV22u : IsUnit V22.det := by
    rw [← isUnit_iff_isUnit_det, ← mulVec_injective_iff_isUnit]
    intro x y hxy
    have h0 : V22 *ᵥ (x - y) = 0 := by rw [mulVec_sub]; exact sub_eq_zero.2 hxy
    have h0' : V12 *ᵥ (x - y) = 0 := by rw [hV, ← mulVec_mulVec, h0, mulVec_zero]
    -- the columns of `N` are orthonormal
    have horth : ∀ a b : Fin k, (∑ i, star (V12 i a) * V12 i b) + ∑ i, star (V22 i a) * V22 i b =
        if a = b then 1 else 0 := by
      intro a b
      have h3 := congrFun (congrFun hE.orth (Fin.natAdd k a).rev) (Fin.natAdd k b).rev
      rw [Matrix.mul_apply, Fin.sum_univ_add] at h3
      rw [one_apply] at h3
      simp only [Fin.rev_inj, Fin.natAdd_inj] at h3
      exact h3
    have hone : V12ᴴ * V12 + V22ᴴ * V22 = 1 := by
      ext a b
      rw [one_apply, ← horth a b]
      simp [Matrix.mul_apply, conjTranspose_apply]
    have h4 : (V12ᴴ * V12 + V22ᴴ * V22) *ᵥ (x - y) = 0 := by
      rw [add_mulVec, ← mulVec_mulVec, ← mulVec_mulVec, h0, h0', mulVec_zero, mulVec_zero, add_zero]
    rw [hone, one_mulVec] at h4
    exact sub_eq_zero.1 h4
  exact ⟨hV22u, hV⟩

/-- Total least squares on `Es1 = B T`, `Es2 = B D T`. -/
theorem phiTLS_exact (eigh : Eigh) {n : ℕ} {B : Matrix (Fin n) (Fin k) ℂ}
    (hB : Function.Injective B.mulVec) {T D : Matrix (Fin k) (Fin k) ℂ} (hT : IsUnit T.det) :
    phiTLS eigh (B * T) (B * D * T) = .ok (T⁻¹ * D * T) := by
  obtain ⟨hV22u, hV⟩ := tls_blocks hB hT (D := D) (eigh.spec _ (isHermitian_conjTranspose_mul_self _))
  unfold phiTLS
  simp only
  set E := (eigh.run ((hstack2 (B * T) (B * D * T))ᴴ * hstack2 (B * T) (B * D * T))).2
  change (match npSolve (Matrix.of fun i j : Fin k => E (Fin.natAdd k i) (Fin.natAdd k j).rev)ᵀ
    (Matrix.of fun i j : Fin k => E (Fin.castAdd k i) (Fin.natAdd k j).rev)ᵀ with
    | .error e => Except.error e
    | .ok X => Except.ok (-Xᵀ)) = _
  unfold npSolve
  rw [if_pos (by rw [det_transpose]; exact hV22u)]
  simp only
  congr 1
  rw [transpose_mul, transpose_transpose, transpose_nonsing_inv, transpose_transpose, hV,
    Matrix.mul_assoc, mul_nonsing_inv _ hV22u, Matrix.mul_one, neg_neg]

/-- Two tuples with the same values (with multiplicity) differ by a permutation. -/
theorem exists_perm_of_map_eq {n : ℕ} {α : Type _} {f g : Fin n → α}
    (h : Multiset.map f Finset.univ.val = Multiset.map g Finset.univ.val) :
    ∃ π : Equiv.Perm (Fin n), ∀ i, f i = g (π i) := by
  classical
  have hc : ∀ a, Nonempty ({i // f i = a} ≃ {i // g i = a}) := by
    intro a
    rw [← Fintype.card_eq, Fintype.card_subtype, Fintype.card_subtype]
    have h1 := congrArg (Multiset.count a) h
    rw [Multiset.count_map, Multiset.count_map] at h1
    have h2 : ∀ φ : Fin n → α, (Finset.univ.filter fun i => φ i = a).card =
        Multiset.card (Multiset.filter (fun b => a = φ b) Finset.univ.val) := by
      intro φ
      rw [Finset.card_def, Finset.filter_val]
      congr 1
      refine Multiset.filter_congr fun b _ => ⟨fun h => h.symm, fun h => h.symm⟩
    rw [h2, h2, h1]
  let e : ∀ a, {i // f i = a} ≃ {i // g i = a} := fun a => (hc a).some
  refine ⟨((Equiv.sigmaFiberEquiv f).symm.trans (Equiv.sigmaCongrRight e)).trans
    (Equiv.sigmaFiberEquiv g), fun i => ?_⟩
  exact ((e (f i)) ⟨i, rfl⟩).2.symm

/-- Eigenvalues of a matrix similar to a diagonal one. -/
theorem eigvals_similar (ev : NpEigvals) {T : Matrix (Fin k) (Fin k) ℂ} (hT : IsUnit T.det)
    (q : Fin k → ℂ) :
    ∃ π : Equiv.Perm (Fin k), ∀ i, ev.run (T⁻¹ * diagonal q * T) i = q (π i) := by
  have h1 : (T⁻¹ * diagonal q * T).charpoly = (diagonal q).charpoly := by
    obtain ⟨U, hU⟩ := (isUnit_iff_isUnit_det T).2 hT
    have := charpoly_units_conj' U (diagonal q)
    rw [hU] at this
    rw [← this, ← hU]
  have h2 := ev.spec (T⁻¹ * diagonal q * T)
  refine exists_perm_of_map_eq (h2.trans ?_)
  rw [h1, charpoly_diagonal]
  have h3 := Polynomial.roots_multiset_prod_X_sub_C (Multiset.map q Finset.univ.val)
  rw [Multiset.map_map] at h3
  exact h3

end Doa
