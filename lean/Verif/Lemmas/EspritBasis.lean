import Verif.Lemmas.Esprit
import Verif.Lemmas.EigenGap

/-!
# ESPRIT does not depend on the basis of the signal subspace
-/

namespace Doa

open Matrix

variable {m k : ℕ}

theorem applyWeights_mul (B : Matrix (Fin m) (Fin k) ℂ) (Q : Matrix (Fin k) (Fin k) ℂ) (d : ℕ) (w : Option (List ℝ)) :
    applyWeights (B * Q) d w = applyWeights B d w * Q := by
  have hs : ∀ (M : Matrix (Fin m) (Fin k) ℂ) (s : ℕ) (w : List ℝ), scaleRows (M * Q) s w = scaleRows M s w * Q := by
    intro M s w
    ext r c
    rw [scaleRows_apply, mul_apply, mul_apply, Finset.sum_mul]
    exact Finset.sum_congr rfl fun j _ => by rw [scaleRows_apply]; ring
  cases w with
  | none => rfl
  | some w => unfold applyWeights; simp only [hs]

theorem es1View_mul (B : Matrix (Fin m) (Fin k) ℂ) (Q : Matrix (Fin k) (Fin k) ℂ) (d : ℕ) : es1View (B * Q) d = es1View B d * Q := rfl
theorem es2View_mul (B : Matrix (Fin m) (Fin k) ℂ) (Q : Matrix (Fin k) (Fin k) ℂ) (d : ℕ) : es2View (B * Q) d = es2View B d * Q := rfl

/-- The outcomes are the same exception or similar matrices. -/
def SimilarRes (Q : Matrix (Fin k) (Fin k) ℂ) (p p' : Res (Matrix (Fin k) (Fin k) ℂ)) : Prop :=
  (∃ e, p = .error e ∧ p' = .error e) ∨ ∃ M M', p = .ok M ∧ p' = .ok M' ∧ M' = Qᴴ * M * Q

theorem unit_of_unitary {Q : Matrix (Fin k) (Fin k) ℂ} (hQ : Qᴴ * Q = 1) : IsUnit Q.det := by
  rw [← isUnit_iff_isUnit_det]
  exact IsUnit.of_mul_eq_one_right _ hQ

theorem phiLS_basis {n : ℕ} (a b : Matrix (Fin n) (Fin k) ℂ) {Q : Matrix (Fin k) (Fin k) ℂ} (hQ : Qᴴ * Q = 1) :
    SimilarRes Q (phiLS a b) (phiLS (a * Q) (b * Q)) := by
  have hQ' : Q * Qᴴ = 1 := mul_eq_one_comm.1 hQ
  have e1 : (a * Q)ᴴ * (a * Q) = Qᴴ * (aᴴ * a) * Q := by rw [conjTranspose_mul]; simp only [Matrix.mul_assoc]
  have e2 : (a * Q)ᴴ * (b * Q) = Qᴴ * (aᴴ * b) * Q := by rw [conjTranspose_mul]; simp only [Matrix.mul_assoc]
  have hu := unit_of_unitary hQ
  have hu' : IsUnit (Qᴴ).det := by rw [det_conjTranspose]; exact hu.star
  unfold phiLS npSolve
  rw [e1, e2]
  by_cases h : IsUnit (aᴴ * a).det
  · have h' : IsUnit (Qᴴ * (aᴴ * a) * Q).det := by rw [det_mul, det_mul]; exact (hu'.mul h).mul hu
    rw [if_pos h, if_pos h']
    refine Or.inr ⟨_, _, rfl, rfl, ?_⟩
    rw [Matrix.mul_inv_rev, Matrix.mul_inv_rev, inv_eq_left_inv hQ, inv_eq_left_inv hQ']
    calc Qᴴ * ((aᴴ * a)⁻¹ * Q) * (Qᴴ * (aᴴ * b) * Q) = Qᴴ * (aᴴ * a)⁻¹ * (Q * Qᴴ) * (aᴴ * b) * Q := by
          simp only [Matrix.mul_assoc]
      _ = _ := by rw [hQ', Matrix.mul_one]; simp only [Matrix.mul_assoc]
  · have h' : ¬ IsUnit (Qᴴ * (aᴴ * a) * Q).det := by
      rw [det_mul, det_mul]
      intro h'
      exact h (isUnit_of_mul_isUnit_right (isUnit_of_mul_isUnit_left h'))
    rw [if_neg h, if_neg h']
    exact Or.inl ⟨_, rfl, rfl⟩

/-- The block diagonal matrix acting on both halves. -/
def twice (Q : Matrix (Fin k) (Fin k) ℂ) : Matrix (Fin (k + k)) (Fin (k + k)) ℂ :=
  (fromBlocks Q 0 0 Q).submatrix finSumFinEquiv.symm finSumFinEquiv.symm

theorem twice_conjTranspose (Q : Matrix (Fin k) (Fin k) ℂ) : (twice Q)ᴴ = twice Qᴴ := by
  unfold twice
  rw [conjTranspose_submatrix, fromBlocks_conjTranspose, conjTranspose_zero]

theorem twice_mul (Q Q' : Matrix (Fin k) (Fin k) ℂ) : twice Q * twice Q' = twice (Q * Q') := by
  unfold twice
  rw [submatrix_mul_equiv, fromBlocks_multiply]
  simp

theorem twice_one : twice (1 : Matrix (Fin k) (Fin k) ℂ) = 1 := by
  unfold twice
  rw [fromBlocks_one, submatrix_one_equiv]

theorem twice_apply (Q : Matrix (Fin k) (Fin k) ℂ) (i j : Fin k) :
    twice Q (Fin.castAdd k i) (Fin.castAdd k j) = Q i j ∧ twice Q (Fin.castAdd k i) (Fin.natAdd k j) = 0 ∧
    twice Q (Fin.natAdd k i) (Fin.castAdd k j) = 0 ∧ twice Q (Fin.natAdd k i) (Fin.natAdd k j) = Q i j := by
  unfold twice
  refine ⟨?_, ?_, ?_, ?_⟩ <;>
    rw [submatrix_apply] <;>
    simp only [finSumFinEquiv_symm_apply_castAdd, finSumFinEquiv_symm_apply_natAdd, fromBlocks_apply₁₁, fromBlocks_apply₁₂,
      fromBlocks_apply₂₁, fromBlocks_apply₂₂, Matrix.zero_apply]

theorem hstack2_apply {n : ℕ} (a b : Matrix (Fin n) (Fin k) ℂ) (i : Fin n) (j : Fin k) :
    hstack2 a b i (Fin.castAdd k j) = a i j ∧ hstack2 a b i (Fin.natAdd k j) = b i j := by
  unfold hstack2
  rw [Fin.addCases_left, Fin.addCases_right]
  exact ⟨rfl, rfl⟩

theorem hstack2_mul {n : ℕ} (a b : Matrix (Fin n) (Fin k) ℂ) (Q : Matrix (Fin k) (Fin k) ℂ) :
    hstack2 (a * Q) (b * Q) = hstack2 a b * twice Q := by
  ext i j
  rw [mul_apply, Fin.sum_univ_add]
  refine Fin.addCases (fun j => ?_) (fun j => ?_) j
  · simp only [(hstack2_apply _ _ _ _).1, (hstack2_apply _ _ _ _).2, (twice_apply Q _ _).1, (twice_apply Q _ _).2.2.1, mul_zero,
      Finset.sum_const_zero, add_zero]
    rfl
  · simp only [(hstack2_apply _ _ _ _).1, (hstack2_apply _ _ _ _).2, (twice_apply Q _ _).2.1, (twice_apply Q _ _).2.2.2, mul_zero,
      Finset.sum_const_zero, zero_add]
    rfl

theorem twice_castAdd (Q : Matrix (Fin k) (Fin k) ℂ) (M : Matrix (Fin (k + k)) (Fin k) ℂ) (i j : Fin k) :
    (twice Q * M) (Fin.castAdd k i) j = (Q * Matrix.of fun a b => M (Fin.castAdd k a) b) i j ∧
    (twice Q * M) (Fin.natAdd k i) j = (Q * Matrix.of fun a b => M (Fin.natAdd k a) b) i j := by
  constructor
  · rw [mul_apply, Fin.sum_univ_add]
    simp only [(twice_apply Q _ _).1, (twice_apply Q _ _).2.1, zero_mul, Finset.sum_const_zero, add_zero]
    rfl
  · rw [mul_apply, Fin.sum_univ_add]
    simp only [(twice_apply Q _ _).2.2.1, (twice_apply Q _ _).2.2.2, zero_mul, Finset.sum_const_zero, zero_add]
    rfl

/-- The low eigenvectors in the order in which the code reads them. -/
def lowRev (k : ℕ) (j : Fin k) : Fin (k + k) := (Fin.natAdd k j).rev

theorem lowRev_val (j : Fin k) : (lowRev k j).1 = k - 1 - j.1 := by
  unfold lowRev
  rw [Fin.val_rev, Fin.val_natAdd]
  omega

theorem phiTLS_basis (eigh eigh' : Eigh) {n : ℕ} (a b : Matrix (Fin n) (Fin k) ℂ) {Q : Matrix (Fin k) (Fin k) ℂ} (hQ : Qᴴ * Q = 1)
    (hg : HasGap ((hstack2 a b)ᴴ * hstack2 a b) k) :
    SimilarRes Q (phiTLS eigh a b) (phiTLS eigh' (a * Q) (b * Q)) := by
  have hQ' : Q * Qᴴ = 1 := mul_eq_one_comm.1 hQ
  set G := (hstack2 a b)ᴴ * hstack2 a b with hG
  have hGh : G.IsHermitian := isHermitian_conjTranspose_mul_self _
  set G' := (hstack2 (a * Q) (b * Q))ᴴ * hstack2 (a * Q) (b * Q) with hG'
  have hGh' : G'.IsHermitian := isHermitian_conjTranspose_mul_self _
  have hGG : G' = twice Qᴴ * G * twice Q := by
    rw [hG', hstack2_mul, conjTranspose_mul, twice_conjTranspose, hG]
    simp only [Matrix.mul_assoc]
  have hs := eigh.spec G hGh
  have hs' := eigh'.spec G' hGh'
  have ht : IsEigh G' (eigh.run G).1 (twice Qᴴ * (eigh.run G).2) := by
    refine ⟨hs.mono, ?_, ?_⟩
    · rw [conjTranspose_mul, twice_conjTranspose, conjTranspose_conjTranspose]
      calc (eigh.run G).2ᴴ * twice Q * (twice Qᴴ * (eigh.run G).2) = (eigh.run G).2ᴴ * (twice Q * twice Qᴴ) * (eigh.run G).2 := by
            simp only [Matrix.mul_assoc]
        _ = 1 := by rw [twice_mul, hQ', twice_one, Matrix.mul_one, hs.orth]
    · rw [hGG]
      calc twice Qᴴ * G * twice Q * (twice Qᴴ * (eigh.run G).2) = twice Qᴴ * G * (twice Q * twice Qᴴ) * (eigh.run G).2 := by
            simp only [Matrix.mul_assoc]
        _ = twice Qᴴ * (G * (eigh.run G).2) := by rw [twice_mul, hQ', twice_one, Matrix.mul_one, Matrix.mul_assoc]
        _ = _ := by rw [hs.eig, Matrix.mul_assoc]
  obtain ⟨T, hT, hcols⟩ := ht.cols_unitary hGh' hs' (q := k) (hg.of hs) (f := lowRev k)
    (fun i j hij => by
      have := congrArg Fin.val hij
      rw [lowRev_val, lowRev_val] at this
      ext; omega)
    (Or.inl fun i => ⟨fun ⟨j, hj⟩ => by rw [← hj, lowRev_val]; omega, fun hi => ⟨⟨k - 1 - i.1, by omega⟩, by
      ext; rw [lowRev_val]; simp only; omega⟩⟩)
  set L : Matrix (Fin (k + k)) (Fin k) ℂ := (eigh.run G).2.submatrix id (lowRev k) with hL
  set L' : Matrix (Fin (k + k)) (Fin k) ℂ := (eigh'.run G').2.submatrix id (lowRev k) with hL'
  have hLL : L' = twice Qᴴ * (L * T) := by
    rw [hcols, ← Matrix.mul_assoc]
    congr 1
  set V12 : Matrix (Fin k) (Fin k) ℂ := Matrix.of fun i j => L (Fin.castAdd k i) j with h12
  set V22 : Matrix (Fin k) (Fin k) ℂ := Matrix.of fun i j => L (Fin.natAdd k i) j with h22
  set V12' : Matrix (Fin k) (Fin k) ℂ := Matrix.of fun i j => L' (Fin.castAdd k i) j with h12'
  set V22' : Matrix (Fin k) (Fin k) ℂ := Matrix.of fun i j => L' (Fin.natAdd k i) j with h22'
  have e12 : V12' = Qᴴ * V12 * T := by
    ext i j
    rw [h12', Matrix.of_apply, hLL, (twice_castAdd _ _ i j).1, Matrix.mul_assoc]
    rfl
  have e22 : V22' = Qᴴ * V22 * T := by
    ext i j
    rw [h22', Matrix.of_apply, hLL, (twice_castAdd _ _ i j).2, Matrix.mul_assoc]
    rfl
  have hphi : phiTLS eigh a b = match npSolve V22ᵀ V12ᵀ with
    | .error e => .error e
    | .ok X => .ok (-Xᵀ) := rfl
  have hphi' : phiTLS eigh' (a * Q) (b * Q) = match npSolve V22'ᵀ V12'ᵀ with
    | .error e => .error e
    | .ok X => .ok (-Xᵀ) := rfl
  rw [hphi, hphi']
  have hu := unit_of_unitary hQ
  have hu' : IsUnit (Qᴴ).det := by rw [det_conjTranspose]; exact hu.star
  have huT := unit_of_unitary hT
  unfold npSolve
  rw [det_transpose, det_transpose]
  by_cases h : IsUnit V22.det
  · have h' : IsUnit V22'.det := by rw [e22, det_mul, det_mul]; exact (hu'.mul h).mul huT
    rw [if_pos h, if_pos h']
    refine Or.inr ⟨_, _, rfl, rfl, ?_⟩
    rw [← transpose_nonsing_inv, ← transpose_mul, transpose_transpose, ← transpose_nonsing_inv, ← transpose_mul, transpose_transpose,
      e12, e22, Matrix.mul_inv_rev, Matrix.mul_inv_rev, inv_eq_left_inv hQ', Matrix.mul_neg, Matrix.neg_mul]
    congr 1
    have hTi : T * T⁻¹ = 1 := mul_nonsing_inv _ huT
    calc Qᴴ * V12 * T * (T⁻¹ * (V22⁻¹ * Q)) = Qᴴ * V12 * (T * T⁻¹) * V22⁻¹ * Q := by simp only [Matrix.mul_assoc]
      _ = _ := by rw [hTi, Matrix.mul_one]; simp only [Matrix.mul_assoc]
  · have h' : ¬ IsUnit V22'.det := by
      rw [e22, det_mul, det_mul]
      intro h'
      exact h (isUnit_of_mul_isUnit_right (isUnit_of_mul_isUnit_left h'))
    rw [if_neg h, if_neg h']
    exact Or.inl ⟨_, rfl, rfl⟩

/-- `from_z` sorts, so it only sees which roots there are. -/
theorem fromZ_multiset {z z' : Fin k → ℂ} (h : Multiset.map z Finset.univ.val = Multiset.map z' Finset.univ.val) (wl d : ℝ) (u : String) :
    FF1D.fromZ z wl d u = FF1D.fromZ z' wl d u := by
  have hsort : ∀ f : ℂ → ℝ, sortVec (fun i => f (z i)) = sortVec fun i => f (z' i) := by
    intro f
    refine monotone_unique (Tuple.monotone_sort _) (Tuple.monotone_sort _) ?_
    have hp : ∀ x : Fin k → ℝ, Multiset.map (sortVec x) Finset.univ.val = Multiset.map x Finset.univ.val := by
      intro x
      have := congrArg Finset.val (Finset.map_univ_equiv (Tuple.sort x))
      rw [Finset.map_val] at this
      conv_rhs => rw [← this, Multiset.map_map]
      rfl
    rw [hp, hp]
    have := congrArg (Multiset.map f) h
    rwa [Multiset.map_map, Multiset.map_map] at this
  have hex : (∃ i, 1 < |Complex.arg (z i) / (2 * Real.pi * d / wl)|) ↔ ∃ i, 1 < |Complex.arg (z' i) / (2 * Real.pi * d / wl)| := by
    have hm : ∀ z : Fin k → ℂ, (∃ i, 1 < |Complex.arg (z i) / (2 * Real.pi * d / wl)|) ↔
        ∃ w ∈ Multiset.map z Finset.univ.val, 1 < |Complex.arg w / (2 * Real.pi * d / wl)| := by
      intro z; simp
    rw [hm z, hm z', h]
  unfold FF1D.fromZ
  simp only [hex]
  simp only [hsort fun z => Complex.arg z / (2 * Real.pi * d / wl), hsort fun z => Real.arcsin (Complex.arg z / (2 * Real.pi * d / wl))]

theorem eigvals_similar' (ev ev' : NpEigvals) {M M' Q : Matrix (Fin k) (Fin k) ℂ} (hQ : Qᴴ * Q = 1) (h : M' = Qᴴ * M * Q) :
    Multiset.map (ev.run M) Finset.univ.val = Multiset.map (ev'.run M') Finset.univ.val := by
  rw [ev.spec, ev'.spec]
  have hQ' : Q * Qᴴ = 1 := mul_eq_one_comm.1 hQ
  have : M'.charpoly = M.charpoly := by
    rw [h, Matrix.mul_assoc]
    refine (charpoly_mul_comm _ _).trans ?_
    rw [Matrix.mul_assoc, hQ', Matrix.mul_one]
  rw [this]

end Doa
