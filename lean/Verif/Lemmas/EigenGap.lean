import Mathlib.LinearAlgebra.Matrix.Charpoly.Basic
import Verif.Lemmas.Subspace

/-!
# Uniqueness of eigenvalues and of the projection onto the eigenvectors below a gap
-/

namespace Doa

open Matrix

variable {m : ℕ}

/-- A monotone finite sequence is determined by the multiset of its values. -/
theorem monotone_unique {w w' : Fin m → ℝ} (h : Monotone w) (h' : Monotone w')
    (he : Multiset.map w Finset.univ.val = Multiset.map w' Finset.univ.val) : w = w' := by
  have hp : (List.ofFn w).Perm (List.ofFn w') := by
    rw [← Multiset.coe_eq_coe]
    have : ∀ v : Fin m → ℝ, Multiset.map v Finset.univ.val = (List.ofFn v : Multiset ℝ) := by
      intro v
      rw [List.ofFn_eq_map, ← Multiset.map_coe]
      rfl
    rw [← this, ← this, he]
  have hs : ∀ v : Fin m → ℝ, Monotone v → (List.ofFn v).Pairwise (· ≤ ·) := by
    intro v hv
    rw [List.pairwise_ofFn]
    exact fun i j hij => hv hij.le
  exact List.ofFn_injective (hp.eq_of_pairwise (fun a b _ _ => le_antisymm) (hs w h) (hs w' h'))

theorem IsEigh.charpoly_roots {R E : Matrix (Fin m) (Fin m) ℂ} {w : Fin m → ℝ} (h : IsEigh R w E) :
    R.charpoly.roots = Multiset.map (fun i => (w i : ℂ)) Finset.univ.val := by
  have hR : R = E * (diagonal (fun j => (w j : ℂ)) * Eᴴ) := by
    rw [← Matrix.mul_assoc, ← h.eig, Matrix.mul_assoc, h.orth', Matrix.mul_one]
  have hc : (E * (diagonal (fun j => (w j : ℂ)) * Eᴴ)).charpoly = (diagonal fun j => (w j : ℂ)).charpoly :=
    (charpoly_mul_comm _ _).trans (by rw [Matrix.mul_assoc, h.orth, Matrix.mul_one])
  have hd : R.charpoly = ∏ i, (Polynomial.X - Polynomial.C (w i : ℂ)) :=
    (congrArg charpoly hR).trans (hc.trans (charpoly_diagonal _))
  rw [hd]
  have := Polynomial.roots_multiset_prod_X_sub_C (Multiset.map (fun i => (w i : ℂ)) Finset.univ.val)
  rw [Multiset.map_map] at this
  exact this

/-- The eigenvalues returned by `eigh` are determined by the matrix. -/
theorem IsEigh.eigenvalues_unique {R E E' : Matrix (Fin m) (Fin m) ℂ} {w w' : Fin m → ℝ} (h : IsEigh R w E)
    (h' : IsEigh R w' E') : w = w' := by
  refine monotone_unique h.mono h'.mono ?_
  have := h.charpoly_roots.symm.trans h'.charpoly_roots
  have h2 := congrArg (Multiset.map Complex.re) this
  rw [Multiset.map_map, Multiset.map_map] at h2
  exact h2

/-- An eigendecomposition of `c R + s 1` from one of `R`. -/
theorem IsEigh.affine {R E : Matrix (Fin m) (Fin m) ℂ} {w : Fin m → ℝ} (h : IsEigh R w E) {c : ℝ} (hc : 0 < c) (s : ℝ) :
    IsEigh ((c : ℂ) • R + (s : ℂ) • (1 : Matrix (Fin m) (Fin m) ℂ)) (fun i => c * w i + s) E := by
  refine ⟨fun i j hij => by have := mul_le_mul_of_nonneg_left (h.mono hij) hc.le; show c * w i + s ≤ c * w j + s; linarith, h.orth, ?_⟩
  rw [Matrix.add_mul, smul_mul, h.eig, smul_mul, Matrix.one_mul]
  ext i j
  rw [Matrix.add_apply, Matrix.smul_apply, mul_diagonal, Matrix.smul_apply, mul_diagonal]
  simp only [smul_eq_mul]
  push_cast
  ring

/-- The projection onto the span of the first `q` eigenvectors. -/
noncomputable def lowProj (E : Matrix (Fin m) (Fin m) ℂ) (q : ℕ) : Matrix (Fin m) (Fin m) ℂ :=
  E * diagonal (fun i : Fin m => if i.1 < q then (1 : ℂ) else 0) * Eᴴ

/-- `F = Eᴴ E'` is block diagonal at the gap. -/
theorem IsEigh.block {R E E' : Matrix (Fin m) (Fin m) ℂ} {w w' : Fin m → ℝ} (hR : R.IsHermitian) (h : IsEigh R w E)
    (h' : IsEigh R w' E') {q : ℕ} (hgap : ∀ i j : Fin m, i.1 < q → q ≤ j.1 → w i < w j) {i j : Fin m}
    (hij : (i.1 < q) ≠ (j.1 < q)) : (Eᴴ * E') i j = 0 := by
  have hw := h.eigenvalues_unique h'
  subst hw
  have e1 : Eᴴ * R * E' = diagonal (fun j => (w j : ℂ)) * (Eᴴ * E') := by
    have : Eᴴ * R = diagonal (fun j => (w j : ℂ)) * Eᴴ := by
      have := congrArg conjTranspose h.eig
      rw [conjTranspose_mul, hR.eq, conjTranspose_mul, diagonal_conjTranspose] at this
      rw [this]
      congr 2
      funext j
      simp
    rw [this, Matrix.mul_assoc]
  have e2 : Eᴴ * R * E' = Eᴴ * E' * diagonal (fun j => (w j : ℂ)) := by
    rw [Matrix.mul_assoc, h'.eig, Matrix.mul_assoc]
  have e := congrFun (congrFun (e1.symm.trans e2) i) j
  rw [diagonal_mul, mul_diagonal] at e
  have hne : (w i : ℂ) ≠ (w j : ℂ) := by
    intro h0
    have h0 : w i = w j := by exact_mod_cast h0
    by_cases hi : i.1 < q
    · have hj : ¬ j.1 < q := fun hj => hij (by simp [hi, hj])
      exact absurd h0 (hgap i j hi (by omega)).ne
    · have hj : j.1 < q := by by_contra hj; exact hij (by simp [hi, hj])
      exact absurd h0 (hgap j i hj (by omega)).ne'
  have : ((w i : ℂ) - (w j : ℂ)) * (Eᴴ * E') i j = 0 := by rw [sub_mul, e]; ring
  exact (mul_eq_zero.1 this).resolve_left (sub_ne_zero.2 hne)

/-- The projection below a gap is determined by the matrix. -/
theorem IsEigh.lowProj_unique {R E E' : Matrix (Fin m) (Fin m) ℂ} {w w' : Fin m → ℝ} (hR : R.IsHermitian) (h : IsEigh R w E)
    (h' : IsEigh R w' E') {q : ℕ} (hgap : ∀ i j : Fin m, i.1 < q → q ≤ j.1 → w i < w j) : lowProj E q = lowProj E' q := by
  set D : Matrix (Fin m) (Fin m) ℂ := diagonal (fun i : Fin m => if i.1 < q then (1 : ℂ) else 0) with hD
  have hcomm : D * (Eᴴ * E') = Eᴴ * E' * D := by
    ext i j
    rw [hD, diagonal_mul, mul_diagonal]
    by_cases hij : (i.1 < q) = (j.1 < q)
    · simp only [hij]; ring
    · rw [h.block hR h' hgap hij]; ring
  have hE' : E' = E * (Eᴴ * E') := by rw [← Matrix.mul_assoc, h.orth', Matrix.one_mul]
  unfold lowProj
  rw [← hD]
  calc E * D * Eᴴ = E * (D * (Eᴴ * E')) * E'ᴴ := by
        simp only [Matrix.mul_assoc, h'.orth', Matrix.mul_one]
    _ = E' * D * E'ᴴ := by
        rw [hcomm]; simp only [← Matrix.mul_assoc, h.orth', Matrix.one_mul]

theorem noiseProj_eq (E : Matrix (Fin m) (Fin m) ℂ) (k : ℕ) :
    noiseCols E k * (noiseCols E k)ᴴ = lowProj E (noiseDim m k) := by
  ext a b
  rw [lowProj, mul_apply, mul_apply]
  simp only [mul_diagonal, conjTranspose_apply, noiseCols, mul_ite, mul_one, mul_zero, ite_mul, zero_mul]
  rw [← Finset.sum_filter]
  refine Finset.sum_bij (fun j _ => Fin.castLE (noiseDim_le m k) j) (fun j _ => by simp) (fun j _ j' _ hj => by simpa using hj)
    (fun j hj => ⟨⟨j.1, by simpa using hj⟩, Finset.mem_univ _, rfl⟩) (fun j _ => rfl)

/-- Some eigendecomposition of the matrix has a gap below the `q`-th eigenvalue (counting from 0). All of
them then do, because eigenvalues are unique. -/
def HasGap (R : Matrix (Fin m) (Fin m) ℂ) (q : ℕ) : Prop :=
  ∃ w E, IsEigh R w E ∧ ∀ i j : Fin m, i.1 < q → q ≤ j.1 → w i < w j

theorem HasGap.of {R E : Matrix (Fin m) (Fin m) ℂ} {w : Fin m → ℝ} {q : ℕ} (hg : HasGap R q) (h : IsEigh R w E) :
    ∀ i j : Fin m, i.1 < q → q ≤ j.1 → w i < w j := by
  obtain ⟨w', E', h', hg⟩ := hg
  rw [h.eigenvalues_unique h']
  exact hg

theorem isHermitian_affine {R : Matrix (Fin m) (Fin m) ℂ} (hR : R.IsHermitian) (c s : ℝ) :
    ((c : ℂ) • R + (s : ℂ) • (1 : Matrix (Fin m) (Fin m) ℂ)).IsHermitian := by
  rw [IsHermitian, conjTranspose_add, conjTranspose_smul, conjTranspose_smul, hR.eq, conjTranspose_one]
  simp

/-- The noise projector does not change under `R ↦ c R + s 1`, nor with the eigenvectors chosen. -/
theorem noiseProjector_affine (eigh eigh' : Eigh) {R : Matrix (Fin m) (Fin m) ℂ} (hR : R.IsHermitian) {k : ℕ}
    (hg : HasGap R (m - k)) {c : ℝ} (hc : 0 < c) (s : ℝ) :
    getNoiseSubspace eigh' ((c : ℂ) • R + (s : ℂ) • (1 : Matrix (Fin m) (Fin m) ℂ)) k *
      (getNoiseSubspace eigh' ((c : ℂ) • R + (s : ℂ) • (1 : Matrix (Fin m) (Fin m) ℂ)) k)ᴴ =
    getNoiseSubspace eigh R k * (getNoiseSubspace eigh R k)ᴴ := by
  have h1 := eigh.spec R hR
  have h2 := eigh'.spec _ (isHermitian_affine hR c s)
  unfold getNoiseSubspace
  rw [noiseProj_eq, noiseProj_eq]
  have hgap := hg.of h1
  symm
  refine (h1.affine hc s).lowProj_unique (isHermitian_affine hR c s) h2 fun i j hi hj => ?_
  by_cases hk : k = 0
  · simp [noiseDim, hk] at hi
  · rw [noiseDim_eq (by omega)] at hi hj
    have := mul_lt_mul_of_pos_left (hgap i j hi hj) hc
    linarith

/-- Eigenvectors on one side of a gap, in two decompositions, differ by a unitary matrix. -/
theorem IsEigh.cols_unitary {R E E' : Matrix (Fin m) (Fin m) ℂ} {w w' : Fin m → ℝ} (hR : R.IsHermitian) (h : IsEigh R w E)
    (h' : IsEigh R w' E') {q : ℕ} (hgap : ∀ i j : Fin m, i.1 < q → q ≤ j.1 → w i < w j) {n : ℕ} {f : Fin n → Fin m}
    (hf : Function.Injective f) (hr : (∀ i, (∃ j, f j = i) ↔ i.1 < q) ∨ ∀ i, (∃ j, f j = i) ↔ q ≤ i.1) :
    ∃ T : Matrix (Fin n) (Fin n) ℂ, Tᴴ * T = 1 ∧ E'.submatrix id f = E.submatrix id f * T := by
  have hside : ∀ i j, (¬ ∃ l, f l = i) → (i.1 < q) ≠ ((f j).1 < q) := by
    intro i j hi he
    rcases hr with hr | hr
    · exact hi ((hr i).2 (he ▸ (hr (f j)).1 ⟨j, rfl⟩))
    · have h1 := (hr (f j)).1 ⟨j, rfl⟩
      refine hi ((hr i).2 ?_)
      by_contra h2
      have : i.1 < q := by omega
      rw [he] at this
      omega
  have hcol : ∀ M : Matrix (Fin m) (Fin m) ℂ, (M.submatrix id f)ᴴ = Mᴴ.submatrix f id := fun M => rfl
  have hdec : E'.submatrix id f = E.submatrix id f * ((E.submatrix id f)ᴴ * E'.submatrix id f) := by
    have e1 : E'.submatrix id f = E * ((Eᴴ * E').submatrix id f) := by
      have : E' = E * (Eᴴ * E') := by rw [← Matrix.mul_assoc, h.orth', Matrix.one_mul]
      conv_lhs => rw [this]
      rw [submatrix_mul _ _ id id f Function.bijective_id, submatrix_id_id]
    rw [e1]
    ext a b
    have e2 : (E.submatrix id f)ᴴ * (E * (Eᴴ * E').submatrix id f) = (Eᴴ * E').submatrix f f := by
      rw [← e1, hcol, submatrix_mul _ _ f id f Function.bijective_id]
    rw [e2, mul_apply, mul_apply]
    simp only [submatrix_apply, id_eq]
    have := Finset.sum_subset (Finset.subset_univ (Finset.univ.image f)) (f := fun i => E a i * (Eᴴ * E') i (f b)) fun i _ hi => by
      rw [h.block hR h' hgap (hside i b fun ⟨l, hl⟩ => hi (Finset.mem_image.2 ⟨l, Finset.mem_univ _, hl⟩)), mul_zero]
    rw [← this, Finset.sum_image fun x _ y _ hxy => hf hxy]
  refine ⟨_, ?_, hdec⟩
  have ho : (E'.submatrix id f)ᴴ * E'.submatrix id f = 1 := by
    rw [hcol, ← submatrix_mul _ _ f id f Function.bijective_id, h'.orth, submatrix_one f hf]
  rw [conjTranspose_mul, conjTranspose_conjTranspose, Matrix.mul_assoc, ← hdec, ho]

end Doa
