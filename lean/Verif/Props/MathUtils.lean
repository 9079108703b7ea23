import Verif.Lemmas.MathUtils
import Verif.Model.Arrays

/-!
# C31-C33: `cartesian`, `khatri_rao`, `projm`
-/

namespace Doa.Props

open Doa Matrix

/-- **C31** (Cartesian product). `cartesian(x1, ..., xd)` has `prod(len)` rows. Its rows are in
bijection with the coordinates `(i1, ..., id)` through a rank that increases exactly with the
lexicographic order of the coordinates, and the row with the rank of `(i1, ..., id)` is
`(x1[i1], ..., xd[id])`. -/
theorem C31_cartesian {α : Type _} [Zero α] (axes : List (List α)) (hne : axes ≠ []) :
    ∃ rows, cartesian axes = .ok rows ∧ rows.length = (axes.map List.length).prod ∧
      ∃ rank : List ℕ → ℕ,
        (∀ c d, ValidCoord (axes.map List.length) c → ValidCoord (axes.map List.length) d →
          (rank c < rank d ↔ c < d)) ∧
        (∀ r < rows.length, ∃ c, ValidCoord (axes.map List.length) c ∧ rank c = r) ∧
        ∀ c, ValidCoord (axes.map List.length) c → rank c < rows.length ∧
          ravelMultiIndex (axes.map List.length) c = .ok (rank c) ∧
          ∃ row, rows[rank c]? = some row ∧ row.length = axes.length ∧
            ∀ (j i : ℕ) (x : List α), axes[j]? = some x → c[j]? = some i →
              ∃ v, x[i]? = some v ∧ row[j]? = some v := by
  obtain ⟨rows, hrows⟩ : ∃ rows, cartesian axes = .ok rows := by
    cases axes with
    | nil => exact absurd rfl hne
    | cons a t => exact ⟨_, rfl⟩
  have hlen : rows.length = (axes.map List.length).prod := by
    cases axes with
    | nil => exact absurd rfl hne
    | cons a t =>
      simp only [cartesian, Except.ok.injEq] at hrows
      rw [← hrows]; simp
  refine ⟨rows, hrows, hlen, ravelIdx (axes.map List.length), ?_, ?_, ?_⟩
  · intro c d hc hd; exact ravelIdx_lt_iff hc hd
  · intro r hr
    rw [hlen] at hr
    exact ⟨_, unravel_valid hr, ravel_unravel hr⟩
  · intro c hc
    refine ⟨hlen ▸ ravelIdx_lt hc, ravelMultiIndex_eq hc, _, cartesian_row hrows hc, ?_, ?_⟩
    · have := hc.length_eq
      simp at this
      simp [this]
    · intro j i x hx hi
      have hxi : i < x.length := by
        have h := List.forall₂_iff_get.1 hc
        obtain ⟨hj, rfl⟩ := List.getElem?_eq_some_iff.1 hx
        obtain ⟨hj', rfl⟩ := List.getElem?_eq_some_iff.1 hi
        have := h.2 j (by simpa using hj) hj'
        simpa using this
      refine ⟨x[i], List.getElem?_eq_getElem hxi, ?_⟩
      rw [List.getElem?_zipWith, hx, hi]
      simp [List.getD_eq_getElem?_getD, List.getElem?_eq_getElem hxi]

/-- **C31** (ravel and unravel are inverse): on coordinates inside the shape and on flat indices
below the size; everything else raises `ValueError` when ravelled. -/
theorem C31_ravel_unravel (shape : List ℕ) :
    (∀ c, ValidCoord shape c → ∃ r < shape.prod, ravelMultiIndex shape c = .ok r ∧
      unravelIdx shape r = c) ∧
    (∀ r < shape.prod, ValidCoord shape (unravelIdx shape r) ∧
      ravelMultiIndex shape (unravelIdx shape r) = .ok r) ∧
    (∀ c, ¬ ValidCoord shape c → ravelMultiIndex shape c = .error .valueError) := by
  refine ⟨fun c hc => ⟨_, ravelIdx_lt hc, ravelMultiIndex_eq hc, unravel_ravel hc⟩,
    fun r hr => ⟨unravel_valid hr, ?_⟩, fun c hc => ?_⟩
  · rw [ravelMultiIndex_eq (unravel_valid hr), ravel_unravel hr]
  · cases h : ravelMultiIndex shape c with
    | ok r => exact absurd (ravelMultiIndex_ok_iff.1 ⟨r, h⟩) hc
    | error e =>
      unfold ravelMultiIndex at h
      split at h
      · simp at h
      · rw [← h]

/-- Non-vacuity: a coordinate of a `2 × 3` grid. -/
example : ValidCoord ([[1, 2], [3, 4, 5]].map List.length) [1, 2] ∧
    cartesian [[(1 : ℤ), 2], [3, 4, 5]] =
      .ok [[1, 3], [1, 4], [1, 5], [2, 3], [2, 4], [2, 5]] := by
  constructor
  · exact .cons (by decide) (.cons (by decide) .nil)
  · rfl

/-- The element indices of `UniformRectangularArray` (used in C07) are the rows of
`cartesian(np.arange(m), np.arange(n))`. -/
theorem C31_ura_indices (m n : ℕ) :
    cartesian [(List.range m).map (fun i : ℕ => (i : ℤ)), (List.range n).map (fun i : ℕ => (i : ℤ))] =
      .ok ((uraIndices m n).rows.map fun r => List.ofFn r) := by
  simp only [cartesian, uraIndices, List.map_cons, List.length_map, List.length_range, List.map_nil,
    List.prod_cons, List.prod_nil, mul_one]
  congr 1
  have h1 : (List.range (m * n)).map (fun r => List.zipWith (fun (x : List ℤ) i => x.getD i 0)
      [(List.range m).map (fun i : ℕ => (i : ℤ)), (List.range n).map (fun i : ℕ => (i : ℤ))]
      (unravelIdx [m, n] r)) =
      (List.range (m * n)).map fun r => [((r / n : ℕ) : ℤ), ((r % n : ℕ) : ℤ)] := by
    apply List.map_congr_left
    intro r hr
    rw [List.mem_range] at hr
    have hn : 0 < n := by
      rcases Nat.eq_zero_or_pos n with h0 | h0
      · rw [h0] at hr; omega
      · exact h0
    have h1 : r / n < m := Nat.div_lt_of_lt_mul (by rwa [mul_comm] at hr)
    have h2 : r % n < n := Nat.mod_lt _ hn
    simp [unravelIdx, List.getD_eq_getElem?_getD, h1, h2]
  refine h1.trans ?_
  clear h1
  induction m with
  | zero => simp
  | succ m ih =>
    have hr : List.range ((m + 1) * n) = List.range (m * n) ++ (List.range n).map (m * n + ·) := by
      rw [Nat.succ_mul, List.range_add]
    rw [hr, List.map_append, ih, List.range_succ, List.flatMap_append, List.map_append]
    refine congrArg₂ (· ++ ·) rfl ?_
    simp only [List.flatMap_cons, List.flatMap_nil, List.append_nil, List.map_map]
    apply List.map_congr_left
    intro j hj
    rw [List.mem_range] at hj
    have hn : 0 < n := by omega
    have h1 : (m * n + j) / n = m := by
      rw [mul_comm, Nat.mul_add_div hn, Nat.div_eq_of_lt hj, add_zero]
    have h2 : (m * n + j) % n = j := by
      rw [mul_comm, Nat.mul_add_mod, Nat.mod_eq_of_lt hj]
    simp [Function.comp, h1, h2]

/-- **C32** (Khatri-Rao). `khatri_rao` raises `ValueError` iff the column counts differ. -/
theorem C32_khatri_rao_raises {n1 k1 n2 k2 : ℕ} (a : Matrix (Fin n1) (Fin k1) ℂ)
    (b : Matrix (Fin n2) (Fin k2) ℂ) :
    (khatriRao a b = .error .valueError ↔ k1 ≠ k2) ∧ ((∃ c, khatriRao a b = .ok c) ↔ k1 = k2) := by
  unfold khatriRao
  by_cases h : k1 = k2
  · simp [h]
  · simp [h]

/-- **C32** (columns). Otherwise entry `i * n2 + j` of column `c` is `a[i, c] * b[j, c]`: column `c`
is the Kronecker product of the columns `c`. -/
theorem C32_khatri_rao_columns {n1 n2 k : ℕ} (a : Matrix (Fin n1) (Fin k) ℂ)
    (b : Matrix (Fin n2) (Fin k) ℂ) :
    ∃ C : Matrix (Fin (n1 * n2)) (Fin k) ℂ, khatriRao a b = .ok C ∧
      ∀ (r : Fin (n1 * n2)) (i : Fin n1) (j : Fin n2) (c : Fin k), r.1 = i.1 * n2 + j.1 →
        C r c = a i c * b j c := by
  refine ⟨_, khatriRao_ok a b, fun r i j c hr => ?_⟩
  have : r = finProdFinEquiv (i, j) := by
    apply Fin.ext; rw [finProdFinEquiv_apply_val, hr, mul_comm]; ring
  subst this
  rw [Matrix.of_apply, Equiv.symm_apply_apply]

/-- `vec` stacks the columns: entry `i + j * m` is `x[i, j]`. -/
theorem C32_vec {m n : ℕ} (x : Matrix (Fin m) (Fin n) ℂ) (r : Fin (n * m)) (i : Fin m) (j : Fin n)
    (hr : r.1 = i.1 + j.1 * m) : vec x r = x i j := by
  have : r = finProdFinEquiv (j, i) := by
    apply Fin.ext; rw [finProdFinEquiv_apply_val, hr, mul_comm]
  subst this
  simp [vec]

/-- **C32** (identity). `vec(A diag(p) A^H) = khatri_rao(conj(A), A) p` for all `A` and `p`. -/
theorem C32_vec_identity {m k : ℕ} (A : Matrix (Fin m) (Fin k) ℂ) (p : Fin k → ℂ) :
    ∃ Φ, khatriRao (A.map star) A = .ok Φ ∧ vec (A * diagonal p * Aᴴ) = Φ *ᵥ p := by
  refine ⟨_, khatriRao_ok (A.map star) A, ?_⟩
  funext r
  simp only [vec, Matrix.mulVec, dotProduct, Matrix.of_apply, Matrix.map_apply]
  rw [Matrix.mul_apply]
  apply Finset.sum_congr rfl
  intro c _
  rw [Matrix.mul_diagonal, Matrix.conjTranspose_apply]
  ring

section Proj
variable {𝕜 : Type _} [RCLike 𝕜] {m k : ℕ}
open scoped ComplexOrder

/-- `P` is the orthogonal projection onto the span of the columns of `A`. -/
structure IsProjOnto (P : Matrix (Fin m) (Fin m) 𝕜) (A : Matrix (Fin m) (Fin k) 𝕜) : Prop where
  herm : Pᴴ = P
  idem : P * P = P
  fixes : ∀ x, P *ᵥ (A *ᵥ x) = A *ᵥ x
  kills : ∀ v, (∀ c, star (A.col c) ⬝ᵥ v = 0) → P *ᵥ v = 0

theorem kills_iff (A : Matrix (Fin m) (Fin k) 𝕜) (v : Fin m → 𝕜) :
    (∀ c, star (A.col c) ⬝ᵥ v = 0) ↔ Aᴴ *ᵥ v = 0 := by
  rw [funext_iff]
  apply forall_congr'
  intro c
  simp [Matrix.mulVec, dotProduct, Matrix.conjTranspose_apply]

theorem isProjOnto_of {P : Matrix (Fin m) (Fin m) 𝕜} {A : Matrix (Fin m) (Fin k) 𝕜}
    {X : Matrix (Fin k) (Fin k) 𝕜} (hP : P = A * (X * Aᴴ)) (hX : Xᴴ = X) (hA : P * A = A) :
    IsProjOnto P A := by
  refine ⟨?_, ?_, ?_, ?_⟩
  · rw [hP, conjTranspose_mul, conjTranspose_mul, conjTranspose_conjTranspose, hX, Matrix.mul_assoc]
  · rw [hP, ← Matrix.mul_assoc, ← hP, hA, hP]
  · intro x; rw [Matrix.mulVec_mulVec, hA]
  · intro v hv
    rw [kills_iff] at hv
    rw [hP, ← Matrix.mulVec_mulVec, ← Matrix.mulVec_mulVec, hv, Matrix.mulVec_zero,
      Matrix.mulVec_zero]

/-- The orthogonal projection onto the column span is unique. -/
theorem IsProjOnto.unique {P Q : Matrix (Fin m) (Fin m) 𝕜} {A : Matrix (Fin m) (Fin k) 𝕜}
    (hP : IsProjOnto P A) (hQ : IsProjOnto Q A) : P = Q := by
  have key : ∀ {P Q : Matrix (Fin m) (Fin m) 𝕜}, IsProjOnto P A → IsProjOnto Q A → Q = Q * P := by
    intro P Q hP hQ
    have hPA : P * A = A := by
      apply Matrix.ext_of_mulVec_single
      intro i
      rw [← Matrix.mulVec_mulVec, hP.fixes]
    have h0 : Aᴴ * (1 - P) = 0 := by
      rw [Matrix.mul_sub, Matrix.mul_one]
      have : Aᴴ * P = Aᴴ := by
        have := congrArg conjTranspose hPA
        rwa [conjTranspose_mul, hP.herm] at this
      rw [this, sub_self]
    have h1 : Q * (1 - P) = 0 := by
      apply Matrix.ext_of_mulVec_single
      intro i
      rw [← Matrix.mulVec_mulVec, Matrix.zero_mulVec]
      apply hQ.kills
      rw [kills_iff, Matrix.mulVec_mulVec, h0, Matrix.zero_mulVec]
    rw [Matrix.mul_sub, Matrix.mul_one] at h1
    exact sub_eq_zero.1 h1
  have h1 := key hP hQ
  have h2 := key hQ hP
  calc P = Pᴴ := hP.herm.symm
    _ = (P * Q)ᴴ := by rw [← h2]
    _ = Q * P := by rw [conjTranspose_mul, hP.herm, hQ.herm]
    _ = Q := h1.symm

theorem fullRank_iff (A : Matrix (Fin m) (Fin k) 𝕜) :
    IsUnit (Aᴴ * A).det ↔ Function.Injective A.mulVec := by
  rw [← Matrix.isUnit_iff_isUnit_det, ← Matrix.mulVec_injective_iff_isUnit]
  constructor
  · intro h x y hxy
    apply h
    show (Aᴴ * A) *ᵥ x = (Aᴴ * A) *ᵥ y
    rw [← Matrix.mulVec_mulVec, ← Matrix.mulVec_mulVec, show A *ᵥ x = A *ᵥ y from hxy]
  · intro h x y hxy
    have : (Aᴴ * A) *ᵥ (x - y) = 0 := by
      rw [Matrix.mulVec_sub]; exact sub_eq_zero.2 hxy
    rw [Matrix.conjTranspose_mul_self_mulVec_eq_zero] at this
    rw [Matrix.mulVec_sub] at this
    exact h (sub_eq_zero.1 this)

/-- **C33** (`use_pinv=False`). For `A` of full column rank `projm(A)` is the orthogonal projection
onto the column span; otherwise `LinAlgError` is raised. Real (`𝕜 = ℝ`) and complex matrices. -/
theorem C33_projm (A : Matrix (Fin m) (Fin k) 𝕜) :
    (Function.Injective A.mulVec → ∃ P, projm A false = .ok P ∧ IsProjOnto P A) ∧
    (¬ Function.Injective A.mulVec → projm A false = .error .linAlgError) := by
  constructor
  · intro h
    have hu := (fullRank_iff A).2 h
    refine ⟨A * ((Aᴴ * A)⁻¹ * Aᴴ), by simp only [projm, npSolve, if_pos hu]; rfl, isProjOnto_of rfl ?_ ?_⟩
    · rw [conjTranspose_nonsing_inv, (isHermitian_conjTranspose_mul_self A).eq]
    · rw [Matrix.mul_assoc, Matrix.mul_assoc, Matrix.nonsing_inv_mul _ hu, Matrix.mul_one]
  · intro h
    have hu : ¬ IsUnit (Aᴴ * A).det := fun h' => h ((fullRank_iff A).1 h')
    simp only [projm, npSolve, if_neg hu]
    rfl

/-- **C33** (`use_pinv=True`). For every `A`. -/
theorem C33_projm_pinv (A : Matrix (Fin m) (Fin k) 𝕜) :
    ∃ P, projm A true = .ok P ∧ IsProjOnto P A := by
  obtain ⟨Gp, h1, h2, _⟩ := npPinv_eq A
  exact ⟨A * npPinv A, rfl, isProjOnto_of (X := Gp) (by rw [h1]) h2 (mul_npPinv_mul A)⟩

/-- **C33** (agreement). Both variants agree on matrices of full column rank. -/
theorem C33_projm_agree (A : Matrix (Fin m) (Fin k) 𝕜) (h : Function.Injective A.mulVec) :
    projm A false = projm A true := by
  obtain ⟨P, hP, hP'⟩ := (C33_projm A).1 h
  obtain ⟨Q, hQ, hQ'⟩ := C33_projm_pinv A
  rw [hP, hQ, hP'.unique hQ']

/-- The model of `np.linalg.pinv` satisfies the four Penrose equations, which characterise the
Moore-Penrose inverse. -/
theorem C33_pinv_penrose (A : Matrix (Fin m) (Fin k) 𝕜) :
    A * npPinv A * A = A ∧ npPinv A * A * npPinv A = npPinv A ∧
    (A * npPinv A)ᴴ = A * npPinv A ∧ (npPinv A * A)ᴴ = npPinv A * A := by
  obtain ⟨Gp, h1, h2, h3, h4, h5⟩ := npPinv_eq A
  refine ⟨mul_npPinv_mul A, ?_, ?_, ?_⟩
  · rw [h1]
    calc Gp * Aᴴ * A * (Gp * Aᴴ) = (Gp * (Aᴴ * A) * Gp) * Aᴴ := by simp only [Matrix.mul_assoc]
      _ = Gp * Aᴴ := by rw [h4]
  · rw [h1, conjTranspose_mul, conjTranspose_mul, conjTranspose_conjTranspose, h2, Matrix.mul_assoc]
  · rw [h1, Matrix.mul_assoc, conjTranspose_mul, h2, (isHermitian_conjTranspose_mul_self A).eq, h5]

/-- Non-vacuity: a `2 × 1` matrix of full column rank. -/
example : Function.Injective (!![(1 : ℂ); Complex.I]).mulVec := by
  intro x y h
  funext i
  have := congrFun h 0
  fin_cases i
  simpa [Matrix.mulVec, dotProduct] using this

end Proj

end Doa.Props
