import Verif.Model.MathUtils
import Mathlib.Data.List.Lex
import Mathlib.LinearAlgebra.Matrix.PosDef

/-!
# Lemmas about `ravel`/`unravel`, `cartesian`, `khatri_rao` and `projm`
-/

namespace Doa

open Matrix

/-! ## ravel / unravel -/

/-- `coord` is a coordinate inside an array of shape `shape`. -/
def ValidCoord (shape coord : List ℕ) : Prop := List.Forall₂ (fun n i => i < n) shape coord

theorem ravelIdx_lt {shape coord : List ℕ} (h : ValidCoord shape coord) :
    ravelIdx shape coord < shape.prod := by
  induction h with
  | nil => simp [ravelIdx]
  | @cons n i ns is hi h ih =>
    simp only [ravelIdx, List.prod_cons]
    have : (i + 1) * ns.prod ≤ n * ns.prod := Nat.mul_le_mul_right _ hi
    nlinarith

theorem unravel_ravel {shape coord : List ℕ} (h : ValidCoord shape coord) :
    unravelIdx shape (ravelIdx shape coord) = coord := by
  induction h with
  | nil => rfl
  | @cons n i ns is hi h ih =>
    have hlt := ravelIdx_lt h
    have hpos : 0 < ns.prod := Nat.zero_lt_of_lt hlt
    simp only [ravelIdx, unravelIdx]
    rw [mul_comm i, Nat.mul_add_div hpos, Nat.div_eq_of_lt hlt, Nat.mul_add_mod,
      Nat.mod_eq_of_lt hlt, ih]
    simp

theorem unravel_valid {shape : List ℕ} {r : ℕ} (h : r < shape.prod) :
    ValidCoord shape (unravelIdx shape r) := by
  induction shape generalizing r with
  | nil => exact .nil
  | cons n ns ih =>
    rw [List.prod_cons] at h
    have hpos : 0 < ns.prod := by
      rcases Nat.eq_zero_or_pos ns.prod with h0 | h0
      · rw [h0] at h; omega
      · exact h0
    refine .cons ?_ (ih (Nat.mod_lt _ hpos))
    rw [mul_comm] at h
    exact Nat.div_lt_of_lt_mul h

theorem ravel_unravel {shape : List ℕ} {r : ℕ} (h : r < shape.prod) :
    ravelIdx shape (unravelIdx shape r) = r := by
  induction shape generalizing r with
  | nil =>
    simp at h
    simp [ravelIdx, unravelIdx, h]
  | cons n ns ih =>
    rw [List.prod_cons] at h
    have hpos : 0 < ns.prod := by
      rcases Nat.eq_zero_or_pos ns.prod with h0 | h0
      · rw [h0] at h; omega
      · exact h0
    simp only [ravelIdx, unravelIdx]
    rw [ih (Nat.mod_lt _ hpos), mul_comm]
    exact Nat.div_add_mod r ns.prod

theorem length_unravelIdx (shape : List ℕ) (r : ℕ) : (unravelIdx shape r).length = shape.length := by
  induction shape generalizing r with
  | nil => rfl
  | cons n ns ih => simp [unravelIdx, ih]

theorem ravelIdx_lt_iff {shape c d : List ℕ} (hc : ValidCoord shape c) (hd : ValidCoord shape d) :
    ravelIdx shape c < ravelIdx shape d ↔ c < d := by
  induction hc generalizing d with
  | nil => cases hd; simp [ravelIdx]
  | @cons n i ns is hi h ih =>
    cases hd with
    | @cons _ j _ js hj h' =>
      have h1 := ravelIdx_lt h
      have h2 := ravelIdx_lt h'
      simp only [ravelIdx]
      rw [List.cons_lt_cons_iff, ← ih h']
      constructor
      · intro hlt
        rcases lt_trichotomy i j with hij | hij | hij
        · exact .inl hij
        · subst hij; right; exact ⟨rfl, by omega⟩
        · exfalso
          have : (j + 1) * ns.prod ≤ i * ns.prod := Nat.mul_le_mul_right _ hij
          nlinarith
      · rintro (hij | ⟨rfl, hlt⟩)
        · have : (i + 1) * ns.prod ≤ j * ns.prod := Nat.mul_le_mul_right _ hij
          nlinarith
        · omega

theorem ravelMultiIndex_ok_iff {shape coord : List ℕ} :
    (∃ r, ravelMultiIndex shape coord = .ok r) ↔ ValidCoord shape coord := by
  have key : (shape.length = coord.length ∧ (shape.zip coord).all (fun p => decide (p.2 < p.1)) = true) ↔
      ValidCoord shape coord := by
    rw [ValidCoord, List.forall₂_iff_zip]
    simp only [List.all_eq_true, decide_eq_true_eq, Prod.forall]
  unfold ravelMultiIndex
  constructor
  · rintro ⟨r, h⟩
    split at h
    · exact key.1 ‹_›
    · simp at h
  · intro h
    exact ⟨_, if_pos (key.2 h)⟩

theorem ravelMultiIndex_eq {shape coord : List ℕ} (h : ValidCoord shape coord) :
    ravelMultiIndex shape coord = .ok (ravelIdx shape coord) := by
  obtain ⟨r, hr⟩ := ravelMultiIndex_ok_iff.2 h
  unfold ravelMultiIndex at hr ⊢
  split at hr
  · rw [if_pos ‹_›]
  · simp at hr

theorem cartesian_row {α : Type _} [Zero α] {axes : List (List α)} {rows : List (List α)}
    (h : cartesian axes = .ok rows) {coord : List ℕ}
    (hc : ValidCoord (axes.map List.length) coord) :
    rows[ravelIdx (axes.map List.length) coord]? =
      some (List.zipWith (fun x i => x.getD i 0) axes coord) := by
  cases axes with
  | nil => simp [cartesian] at h
  | cons a t =>
    simp only [cartesian, Except.ok.injEq] at h
    rw [← h, List.getElem?_map, List.getElem?_range (ravelIdx_lt hc), Option.map_some,
      unravel_ravel hc]

/-! ## Khatri-Rao -/

theorem foldl_updateCol {m k : ℕ} (f : Fin k → Fin m → ℂ) (L : List (Fin k)) (hL : L.Nodup)
    (C : Matrix (Fin m) (Fin k) ℂ) (r : Fin m) (i : Fin k) :
    (L.foldl (fun c i => c.updateCol i (f i)) C) r i = if i ∈ L then f i r else C r i := by
  induction L generalizing C with
  | nil => simp
  | cons a L ih =>
    rw [List.foldl_cons, ih (List.nodup_cons.1 hL).2]
    by_cases hi : i ∈ L
    · simp [hi]
    · by_cases hia : i = a
      · subst hia; simp [hi]
      · simp [hi, hia]

theorem khatriRao_ok {n1 n2 k : ℕ} (a : Matrix (Fin n1) (Fin k) ℂ) (b : Matrix (Fin n2) (Fin k) ℂ) :
    khatriRao a b = .ok (Matrix.of fun r i =>
      a (finProdFinEquiv.symm r).1 i * b (finProdFinEquiv.symm r).2 i) := by
  unfold khatriRao
  rw [dif_neg (by simp)]
  congr 1
  ext r i
  rw [foldl_updateCol _ _ (List.nodup_finRange k)]
  simp [outerFlat]

/-! ## Projections -/

section Proj
open scoped ComplexOrder
variable {𝕜 : Type _} [RCLike 𝕜] {m k : ℕ}

/-- The Moore-Penrose inverse is `G⁺ Aᴴ` with `G = Aᴴ A`. -/
theorem npPinv_eq (A : Matrix (Fin m) (Fin k) 𝕜) : ∃ Gp : Matrix (Fin k) (Fin k) 𝕜,
    npPinv A = Gp * Aᴴ ∧ Gpᴴ = Gp ∧ (Aᴴ * A) * Gp * (Aᴴ * A) = Aᴴ * A ∧
      Gp * (Aᴴ * A) * Gp = Gp ∧ Gp * (Aᴴ * A) = (Aᴴ * A) * Gp := by
  have hA := isHermitian_conjTranspose_mul_self A
  set U := (hA.eigenvectorUnitary : Matrix (Fin k) (Fin k) 𝕜) with hU
  set D : Matrix (Fin k) (Fin k) 𝕜 := diagonal (fun i => (hA.eigenvalues i : 𝕜)) with hD
  set Dp : Matrix (Fin k) (Fin k) 𝕜 := diagonal (fun i => ((hA.eigenvalues i)⁻¹ : 𝕜)) with hDp
  have hUU : Uᴴ * U = 1 := by
    have := (Unitary.mem_iff.1 hA.eigenvectorUnitary.2).1
    rwa [star_eq_conjTranspose] at this
  have hG : Aᴴ * A = U * D * Uᴴ := by
    have h := hA.spectral_theorem
    rw [Unitary.conjStarAlgAut_apply, star_eq_conjTranspose] at h
    exact h
  have hc : ∀ X Y : Matrix (Fin k) (Fin k) 𝕜,
      (U * X * Uᴴ) * (U * Y * Uᴴ) = U * (X * Y) * Uᴴ := by
    intro X Y
    calc (U * X * Uᴴ) * (U * Y * Uᴴ) = U * X * (Uᴴ * U) * Y * Uᴴ := by simp only [Matrix.mul_assoc]
      _ = _ := by rw [hUU]; simp only [Matrix.mul_assoc, Matrix.one_mul]
  have hDD : D * Dp * D = D := by
    simp only [hD, hDp, diagonal_mul_diagonal]
    congr 1
    funext i
    by_cases h : (hA.eigenvalues i : 𝕜) = 0
    · simp [h]
    · field_simp
  have hDD' : Dp * D * Dp = Dp := by
    simp only [hD, hDp, diagonal_mul_diagonal]
    congr 1
    funext i
    by_cases h : (hA.eigenvalues i : 𝕜) = 0
    · simp [h]
    · field_simp
  have hcomm : Dp * D = D * Dp := by
    simp only [hD, hDp, diagonal_mul_diagonal]
    congr 1
    funext i
    ring
  refine ⟨U * Dp * Uᴴ, rfl, ?_, ?_, ?_, ?_⟩
  · rw [conjTranspose_mul, conjTranspose_mul, conjTranspose_conjTranspose, hDp,
      diagonal_conjTranspose, Matrix.mul_assoc]
    congr 3
    funext i
    simp
  · rw [hG, hc, hc, hDD]
  · rw [hG, hc, hc, hDD']
  · rw [hG, hc, hc, hcomm]

/-- Penrose's first equation. -/
theorem mul_npPinv_mul (A : Matrix (Fin m) (Fin k) 𝕜) : A * npPinv A * A = A := by
  obtain ⟨Gp, h1, h2, h3, h4, h5⟩ := npPinv_eq A
  have : (A * npPinv A * A - A)ᴴ * (A * npPinv A * A - A) = 0 := by
    have e : A * npPinv A * A - A = A * (Gp * (Aᴴ * A) - 1) := by
      rw [h1, Matrix.mul_sub, Matrix.mul_one]; simp only [Matrix.mul_assoc]
    rw [e, conjTranspose_mul]
    have : Aᴴ * (A * (Gp * (Aᴴ * A) - 1)) = 0 := by
      rw [← Matrix.mul_assoc, Matrix.mul_sub, Matrix.mul_one, ← Matrix.mul_assoc (Aᴴ * A), h3,
        sub_self]
    rw [Matrix.mul_assoc, this, Matrix.mul_zero]
  have h0 := Matrix.conjTranspose_mul_self_eq_zero.1 this
  exact sub_eq_zero.1 h0

end Proj
end Doa
