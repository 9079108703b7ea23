import Verif.Lemmas.Coarray
import Verif.Lemmas.Lags
import Mathlib.LinearAlgebra.Matrix.PosDef
import Mathlib.Algebra.Order.BigOperators.Group.Finset

/-! Lemmas about selection matrices, virtual observations and augmented covariance matrices. -/

namespace Doa

open Spec ListAux Matrix

theorem sum_map_range {M : Type _} [AddCommMonoid M] (f : ℕ → M) (n : ℕ) :
    ((List.range n).map f).sum = ∑ i ∈ Finset.range n, f i := by
  simp [Finset.sum, Multiset.range]

theorem length_vecF {α : Type _} {m n : ℕ} (x : Matrix (Fin m) (Fin n) α) :
    (vecF x).length = n * m := by
  rw [vecF, length_flatMap_uniform _ m _ (by simp)]; simp

theorem getElem?_vecF {α : Type _} {m n : ℕ} (x : Matrix (Fin m) (Fin n) α) (i : Fin m)
    (j : Fin n) : (vecF x)[i.1 + j.1 * m]? = some (x i j) := by
  rw [Nat.add_comm, vecF, getElem?_flatMap_uniform _ m _ (by simp) j.1 i.1 i.2]
  simp

theorem getD_vecF {m n : ℕ} (x : Matrix (Fin m) (Fin n) ℂ) (i : Fin m) (j : Fin n) :
    (vecF x).getD (i.1 + j.1 * m) 0 = x i j := by
  rw [List.getD_eq_getElem?_getD, getElem?_vecF]; rfl

/-- Sums over the positions handed out by `indices_of` are sums over element pairs. -/
theorem sum_indicesOf {M : Type _} [AddCommMonoid M] {w : WeightFunction} {l : List ℤ}
    (hw : w.indexMap = buildMapLoop [] 0 (locationDifferences l)) (d : ℤ) (f : ℕ → M) :
    ((w.indicesOf d).map f).sum = ∑ p ∈ pairs l d, f (p.1.1 + p.2.1 * l.length) := by
  have hn : (w.indicesOf d).Nodup := (indicesOf_sorted hw d).imp (fun h => Nat.ne_of_lt h)
  rw [← List.sum_toFinset f hn, indicesOf_toFinset hw,
    Finset.sum_image (fun a _ b _ h => pairIndex_injective _ h)]

/-- The virtual observation is the pair average. -/
theorem virtualObservation_eq {w : WeightFunction} {l : List ℤ}
    (hw : w.indexMap = buildMapLoop [] 0 (locationDifferences l)) (mv : ℕ)
    (R : Matrix (Fin l.length) (Fin l.length) ℂ) (i : ℕ) :
    virtualObservation w mv (vecF R) i = pairAverage l R ((i : ℤ) - mv + 1) := by
  rw [virtualObservation, meanC, sum_indicesOf hw, List.length_map, length_indicesOf hw]
  unfold pairAverage
  congr 1
  apply Finset.sum_congr rfl
  rintro ⟨a, b⟩ _
  exact getD_vecF R a b

theorem sum_mem_indicesOf {K : Type _} [Field K] {w : WeightFunction} {l : List ℤ}
    (hw : w.indexMap = buildMapLoop [] 0 (locationDifferences l)) (d : ℤ) (g : ℕ → K) :
    (∑ c ∈ Finset.range (l.length ^ 2), if c ∈ w.indicesOf d then g c else 0) =
      ∑ p ∈ pairs l d, g (p.1.1 + p.2.1 * l.length) := by
  have hn : (w.indicesOf d).Nodup := (indicesOf_sorted hw d).imp (fun h => Nat.ne_of_lt h)
  rw [← sum_indicesOf hw d g, ← List.sum_toFinset g hn, ← Finset.sum_filter]
  apply Finset.sum_congr
  · ext c
    simp only [Finset.mem_filter, Finset.mem_range, List.mem_toFinset]
    constructor
    · exact fun h => h.2
    · intro h
      refine ⟨?_, h⟩
      obtain ⟨i, j, rfl, _⟩ := (mem_indicesOf hw d c).1 h
      have hi := i.2
      have hj := j.2
      calc i.1 + j.1 * l.length < l.length + j.1 * l.length := by omega
        _ = (j.1 + 1) * l.length := by ring
        _ ≤ l.length * l.length := Nat.mul_le_mul_right _ hj
        _ = l.length ^ 2 := by ring
  · intros; rfl

/-- Objects reachable from a freshly constructed weight function by method calls. -/
inductive WReach (w0 : WeightFunction) : WeightFunction → Prop
  | refl : WReach w0 w0
  | size {w} (b : Bool) : WReach w0 w → WReach w0 (w.centralUlaSize b).2
  | select {w} (K : Type) [Field K] (b : Bool) : WReach w0 w → WReach w0 (w.selectionMatrix K b).2
  | transform {w} {m : ℕ} (R : Matrix (Fin m) (Fin m) ℂ) (method : String) :
      WReach w0 w → WReach w0 (acmTransform w R method).2

/-- State of a weight function object of a 1-D grid array with indices `l`. -/
def WInv (l : List ℤ) (w : WeightFunction) : Prop :=
  w.m = l.length ∧ w.indexMap = buildMapLoop [] 0 (locationDifferences l) ∧
  w.differences = (buildMapLoop [] 0 (locationDifferences l)).keys.mergeSort
    (fun x y => decide (x ≤ y)) ∧
  (w.mv = none ∨ w.mv = some (WeightFunction.countLags
    (buildMapLoop [] 0 (locationDifferences l)) 0))

theorem WInv.size {l : List ℤ} {w : WeightFunction} (h : WInv l w) (b : Bool) :
    WInv l (w.centralUlaSize b).2 := by
  obtain ⟨h1, h2, h3, h4 | h4⟩ := h
  · refine ⟨?_, ?_, ?_, Or.inr ?_⟩ <;> simp [WeightFunction.centralUlaSize, h4, h1, h2, h3]
  · refine ⟨?_, ?_, ?_, Or.inr ?_⟩ <;> simp [WeightFunction.centralUlaSize, h4, h1, h2, h3]

theorem WInv.size_val {l : List ℤ} {w : WeightFunction} (h : WInv l w) (b : Bool) :
    (w.centralUlaSize b).1 = if b then ((WeightFunction.countLags
      (buildMapLoop [] 0 (locationDifferences l)) 0 : ℕ) : ℤ) else
      ((WeightFunction.countLags (buildMapLoop [] 0 (locationDifferences l)) 0 : ℕ) : ℤ) * 2 - 1 := by
  obtain ⟨h1, h2, h3, h4 | h4⟩ := h <;> simp [WeightFunction.centralUlaSize, h4, h2]

theorem selectionMatrix_snd (K : Type) [Field K] (w : WeightFunction) (b : Bool) :
    (w.selectionMatrix K b).2 = (w.centralUlaSize true).2 := by
  simp only [WeightFunction.selectionMatrix]
  split_ifs <;> rfl

theorem acmTransform_snd (w : WeightFunction) {m : ℕ} (R : Matrix (Fin m) (Fin m) ℂ)
    (method : String) :
    (acmTransform w R method).2 = w ∨ (acmTransform w R method).2 = (w.centralUlaSize false).2 := by
  simp only [acmTransform]
  split_ifs <;> first | exact Or.inl rfl | exact Or.inr rfl

theorem WInv.reach {l : List ℤ} {w0 w : WeightFunction} (h0 : WInv l w0) (h : WReach w0 w) :
    WInv l w := by
  induction h with
  | refl => exact h0
  | size b _ ih => exact ih.size b
  | select K b _ ih => rw [selectionMatrix_snd]; exact ih.size true
  | transform R method _ ih =>
    rcases acmTransform_snd _ R method with e | e
    · rw [e]; exact ih
    · rw [e]; exact ih.size false

theorem WInv.init {a : GridArray} {l : List ℤ} (h : Is1DGrid a l) {w : WeightFunction}
    (hw : WeightFunction.init a = .ok w) : WInv l w := by
  rw [weightFunction_init h] at hw
  cases hw
  exact ⟨rfl, rfl, rfl, Or.inl rfl⟩

theorem pairAverage_congr (l : List ℤ) (R : Fin l.length → Fin l.length → ℂ) {d d' : ℤ}
    (h : d = d') : pairAverage l R d = pairAverage l R d' := by rw [h]

theorem pairAverage_conj (l : List ℤ) (R : Matrix (Fin l.length) (Fin l.length) ℂ)
    (hR : R.IsHermitian) (d : ℤ) :
    pairAverage l R (-d) = (starRingEnd ℂ) (pairAverage l R d) := by
  unfold pairAverage
  rw [map_div₀, map_sum, pairCount_neg]
  congr 1
  · apply Finset.sum_bij (fun p _ => (p.2, p.1))
    · rintro ⟨i, j⟩ h
      simp only [pairs, Finset.mem_filter, Finset.mem_univ, true_and] at h ⊢
      omega
    · rintro ⟨i, j⟩ _ ⟨i', j'⟩ _ h
      simp only [Prod.mk.injEq] at h ⊢
      exact ⟨h.2, h.1⟩
    · rintro ⟨i, j⟩ h
      refine ⟨(j, i), ?_, rfl⟩
      simp only [pairs, Finset.mem_filter, Finset.mem_univ, true_and] at h ⊢
      omega
    · rintro ⟨i, j⟩ _
      have := hR.apply j i
      simp only [← this]
      simp
  · simp

end Doa
