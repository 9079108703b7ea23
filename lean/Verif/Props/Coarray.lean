import Mathlib.Algebra.BigOperators.Field
import Verif.Lemmas.CoarrayMat
import Verif.Lemmas.Grid
import Verif.Props.Geometry

/-!
# C24-C28: weight functions, selection matrices, augmented covariance matrices

`w` ranges over every object reachable from a freshly constructed weight function by any history of
method calls (`WReach`).
-/

namespace Doa.Props
open scoped ComplexOrder

open Doa Doa.Spec Matrix

/-- **C24** (order of the differences). Row `i + j*m` of `compute_location_differences` is location
`i` minus location `j`, and there are `m^2` rows; for coordinates of any type. -/
theorem C24_location_differences {α : Type _} [Sub α] (loc : List α) :
    (locationDifferences loc).length = loc.length ^ 2 ∧
    ∀ i j : Fin loc.length,
      (locationDifferences loc)[i.1 + j.1 * loc.length]? = some (loc[i] - loc[j]) :=
  ⟨length_locationDifferences loc, fun i j => getElem?_locationDifferences loc i j i.2 j.2⟩

/-- **C24** (weights count pairs). -/
theorem C24_weights {a : GridArray} {l : List ℤ} (h : Is1DGrid a l) {w0 w : WeightFunction}
    (hw0 : WeightFunction.init a = .ok w0) (hr : WReach w0 w) :
    (∀ d, w.weightOf d = pairCount l d) ∧
    (∀ d k, k ∈ w.indicesOf d ↔
      ∃ i j : Fin l.length, k = i.1 + j.1 * l.length ∧ l[i] - l[j] = d) ∧
    (∀ d, (w.indicesOf d).Pairwise (· < ·)) ∧
    (∀ d, w.weightOf (-d) = w.weightOf d) ∧
    w.weights.sum = a.size ^ 2 ∧
    (w.weightOf 0 = a.size ↔ l.Nodup) := by
  have hi := (WInv.init h hw0).reach hr
  obtain ⟨h1, h2, h3, h4⟩ := hi
  refine ⟨weightOf_eq h2, mem_indicesOf h2, indicesOf_sorted h2, fun d => ?_, ?_, ?_⟩
  · rw [weightOf_eq h2, weightOf_eq h2, pairCount_neg]
  · -- every pair is counted exactly once
    have hk : w.weights = w.differences.map fun d => pairCount l d := by
      unfold WeightFunction.weights
      apply List.map_congr_left
      intro d _
      exact length_indicesOf h2 d
    have hnd : w.differences.Nodup := by
      rw [h3]
      exact (List.mergeSort_perm _ _).nodup_iff.2
        (buildMapLoop_nodup _ _ _ (by simp [PyDict.keys]))
    rw [hk, ← List.sum_toFinset _ hnd]
    have hmem : ∀ d, d ∈ w.differences.toFinset ↔ IsLag l d := by
      intro d
      rw [List.mem_toFinset, h3, (List.mergeSort_perm _ _).mem_iff, mem_buildMap_keys,
        mem_locationDifferences]
    have := Finset.card_eq_sum_card_fiberwise
      (f := fun p : Fin l.length × Fin l.length => l[p.1] - l[p.2])
      (s := Finset.univ) (t := w.differences.toFinset)
      (fun p _ => by
        rw [Finset.mem_coe, hmem]; exact ⟨p.1, p.2, rfl⟩)
    rw [h.2.2]
    have hc : (Finset.univ : Finset (Fin l.length × Fin l.length)).card = l.length ^ 2 := by
      simp [pow_two]
    rw [← hc, this]
    rfl
  · rw [weightOf_eq h2, h.2.2, pairCount]
    have hdiag : (Finset.univ : Finset (Fin l.length)).image (fun i => (i, i)) ⊆ pairs l 0 := by
      intro p hp
      obtain ⟨i, _, rfl⟩ := Finset.mem_image.1 hp
      simp [pairs]
    have hdc : ((Finset.univ : Finset (Fin l.length)).image (fun i => (i, i))).card = l.length := by
      rw [Finset.card_image_of_injective _ (fun a b h => by simpa using h)]; simp
    constructor
    · intro he
      have heq := Finset.eq_of_subset_of_card_le hdiag (by rw [hdc, he])
      rw [List.nodup_iff_injective_get]
      intro i j hij
      have hm : (i, j) ∈ pairs l 0 := by
        simp only [pairs, Finset.mem_filter, Finset.mem_univ, true_and]
        have : l[i] = l[j] := hij
        omega
      rw [← heq] at hm
      obtain ⟨k, _, hk⟩ := Finset.mem_image.1 hm
      simp only [Prod.mk.injEq] at hk
      rw [← hk.1, ← hk.2]
    · intro hnd
      have heq : (Finset.univ : Finset (Fin l.length)).image (fun i => (i, i)) = pairs l 0 := by
        apply Finset.Subset.antisymm hdiag
        rintro ⟨i, j⟩ hp
        simp only [pairs, Finset.mem_filter, Finset.mem_univ, true_and] at hp
        have hij : l.get i = l.get j := by
          have : l[i] = l[j] := by omega
          exact this
        have := List.nodup_iff_injective_get.1 hnd hij
        subst this
        simp
      rw [← heq, hdc]

/-- **C25**. `differences()` is strictly ascending and lists exactly the differences of positive
weight; `weights()` is aligned with it; `len(w)` is the number of differences. -/
theorem C25_aligned {a : GridArray} {l : List ℤ} (h : Is1DGrid a l) {w0 w : WeightFunction}
    (hw0 : WeightFunction.init a = .ok w0) (hr : WReach w0 w) :
    w.differences.Pairwise (· < ·) ∧
    (∀ d, d ∈ w.differences ↔ 0 < w.weightOf d) ∧
    (∀ d, d ∈ w.differences ↔ IsLag l d) ∧
    w.weights.length = w.differences.length ∧ w.len = w.differences.length ∧
    ∀ i (hi : i < w.differences.length), w.weights[i]? = some (w.weightOf w.differences[i]) := by
  have hi := (WInv.init h hw0).reach hr
  obtain ⟨h1, h2, h3, h4⟩ := hi
  have hmem : ∀ d, d ∈ w.differences ↔ IsLag l d := by
    intro d
    rw [h3, (List.mergeSort_perm _ _).mem_iff, mem_buildMap_keys, mem_locationDifferences]
  have hnd : w.differences.Nodup := by
    rw [h3]
    exact (List.mergeSort_perm _ _).nodup_iff.2
      (buildMapLoop_nodup _ _ _ (by simp [PyDict.keys]))
  have hsort : w.differences.Pairwise (· ≤ ·) := by
    rw [h3]
    have := List.pairwise_mergeSort (le := fun x y : ℤ => decide (x ≤ y))
      (fun a b c h1 h2 => by simp at h1 h2 ⊢; omega) (fun a b => by simp; omega)
      (buildMapLoop [] 0 (locationDifferences l)).keys
    exact this.imp fun h => by simpa using h
  refine ⟨?_, fun d => ?_, hmem, by simp [WeightFunction.weights], ?_, ?_⟩
  · exact (hsort.and hnd).imp fun h => lt_of_le_of_ne h.1 h.2
  · rw [hmem, weightOf_eq h2, pairCount_pos]
  · rw [h3, (List.mergeSort_perm _ _).length_eq, WeightFunction.len, h2]
    simp [PyDict.keys]
  · intro i hi
    simp only [WeightFunction.weights, List.getElem?_map, List.getElem?_eq_getElem hi,
      Option.map_some, weightOf_eq_length]

/-- **C26**. `get_central_ula_size(True)` is the size of the largest hole-free central segment,
`get_central_ula_size()` is `2v - 1`, after every history of earlier calls. -/
theorem C26_central {a : GridArray} {l : List ℤ} (h : Is1DGrid a l) {w0 w : WeightFunction}
    (hw0 : WeightFunction.init a = .ok w0) (hr : WReach w0 w) :
    ∃ v : ℕ, IsCentralSize l v ∧ (w.centralUlaSize true).1 = v ∧
      (w.centralUlaSize false).1 = 2 * v - 1 ∧
      ∀ v' : ℕ, (∀ d : ℤ, |d| < v' → IsLag l d) → v' ≤ v := by
  have hi := (WInv.init h hw0).reach hr
  refine ⟨_, countLags_central l, by rw [hi.size_val]; rfl, by rw [hi.size_val]; simp; ring, ?_⟩
  intro v' hv'
  by_contra hc
  exact (countLags_central l).2 fun d hd => hv' d (by omega)

/-- The central size of a non-empty array is at least one. -/
theorem C26_central_pos {l : List ℤ} (hl : l ≠ []) {v : ℕ} (hv : IsCentralSize l v) : 1 ≤ v := by
  by_contra hc
  have h0 : v = 0 := by omega
  subst h0
  apply hv.2
  intro d hd
  have : d = 0 := by
    have h1 := abs_nonneg d
    have h2 : |d| = 0 := by push_cast at hd; omega
    exact abs_eq_zero.1 h2
  subst this
  have hlen : 0 < l.length := List.length_pos_iff.2 hl
  exact ⟨⟨0, hlen⟩, ⟨0, hlen⟩, by omega⟩

/-- **C27**. The selection matrix of a non-empty 1-D grid array: with `v` the central size and
`first` the first lag (`0`, or `-(v-1)` with the negative part), there are `v` (or `2v-1`) rows of
`m^2` entries; all entries are nonnegative and each row sums to 1; row `i` applied to `vec(R)` is
the average of `R` over the pairs with lag `first + i`, which is also the virtual observation used
by the covariance augmentation. -/
theorem C27_selection {a : GridArray} {l : List ℤ} (h : Is1DGrid a l) (hne : l ≠ [])
    {w0 w : WeightFunction} (hw0 : WeightFunction.init a = .ok w0) (hr : WReach w0 w)
    (excl : Bool) :
    ∃ (v : ℕ) (FR : List (List ℝ)) (FC : List (List ℂ)), IsCentralSize l v ∧
      (w.selectionMatrix ℝ excl).1 = .ok FR ∧ (w.selectionMatrix ℂ excl).1 = .ok FC ∧
      FC = FR.map (List.map fun x : ℝ => (x : ℂ)) ∧
      FR.length = (if excl then v else 2 * v - 1) ∧
      (∀ row ∈ FR, row.length = a.size ^ 2 ∧ row.sum = 1 ∧ ∀ x ∈ row, 0 ≤ x) ∧
      ∀ (R : Matrix (Fin l.length) (Fin l.length) ℂ) (i : ℕ) (hi : i < FC.length),
        (List.zipWith (· * ·) FC[i] (vecF R)).sum =
            pairAverage l R ((if excl then 0 else -(v : ℤ) + 1) + i) ∧
        (excl = false → (List.zipWith (· * ·) FC[i] (vecF R)).sum =
            virtualObservation w v (vecF R) i) := by
  have hi := (WInv.init h hw0).reach hr
  obtain ⟨v, hv, hs1, hs2, _⟩ := C26_central h hw0 hr
  have hv1 := C26_central_pos hne hv
  have hinv' := hi.size true
  set w' := (w.centralUlaSize true).2 with hw'
  obtain ⟨h1, h2, h3, h4⟩ := hinv'
  have hlen : ¬ ((if excl then (v : ℤ) else 2 * (v : ℤ) - 1) < 0) := by
    cases excl <;> simp <;> omega
  have hsel : ∀ (K : Type) [Field K], (w.selectionMatrix K excl).1 = .ok
      ((List.range (if excl then v else 2 * v - 1)).map fun i : ℕ =>
        (List.range (l.length ^ 2)).map fun c : ℕ =>
          if c ∈ w'.indicesOf ((if excl then 0 else -(v : ℤ) + 1) + (i : ℤ))
          then 1 / ((w'.weightOf ((if excl then 0 else -(v : ℤ) + 1) + (i : ℤ)) : ℕ) : K)
          else 0) := by
    intro K _
    simp only [WeightFunction.selectionMatrix, hs1, hlen, if_false, ← hw', h1]
    have : (if excl then (v : ℤ) else 2 * (v : ℤ) - 1).toNat = if excl then v else 2 * v - 1 := by
      cases excl <;> simp <;> omega
    rw [this]
  have hlag : ∀ i, i < (if excl then v else 2 * v - 1) →
      IsLag l ((if excl then 0 else -(v : ℤ) + 1) + (i : ℤ)) := by
    intro i hi'
    apply hv.1
    cases excl
    · simp only [Bool.false_eq_true, if_false] at hi' ⊢
      rw [abs_lt]; constructor <;> omega
    · simp only [if_true] at hi' ⊢
      rw [abs_lt]; constructor <;> omega
  refine ⟨v, _, _, hv, hsel ℝ, hsel ℂ, ?_, by simp, ?_, ?_⟩
  · simp only [List.map_map]
    apply List.map_congr_left
    intro i _
    simp only [Function.comp_def, List.map_map]
    apply List.map_congr_left
    intro c _
    by_cases hc : c ∈ w'.indicesOf ((if excl then 0 else -(v : ℤ) + 1) + (i : ℤ)) <;> simp [hc]
  · intro row hrow
    obtain ⟨i, hi', rfl⟩ := List.mem_map.1 hrow
    rw [List.mem_range] at hi'
    have hpos := pairCount_pos.2 (hlag i hi')
    refine ⟨by simp [h.2.2], ?_, ?_⟩
    · rw [sum_map_range, sum_mem_indicesOf h2, weightOf_eq h2]
      rw [Finset.sum_const, ← pairCount, nsmul_eq_mul]
      field_simp
    · intro x hx
      obtain ⟨c, _, rfl⟩ := List.mem_map.1 hx
      split_ifs <;> positivity
  · intro R i hi'
    have hi2 : i < (if excl then v else 2 * v - 1) := by simpa using hi'
    have hmain : (List.zipWith (· * ·) (((List.range (if excl then v else 2 * v - 1)).map
        fun i : ℕ => (List.range (l.length ^ 2)).map fun c : ℕ =>
          if c ∈ w'.indicesOf ((if excl then 0 else -(v : ℤ) + 1) + (i : ℤ))
          then 1 / ((w'.weightOf ((if excl then 0 else -(v : ℤ) + 1) + (i : ℤ)) : ℕ) : ℂ)
          else 0)[i]) (vecF R)).sum =
        pairAverage l R ((if excl then 0 else -(v : ℤ) + 1) + i) := by
      rw [List.getElem_map, List.getElem_range]
      have hz : List.zipWith (· * ·) ((List.range (l.length ^ 2)).map fun c : ℕ =>
          if c ∈ w'.indicesOf ((if excl then 0 else -(v : ℤ) + 1) + (i : ℤ))
          then 1 / ((w'.weightOf ((if excl then 0 else -(v : ℤ) + 1) + (i : ℤ)) : ℕ) : ℂ)
          else 0) (vecF R) = (List.range (l.length ^ 2)).map fun c : ℕ =>
            if c ∈ w'.indicesOf ((if excl then 0 else -(v : ℤ) + 1) + (i : ℤ))
            then (vecF R).getD c 0 / (pairCount l ((if excl then 0 else -(v : ℤ) + 1) + (i : ℤ)) : ℂ)
            else 0 := by
        apply List.ext_getElem
        · simp [length_vecF, pow_two]
        · intro c hc1 hc2
          have hcv : c < (vecF R).length := by
            simp only [List.length_map, List.length_range] at hc2
            rw [length_vecF, ← pow_two]; exact hc2
          simp only [List.getElem_zipWith, List.getElem_map, List.getElem_range,
            List.getD_eq_getElem?_getD, List.getElem?_eq_getElem hcv, Option.getD_some,
            weightOf_eq h2]
          by_cases hc : c ∈ w'.indicesOf ((if excl then 0 else -(v : ℤ) + 1) + (i : ℤ))
          · rw [if_pos hc, if_pos hc]; ring
          · rw [if_neg hc, if_neg hc]; ring
      rw [hz, sum_map_range, sum_mem_indicesOf h2]
      unfold pairAverage
      rw [Finset.sum_div]
      apply Finset.sum_congr rfl
      rintro ⟨p, q⟩ _
      rw [getD_vecF]
    refine ⟨hmain, fun he => ?_⟩
    subst he
    rw [hmain, virtualObservation_eq hi.2.1]
    apply pairAverage_congr
    simp only [Bool.false_eq_true, if_false]; ring

theorem _root_.Doa.Spec.IsCentralSize.pos {l : List ℤ} {v : ℕ} (h : IsCentralSize l v) (hne : l ≠ []) : 0 < v := by
  rcases Nat.eq_zero_or_pos v with rfl | hv
  · refine absurd (fun d hd => ?_) h.2
    have hd0 : d = 0 := by
      rw [abs_lt] at hd
      push_cast at hd
      omega
    subst hd0
    obtain ⟨x, l', rfl⟩ := List.exists_cons_of_ne_nil hne
    exact ⟨⟨0, by simp⟩, ⟨0, by simp⟩, by simp⟩
  · exact hv

theorem _root_.Doa.Spec.IsCentralSize.empty {v : ℕ} (h : IsCentralSize [] v) : v = 0 := by
  by_contra hv
  obtain ⟨x, _⟩ := h.1 0 (by simp; omega)
  exact x.elim0

/-- **C28** ('da' and 'ss'). With `v` the central size: 'da' gives the Toeplitz matrix `T` whose
`(r, c)` entry is the average of `R` over the pairs with lag `r - c`, Hermitian if `R` is; 'ss'
gives `T Tᴴ / v`, Hermitian positive semidefinite for every `R`; other methods raise `ValueError`;
a matrix of the wrong size raises `ValueError`. (An array without elements: `C28_empty`.) -/
theorem C28_acm {a : GridArray} {l : List ℤ} (h : Is1DGrid a l) {w0 w : WeightFunction}
    (hw0 : WeightFunction.init a = .ok w0) (hr : WReach w0 w) (hne : l ≠ [])
    (R : Matrix (Fin l.length) (Fin l.length) ℂ) :
    ∃ (v : ℕ) (T S : Matrix (Fin v) (Fin v) ℂ), IsCentralSize l v ∧
      (acmTransform w R "da").1 = .ok ⟨v, T⟩ ∧
      (acmTransform w R "ss").1 = .ok ⟨v, S⟩ ∧
      (∀ r c, T r c = pairAverage l R ((r.1 : ℤ) - c.1)) ∧
      (R.IsHermitian → T.IsHermitian) ∧
      S = (1 / (v : ℂ)) • (T * Tᴴ) ∧ S.PosSemidef ∧
      (∀ method, method ≠ "ss" → method ≠ "da" →
        (acmTransform w R method).1 = .error .valueError) ∧
      ∀ (m : ℕ) (R' : Matrix (Fin m) (Fin m) ℂ) (method : String), m ≠ a.size →
        (acmTransform w R' method).1 = .error .valueError := by
  have hi := (WInv.init h hw0).reach hr
  obtain ⟨v, hv, hs1, hs2, _⟩ := C26_central h hw0 hr
  obtain ⟨h1, h2, h3, h4⟩ := hi.size false
  have hmv : (((w.centralUlaSize false).1 + 1) / 2).toNat = v := by rw [hs2]; omega
  have hmc : ¬ ((w.centralUlaSize false).1 < 0) := by
    have := hv.pos hne
    rw [hs2]; omega
  have hmne : ¬ (l.length ≠ w.m) := by simp [hi.1]
  have hss : ¬ ¬ (("ss" : String) = "ss" ∨ ("ss" : String) = "da") := by simp
  have hda : ¬ ¬ (("da" : String) = "ss" ∨ ("da" : String) = "da") := by simp
  have hdne : ¬ (("da" : String) = "ss") := by decide
  set z := virtualObservation (w.centralUlaSize false).2 v (vecF R) with hz
  have hzv : ∀ i, z i = pairAverage l R ((i : ℤ) - v + 1) := fun i =>
    virtualObservation_eq h2 v R i
  have hT : ∀ r c, augmentDA v z r c = pairAverage l R ((r.1 : ℤ) - c.1) := by
    intro r c
    rw [augmentDA, hzv]
    apply pairAverage_congr
    have := c.2; push_cast; omega
  have hS : augmentSS v z = (1 / (v : ℂ)) • (augmentDA v z * (augmentDA v z)ᴴ) := by
    ext r c
    simp only [augmentSS, Matrix.smul_apply, Matrix.mul_apply, Matrix.conjTranspose_apply,
      augmentDA, smul_eq_mul]
    rw [div_eq_mul_one_div, mul_comm]
    congr 1
    rw [← Equiv.sum_comp Fin.revPerm]
    apply Finset.sum_congr rfl
    intro k _
    have : (Fin.revPerm k).1 = v - 1 - k.1 := by
      simp [Fin.rev]; omega
    rw [this]; rfl
  refine ⟨v, augmentDA v z, augmentSS v z, hv, ?_, ?_, hT, ?_, hS, ?_, ?_, ?_⟩
  · unfold acmTransform
    simp only [hmne, if_false, hdne, hmc, false_or, not_true]
    rw [hmv]
  · unfold acmTransform
    simp only [hmne, if_false, hmc, if_true, true_or, not_true]
    rw [hmv]
  · intro hR
    ext r c
    rw [Matrix.conjTranspose_apply, hT, hT]
    have := pairAverage_conj l R hR ((c.1 : ℤ) - r.1)
    rw [Complex.star_def, ← this]
    apply pairAverage_congr; ring
  · rw [hS]
    apply Matrix.PosSemidef.smul (Matrix.posSemidef_self_mul_conjTranspose _)
    rw [one_div, Complex.le_def]
    rw [← Complex.ofReal_natCast, ← Complex.ofReal_inv]
    simp
  · intro method hm1 hm2
    simp [acmTransform, hm1, hm2, hi.1]
  · intro m R' method hm
    have : m ≠ w.m := by rw [hi.1, ← h.2.2]; exact hm
    simp [acmTransform, this]

/-- **C28** for an array without elements: its central coarray has size `2 * 0 - 1`, and every call
raises `ValueError`. -/
theorem C28_empty {a : GridArray} (h : Is1DGrid a []) {w0 w : WeightFunction}
    (hw0 : WeightFunction.init a = .ok w0) (hr : WReach w0 w) {m : ℕ} (R : Matrix (Fin m) (Fin m) ℂ)
    (method : String) : (acmTransform w R method).1 = .error .valueError := by
  obtain ⟨v, hv, hs1, hs2, _⟩ := C26_central h hw0 hr
  have hv0 : v = 0 := hv.empty
  have hmc : (w.centralUlaSize false).1 < 0 := by rw [hs2, hv0]; norm_num
  simp only [acmTransform, hmc, if_true]
  split_ifs <;> rfl

/-- Non-vacuity: there is a 1-D grid array with holes in its coarray. -/
theorem exampleGrid : ∃ a : GridArray, Is1DGrid a [0, 1, 4, 6] := by
  obtain ⟨a, ha⟩ := gridInit_ok_of (idx := Mat.col [0, 1, 4, 6]) (spec := .d0 (.scalar 1))
    (name := none) (kw := {}) (d := []) (by simp [GridArgsMatch]) rfl
  exact ⟨a, (gridInit_col ha).1⟩

example : ∃ (a : GridArray) (w : WeightFunction), Is1DGrid a [0, 1, 4, 6] ∧
    WeightFunction.init a = .ok w ∧ WReach w (w.centralUlaSize true).2 := by
  obtain ⟨a, ha⟩ := exampleGrid
  exact ⟨a, _, ha, weightFunction_init ha, .size true .refl⟩

/-- The guard of `WeightFunction1D` looks at the dimension of the locations, not at the number of
index columns: an array with a two-column index matrix and a `2 × 1` basis is accepted, and the
positions it hands out exceed `size^2 - 1` (discrepancy, see DESIGN.md). -/
theorem weightFunction_two_column_discrepancy :
    ∃ (a : GridArray) (w : WeightFunction),
      GridArray.init (uraIndices 1 2) (.bases ⟨1, [![1], ![2]]⟩) none {} = .ok a ∧
      WeightFunction.init a = .ok w ∧ ∃ d k, k ∈ w.indicesOf d ∧ a.size ^ 2 ≤ k := by
  obtain ⟨a, ha⟩ := gridInit_ok_of (idx := uraIndices 1 2) (spec := .bases ⟨1, [![1], ![2]]⟩)
    (name := none) (kw := {}) (d := []) ⟨rfl, by decide⟩ rfl
  obtain ⟨h1, h2, h3, h4, h5, h6, h7, h8, h9, h10⟩ := gridInit_spec ha
  simp only at h10
  have hd : ¬ (a.ndim ≠ 1) := by rw [h7, h10.1]; simp
  have hsz : a.size = 2 := by rw [h5]; decide
  have hok : ∃ w, WeightFunction.init a = .ok w ∧
      w.indexMap = buildMapLoop [] 0 (flatDifferences a.elementIndices) := by
    simp only [WeightFunction.init, hd, if_false]
    exact ⟨_, rfl, rfl⟩
  obtain ⟨w, hw, hwi⟩ := hok
  refine ⟨a, w, ha, hw, 0, 7, ?_, by rw [hsz]; decide⟩
  simp only [WeightFunction.indicesOf, hwi, h1]
  decide

end Doa.Props
