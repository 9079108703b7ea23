import Verif.Model.Coarray
import Verif.Spec.Coarray
import Verif.Spec.Arrays
import Verif.Lemmas.ListAux
import Mathlib.Tactic.Linarith

/-! Lemmas about array constructors. -/

namespace Doa

open Spec

theorem Mat.get?_eq_some {α : Type _} (M : Mat α) {i j : ℕ} (hi : i < M.nrows) (hj : j < M.ncols) :
    M.get? i j = some (M.rows[i] ⟨j, hj⟩) := by
  have hi' : i < M.rows.length := hi
  rw [Mat.get?, List.getElem?_eq_getElem hi', Option.bind_some, dif_pos hj]
  rfl

theorem Mat.at0_eq {α : Type _} [Zero α] (M : Mat α) {i j : ℕ} (hi : i < M.nrows)
    (hj : j < M.ncols) : M.at0 i j = M.rows[i] ⟨j, hj⟩ := by
  rw [Mat.at0, Mat.get?_eq_some M hi hj]; rfl

theorem Mat.at0_of_ge {α : Type _} [Zero α] (M : Mat α) {i j : ℕ} (hj : M.ncols ≤ j) :
    M.at0 i j = 0 := by
  rw [Mat.at0, Mat.get?]
  cases M.rows[i]? with
  | none => rfl
  | some r => rw [Option.bind_some, dif_neg (Nat.not_lt.2 hj)]; rfl

@[simp] theorem Mat.nrows_col {α : Type _} (l : List α) : (Mat.col l).nrows = l.length := by
  simp [Mat.col, Mat.nrows]

@[simp] theorem Mat.ncols_col {α : Type _} (l : List α) : (Mat.col l).ncols = 1 := rfl

theorem Mat.get?_col {α : Type _} (l : List α) (i : ℕ) : (Mat.col l).get? i 0 = l[i]? := by
  have h : ((Mat.col l).get? i 0) = ((l.map fun x (_ : Fin 1) => x)[i]?).bind fun r => some (r 0) := rfl
  rw [h, List.getElem?_map]
  cases l[i]? <;> rfl

@[simp] theorem Mat.nrows_map {α β : Type _} (f : α → β) (M : Mat α) :
    (M.map f).nrows = M.nrows := by simp [Mat.map, Mat.nrows]

@[simp] theorem Mat.ncols_map {α β : Type _} (f : α → β) (M : Mat α) :
    (M.map f).ncols = M.ncols := rfl

@[simp] theorem Mat.ncols_eyeMul {α : Type _} [MulZeroOneClass α] (d : List α) :
    (Mat.eyeMul d).ncols = d.length := rfl

@[simp] theorem Mat.nrows_eyeMul {α : Type _} [MulZeroOneClass α] (d : List α) :
    (Mat.eyeMul d).nrows = d.length := by simp [Mat.eyeMul, Mat.nrows]

theorem Mat.at0_eyeMul {α : Type _} [MulZeroOneClass α] (d : List α) (i j : ℕ) :
    (Mat.eyeMul d).at0 i j = if i = j then d.getD j 0 else 0 := by
  by_cases hj : j < d.length
  · by_cases hi : i < d.length
    · have h1 : i < (Mat.eyeMul d).nrows := by simpa using hi
      have h2 : j < (Mat.eyeMul d).ncols := by simpa using hj
      rw [Mat.at0_eq _ h1 h2]
      have e : (Mat.eyeMul d).rows[i] = fun j => (if (⟨i, hi⟩ : Fin d.length) = j then 1 else 0) * d[j] := by
        simp only [Mat.eyeMul, List.getElem_ofFn]
      rw [e]
      simp [Fin.ext_iff, hj]
    · have : (Mat.eyeMul d).at0 i j = 0 := by
        rw [Mat.at0, Mat.get?]
        rw [List.getElem?_eq_none (by simp [Mat.eyeMul]; omega)]; rfl
      rw [this, if_neg (by omega)]
  · rw [Mat.at0_of_ge _ (by simpa using hj)]
    by_cases h : i = j
    · simp [h, hj]
    · simp [h]

theorem Mat.at0_map {α β : Type _} [Zero α] [Zero β] (f : α → β) (hf : f 0 = 0) (M : Mat α)
    (i j : ℕ) : (M.map f).at0 i j = f (M.at0 i j) := by
  have h : (M.map f).get? i j = ((M.rows.map fun r (j : Fin M.ncols) => f (r j))[i]?).bind
      fun r => if h : j < M.ncols then some (r ⟨j, h⟩) else none := rfl
  rw [Mat.at0, h, Mat.at0, Mat.get?, List.getElem?_map]
  cases M.rows[i]? with
  | none => simp [hf]
  | some r =>
    by_cases h : j < M.ncols <;> simp [h, hf]

theorem Mat.matmul_spec {A B C : Mat ℝ} (h : A.matmul B = .ok C) :
    A.ncols = B.nrows ∧ C.nrows = A.nrows ∧ C.ncols = B.ncols ∧
    ∀ i j, i < A.nrows → j < B.ncols →
      C.get? i j = some (∑ k ∈ Finset.range A.ncols, A.at0 i k * B.at0 k j) := by
  rw [Mat.matmul] at h
  split at h
  · rename_i hh
    cases h
    refine ⟨hh, by simp [Mat.nrows], rfl, ?_⟩
    intro i j hi hj
    have hi' : i < A.rows.length := hi
    refine (Mat.get?_eq_some (⟨B.ncols, A.rows.map fun r j =>
      ∑ k : Fin A.ncols, r k * (B.rows[k.1]'(hh ▸ k.2 : k.1 < B.nrows)) j⟩ : Mat ℝ) (i := i) (j := j)
      (by simpa [Mat.nrows] using hi') hj).trans ?_
    congr 1
    refine (congrFun (List.getElem_map _) _).trans ?_
    refine Eq.trans ?_ (Finset.sum_range _).symm
    apply Finset.sum_congr rfl
    intro k _
    rw [Mat.at0_eq A hi k.2, Mat.at0_eq B (i := k.1) (j := j) (by rw [← hh]; exact k.2) hj]
    rfl
  · cases h

/-- Everything a successful `GridBasedArrayDesign` constructor call establishes. -/
theorem gridInit_spec {idx : Mat ℤ} {spec : GridSpec} {name : Option String} {kw : Kwargs}
    {a : GridArray} (h : GridArray.init idx spec name kw = .ok a) :
    a.elementIndices = idx ∧ a.name = name ∧ a.element = kw.element ∧
    addPerturbations idx.nrows kw.element true [] kw.perturbations = .ok a.perts ∧
    a.size = idx.nrows ∧ idx.ncols = a.bases.nrows ∧ a.ndim = a.bases.ncols ∧ a.ndim ≤ 3 ∧
    (∀ i j, i < idx.nrows → j < a.ndim →
      a.locations.get? i j =
        some (∑ k ∈ Finset.range idx.ncols, (idx.at0 i k : ℝ) * a.bases.at0 k j)) ∧
    (match spec with
      | .d0 (.scalar x) => a.d0 = List.replicate idx.ncols x ∧ a.bases = Mat.eyeMul a.d0
      | .d0 (.vec l) => a.d0 = l ∧ a.bases = Mat.eyeMul l ∧ l.length = idx.ncols
      | .d0 .nd => False
      | .bases B => a.bases = B ∧ a.d0 = rowNorms B) := by
  have key : ∀ (B : Mat ℝ) (d0 : List ℝ),
      (match (idx.map (fun z : ℤ => (z : ℝ))).matmul B with
        | .error e => (.error e : Res GridArray)
        | .ok L =>
          match ArrayDesign.init (.mat L) name kw with
          | .error e => .error e
          | .ok a => .ok { toArrayDesign := a, elementIndices := idx, bases := B, d0 := d0 })
        = .ok a →
      a.elementIndices = idx ∧ a.name = name ∧ a.element = kw.element ∧
      addPerturbations idx.nrows kw.element true [] kw.perturbations = .ok a.perts ∧
      a.size = idx.nrows ∧ idx.ncols = a.bases.nrows ∧ a.ndim = a.bases.ncols ∧ a.ndim ≤ 3 ∧
      (∀ i j, i < idx.nrows → j < a.ndim →
        a.locations.get? i j =
          some (∑ k ∈ Finset.range idx.ncols, (idx.at0 i k : ℝ) * a.bases.at0 k j)) ∧
      a.bases = B ∧ a.d0 = d0 := by
    intro B d0 hb
    split at hb
    · cases hb
    · rename_i L hL
      obtain ⟨hm1, hm2, hm3, hm4⟩ := Mat.matmul_spec hL
      simp only [ArrayDesign.init] at hb
      by_cases hc : L.ncols > 3
      · simp [hc] at hb
      · simp only [hc, if_false] at hb
        cases hd : addPerturbations L.nrows kw.element true [] kw.perturbations with
        | error e => simp [hd] at hb
        | ok d =>
          simp only [hd] at hb
          cases hb
          simp only [Mat.nrows_map, Mat.ncols_map] at hm1 hm2 hm3 hm4
          refine ⟨rfl, rfl, rfl, by rw [← hm2]; exact hd, hm2, hm1, hm3, by
            simp only [ArrayDesign.ndim]; omega, ?_, rfl, rfl⟩
          intro i j hi hj
          rw [hm4 i j hi (by rw [← hm3]; exact hj)]
          congr 1
          apply Finset.sum_congr rfl
          intro k _
          rw [Mat.at0_map _ (by simp)]
  unfold GridArray.init at h
  cases spec with
  | d0 x =>
    cases x with
    | scalar x =>
      simp only [List.length_replicate, lt_irrefl, if_false] at h
      obtain ⟨h1, h2, h3, h4, h5, h6, h7, h8, h9, h10, h11⟩ := key _ _ h
      exact ⟨h1, h2, h3, h4, h5, h6, h7, h8, h9, h11, by rw [h10, h11]⟩
    | vec l =>
      simp only at h
      by_cases hc : idx.ncols < l.length
      · simp [hc] at h
      · simp only [hc, if_false] at h
        obtain ⟨h1, h2, h3, h4, h5, h6, h7, h8, h9, h10, h11⟩ := key _ _ h
        exact ⟨h1, h2, h3, h4, h5, h6, h7, h8, h9, h11, h10, by rw [h6, h10]; simp⟩
    | nd => simp at h
  | bases B =>
    simp only at h
    by_cases hc : idx.ncols ≠ B.nrows
    · simp [hc] at h
    · simp only [hc, if_false] at h
      obtain ⟨h1, h2, h3, h4, h5, h6, h7, h8, h9, h10, h11⟩ := key _ _ h
      exact ⟨h1, h2, h3, h4, h5, h6, h7, h8, h9, h10, h11⟩

/-- Column sums against a diagonal basis. -/
theorem sum_eyeMul (f : ℕ → ℝ) (l : List ℝ) (n j : ℕ) (hn : n = l.length) (hj : j < n) :
    (∑ k ∈ Finset.range n, f k * (Mat.eyeMul l).at0 k j) = f j * l.getD j 0 := by
  rw [Finset.sum_eq_single j]
  · rw [Mat.at0_eyeMul, if_pos rfl]
  · intro b _ hb; rw [Mat.at0_eyeMul, if_neg hb, mul_zero]
  · intro h; exact absurd (Finset.mem_range.2 hj) h

/-- 1-D grid arrays built from one index column with a scalar spacing. -/
theorem gridInit_col {l : List ℤ} {x : ℝ} {name : Option String} {kw : Kwargs} {a : GridArray}
    (h : GridArray.init (Mat.col l) (.d0 (.scalar x)) name kw = .ok a) :
    Is1DGrid a l ∧ a.d0 = [x] ∧
    ∀ i (hi : i < l.length), a.locations.get? i 0 = some ((l[i] : ℝ) * x) := by
  obtain ⟨h1, h2, h3, h4, h5, h6, h7, h8, h9, h10, h11⟩ := gridInit_spec h
  have hd : a.d0 = [x] := by rw [h10]; simp [List.replicate]
  have hb : a.bases.ncols = 1 := by rw [h11, Mat.ncols_eyeMul, hd]; rfl
  refine ⟨⟨h1, by rw [h7, hb], by rw [h5, Mat.nrows_col]⟩, hd, ?_⟩
  intro i hi
  rw [h9 i 0 (by simpa using hi) (by rw [h7, hb]; omega), h11, hd,
    sum_eyeMul (fun k => ((Mat.col l).at0 i k : ℝ)) [x] _ 0 (by simp) (by simp)]
  have : (Mat.col l).at0 i 0 = l[i] := by
    rw [Mat.at0, Mat.get?_col, List.getElem?_eq_getElem hi]; rfl
  simp [this]

theorem addPerturbations_nil (n : ℕ) (e : Element) (b : Bool) (d : PDict) :
    addPerturbations n e b d [] = .ok d := rfl

theorem gridInit_build_ok (idx : Mat ℤ) (B : Mat ℝ) (d0 : List ℝ) (name : Option String)
    (kw : Kwargs) (d : PDict) (h1 : idx.ncols = B.nrows) (h2 : B.ncols ≤ 3)
    (hd : addPerturbations idx.nrows kw.element true [] kw.perturbations = .ok d) :
    ∃ a, (match (idx.map (fun z : ℤ => (z : ℝ))).matmul B with
        | .error e => (.error e : Res GridArray)
        | .ok L =>
          match ArrayDesign.init (.mat L) name kw with
          | .error e => .error e
          | .ok a => .ok { toArrayDesign := a, elementIndices := idx, bases := B, d0 := d0 })
        = .ok a := by
  have hm : ∃ L, (idx.map (fun z : ℤ => (z : ℝ))).matmul B = .ok L := by
    rw [Mat.matmul, dif_pos (by simpa using h1)]; exact ⟨_, rfl⟩
  obtain ⟨L, hL⟩ := hm
  obtain ⟨hm1, hm2, hm3, hm4⟩ := Mat.matmul_spec hL
  rw [hL]
  have hn : ¬ L.ncols > 3 := by omega
  rw [Mat.nrows_map] at hm2
  simp only [ArrayDesign.init, hn, if_false, hm2, hd]
  exact ⟨_, rfl⟩

theorem gridInit_ok_of {idx : Mat ℤ} {spec : GridSpec} {name : Option String} {kw : Kwargs}
    {d : PDict} (h : GridArgsMatch idx spec)
    (hd : addPerturbations idx.nrows kw.element true [] kw.perturbations = .ok d) :
    ∃ a, GridArray.init idx spec name kw = .ok a := by
  cases spec with
  | d0 x =>
    cases x with
    | scalar x =>
      simp only [GridArray.init, List.length_replicate, lt_irrefl, if_false]
      exact gridInit_build_ok idx _ _ name kw d (by simp) (by rw [Mat.ncols_eyeMul, List.length_replicate]; exact h) hd
    | vec l =>
      obtain ⟨h1, h2⟩ := h
      have : ¬ idx.ncols < l.length := by omega
      simp only [GridArray.init, this, if_false]
      exact gridInit_build_ok idx _ _ name kw d (by simp [h1]) (by simp [h1, h2]) hd
    | nd => exact h.elim
  | bases B =>
    obtain ⟨h1, h2⟩ := h
    have : ¬ idx.ncols ≠ B.nrows := by simp [h1]
    simp only [GridArray.init, this, if_false]
    exact gridInit_build_ok idx _ _ name kw d h1.symm h2 hd

theorem gridArgsMatch_of_ok {idx : Mat ℤ} {spec : GridSpec} {name : Option String} {kw : Kwargs}
    {a : GridArray} (h : GridArray.init idx spec name kw = .ok a) : GridArgsMatch idx spec := by
  obtain ⟨h1, h2, h3, h4, h5, h6, h7, h8, h9, h10⟩ := gridInit_spec h
  cases spec with
  | d0 x =>
    cases x with
    | scalar x =>
      simp only at h10
      have : idx.ncols = a.ndim := by rw [h7, h10.2, Mat.ncols_eyeMul, h10.1]; simp
      simp only [GridArgsMatch]; omega
    | vec l =>
      simp only at h10
      have : l.length = a.ndim := by rw [h7, h10.2.1, Mat.ncols_eyeMul]
      simp only [GridArgsMatch]; omega
    | nd => exact h10
  | bases B =>
    simp only at h10
    rw [h10.1] at h6 h7
    exact ⟨h6.symm, by rw [← h7]; exact h8⟩

/-- The only exception caused by the grid arguments is `ValueError`. -/
theorem gridInit_error {idx : Mat ℤ} {spec : GridSpec} {name : Option String} {kw : Kwargs}
    (h : ¬ GridArgsMatch idx spec) : GridArray.init idx spec name kw = .error .valueError := by
  have key : ∀ (B : Mat ℝ) (d0 : List ℝ), ¬ (idx.ncols = B.nrows ∧ B.ncols ≤ 3) →
      (match (idx.map (fun z : ℤ => (z : ℝ))).matmul B with
        | .error e => (.error e : Res GridArray)
        | .ok L =>
          match ArrayDesign.init (.mat L) name kw with
          | .error e => .error e
          | .ok a => .ok { toArrayDesign := a, elementIndices := idx, bases := B, d0 := d0 })
        = .error .valueError := by
    intro B d0 hn
    by_cases h1 : idx.ncols = B.nrows
    · have hm : ∃ L, (idx.map (fun z : ℤ => (z : ℝ))).matmul B = .ok L := by
        rw [Mat.matmul, dif_pos (by simpa using h1)]; exact ⟨_, rfl⟩
      obtain ⟨L, hL⟩ := hm
      obtain ⟨_, _, hm3, _⟩ := Mat.matmul_spec hL
      rw [hL]
      have hn : L.ncols > 3 := by
        by_contra hc; exact hn ⟨h1, by omega⟩
      simp [ArrayDesign.init, hn]
    · rw [Mat.matmul, dif_neg (by simpa using h1)]
  cases spec with
  | d0 x =>
    cases x with
    | scalar x =>
      simp only [GridArray.init, List.length_replicate, lt_irrefl, if_false]
      exact key _ _ (by simpa [GridArgsMatch] using h)
    | vec l =>
      simp only [GridArray.init]
      by_cases hc : idx.ncols < l.length
      · simp [hc]
      · simp only [hc, if_false]
        apply key
        rintro ⟨h1, h2⟩
        simp only [Mat.nrows_eyeMul, Mat.ncols_eyeMul] at h1 h2
        exact h ⟨h1.symm, by omega⟩
    | nd => rfl
  | bases B =>
    simp only [GridArray.init]
    by_cases hc : idx.ncols ≠ B.nrows
    · simp [hc]
    · simp only [hc, if_false]
      apply key
      rintro ⟨h1, h2⟩
      exact h ⟨h1.symm, h2⟩

end Doa
