import Verif.Props.Geometry

/-!
# C02, C03, C05, C08: element positions, stored attributes and names

`Props/Geometry.lean` proves the structure of the coarrays; here are the physical positions of the
elements and the attributes (`element_indices`, `bases`, `d0`, `name`) a created array reports.
-/

namespace Doa.Props

open Doa Doa.Spec

/-! ## Positions -/

/-- **C02** (positions). The first `n1` elements of a nested array are at `i * d0`, the other `n2`
at `((j + 1) (n1 + 1) - 1) * d0`. -/
theorem C02_nested_positions (n1 n2 : ℕ) (x : ℝ) (name : Option String) (kw : Kwargs) (a : GridArray)
    (h : nested n1 n2 (.scalar x) name kw = .ok a) :
    a.size = n1 + n2 ∧ a.ndim = 1 ∧
    (∀ i, i < n1 → a.locations.get? i 0 = some ((i : ℝ) * x)) ∧
    ∀ j, j < n2 → a.locations.get? (n1 + j) 0 = some ((((j : ℝ) + 1) * ((n1 : ℝ) + 1) - 1) * x) := by
  obtain ⟨⟨h1, h2, h3⟩, h4, h5⟩ := gridInit_col h
  refine ⟨by rw [h3]; simp [nestedIndices], h2, fun i hi => ?_, fun j hj => ?_⟩
  · rw [h5 i (by simp [nestedIndices]; omega)]
    simp [nestedIndices, List.getElem_append, hi]
  · rw [h5 (n1 + j) (by simp [nestedIndices]; omega)]
    simp [nestedIndices, List.getElem_append]

/-- **C03** (positions). With `m' = min m n` and `n' = max m n`, a co-prime array has its first `n'`
elements at `i m' d0` and the others at `(j + 1) n' d0`: `2m' - 1` of them in mode '2m', `m' - 1` in
mode 'm'. -/
theorem C03_coprime_positions (m n : ℕ) (x : ℝ) (mode : String) (name : Option String) (kw : Kwargs)
    (a : GridArray) (h : coprime m n (.scalar x) mode name kw = .ok a) :
    a.ndim = 1 ∧
    (∀ i, i < max m n → a.locations.get? i 0 = some (((i : ℝ) * (min m n : ℕ)) * x)) ∧
    ∀ j, j < (if mode.toLower = "2m" then 2 * min m n - 1 else min m n - 1) →
      a.locations.get? (max m n + j) 0 = some ((((j : ℝ) + 1) * (max m n : ℕ)) * x) := by
  have e1 : (if m > n then n else m) = min m n := by
    rw [Nat.min_def]; split <;> split <;> omega
  have e2 : (if m > n then m else n) = max m n := by
    rw [Nat.max_def]; split <;> split <;> omega
  have key : ∀ r : ℕ, ∀ name', GridArray.init (Mat.col ((List.range (max m n)).map (fun i : ℕ => (i : ℤ) * ((min m n : ℕ) : ℤ)) ++
        (List.range r).map (fun i : ℕ => ((i : ℤ) + 1) * ((max m n : ℕ) : ℤ)))) (.d0 (.scalar x)) name' kw = .ok a →
      a.ndim = 1 ∧ (∀ i, i < max m n → a.locations.get? i 0 = some (((i : ℝ) * (min m n : ℕ)) * x)) ∧
      ∀ j, j < r → a.locations.get? (max m n + j) 0 = some ((((j : ℝ) + 1) * (max m n : ℕ)) * x) := by
    intro r name' h
    obtain ⟨⟨h1, h2, h3⟩, h4, h5⟩ := gridInit_col h
    refine ⟨h2, fun i hi => ?_, fun j hj => ?_⟩
    · rw [h5 i (by rw [List.length_append, List.length_map, List.length_range]; omega)]
      rw [List.getElem_append_left (by rwa [List.length_map, List.length_range])]
      simp
    · rw [h5 (max m n + j) (by rw [List.length_append, List.length_map, List.length_range, List.length_map, List.length_range]; omega)]
      rw [List.getElem_append_right (by rw [List.length_map, List.length_range]; omega)]
      simp
  unfold coprime coprimeIndices at h
  simp only [e1, e2] at h
  by_cases hg : Nat.gcd (min m n) (max m n) = 1
  · simp only [hg, ne_eq, not_true, if_false] at h
    by_cases h2 : mode.toLower = "2m"
    · simp only [h2, if_true] at h ⊢
      exact key _ _ h
    · simp only [h2, if_false] at h ⊢
      by_cases h3 : mode.toLower = "m"
      · simp only [h3, if_true] at h
        exact key _ _ h
      · simp [h3] at h
  · simp [hg] at h

/-- **C05** (positions). The elements of a minimum-redundancy array sit at the tabulated positions
times `d0`; the table starts at `0` and is strictly increasing, so the aperture is its last entry. -/
theorem C05_mrla_positions (n : ℤ) (x : ℝ) (name : Option String) (kw : Kwargs) (a : GridArray)
    (h : mrla n (.scalar x) name kw = .ok a) :
    ∃ l, Is1DGrid a l ∧ l[0]? = some 0 ∧ l.Pairwise (· < ·) ∧
      ∀ (i : ℕ) (e : ℤ), l[i]? = some e → a.locations.get? i 0 = some ((e : ℝ) * x) := by
  unfold mrla at h
  cases hidx : mrlaIndices n with
  | error e => rw [hidx] at h; cases h
  | ok l =>
    rw [hidx] at h
    obtain ⟨hg, -, h5⟩ := gridInit_col h
    have ht : ∀ l ∈ mrlaPresets, l[0]? = some 0 ∧ l.Pairwise (· < ·) := by decide +kernel
    have hmem : l ∈ mrlaPresets := by
      unfold mrlaIndices at hidx
      split at hidx
      · cases hidx
      · split at hidx
        · rename_i l' hl'
          cases hidx
          exact List.mem_of_getElem? hl'
        · cases hidx
    refine ⟨l, hg, (ht l hmem).1, (ht l hmem).2, fun i e hi => ?_⟩
    obtain ⟨hlt, rfl⟩ := List.getElem?_eq_some_iff.1 hi
    exact h5 i hlt

example : ∃ a, nested 3 4 (.scalar (1 / 2)) none {} = .ok a ∧ a.locations.get? 4 0 = some (7 / 2) := by
  obtain ⟨a, ha⟩ := nested_ok 3 4 (1 / 2) none
  refine ⟨a, ha, ?_⟩
  rw [(C02_nested_positions 3 4 _ _ _ a ha).2.2.2 1 (by norm_num)]
  norm_num

/-! ## Attributes -/

/-- The spacing reported for a basis vector: its Euclidean length. -/
noncomputable def basisLength (spec : GridSpec) (d k : ℕ) : ℝ :=
  Real.sqrt (∑ j ∈ Finset.range d, basisCoord spec k j ^ 2)

theorem rowNorms_get (B : Mat ℝ) (k : ℕ) (hk : k < B.nrows) :
    (rowNorms B)[k]? = some (Real.sqrt (∑ j ∈ Finset.range B.ncols, B.at0 k j ^ 2)) := by
  have hk' : k < B.rows.length := hk
  rw [rowNorms, List.getElem?_map, List.getElem?_eq_getElem hk', Option.map_some]
  congr 2
  rw [Finset.sum_range]
  refine Finset.sum_congr rfl fun j _ => ?_
  rw [Mat.at0, Mat.get?, List.getElem?_eq_getElem hk']
  simp

/-- **C08** (attributes). A created array stores the element indices it was given; its `bases` are
the basis vectors described by the arguments; `d0` has one entry per basis vector: the given
spacing (a scalar is repeated) or, for explicit bases, the Euclidean length of the basis vector. -/
theorem C08_attributes (idx : Mat ℤ) (spec : GridSpec) (name : Option String) (kw : Kwargs)
    (a : GridArray) (h : GridArray.init idx spec name kw = .ok a) :
    a.elementIndices = idx ∧ a.element = kw.element ∧ a.name = name ∧
    a.bases.nrows = idx.ncols ∧ a.bases.ncols = a.ndim ∧ a.d0.length = idx.ncols ∧
    (∀ k j, k < idx.ncols → j < a.ndim → a.bases.at0 k j = basisCoord spec k j) ∧
    ∀ k, k < idx.ncols → a.d0[k]? = match spec with
      | .d0 (.scalar x) => some x
      | .d0 (.vec l) => l[k]?
      | .d0 .nd => none
      | .bases _ => some (basisLength spec a.ndim k) := by
  obtain ⟨h1, h2, h3, h4, h5, h6, h7, h8, h9, h10⟩ := gridInit_spec h
  cases spec with
  | d0 x =>
    cases x with
    | scalar x =>
      simp only at h10
      refine ⟨h1, h3, h2, h6.symm, h7.symm, by rw [h10.1]; simp, fun k j hk hj => ?_, fun k hk => ?_⟩
      · rw [h10.2, Mat.at0_eyeMul, basisCoord]
        by_cases hkj : k = j
        · subst hkj; simp [h10.1, hk]
        · simp [hkj]
      · simp [h10.1, hk]
    | vec l =>
      simp only at h10
      refine ⟨h1, h3, h2, h6.symm, h7.symm, by rw [h10.1, h10.2.2], fun k j hk hj => ?_, fun k hk => ?_⟩
      · rw [h10.2.1, Mat.at0_eyeMul, basisCoord]
        by_cases hkj : k = j
        · subst hkj; rfl
        · simp [hkj]
      · simp [h10.1]
    | nd => exact h10.elim
  | bases B =>
    simp only at h10
    have hn : B.nrows = idx.ncols := by rw [h6, h10.1]
    have hc : B.ncols = a.ndim := by rw [h7, h10.1]
    refine ⟨h1, h3, h2, h6.symm, h7.symm, ?_, fun k j hk hj => by rw [h10.1]; rfl, fun k hk => ?_⟩
    · rw [h10.2, rowNorms, List.length_map]; exact hn
    · show a.d0[k]? = some (basisLength (.bases B) a.ndim k)
      rw [h10.2, rowNorms_get B k (by rw [hn]; exact hk), basisLength, hc]
      rfl

/-- **C08** (names). A given name is kept; without one the array is named after its design and the
numbers the constructor was called with. -/
theorem C08_names (name : Option String) (kw : Kwargs) (x : D0Arg) (r : ℝ) (m n : ℕ) (z : ℤ) (mode : String) :
    (∀ a, ula n x name kw = .ok a → a.name = some (name.getD s!"ULA {n}")) ∧
    (∀ a, nested m n x name kw = .ok a → a.name = some (name.getD s!"Nested ({m},{n})")) ∧
    (∀ a, coprime m n x mode name kw = .ok a → a.name = some (name.getD s!"Co-prime ({m},{n})")) ∧
    (∀ a, mrla z x name kw = .ok a → a.name = some (name.getD s!"MRLA {z}")) ∧
    (∀ a, uca n r name kw = .ok a → a.name = some (name.getD s!"UCA {n}")) ∧
    ∀ a, ura m n x name kw = .ok a → a.name = some (name.getD s!"URA {m}x{n}") := by
  refine ⟨fun a h => ?_, fun a h => ?_, fun a h => ?_, fun a h => ?_, fun a h => ?_, fun a h => ?_⟩
  · exact (gridInit_spec h).2.1
  · rw [(gridInit_spec h).2.1]; simp [toString, String.append_assoc]
  · unfold coprime at h
    split at h
    · cases h
    · rw [(gridInit_spec h).2.1]; simp [toString, String.append_assoc]
  · unfold mrla at h
    split at h
    · cases h
    · rw [(gridInit_spec h).2.1]; simp [toString]
  · by_cases hn : n = 0
    · simp [uca, hn] at h
    · rw [uca_locations n hn] at h
      cases h; simp [toString]
  · rw [(gridInit_spec h).2.1]; simp [toString, String.append_assoc]

example : ∃ a, GridArray.init (uraIndices 2 3) (.bases ⟨3, [![3, 4, 0], ![0, 1, 1]]⟩) none {} = .ok a ∧ a.d0[0]? = some 5 := by
  obtain ⟨a, ha⟩ := ((C08_errors (uraIndices 2 3) (.bases ⟨3, [![3, 4, 0], ![0, 1, 1]]⟩) none .isotropicScalar).1).2 ⟨rfl, by decide⟩
  refine ⟨a, ha, ?_⟩
  obtain ⟨-, -, -, -, -, -, -, h8⟩ := C08_attributes _ _ _ _ a ha
  have hd : a.ndim = 3 := (C08_placement _ _ _ _ a ha).2.1
  rw [h8 0 (by decide)]
  simp only [basisLength, hd]
  congr 1
  have : ∑ j ∈ Finset.range 3, basisCoord (.bases ⟨3, [![3, 4, 0], ![0, 1, 1]]⟩) 0 j ^ 2 = 5 ^ 2 := by
    simp [Finset.sum_range_succ, basisCoord, Mat.at0, Mat.get?]
    norm_num
  rw [this, Real.sqrt_sq (by norm_num)]

end Doa.Props
