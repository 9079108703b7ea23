import Verif.Model.Coarray
import Verif.Spec.Coarray
import Verif.Lemmas.ListAux

/-! Lemmas about the coarray model. -/

namespace Doa

open ListAux Spec

theorem buildMapLoop_get? (xs : List ℤ) (x : ℤ) : ∀ (d : PyDict ℤ (List ℕ)) (i : ℕ),
    (buildMapLoop d i xs).get? x =
      if d.get? x = none ∧ x ∉ xs then none
      else some ((d.get? x).getD [] ++ posFrom i xs x) := by
  induction xs with
  | nil =>
    intro d i
    cases h : d.get? x <;> simp [buildMapLoop, posFrom, h]
  | cons y ys ih =>
    intro d i
    simp only [buildMapLoop]
    cases hy : d.get? y with
    | none =>
      simp only [ih, PyDict.get?_set]
      by_cases hx : x = y
      · subst hx; simp [posFrom, hy]
      · have : ¬ y = x := fun e => hx e.symm
        simp [hx, posFrom, this]
    | some l =>
      simp only [ih, PyDict.get?_set]
      by_cases hx : x = y
      · subst hx; simp [posFrom, hy]
      · have : ¬ y = x := fun e => hx e.symm
        simp [hx, posFrom, this]

theorem buildMapLoop_nodup (xs : List ℤ) : ∀ (d : PyDict ℤ (List ℕ)) (i : ℕ),
    (PyDict.keys d).Nodup → (PyDict.keys (buildMapLoop d i xs)).Nodup := by
  induction xs with
  | nil => intro d i h; simpa [buildMapLoop] using h
  | cons y ys ih =>
    intro d i h
    simp only [buildMapLoop]
    split <;> exact ih _ _ (PyDict.nodup_keys_set _ _ _ h)

theorem buildMap_get? (xs : List ℤ) (x : ℤ) :
    (buildMapLoop [] 0 xs).get? x = if x ∈ xs then some (posFrom 0 xs x) else none := by
  rw [buildMapLoop_get?]; by_cases h : x ∈ xs <;> simp [h]

theorem mem_buildMap_keys (xs : List ℤ) (x : ℤ) :
    x ∈ (buildMapLoop [] 0 xs).keys ↔ x ∈ xs := by
  rw [← PyDict.get?_isSome_iff, buildMap_get?]; by_cases h : x ∈ xs <;> simp [h]

theorem length_locationDifferences {α : Type _} [Sub α] (l : List α) :
    (locationDifferences l).length = l.length ^ 2 := by
  rw [locationDifferences, length_flatMap_uniform _ l.length l (by simp), pow_two]

theorem getElem?_locationDifferences {α : Type _} [Sub α] (l : List α) (i j : ℕ)
    (hi : i < l.length) (hj : j < l.length) :
    (locationDifferences l)[i + j * l.length]? = some (l[i] - l[j]) := by
  rw [Nat.add_comm, locationDifferences,
    getElem?_flatMap_uniform _ l.length l (by simp) j i hi]
  simp [hi, hj]

theorem flatDifferences_col (l : List ℤ) :
    flatDifferences (Mat.col l) = locationDifferences l := by
  have h : ∀ (L : List (Fin 1 → ℤ)), (L.flatMap fun r => List.ofFn r) = L.map fun r => r 0 := by
    intro L
    induction L with
    | nil => rfl
    | cons r L ih => rw [List.flatMap_cons, ih]; simp
  have h2 := h (locationDifferences (Mat.col l).rows)
  rw [flatDifferences]
  refine Eq.trans h2 ?_
  simp only [locationDifferences, Mat.col, List.map_flatMap, List.map_map, List.flatMap_map]
  rfl

theorem getElem?_locationDifferences_inv {α : Type _} [Sub α] (l : List α) (k : ℕ) (x : α)
    (h : (locationDifferences l)[k]? = some x) :
    ∃ i j : Fin l.length, k = i.1 + j.1 * l.length ∧ l[i] - l[j] = x := by
  have hk : k < (locationDifferences l).length := by
    by_contra hc
    rw [List.getElem?_eq_none (by omega)] at h; cases h
  rw [length_locationDifferences] at hk
  have hm : 0 < l.length := by
    rcases Nat.eq_zero_or_pos l.length with h0 | h0
    · simp [h0] at hk
    · exact h0
  have h1 : k % l.length < l.length := Nat.mod_lt _ hm
  have h2 : k / l.length < l.length := by
    rw [Nat.div_lt_iff_lt_mul hm, ← pow_two]; exact hk
  refine ⟨⟨k % l.length, h1⟩, ⟨k / l.length, h2⟩, ?_, ?_⟩
  · simp only; rw [Nat.mul_comm]; exact (Nat.mod_add_div k l.length).symm
  · have e : k = k % l.length + (k / l.length) * l.length := by
      rw [Nat.mul_comm]; exact (Nat.mod_add_div k l.length).symm
    have := getElem?_locationDifferences l _ _ h1 h2
    rw [← e, h] at this
    exact (Option.some.inj this).symm

theorem mem_locationDifferences (l : List ℤ) (d : ℤ) :
    d ∈ locationDifferences l ↔ IsLag l d := by
  constructor
  · intro h
    obtain ⟨k, hk⟩ := List.mem_iff_getElem?.1 h
    obtain ⟨i, j, _, h2⟩ := getElem?_locationDifferences_inv l k d hk
    exact ⟨i, j, h2⟩
  · rintro ⟨i, j, h⟩
    rw [List.mem_iff_getElem?]
    refine ⟨i.1 + j.1 * l.length, ?_⟩
    rw [getElem?_locationDifferences l i.1 j.1 i.2 j.2]; exact congrArg some h

theorem Spec.IsLag.neg {l : List ℤ} {d : ℤ} (h : IsLag l d) : IsLag l (-d) := by
  obtain ⟨i, j, h⟩ := h
  exact ⟨j, i, by omega⟩

/-- The weight function object built for a 1-D grid array. -/
theorem weightFunction_init {a : GridArray} {l : List ℤ} (h : Is1DGrid a l) :
    WeightFunction.init a = .ok
      { m := l.length, mv := none, indexMap := buildMapLoop [] 0 (locationDifferences l),
        differences := (buildMapLoop [] 0 (locationDifferences l)).keys.mergeSort
          (fun x y => decide (x ≤ y)) } := by
  obtain ⟨h1, h2, h3⟩ := h
  simp [WeightFunction.init, h2, h1, h3, flatDifferences_col]

theorem indicesOf_eq {w : WeightFunction} {l : List ℤ}
    (hw : w.indexMap = buildMapLoop [] 0 (locationDifferences l)) (d : ℤ) :
    w.indicesOf d = posFrom 0 (locationDifferences l) d := by
  rw [WeightFunction.indicesOf, hw, buildMap_get?]
  by_cases h : d ∈ locationDifferences l
  · simp [h]
  · simp [h, (posFrom_eq_nil _ _ 0).2 h]

theorem weightOf_eq_length {w : WeightFunction} (d : ℤ) :
    w.weightOf d = (w.indicesOf d).length := by
  rw [WeightFunction.weightOf, WeightFunction.indicesOf]
  cases w.indexMap.get? d <;> rfl

theorem mem_indicesOf {w : WeightFunction} {l : List ℤ}
    (hw : w.indexMap = buildMapLoop [] 0 (locationDifferences l)) (d : ℤ) (k : ℕ) :
    k ∈ w.indicesOf d ↔
      ∃ i j : Fin l.length, k = i.1 + j.1 * l.length ∧ l[i] - l[j] = d := by
  rw [indicesOf_eq hw, mem_posFrom]
  simp only [Nat.zero_le, true_and, Nat.sub_zero]
  constructor
  · exact getElem?_locationDifferences_inv l k d
  · rintro ⟨i, j, rfl, h⟩
    rw [getElem?_locationDifferences l i.1 j.1 i.2 j.2]; exact congrArg some h

theorem indicesOf_sorted {w : WeightFunction} {l : List ℤ}
    (hw : w.indexMap = buildMapLoop [] 0 (locationDifferences l)) (d : ℤ) :
    (w.indicesOf d).Pairwise (· < ·) := by
  rw [indicesOf_eq hw]; exact posFrom_pairwise _ _ _

/-- `indices_of(d)` as a finset is the image of the pairs. -/
theorem indicesOf_toFinset {w : WeightFunction} {l : List ℤ}
    (hw : w.indexMap = buildMapLoop [] 0 (locationDifferences l)) (d : ℤ) :
    (w.indicesOf d).toFinset = (pairs l d).image fun p => p.1.1 + p.2.1 * l.length := by
  ext k
  rw [List.mem_toFinset, mem_indicesOf hw]
  simp only [Finset.mem_image, pairs, Finset.mem_filter, Finset.mem_univ, true_and, Prod.exists]
  constructor
  · rintro ⟨i, j, h1, h2⟩; exact ⟨i, j, h2, h1.symm⟩
  · rintro ⟨i, j, h1, h2⟩; exact ⟨i, j, h2.symm, h1⟩

theorem pairIndex_injective (m : ℕ) :
    Function.Injective fun p : Fin m × Fin m => p.1.1 + p.2.1 * m := by
  rintro ⟨a, b⟩ ⟨c, d⟩ h
  simp only at h
  have hm : 0 < m := lt_of_le_of_lt (Nat.zero_le _) a.2
  have h1 : (a.1 + b.1 * m) % m = (c.1 + d.1 * m) % m := by rw [h]
  have h2 : (a.1 + b.1 * m) / m = (c.1 + d.1 * m) / m := by rw [h]
  rw [Nat.add_mul_mod_self_right, Nat.add_mul_mod_self_right, Nat.mod_eq_of_lt a.2,
    Nat.mod_eq_of_lt c.2] at h1
  rw [Nat.add_mul_div_right _ _ hm, Nat.add_mul_div_right _ _ hm, Nat.div_eq_of_lt a.2,
    Nat.div_eq_of_lt c.2] at h2
  ext <;> simp <;> omega

theorem length_indicesOf {w : WeightFunction} {l : List ℤ}
    (hw : w.indexMap = buildMapLoop [] 0 (locationDifferences l)) (d : ℤ) :
    (w.indicesOf d).length = pairCount l d := by
  have hn : (w.indicesOf d).Nodup :=
    (indicesOf_sorted hw d).imp (fun h => Nat.ne_of_lt h)
  rw [← List.toFinset_card_of_nodup hn, indicesOf_toFinset hw,
    Finset.card_image_of_injective _ (pairIndex_injective _), pairCount]

theorem weightOf_eq {w : WeightFunction} {l : List ℤ}
    (hw : w.indexMap = buildMapLoop [] 0 (locationDifferences l)) (d : ℤ) :
    w.weightOf d = pairCount l d := by rw [weightOf_eq_length, length_indicesOf hw]

theorem pairCount_pos {l : List ℤ} {d : ℤ} : 0 < pairCount l d ↔ IsLag l d := by
  rw [pairCount, Finset.card_pos]
  constructor
  · rintro ⟨⟨i, j⟩, h⟩
    simp only [pairs, Finset.mem_filter, Finset.mem_univ, true_and] at h
    exact ⟨i, j, h⟩
  · rintro ⟨i, j, h⟩
    exact ⟨(i, j), by simpa [pairs] using h⟩

/-- The `while` loop returns the first missing nonnegative key at or after `mv`. -/
theorem countLags_spec (d : PyDict ℤ (List ℕ)) (mv : ℕ) :
    mv ≤ WeightFunction.countLags d mv ∧
    (∀ k : ℕ, mv ≤ k → k < WeightFunction.countLags d mv → (k : ℤ) ∈ d.keys) ∧
    ((WeightFunction.countLags d mv : ℕ) : ℤ) ∉ d.keys := by
  induction mv using WeightFunction.countLags.induct (d := d) with
  | case1 mv h ih =>
    rw [WeightFunction.countLags, dif_pos h]
    obtain ⟨h1, h2, h3⟩ := ih
    refine ⟨by omega, ?_, h3⟩
    intro k hk hk2
    rcases Nat.eq_or_lt_of_le hk with e | e
    · subst e; exact (PyDict.contains_iff _ _).1 h
    · exact h2 k e hk2
  | case2 mv h =>
    rw [WeightFunction.countLags, dif_neg h]
    exact ⟨le_refl _, fun k h1 h2 => by omega, fun hc => h ((PyDict.contains_iff _ _).2 hc)⟩

/-- The number computed by the loop is the size of the maximal central segment. -/
theorem countLags_central (l : List ℤ) :
    IsCentralSize l (WeightFunction.countLags (buildMapLoop [] 0 (locationDifferences l)) 0) := by
  obtain ⟨_, h2, h3⟩ := countLags_spec (buildMapLoop [] 0 (locationDifferences l)) 0
  set v := WeightFunction.countLags (buildMapLoop [] 0 (locationDifferences l)) 0
  constructor
  · intro d hd
    have hk : ((d.natAbs : ℕ) : ℤ) ∈ PyDict.keys (buildMapLoop [] 0 (locationDifferences l)) :=
      h2 d.natAbs (Nat.zero_le _) (by rw [Int.abs_eq_natAbs] at hd; omega)
    rw [mem_buildMap_keys, mem_locationDifferences] at hk
    rcases Int.natAbs_eq d with e | e
    · rw [e]; exact hk
    · rw [e]; exact hk.neg
  · intro hall
    apply h3
    rw [mem_buildMap_keys, mem_locationDifferences]
    exact hall v (by rw [abs_of_nonneg (by omega)]; omega)

theorem Spec.IsCentralSize.unique {l : List ℤ} {v v' : ℕ} (h : IsCentralSize l v)
    (h' : IsCentralSize l v') : v = v' := by
  rcases lt_trichotomy v v' with hlt | he | hgt
  · exfalso; exact h.2 fun d hd => h'.1 d (by omega)
  · exact he
  · exfalso; exact h'.2 fun d hd => h.1 d (by omega)

/-- Convenient criterion: lags `0..v-1` present and `v` missing. -/
theorem isCentralSize_iff {l : List ℤ} {v : ℕ} :
    IsCentralSize l v ↔ (∀ k : ℕ, k < v → IsLag l k) ∧ ¬ IsLag l v := by
  constructor
  · rintro ⟨h1, h2⟩
    refine ⟨fun k hk => h1 k (by rw [abs_of_nonneg (by omega)]; omega), fun hc => h2 ?_⟩
    intro d hd
    by_cases h : |d| < v
    · exact h1 d h
    · have : |d| = v := by omega
      rcases abs_eq (by omega : (0:ℤ) ≤ v) |>.1 this with e | e
      · rw [e]; exact hc
      · rw [e]; exact hc.neg
  · rintro ⟨h1, h2⟩
    refine ⟨fun d hd => ?_, fun hall => h2 (hall v (by rw [abs_of_nonneg (by omega)]; omega))⟩
    have hk := h1 d.natAbs (by rw [Int.abs_eq_natAbs] at hd; omega)
    rcases Int.natAbs_eq d with e | e
    · rw [e]; exact hk
    · rw [e]; exact hk.neg

end Doa
