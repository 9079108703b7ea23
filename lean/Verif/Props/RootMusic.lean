import Mathlib.Algebra.Polynomial.Reverse
import Verif.Model.RootMusic
import Verif.Props.Subspace
import Verif.Lemmas.RootMask
import Mathlib.Data.Fintype.Vector

/-!
# C45-C46: root-MUSIC
-/

namespace Doa.Props

open Doa Doa.Spec Matrix Polynomial

variable {m d : ℕ}

/-! ### C45 -/

theorem polyOf_append (l₁ l₂ : List ℂ) : polyOf (l₁ ++ l₂) = polyOf l₁ * X ^ l₂.length + polyOf l₂ := by
  induction l₁ with
  | nil => simp [polyOf]
  | cons c cs ih =>
    simp only [List.cons_append, polyOf, ih, List.length_append, pow_add]
    ring

theorem polyOf_map_range (g : ℕ → ℂ) (n : ℕ) :
    polyOf ((List.range n).map g) = ∑ i ∈ Finset.range n, Polynomial.C (g i) * X ^ (n - 1 - i) := by
  induction n with
  | zero => simp [polyOf]
  | succ n ih =>
    rw [List.range_succ, List.map_append, polyOf_append, ih, Finset.sum_range_succ, Finset.sum_mul]
    simp only [List.map_cons, List.map_nil, List.length_singleton, pow_one, polyOf, List.length_nil,
      pow_zero, mul_one, add_zero, Nat.add_sub_cancel, Nat.sub_self]
    congr 1
    refine Finset.sum_congr rfl fun i hi => ?_
    have := Finset.mem_range.1 hi
    rw [mul_assoc, ← pow_succ]
    congr 2
    omega

theorem polyOf_map_range_reverse (g : ℕ → ℂ) (n : ℕ) :
    polyOf ((List.range n).map g).reverse = ∑ i ∈ Finset.range n, Polynomial.C (g i) * X ^ i := by
  induction n with
  | zero => simp [polyOf]
  | succ n ih =>
    rw [List.range_succ, List.map_append, List.reverse_append, polyOf_append, ih,
      Finset.sum_range_succ]
    simp [polyOf]
    ring

theorem sum_by_diagonal {M : Type*} [AddCommMonoid M] (f : ℕ → ℕ → M) (n : ℕ) :
    ∑ j ∈ Finset.range n, ∑ l ∈ Finset.range n, f j l =
      (∑ i ∈ Finset.range n, ∑ j ∈ Finset.range (n - i), f j (j + i)) +
        ∑ i ∈ Finset.range (n - 1), ∑ j ∈ Finset.range (n - (i + 1)), f (j + (i + 1)) j := by
  have key : ∀ (g : ℕ → ℕ → M), ∑ j ∈ Finset.range n, ∑ l ∈ Finset.range n, (if j ≤ l then g j l else 0) =
      ∑ i ∈ Finset.range n, ∑ j ∈ Finset.range (n - i), g j (j + i) := by
    intro g
    rw [Finset.sum_sigma', Finset.sum_sigma']
    rw [← Finset.sum_filter_add_sum_filter_not _ (fun x : (_ : ℕ) × ℕ => x.1 ≤ x.2)]
    rw [Finset.sum_eq_zero (s := Finset.filter (fun x : (_ : ℕ) × ℕ => ¬ x.1 ≤ x.2) _) (by
      intro x hx
      rw [if_neg (Finset.mem_filter.1 hx).2]), add_zero]
    refine Finset.sum_bij' (fun x _ => ⟨x.2 - x.1, x.1⟩) (fun x _ => ⟨x.2, x.2 + x.1⟩) ?_ ?_ ?_ ?_ ?_
    · rintro ⟨j, l⟩ hx
      simp only [Finset.mem_filter, Finset.mem_sigma, Finset.mem_range] at hx ⊢
      omega
    · rintro ⟨i, j⟩ hx
      simp only [Finset.mem_filter, Finset.mem_sigma, Finset.mem_range] at hx ⊢
      omega
    · rintro ⟨j, l⟩ hx
      simp only [Finset.mem_filter, Finset.mem_sigma, Finset.mem_range] at hx
      have : j + (l - j) = l := by omega
      simp [this]
    · rintro ⟨i, j⟩ hx
      simp
    · rintro ⟨j, l⟩ hx
      simp only [Finset.mem_filter, Finset.mem_sigma, Finset.mem_range] at hx
      have : j + (l - j) = l := by omega
      simp [this, hx.2]
  have hsplit : ∀ j l, f j l = (if j ≤ l then f j l else 0) + (if l ≤ j then (if l < j then f j l else 0) else 0) := by
    intro j l
    by_cases h : j ≤ l
    · simp [h, not_lt.2 h]
    · have : l < j := by omega
      simp [h, this, this.le]
  have h2 : ∑ j ∈ Finset.range n, ∑ l ∈ Finset.range n, f j l =
      (∑ j ∈ Finset.range n, ∑ l ∈ Finset.range n, (if j ≤ l then f j l else 0)) +
      ∑ l ∈ Finset.range n, ∑ j ∈ Finset.range n, (if l ≤ j then (if l < j then f j l else 0) else 0) := by
    rw [Finset.sum_comm (s := Finset.range n) (t := Finset.range n)
      (f := fun l j => if l ≤ j then (if l < j then f j l else 0) else 0), ← Finset.sum_add_distrib]
    refine Finset.sum_congr rfl fun j _ => ?_
    rw [← Finset.sum_add_distrib]
    exact Finset.sum_congr rfl fun l _ => hsplit j l
  rw [h2, key f, key (fun l j => if l < j then f j l else 0)]
  congr 1
  cases n with
  | zero => simp
  | succ n =>
    rw [Finset.sum_range_succ']
    simp

/-- The first factor of the root-MUSIC polynomial. -/
noncomputable def revFactor (En : Matrix (Fin m) (Fin d) ℂ) (t : Fin d) : ℂ[X] :=
  ∑ i : Fin m, Polynomial.C (En i t) * X ^ (m - 1 - i.1)

/-- The second factor. -/
noncomputable def fwdFactor (En : Matrix (Fin m) (Fin d) ℂ) (t : Fin d) : ℂ[X] :=
  ∑ l : Fin m, Polynomial.C (star (En l t)) * X ^ l.1

/-- An entry of a matrix, 0 outside. -/
noncomputable def entry0 (C : Matrix (Fin m) (Fin m) ℂ) (j l : ℕ) : ℂ :=
  if h : j < m ∧ l < m then C ⟨j, h.1⟩ ⟨l, h.2⟩ else 0

theorem list_sum_range {M : Type*} [AddCommMonoid M] (f : ℕ → M) (n : ℕ) :
    ((List.range n).map f).sum = ∑ j ∈ Finset.range n, f j := by
  induction n with
  | zero => simp
  | succ n ih => rw [List.range_succ, List.map_append, List.sum_append, ih, Finset.sum_range_succ]; simp

theorem diagSum_eq (C : Matrix (Fin m) (Fin m) ℂ) (i : ℕ) :
    diagSum C i = ∑ j ∈ Finset.range (m - i), entry0 C j (j + i) := by
  unfold diagSum
  rw [list_sum_range]
  refine Finset.sum_congr rfl fun j hj => ?_
  have := Finset.mem_range.1 hj
  have h1 : j + i < m := by omega
  have h2 : j < m ∧ j + i < m := by omega
  simp only [entry0, dif_pos h1, dif_pos h2]

theorem entry0_star {C : Matrix (Fin m) (Fin m) ℂ} (hC : C.IsHermitian) (j l : ℕ) :
    star (entry0 C j l) = entry0 C l j := by
  unfold entry0
  by_cases h : j < m ∧ l < m
  · rw [dif_pos h, dif_pos ⟨h.2, h.1⟩]
    exact hC.apply _ _
  · rw [dif_neg h, dif_neg (fun h' => h ⟨h'.2, h'.1⟩), star_zero]

/-- The polynomial of a Hermitian matrix. -/
theorem polyOf_rootCoeffs {C : Matrix (Fin m) (Fin m) ℂ} (hC : C.IsHermitian) :
    polyOf (rootCoeffs C) = ∑ j : Fin m, ∑ l : Fin m, Polynomial.C (C j l) * X ^ (m - 1 + l.1 - j.1) := by
  have h1 : (∑ j : Fin m, ∑ l : Fin m, Polynomial.C (C j l) * X ^ (m - 1 + l.1 - j.1) : ℂ[X]) =
      ∑ j ∈ Finset.range m, ∑ l ∈ Finset.range m,
        Polynomial.C (entry0 C j l) * X ^ (m - 1 + l - j) := by
    rw [Finset.sum_range]
    refine Finset.sum_congr rfl fun j _ => ?_
    rw [Finset.sum_range]
    refine Finset.sum_congr rfl fun l _ => ?_
    rw [entry0, dif_pos ⟨j.2, l.2⟩]
  rw [h1, sum_by_diagonal]
  unfold rootCoeffs
  simp only
  rw [polyOf_append, polyOf_append, polyOf_map_range_reverse, List.map_map]
  rw [polyOf_map_range]
  cases m with
  | zero => simp [polyOf, diagSum]
  | succ n =>
    simp only [Nat.add_sub_cancel, List.length_map, List.length_range, List.length_singleton, polyOf,
      List.length_nil, pow_zero, mul_one, add_zero, pow_one, Function.comp_apply]
    rw [Finset.sum_range_succ' (fun i => ∑ j ∈ Finset.range (n + 1 - i), _)]
    rw [add_mul, Finset.sum_mul, Finset.sum_mul]
    congr 1
    · congr 1
      · refine Finset.sum_congr rfl fun i hi => ?_
        rw [diagSum_eq, map_sum, Finset.sum_mul, Finset.sum_mul, Finset.sum_mul]
        refine Finset.sum_congr rfl fun j hj => ?_
        rw [mul_assoc, mul_assoc, ← pow_succ', ← pow_add]
        congr 2
        omega
      · rw [diagSum_eq, map_sum, Finset.sum_mul]
        refine Finset.sum_congr rfl fun j hj => ?_
        congr 2
        omega
    · refine Finset.sum_congr rfl fun i hi => ?_
      rw [diagSum_eq, star_sum, map_sum, Finset.sum_mul]
      refine Finset.sum_congr rfl fun j hj => ?_
      have := Finset.mem_range.1 hi
      rw [entry0_star hC]
      congr 2
      omega

theorem noiseProjector_isHermitian (En : Matrix (Fin m) (Fin d) ℂ) : (noiseProjector En).IsHermitian :=
  isHermitian_mul_conjTranspose_self En

/-- The root-MUSIC polynomial as a sum of products. -/
theorem rootPoly_eq (En : Matrix (Fin m) (Fin d) ℂ) :
    polyOf (rootCoeffs (noiseProjector En)) = ∑ t, revFactor En t * fwdFactor En t := by
  rw [polyOf_rootCoeffs (noiseProjector_isHermitian En)]
  have h1 : ∀ t, revFactor En t * fwdFactor En t =
      ∑ j : Fin m, ∑ l : Fin m, Polynomial.C (En j t * star (En l t)) * X ^ (m - 1 + l.1 - j.1) := by
    intro t
    unfold revFactor fwdFactor
    rw [Finset.sum_mul]
    refine Finset.sum_congr rfl fun j _ => ?_
    rw [Finset.mul_sum]
    refine Finset.sum_congr rfl fun l _ => ?_
    rw [mul_mul_mul_comm, ← Polynomial.C_mul, ← pow_add]
    congr 2
    have := j.2
    omega
  symm
  simp only [h1]
  rw [Finset.sum_comm]
  refine Finset.sum_congr rfl fun j _ => ?_
  rw [Finset.sum_comm]
  refine Finset.sum_congr rfl fun l _ => ?_
  have h2 : noiseProjector En j l = ∑ t, En j t * star (En l t) := rfl
  rw [h2, map_sum, Finset.sum_mul]

theorem eval_fwdFactor (En : Matrix (Fin m) (Fin d) ℂ) (t : Fin d) (z : ℂ) :
    (fwdFactor En t).eval z = (Enᴴ *ᵥ ulaVec m z) t := by
  simp [fwdFactor, eval_finsetSum, mulVec, dotProduct, ulaVec]

theorem eval_revFactor (En : Matrix (Fin m) (Fin d) ℂ) (t : Fin d) (z : ℂ) (hz : ‖z‖ = 1) :
    (revFactor En t).eval z = z ^ (m - 1) * star ((Enᴴ *ᵥ ulaVec m z) t) := by
  have hzz : z * star z = 1 := by
    rw [Complex.star_def, Complex.mul_conj, Complex.normSq_eq_norm_sq, hz]; simp
  simp only [revFactor, eval_finsetSum, eval_mul, eval_C, eval_pow, eval_X, mulVec, dotProduct,
    star_sum, Finset.mul_sum, ulaVec, conjTranspose_apply, star_mul', star_star, star_pow]
  refine Finset.sum_congr rfl fun i _ => ?_
  have h1 : z ^ (m - 1) = z ^ (m - 1 - i.1) * z ^ i.1 := by
    rw [← pow_add]
    congr 1
    have := i.2
    omega
  rw [h1]
  have h2 : z ^ i.1 * star z ^ i.1 = 1 := by rw [← mul_pow, hzz, one_pow]
  calc En i t * z ^ (m - 1 - i.1) = En i t * z ^ (m - 1 - i.1) * (z ^ i.1 * star z ^ i.1) := by rw [h2, mul_one]
    _ = _ := by ring

/-- **C45** (coefficients). The coefficient vector has `2m - 1` entries and is conjugate symmetric. -/
theorem C45_coefficients (hm : 1 ≤ m) (En : Matrix (Fin m) (Fin d) ℂ) :
    (rootCoeffs (noiseProjector En)).length = 2 * m - 1 ∧
    ∀ (t : ℕ) (c : ℂ), (rootCoeffs (noiseProjector En))[t]? = some c →
      (rootCoeffs (noiseProjector En))[2 * m - 2 - t]? = some (star c) := by
  have h0 : star (diagSum (noiseProjector En) 0) = diagSum (noiseProjector En) 0 := by
    rw [diagSum_eq, star_sum]
    refine Finset.sum_congr rfl fun j _ => ?_
    rw [entry0_star (noiseProjector_isHermitian En)]
    rfl
  have hlen : (rootCoeffs (noiseProjector En)).length = 2 * m - 1 := by
    simp [rootCoeffs]
    omega
  refine ⟨hlen, fun t c ht => ?_⟩
  have htl : t < 2 * m - 1 := by
    rw [← hlen]; exact (List.getElem?_eq_some_iff.1 ht).1
  have hrev : (rootCoeffs (noiseProjector En)).reverse = (rootCoeffs (noiseProjector En)).map star := by
    simp only [rootCoeffs, List.reverse_append, List.map_append, List.map_cons, h0, List.map_nil,
      List.reverse_cons, List.reverse_nil, List.nil_append, List.map_map, List.reverse_reverse]
    simp [← List.map_reverse, Function.comp_def]
  have h2 : ((rootCoeffs (noiseProjector En)).map star)[2 * m - 2 - t]? = some c := by
    rw [← hrev, List.getElem?_reverse (by rw [hlen]; omega), hlen, ← ht]
    congr 1
    omega
  rw [List.getElem?_map, Option.map_eq_some_iff] at h2
  obtain ⟨c', h3, h4⟩ := h2
  rw [h3, ← h4, star_star]

/-- **C45** (values). On the unit circle the polynomial is `z^(m-1) ‖Enᴴ a(z)‖²`. -/
theorem C45_values (En : Matrix (Fin m) (Fin d) ℂ) (z : ℂ) (hz : ‖z‖ = 1) :
    (polyOf (rootCoeffs (noiseProjector En))).eval z =
      z ^ (m - 1) * ((∑ t, ‖(Enᴴ *ᵥ ulaVec m z) t‖ ^ 2 : ℝ) : ℂ) := by
  rw [rootPoly_eq, eval_finsetSum, Complex.ofReal_sum, Finset.mul_sum]
  refine Finset.sum_congr rfl fun t _ => ?_
  rw [eval_mul, eval_revFactor En t z hz, eval_fwdFactor, mul_assoc, Complex.star_def, mul_comm (starRingEnd ℂ _),
    Complex.mul_conj, Complex.normSq_eq_norm_sq]

/-- **C45** (roots on the circle). A point of the unit circle is a root iff the steering vector is
orthogonal to the noise subspace, and then it is at least a double root. -/
theorem C45_circle_roots (En : Matrix (Fin m) (Fin d) ℂ) (z : ℂ) (hz : ‖z‖ = 1) :
    ((polyOf (rootCoeffs (noiseProjector En))).IsRoot z ↔ Enᴴ *ᵥ ulaVec m z = 0) ∧
    (Enᴴ *ᵥ ulaVec m z = 0 → (X - Polynomial.C z) ^ 2 ∣ polyOf (rootCoeffs (noiseProjector En))) := by
  refine ⟨?_, fun h => ?_⟩
  · rw [IsRoot.def, C45_values En z hz]
    have hz0 : z ≠ 0 := by rintro rfl; simp at hz
    have h1 := musicDenom_eq_zero En (ulaVec m z)
    rw [musicDenom_eq] at h1
    rw [mul_eq_zero, or_iff_right (pow_ne_zero _ hz0), Complex.ofReal_eq_zero, h1.2]
  · rw [rootPoly_eq]
    refine Finset.dvd_sum fun t _ => ?_
    rw [pow_two]
    refine mul_dvd_mul ?_ ?_
    · rw [dvd_iff_isRoot, IsRoot.def, eval_revFactor En t z hz, h]; simp
    · rw [dvd_iff_isRoot, IsRoot.def, eval_fwdFactor, h]; simp

theorem reflect_sum {ι : Type*} (s : Finset ι) (f : ι → ℂ[X]) (N : ℕ) :
    reflect N (∑ i ∈ s, f i) = ∑ i ∈ s, reflect N (f i) := by
  classical
  induction s using Finset.induction_on with
  | empty => simp
  | insert a s ha ih => rw [Finset.sum_insert ha, Finset.sum_insert ha, reflect_add, ih]

theorem reflect_linear_pow (a : ℂ) (n : ℕ) :
    reflect n ((X - Polynomial.C a) ^ n) = (1 - Polynomial.C a * X) ^ n := by
  induction n with
  | zero => simp
  | succ n ih =>
    rw [pow_succ, reflect_mul _ _ (natDegree_pow_le_of_le n (natDegree_X_sub_C_le a) |>.trans (by simp))
      (natDegree_X_sub_C_le a), ih, pow_succ]
    congr 1
    rw [reflect_sub]
    congr 1
    · rw [reflect_one_X]
    · rw [reflect_C]; simp

theorem rootPoly_self_reciprocal (hm : 1 ≤ m) (En : Matrix (Fin m) (Fin d) ℂ) :
    (polyOf (rootCoeffs (noiseProjector En))).natDegree ≤ 2 * m - 2 ∧
    reflect (2 * m - 2) ((polyOf (rootCoeffs (noiseProjector En))).map (starRingEnd ℂ)) =
      polyOf (rootCoeffs (noiseProjector En)) := by
  have hrev : ∀ t, (revFactor En t).natDegree ≤ m - 1 := fun t => by
    unfold revFactor
    refine natDegree_sum_le_of_forall_le _ _ fun i _ => ?_
    exact (natDegree_C_mul_X_pow_le _ _).trans (by omega)
  have hfwd : ∀ t, (fwdFactor En t).natDegree ≤ m - 1 := fun t => by
    unfold fwdFactor
    refine natDegree_sum_le_of_forall_le _ _ fun i _ => ?_
    exact (natDegree_C_mul_X_pow_le _ _).trans (by have := i.2; omega)
  have h1 : ∀ t, reflect (m - 1) ((revFactor En t).map (starRingEnd ℂ)) = fwdFactor En t := by
    intro t
    unfold revFactor fwdFactor
    rw [Polynomial.map_sum, reflect_sum]
    refine Finset.sum_congr rfl fun i _ => ?_
    rw [Polynomial.map_mul, Polynomial.map_C, Polynomial.map_pow, Polynomial.map_X, reflect_C_mul_X_pow,
      revAt_le (by omega)]
    congr 2
    have := i.2
    omega
  have h2 : ∀ t, reflect (m - 1) ((fwdFactor En t).map (starRingEnd ℂ)) = revFactor En t := by
    intro t
    unfold revFactor fwdFactor
    rw [Polynomial.map_sum, reflect_sum]
    refine Finset.sum_congr rfl fun i _ => ?_
    rw [Polynomial.map_mul, Polynomial.map_C, Polynomial.map_pow, Polynomial.map_X, reflect_C_mul_X_pow,
      revAt_le (by have := i.2; omega)]
    simp
  rw [rootPoly_eq]
  constructor
  · refine natDegree_sum_le_of_forall_le _ _ fun t _ => ?_
    refine natDegree_mul_le.trans ?_
    have := hrev t
    have := hfwd t
    omega
  · rw [Polynomial.map_sum, reflect_sum]
    refine Finset.sum_congr rfl fun t _ => ?_
    have hN : 2 * m - 2 = (m - 1) + (m - 1) := by omega
    rw [Polynomial.map_mul, hN, reflect_mul _ _ (natDegree_map_le.trans (hrev t)) (natDegree_map_le.trans (hfwd t)),
      h1, h2, mul_comm]

/-- **C45** (root pairs). Non-zero roots come in pairs `z`, `1 / conj z` of equal multiplicity. -/
theorem C45_root_pairs (hm : 1 ≤ m) (En : Matrix (Fin m) (Fin d) ℂ) (z : ℂ) (hz : z ≠ 0) :
    (polyOf (rootCoeffs (noiseProjector En))).rootMultiplicity z =
      (polyOf (rootCoeffs (noiseProjector En))).rootMultiplicity (1 / star z) := by
  set p := polyOf (rootCoeffs (noiseProjector En)) with hp
  obtain ⟨hdeg, hrefl⟩ := rootPoly_self_reciprocal hm En
  rw [← hp] at hdeg hrefl
  by_cases hp0 : p = 0
  · rw [hp0]; simp
  have key : ∀ w : ℂ, w ≠ 0 → p.rootMultiplicity w ≤ p.rootMultiplicity (1 / star w) := by
    intro w hw
    set n := p.rootMultiplicity w with hn
    rw [le_rootMultiplicity_iff hp0]
    obtain ⟨s, hs⟩ := pow_rootMultiplicity_dvd p w
    rw [← hn] at hs
    have hs0 : s ≠ 0 := by rintro rfl; rw [mul_zero] at hs; exact hp0 hs
    have hdeg' : n + s.natDegree ≤ 2 * m - 2 := by
      have h1 := congrArg natDegree hs
      rw [natDegree_mul (pow_ne_zero _ (X_sub_C_ne_zero w)) hs0, natDegree_pow, natDegree_X_sub_C,
        mul_one] at h1
      omega
    have hN : 2 * m - 2 = n + (2 * m - 2 - n) := by omega
    rw [← hrefl, hs, Polynomial.map_mul, Polynomial.map_pow, Polynomial.map_sub, Polynomial.map_X,
      Polynomial.map_C, hN,
      reflect_mul _ _ (natDegree_pow_le_of_le n (natDegree_X_sub_C_le _) |>.trans (by simp))
        (natDegree_map_le.trans (by omega)), reflect_linear_pow]
    refine Dvd.dvd.mul_right (pow_dvd_pow_of_dvd ?_ n) _
    have hsw : star w ≠ 0 := star_ne_zero.2 hw
    refine ⟨-Polynomial.C (star w), ?_⟩
    rw [sub_mul, mul_neg, mul_neg, ← Polynomial.C_mul, one_div, inv_mul_cancel₀ hsw, Polynomial.C_1,
      Complex.star_def]
    ring
  apply le_antisymm (key z hz)
  have h1 := key (1 / star z) (by simpa using hz)
  simpa using h1

/-- For a single noise vector `[1, -1] / √2` (two sensors) the circle root is `1`. -/
example : ∃ En : Matrix (Fin 2) (Fin 1) ℂ, Enᴴ *ᵥ ulaVec 2 1 = 0 ∧
    (X - Polynomial.C 1) ^ 2 ∣ polyOf (rootCoeffs (noiseProjector En)) := by
  have h : (!![1; -1] : Matrix (Fin 2) (Fin 1) ℂ)ᴴ *ᵥ ulaVec 2 1 = 0 := by
    funext j
    simp [mulVec, dotProduct, ulaVec, Fin.sum_univ_two]
  exact ⟨_, h, (C45_circle_roots _ 1 (by simp)).2 h⟩

/-! ### C46 -/

open Classical in
/-- The surviving roots when every root on the circle occurs exactly twice. -/
theorem rootMask_filter (z : List ℂ) (hcount : ∀ x ∈ z, ‖x‖ = 1 → z.count x = 2) :
    ∃ mask, rootMask z.get = .ok mask ∧
      ((List.finRange z.length).filter fun j => mask j).map z.get = z.filter fun x => decide (‖x‖ < 1) := by
  obtain ⟨mask, h1, h2⟩ := rootMask_of_pairs z.get (by
    intro i hi
    have hc := hcount (z.get i) (List.get_mem _ _) hi
    have hcard := Fin.card_filter_univ_eq_vector_get_eq_count (z.get i) ⟨z, rfl⟩
    change (Finset.univ.filter fun j => z.get j = z.get i).card = z.count (z.get i) at hcard
    rw [hc, Finset.card_eq_two] at hcard
    obtain ⟨x, y, hxy, hset⟩ := hcard
    have hmem : ∀ j, z.get j = z.get i ↔ j = x ∨ j = y := by
      intro j
      have := Finset.ext_iff.1 hset j
      simpa using this
    rcases (hmem i).1 rfl with rfl | rfl
    · exact ⟨y, hxy.symm, (hmem y).2 (Or.inr rfl), fun j' hj hz => ((hmem j').1 hz).resolve_left hj⟩
    · exact ⟨x, hxy, (hmem x).2 (Or.inl rfl), fun j' hj hz => ((hmem j').1 hz).resolve_right hj⟩)
  refine ⟨mask, h1, ?_⟩
  have h3 : (fun j => mask j) = (fun x : ℂ => decide (‖x‖ < 1)) ∘ z.get := by
    funext j
    simp only [Function.comp_apply]
    rw [Bool.eq_iff_iff, h2 j, decide_eq_true_eq]
  rw [h3, ← List.filter_map, List.map_get_finRange]

open Classical in
/-- **C46** (selection, partial). Suppose every root on the unit circle occurs exactly twice in the
list (in particular if there is none on it, as with noisy data). Then `resolved` is `False` iff fewer
than `k` roots lie *strictly inside* the circle, and otherwise the `k` selected roots are strictly
inside and at least as close to the circle as every root inside that is not selected.  The claim is
only met if there are no roots on the circle: those should be counted once, but both copies are
removed (`C46_violated`). -/
theorem C46_selection_partial (argsort : List ℝ → List ℕ) (hsort : IsArgsort argsort) (z : List ℂ)
    (hcount : ∀ x ∈ z, ‖x‖ = 1 → z.count x = 2) (k : ℕ) :
    ((z.filter fun x => decide (‖x‖ < 1)).length < k → selectRoots argsort z k = .ok none) ∧
    (k ≤ (z.filter fun x => decide (‖x‖ < 1)).length → ∃ sel rest : List ℂ,
      selectRoots argsort z k = .ok (some sel) ∧ sel.length = k ∧
      (sel ++ rest).Perm (z.filter fun x => decide (‖x‖ < 1)) ∧
      ∀ x ∈ sel, ∀ y ∈ rest, 1 - ‖x‖ ≤ 1 - ‖y‖) := by
  obtain ⟨mask, h1, h2⟩ := rootMask_filter z hcount
  set zs := z.filter fun x => decide (‖x‖ < 1) with hzs
  unfold selectRoots
  rw [h1]
  simp only [h2]
  constructor
  · intro h
    rw [if_pos h]
  · intro h
    rw [if_neg (by omega)]
    obtain ⟨hp, hs⟩ := hsort (zs.map fun x => 1 - ‖x‖)
    rw [List.length_map] at hp
    set so := argsort (zs.map fun x => 1 - ‖x‖) with hso
    have hlen : so.length = zs.length := by rw [hp.length_eq]; simp
    have hlt : ∀ i ∈ so, i < zs.length := fun i hi => List.mem_range.1 (hp.mem_iff.1 hi)
    have hfm : ∀ l : List ℕ, (∀ i ∈ l, i < zs.length) →
        (l.filterMap fun i => zs[i]?) = l.map fun i => zs.getD i 0 := by
      intro l
      induction l with
      | nil => intro _; rfl
      | cons a l ih =>
        intro hl
        have ha := hl a (by simp)
        rw [List.filterMap_cons, List.getElem?_eq_getElem ha, List.map_cons,
          ih fun x hx => hl x (List.mem_cons_of_mem _ hx)]
        simp [List.getD_eq_getElem?_getD, List.getElem?_eq_getElem ha]
    refine ⟨_, (so.drop k).map fun i => zs.getD i 0, rfl, ?_, ?_, ?_⟩
    · rw [hfm _ fun i hi => hlt i (List.mem_of_mem_take hi)]
      simp [hlen, h]
    · rw [hfm _ fun i hi => hlt i (List.mem_of_mem_take hi), ← List.map_append, List.take_append_drop]
      refine (hp.map _).trans (List.Perm.of_eq ?_)
      apply List.ext_getElem
      · simp
      · intro j h3 h4
        simp [List.getD_eq_getElem?_getD, List.getElem?_eq_getElem h4]
    · intro x hx y hy
      rw [hfm _ fun i hi => hlt i (List.mem_of_mem_take hi)] at hx
      obtain ⟨i, hi, rfl⟩ := List.mem_map.1 hx
      obtain ⟨j, hj, rfl⟩ := List.mem_map.1 hy
      obtain ⟨a, ha, rfl⟩ := List.getElem_of_mem hi
      obtain ⟨b, hb, rfl⟩ := List.getElem_of_mem hj
      rw [List.length_take] at ha
      rw [List.length_drop] at hb
      rw [List.getElem_take, List.getElem_drop]
      refine hs a (k + b) so[a] so[k + b] _ _ (by omega) (List.getElem?_eq_getElem (by omega))
        (List.getElem?_eq_getElem (by omega)) ?_ ?_
      · have := hlt _ (List.getElem_mem (l := so) (n := a) (by omega))
        simp [List.getElem?_map, List.getElem?_eq_getElem this, List.getD_eq_getElem?_getD]
      · have := hlt _ (List.getElem_mem (l := so) (n := k + b) (by omega))
        simp [List.getElem?_map, List.getElem?_eq_getElem this, List.getD_eq_getElem?_getD]

/-- Non-vacuity: two roots inside, two outside, a double root on the circle. -/
example : ∃ z : List ℂ, z.length = 6 ∧ (∃ x ∈ z, ‖x‖ = 1) ∧ (∀ x ∈ z, ‖x‖ = 1 → z.count x = 2) := by
  refine ⟨[1/2, 2, 1, 1/4, 1, 4], rfl, ⟨1, by simp, by simp⟩, fun x hx h1 => ?_⟩
  simp only [List.mem_cons, List.not_mem_nil, or_false] at hx
  rcases hx with rfl | rfl | rfl | rfl | rfl | rfl
  · norm_num at h1
  · norm_num at h1
  · norm_num [List.count_cons]
  · norm_num at h1
  · norm_num [List.count_cons]
  · norm_num at h1

/-- **C46** is violated: the double root `1` on the circle should be counted once, so one source
should be resolved, but the selection reports "not enough roots". -/
theorem C46_violated (argsort : List ℝ → List ℕ) (hsort : IsArgsort argsort) :
    selectRoots argsort [1, 1] 1 = .ok none := by
  classical
  refine (C46_selection_partial argsort hsort [1, 1] ?_ 1).1 ?_
  · intro x hx _
    simp only [List.mem_cons, List.not_mem_nil, or_false, or_self] at hx
    subst hx
    simp
  · simp

end Doa.Props
