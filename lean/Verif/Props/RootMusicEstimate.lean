import Mathlib.Algebra.Polynomial.FieldDivision
import Verif.Props.RootMusic
import Verif.Props.CrbUla
import Verif.Props.EcovCoarray

/-!
# C46: `RootMUSIC1D.estimate` as a whole
-/

namespace Doa.Props

open Doa Doa.Spec Matrix Polynomial
open scoped ComplexOrder

variable {m k d : ℕ}

/-! ### From roots to DOAs -/

/-- `from_z` returns the DOAs whose phase factors are the given complex numbers up to magnitude. -/
theorem fromZ_phase (z : Fin k → ℂ) {wl d0 : ℝ} (hwl : 0 < wl) (hd : 0 < d0) (hz : ∀ i, |Complex.arg (z i)| ≤ 2 * Real.pi * d0 / wl)
    (u : String) (hu : Unit1D u) :
    ∃ s : FF1D k, FF1D.fromZ z wl d0 u = .ok s ∧ (s.unit = u ∧ Valid1D s) ∧ Monotone s.loc ∧
      ∃ τ : Equiv.Perm (Fin k), ∀ i, z (τ i) = (‖z (τ i)‖ : ℂ) * phaseFactor d0 wl u (s.loc i) := by
  have hpi := Real.pi_pos
  have hc : 0 < 2 * Real.pi * d0 / wl := by positivity
  set c := 2 * Real.pi * d0 / wl with hcdef
  have hsin : ∀ i, -1 ≤ Complex.arg (z i) / c ∧ Complex.arg (z i) / c ≤ 1 := by
    intro i
    have := abs_le.1 (hz i)
    constructor
    · rw [le_div_iff₀ hc]; linarith
    · rw [div_le_iff₀ hc]; linarith
  have hpol : ∀ i x, Real.sin (angleOf u x) = Complex.arg (z i) / c → z i = (‖z i‖ : ℂ) * phaseFactor d0 wl u x := by
    intro i x hx
    unfold phaseFactor
    rw [hx, ← hcdef, mul_div_cancel₀ _ hc.ne', mul_comm Complex.I]
    exact (Complex.norm_mul_exp_arg_mul_I (z i)).symm
  have hnan : ¬ ∃ i, 1 < |Complex.arg (z i) / c| := fun ⟨i, hi⟩ => absurd (abs_le.2 (hsin i)) (not_le.2 hi)
  unfold FF1D.fromZ
  simp only [← hcdef, if_neg hnan, if_neg hwl.ne']
  rcases hu with rfl | rfl | rfl
  · simp only [String.reduceEq, if_false, if_true]
    have hv : ∀ i, InRange1D "rad" (sortVec (fun i => Real.arcsin (Complex.arg (z i) / c)) i) :=
      fun i => Or.inl ⟨rfl, Real.neg_pi_div_two_le_arcsin _, Real.arcsin_le_pi_div_two _⟩
    refine ⟨_, FF1D.init_ok (Or.inl rfl) _ hv, ⟨rfl, Or.inl rfl, hv⟩,
      Tuple.monotone_sort fun i => Real.arcsin (Complex.arg (z i) / c), Tuple.sort (fun i => Real.arcsin (Complex.arg (z i) / c)), fun i => hpol _ _ ?_⟩
    exact Real.sin_arcsin (hsin _).1 (hsin _).2
  · simp only [String.reduceEq, if_false]
    have hv : ∀ i, InRange1D "deg" (rad2deg (sortVec (fun i => Real.arcsin (Complex.arg (z i) / c)) i)) := fun i => by
      have := inRange1D_repr (u := "deg") (Or.inr (Or.inl rfl)) (Real.neg_pi_div_two_le_arcsin (Complex.arg (z (Tuple.sort (fun i => Real.arcsin (Complex.arg (z i) / c)) i)) / c))
        (Real.arcsin_le_pi_div_two _)
      simpa [reprIn, sortVec, rad2deg, mul_div_assoc] using this
    refine ⟨_, FF1D.init_ok (Or.inr (Or.inl rfl)) _ hv, ⟨rfl, Or.inr (Or.inl rfl), hv⟩, ?_, Tuple.sort (fun i => Real.arcsin (Complex.arg (z i) / c)), fun i => hpol _ _ ?_⟩
    · intro i j hij
      have := Tuple.monotone_sort (fun i => Real.arcsin (Complex.arg (z i) / c)) hij
      simp only [rad2deg, sortVec]
      exact mul_le_mul_of_nonneg_right this (by positivity)
    · have h1 : angleOf "deg" (rad2deg (Real.arcsin (Complex.arg (z (Tuple.sort (fun i => Real.arcsin (Complex.arg (z i) / c)) i)) / c))) =
          Real.arcsin (Complex.arg (z (Tuple.sort (fun i => Real.arcsin (Complex.arg (z i) / c)) i)) / c) := by
        simp only [angleOf, if_true, rad2deg]
        field_simp
      refine (congrArg Real.sin h1).trans ?_
      exact Real.sin_arcsin (hsin _).1 (hsin _).2
  · simp only [if_true]
    have hv : ∀ i, InRange1D "sin" (sortVec (fun i => Complex.arg (z i) / c) i) := fun i => Or.inr (Or.inr ⟨rfl, (hsin _).1, (hsin _).2⟩)
    refine ⟨_, FF1D.init_ok (Or.inr (Or.inr rfl)) _ hv, ⟨rfl, Or.inr (Or.inr rfl), hv⟩,
      Tuple.monotone_sort fun i => Complex.arg (z i) / c, Tuple.sort (fun i => Complex.arg (z i) / c), fun i => hpol _ _ ?_⟩
    exact Real.sin_arcsin (hsin _).1 (hsin _).2

open Classical in
/-- **C46** (the estimator). Let `z` be the roots of the polynomial of the noise subspace of `R`, every root on the circle occurring
twice (in particular none), and let the spacing `δ` be `d0`, or half a wavelength if `d0` is not given. With fewer than `k` roots
strictly inside the circle the sources are not resolved. Otherwise the estimator returns `k` valid DOAs in the requested unit, in
ascending order, whose phase factors `exp(2πj δ sin(θ) / wavelength)` are the directions of `k` of these roots closest to the circle.
Missing for the full claim: roots on the circle are never returned (see `C46_violated`). -/
theorem C46_estimate_partial (eigh : Eigh) (roots : NpRoots) (argsort : List ℝ → List ℕ) (hsort : IsArgsort argsort) {wl δ : ℝ} (hwl : 0 < wl)
    (hδ : 0 < δ) {d0 : Option ℝ} (hd0 : d0 = some δ ∨ d0 = none ∧ δ = wl / 2) (R : Matrix (Fin m) (Fin m) ℂ) (hk : k < m) {u : String} (hu : Unit1D u)
    {z : List ℂ} (hz : z = roots.run (rootCoeffs (noiseProjector (getNoiseSubspace eigh R k))))
    (hcount : ∀ x ∈ z, ‖x‖ = 1 → z.count x = 2) (hrange : ∀ x ∈ z, ‖x‖ < 1 → |Complex.arg x| ≤ 2 * Real.pi * δ / wl) :
    ((z.filter fun x => decide (‖x‖ < 1)).length < k → rootMusicEstimate eigh roots argsort wl R k d0 u = .ok none) ∧
    (k ≤ (z.filter fun x => decide (‖x‖ < 1)).length → ∃ (s : FF1D k) (sel : Fin k → ℂ) (rest : List ℂ),
      rootMusicEstimate eigh roots argsort wl R k d0 u = .ok (some s) ∧ (s.unit = u ∧ Valid1D s) ∧ Monotone s.loc ∧
      (List.ofFn sel ++ rest).Perm (z.filter fun x => decide (‖x‖ < 1)) ∧ (∀ i, ∀ y ∈ rest, 1 - ‖sel i‖ ≤ 1 - ‖y‖) ∧
      ∀ i, sel i = (‖sel i‖ : ℂ) * phaseFactor δ wl u (s.loc i)) := by
  have hd : d0.getD (wl / 2) = δ := by
    rcases hd0 with rfl | ⟨rfl, rfl⟩ <;> rfl
  have hres : ensureNResolvable k ((m : ℤ) - 1) = .ok () := if_neg (by omega)
  have hun : rootMusicEstimate eigh roots argsort wl R k d0 u =
      match selectRoots argsort z k with
      | .error e => .error e
      | .ok none => .ok none
      | .ok (some zs) =>
        match FF1D.fromZ (fun i : Fin k => zs.getD i 0) wl δ u with
        | .error e => .error e
        | .ok s => .ok (some s) := by
    unfold rootMusicEstimate
    rw [dif_pos rfl, hres, hd]
    have : R.submatrix id (Fin.cast (rfl : m = m)) = R := rfl
    simp only [this, ← hz]
    cases selectRoots argsort z k with
    | error e => rfl
    | ok o => cases o <;> rfl
  obtain ⟨h1, h2⟩ := C46_selection_partial argsort hsort z hcount k
  constructor
  · intro h
    rw [hun, h1 h]
  · intro h
    obtain ⟨sel, rest, g1, g2, g3, g4⟩ := h2 h
    have hsel : ∀ i : Fin k, sel.getD i 0 ∈ sel := fun i => by
      rw [List.getD_eq_getElem?_getD, List.getElem?_eq_getElem (by omega)]
      exact List.getElem_mem _
    have hmem : ∀ i : Fin k, sel.getD i 0 ∈ z ∧ ‖sel.getD i 0‖ < 1 := fun i => by
      have := g3.subset (List.mem_append_left rest (hsel i))
      simpa using this
    obtain ⟨s, e1, e2, e3, τ, e4⟩ := fromZ_phase (fun i : Fin k => sel.getD i 0) hwl hδ
      (fun i => hrange _ (hmem i).1 (hmem i).2) u hu
    have hofn : List.ofFn (fun i : Fin k => sel.getD i 0) = sel := by
      apply List.ext_getElem
      · simp [g2]
      · intro j h3 h4
        simp [List.getD_eq_getElem?_getD, List.getElem?_eq_getElem h4]
    refine ⟨s, fun i => sel.getD (τ i) 0, rest, ?_, e2, e3, ?_, fun i y hy => g4 _ (hsel _) y hy, e4⟩
    · rw [hun, g1]
      simp only [e1]
    · refine List.Perm.trans ?_ g3
      refine List.Perm.append_right rest ?_
      have := Equiv.Perm.ofFn_comp_perm τ (fun i : Fin k => sel.getD i 0)
      rw [hofn] at this
      exact this

/-- **C46** (guards). A matrix that is not square, or as many sources as sensors, is rejected. -/
theorem C46_guards (eigh : Eigh) (roots : NpRoots) (argsort : List ℝ → List ℕ) (wl : ℝ) {r c : ℕ} (R : Matrix (Fin r) (Fin c) ℂ) (k : ℕ)
    (d0 : Option ℝ) (u : String) (h : r ≠ c ∨ r ≤ k) : rootMusicEstimate eigh roots argsort wl R k d0 u = .error .valueError := by
  unfold rootMusicEstimate
  by_cases hrc : r = c
  · rw [dif_pos hrc]
    have : ensureNResolvable k ((r : ℤ) - 1) = .error .valueError := if_pos (by rcases h with h | h; exact absurd hrc h; omega)
    rw [this]
  · rw [dif_neg hrc]

/-! ### Exact covariance matrices -/

theorem deriv_fwd (En : Matrix (Fin m) (Fin d) ℂ) (t : Fin d) (ζ : ℂ) :
    ζ * (derivative (fwdFactor En t)).eval ζ = (Enᴴ *ᵥ fun i : Fin m => (i.1 : ℂ) * ζ ^ i.1) t := by
  simp only [fwdFactor, derivative_sum, eval_finsetSum, Finset.mul_sum, mulVec, dotProduct, conjTranspose_apply]
  refine Finset.sum_congr rfl fun i _ => ?_
  rw [derivative_C_mul_X_pow]
  simp only [eval_mul, eval_C, eval_pow, eval_X]
  rcases Nat.eq_zero_or_pos i.1 with h | h
  · rw [h]; simp
  · have : ζ ^ i.1 = ζ * ζ ^ (i.1 - 1) := by rw [← pow_succ']; congr 1; omega
    rw [this]; ring

theorem deriv_rev (En : Matrix (Fin m) (Fin d) ℂ) (t : Fin d) {ζ : ℂ} (hζ : ‖ζ‖ = 1) (h0 : (Enᴴ *ᵥ ulaVec m ζ) t = 0) :
    ζ * (derivative (revFactor En t)).eval ζ = -(ζ ^ (m - 1) * star ((Enᴴ *ᵥ fun i : Fin m => (i.1 : ℂ) * ζ ^ i.1) t)) := by
  have hzz : ζ * star ζ = 1 := by
    rw [Complex.star_def, Complex.mul_conj, Complex.normSq_eq_norm_sq, hζ]; simp
  have h1 : ζ * (derivative (revFactor En t)).eval ζ + ζ ^ (m - 1) * star ((Enᴴ *ᵥ fun i : Fin m => (i.1 : ℂ) * ζ ^ i.1) t) =
      (m - 1 : ℕ) * (revFactor En t).eval ζ := by
    simp only [revFactor, derivative_sum, eval_finsetSum, Finset.mul_sum, mulVec, dotProduct, conjTranspose_apply, star_sum, star_mul',
      star_star, star_pow, star_natCast, ← Finset.sum_add_distrib]
    refine Finset.sum_congr rfl fun i _ => ?_
    rw [derivative_C_mul_X_pow]
    simp only [eval_mul, eval_C, eval_pow, eval_X]
    have hi := i.2
    have e1 : ζ ^ (m - 1) * star ζ ^ i.1 = ζ ^ (m - 1 - i.1) := by
      have : ζ ^ (m - 1) = ζ ^ (m - 1 - i.1) * ζ ^ i.1 := by rw [← pow_add]; congr 1; omega
      rw [this, mul_assoc, ← mul_pow, hzz, one_pow, mul_one]
    have e2 : ((m - 1 : ℕ) : ℂ) = ((m - 1 - i.1 : ℕ) : ℂ) + (i.1 : ℂ) := by
      rw [← Nat.cast_add]; congr 1; omega
    have e3 : ζ ^ (m - 1) * (En i t * ((i.1 : ℂ) * star ζ ^ i.1)) = En i t * ((i.1 : ℂ) * ζ ^ (m - 1 - i.1)) := by
      rw [← e1]; ring
    rw [e3, e2]
    rcases Nat.eq_zero_or_pos (m - 1 - i.1) with h | h
    · rw [h]; simp; ring
    · have : ζ ^ (m - 1 - i.1) = ζ * ζ ^ (m - 1 - i.1 - 1) := by rw [← pow_succ']; congr 1; omega
      rw [this]; ring
  rw [eval_revFactor En t ζ hζ, h0, star_zero, mul_zero, mul_zero] at h1
  exact eq_neg_of_add_eq_zero_left h1

/-- A steering vector orthogonal to the noise subspace whose derivative is not is a root of multiplicity exactly two. -/
theorem rootMultiplicity_two (En : Matrix (Fin m) (Fin d) ℂ) {ζ : ℂ} (hζ : ‖ζ‖ = 1) (h0 : Enᴴ *ᵥ ulaVec m ζ = 0)
    (h1 : (Enᴴ *ᵥ fun i : Fin m => (i.1 : ℂ) * ζ ^ i.1) ≠ 0) :
    polyOf (rootCoeffs (noiseProjector En)) ≠ 0 ∧ (polyOf (rootCoeffs (noiseProjector En))).rootMultiplicity ζ = 2 := by
  set p := polyOf (rootCoeffs (noiseProjector En)) with hp
  have hζ0 : ζ ≠ 0 := by rintro rfl; simp at hζ
  set g := Enᴴ *ᵥ fun i : Fin m => (i.1 : ℂ) * ζ ^ i.1 with hg
  have hpos : (0 : ℝ) < ∑ t, ‖g t‖ ^ 2 := by
    obtain ⟨t, ht⟩ := Function.ne_iff.1 h1
    refine Finset.sum_pos' (fun _ _ => by positivity) ⟨t, Finset.mem_univ _, ?_⟩
    have : 0 < ‖g t‖ := norm_pos_iff.2 ht
    positivity
  have h2 : (derivative^[2] p).eval ζ ≠ 0 := by
    have e : ζ * ζ * (derivative^[2] p).eval ζ = -(2 * ζ ^ (m - 1) * ((∑ t, ‖g t‖ ^ 2 : ℝ) : ℂ)) := by
      rw [hp, rootPoly_eq]
      simp only [Function.iterate_succ, Function.iterate_zero, Function.comp_apply, id, derivative_sum, derivative_mul, derivative_add, eval_finsetSum,
        eval_add, eval_mul, Complex.ofReal_sum, Finset.mul_sum, ← Finset.sum_neg_distrib]
      refine Finset.sum_congr rfl fun t _ => ?_
      have hf := eval_fwdFactor En t ζ
      have hr := eval_revFactor En t ζ hζ
      have ht : (Enᴴ *ᵥ ulaVec m ζ) t = 0 := congrFun h0 t
      rw [ht] at hf hr
      rw [star_zero, mul_zero] at hr
      have a1 := deriv_fwd En t ζ
      have a2 := deriv_rev En t hζ ht
      rw [← hg] at a1 a2
      rw [hf, hr]
      have e3 : ((‖g t‖ ^ 2 : ℝ) : ℂ) = g t * star (g t) := by
        rw [Complex.star_def, Complex.mul_conj, Complex.normSq_eq_norm_sq]
      rw [e3]
      calc _ = 2 * (ζ * (derivative (revFactor En t)).eval ζ) * (ζ * (derivative (fwdFactor En t)).eval ζ) := by ring
        _ = _ := by rw [a1, a2]; ring
    intro hc
    rw [hc, mul_zero] at e
    have hne : (2 * ζ ^ (m - 1) * ((∑ t, ‖g t‖ ^ 2 : ℝ) : ℂ)) ≠ 0 := by
      refine mul_ne_zero (mul_ne_zero two_ne_zero (pow_ne_zero _ hζ0)) ?_
      exact_mod_cast hpos.ne'
    exact hne (neg_eq_zero.1 e.symm)
  have hp0 : p ≠ 0 := by
    intro h
    rw [h] at h2
    simp at h2
  refine ⟨hp0, le_antisymm ?_ ?_⟩
  · by_contra hc
    exact h2 (isRoot_iterate_derivative_of_lt_rootMultiplicity (by omega))
  · rw [le_rootMultiplicity_iff hp0]
    exact (C45_circle_roots En ζ hζ).2 h0

open Classical in
/-- The number of roots strictly inside the circle, if the roots on the circle are `k` distinct double roots. -/
theorem inside_count (hm : 1 ≤ m) (En : Matrix (Fin m) (Fin d) ℂ) (hp0 : polyOf (rootCoeffs (noiseProjector En)) ≠ 0) {z : Fin k → ℂ}
    (hz : Function.Injective z) (hcirc : ∀ ζ : ℂ, ‖ζ‖ = 1 → ((polyOf (rootCoeffs (noiseProjector En))).IsRoot ζ ↔ ∃ c, ζ = z c))
    (hz1 : ∀ c, ‖z c‖ = 1) (h2 : ∀ c, (polyOf (rootCoeffs (noiseProjector En))).rootMultiplicity (z c) = 2) :
    ((polyOf (rootCoeffs (noiseProjector En))).roots.filter fun x => ‖x‖ < 1).card + k + 1 = m := by
  set p := polyOf (rootCoeffs (noiseProjector En)) with hp
  obtain ⟨hdeg, hrefl⟩ := rootPoly_self_reciprocal hm En
  rw [← hp] at hdeg hrefl
  have hcoeff : ∀ i, i ≤ 2 * m - 2 → p.coeff i = star (p.coeff (2 * m - 2 - i)) := by
    intro i hi
    conv_lhs => rw [← hrefl]
    rw [coeff_reflect, revAt_le hi, coeff_map]
    rfl
  -- degree and zero roots
  set e := p.natTrailingDegree with he
  have heN : e ≤ 2 * m - 2 := natTrailingDegree_le_natDegree p |>.trans hdeg
  have hdeg' : p.natDegree = 2 * m - 2 - e := by
    apply le_antisymm
    · rw [natDegree_le_iff_coeff_eq_zero]
      intro i hi
      by_cases hiN : i ≤ 2 * m - 2
      · rw [hcoeff i hiN, coeff_eq_zero_of_lt_natTrailingDegree (by rw [← he]; omega), star_zero]
      · exact coeff_eq_zero_of_natDegree_lt (by omega)
    · apply le_natDegree_of_ne_zero
      rw [hcoeff _ (by omega), show 2 * m - 2 - (2 * m - 2 - e) = e by omega]
      exact star_ne_zero.2 (trailingCoeff_nonzero_iff_nonzero.2 hp0)
  have hzero : p.rootMultiplicity 0 = e := rootMultiplicity_eq_natTrailingDegree' 
  -- partition of the roots
  set I := p.roots.filter fun x => ‖x‖ < 1 with hI
  set C := p.roots.filter fun x => ‖x‖ = 1 with hC
  set O := p.roots.filter fun x => 1 < ‖x‖ with hO
  have hcard : I.card + C.card + O.card = 2 * m - 2 - e := by
    have hsplit : p.roots.card = p.natDegree := (splits_iff_card_roots.1 (IsAlgClosed.splits p))
    rw [← hdeg', ← hsplit]
    have h3 : p.roots = I + C + O := by
      ext x
      rw [Multiset.count_add, Multiset.count_add, hI, hC, hO, Multiset.count_filter, Multiset.count_filter, Multiset.count_filter]
      rcases lt_trichotomy ‖x‖ 1 with h | h | h
      · rw [if_pos h, if_neg h.ne, if_neg (not_lt.2 h.le)]; simp
      · rw [if_neg (not_lt.2 h.ge), if_pos h, if_neg (not_lt.2 h.le)]; simp
      · rw [if_neg (not_lt.2 h.le), if_neg h.ne', if_pos h]; simp
    rw [h3, Multiset.card_add, Multiset.card_add]
  have hCcard : C.card = 2 * k := by
    have h3 : C = 2 • (Finset.univ.val.map z) := by
      ext x
      rw [hC, Multiset.count_filter, Multiset.count_nsmul, Multiset.count_map]
      by_cases hx : ‖x‖ = 1
      · rw [if_pos hx, count_roots]
        by_cases hr : ∃ c, x = z c
        · obtain ⟨c, rfl⟩ := hr
          rw [h2 c]
          have : (Finset.univ.val.filter fun a => z c = z a) = {c} := by
            ext a
            rw [Multiset.count_filter, Multiset.count_singleton]
            by_cases hac : a = c
            · subst hac; simp
            · rw [if_neg (fun h => hac (hz h).symm), if_neg hac]
          rw [this]; simp
        · have : p.rootMultiplicity x = 0 := rootMultiplicity_eq_zero fun h => hr ((hcirc x hx).1 h)
          rw [this]
          have : (Finset.univ.val.filter fun a => x = z a) = 0 := by
            rw [Multiset.filter_eq_nil]
            intro a _ h
            exact hr ⟨a, h⟩
          rw [this]; simp
      · rw [if_neg hx]
        have : (Finset.univ.val.filter fun a => x = z a) = 0 := by
          rw [Multiset.filter_eq_nil]
          intro a _ h
          exact hx (h ▸ hz1 a)
        rw [this]; simp
    rw [h3, Multiset.card_nsmul, Multiset.card_map, Finset.card_val, Finset.card_univ, Fintype.card_fin]
  have hIO : I.card = e + O.card := by
    have h3 : I = Multiset.replicate e 0 + O.map fun x => 1 / star x := by
      ext x
      rw [Multiset.count_add, Multiset.count_replicate, hI, Multiset.count_filter, count_roots]
      by_cases hx0 : x = 0
      · subst hx0
        rw [if_pos (by simp), if_pos rfl, hzero, Multiset.count_eq_zero.2, add_zero]
        intro h
        obtain ⟨y, hy, hy2⟩ := Multiset.mem_map.1 h
        have : 1 < ‖y‖ := (Multiset.mem_filter.1 hy).2
        have hy0 : y = 0 := by simpa using hy2
        rw [hy0] at this
        norm_num at this
      · rw [if_neg (show ¬ (0 : ℂ) = x from fun h => hx0 h.symm), zero_add]
        have hinv : ∀ y : ℂ, 1 / star (1 / star y) = y := fun y => by simp
        have hinj : Function.Injective fun y : ℂ => 1 / star y := fun a b h => by
          have := congrArg (fun y : ℂ => 1 / star y) h
          simpa [hinv] using this
        have h4 : Multiset.count x (O.map fun y => 1 / star y) = Multiset.count (1 / star x) O := by
          conv_lhs => rw [← hinv x]
          exact Multiset.count_map_eq_count' _ O hinj _
        rw [h4, hO, Multiset.count_filter, count_roots, hp, C45_root_pairs hm En x hx0]
        have hn : ‖(1 / star x : ℂ)‖ = ‖x‖⁻¹ := by simp
        have hxpos : 0 < ‖x‖ := norm_pos_iff.2 hx0
        rw [hn]
        by_cases hlt : ‖x‖ < 1
        · rw [if_pos hlt, if_pos (one_lt_inv_iff₀.2 ⟨hxpos, hlt⟩)]
        · rw [if_neg hlt, if_neg (fun h => hlt (one_lt_inv_iff₀.1 h).2)]
    rw [h3, Multiset.card_add, Multiset.card_replicate, Multiset.card_map]
  omega

open Classical in
/-- **C46** (exact covariance). With the exact covariance of `k < m` sources seen by a ULA of `m` sensors (any spacing without
ambiguity, source covariance and noise variance, any eigenvectors and any order of the roots), root-MUSIC discards exactly the roots
that belong to the sources: each of them is a double root on the circle and is removed, and the number of candidates left is
`m - 1 - k`, all strictly inside the circle. In particular it reports failure if `m ≤ 2 k`. -/
theorem C46_exact_covariance (eigh : Eigh) (roots : NpRoots) (argsort : List ℝ → List ℕ) (hsort : IsArgsort argsort) {δ wl : ℝ} {s : FF1D k}
    (h : UlaScene δ wl m s) (hk : 1 ≤ k) {P : Matrix (Fin k) (Fin k) ℂ} (hP : P.PosDef) (σ : ℝ) {z : List ℂ}
    (hz : z = roots.run (rootCoeffs (noiseProjector (getNoiseSubspace eigh (covModel (ulaMat m fun c => phaseFactor δ wl s.unit (s.loc c)) P σ) k))))
    (d0 : Option ℝ) (u : String) :
    (∀ c, z.count (phaseFactor δ wl s.unit (s.loc c)) = 2) ∧ (∀ x ∈ z, ‖x‖ = 1 → ∃ c, x = phaseFactor δ wl s.unit (s.loc c)) ∧
    (z.filter fun x => decide (‖x‖ < 1)).length = m - 1 - k ∧
    (∀ sel, selectRoots argsort z k = .ok (some sel) → ∀ c, phaseFactor δ wl s.unit (s.loc c) ∉ sel) ∧
    (m ≤ 2 * k → rootMusicEstimate eigh roots argsort wl (covModel (ulaMat m fun c => phaseFactor δ wl s.unit (s.loc c)) P σ) k d0 u = .ok none) := by
  set w : Fin k → ℂ := fun c => phaseFactor δ wl s.unit (s.loc c) with hw
  have hkm : k < m := h.few
  have hinjw : Function.Injective w := fun c e hce =>
    h.distinct (phaseFactor_inj h.d_pos h.wl_pos (h.valid.2 c) (h.valid.2 e) (h.unambiguous c e) hce)
  have hA := ulaMat_injective (m := m) hinjw hkm.le
  have hw1 : ∀ c, ‖w c‖ = 1 := fun c => by
    simp only [hw, phaseFactor]
    rw [mul_comm, Complex.norm_exp_ofReal_mul_I]
  obtain ⟨-, -, hEn⟩ := C43_noise_subspace eigh (σ := σ) hk hA hP
  set R := covModel (ulaMat m w) P σ with hR
  set En := getNoiseSubspace eigh R k with hEndef
  have hzero : ∀ c, Enᴴ *ᵥ ulaVec m (w c) = 0 := fun c => (hEn _).2 ((ulaVec_mem_span hinjw hkm _).2 ⟨c, rfl⟩)
  have hder : ∀ c, (Enᴴ *ᵥ fun i : Fin m => (i.1 : ℂ) * w c ^ i.1) ≠ 0 := by
    intro c h0
    obtain ⟨x, hx⟩ := (hEn _).1 h0
    refine ulaDeriv_not_span (w := fun _ => (1 : ℂ)) hinjw (fun c h0 => by have := hw1 c; rw [h0] at this; simp at this)
      (fun _ => one_ne_zero) hkm c ⟨x, ?_⟩
    rw [← hx]
    funext i
    simp [ulaDeriv]
  have hmult := fun c => rootMultiplicity_two En (hw1 c) (hzero c) (hder c)
  have hp0 := (hmult ⟨0, hk⟩).1
  have hcirc : ∀ ζ : ℂ, ‖ζ‖ = 1 → ((polyOf (rootCoeffs (noiseProjector En))).IsRoot ζ ↔ ∃ c, ζ = w c) := fun ζ hζ => by
    rw [(C45_circle_roots En ζ hζ).1, hEn]
    exact ulaVec_mem_span hinjw hkm ζ
  have hzr : (z : Multiset ℂ) = (polyOf (rootCoeffs (noiseProjector En))).roots := by rw [hz]; exact roots.spec _
  have hcnt : ∀ x, z.count x = (polyOf (rootCoeffs (noiseProjector En))).rootMultiplicity x := fun x => by
    rw [← count_roots, ← hzr, Multiset.coe_count]
  have hmem : ∀ x ∈ z, (polyOf (rootCoeffs (noiseProjector En))).IsRoot x := fun x hx => by
    have : x ∈ (z : Multiset ℂ) := hx
    rw [hzr] at this
    exact (mem_roots'.1 this).2
  have h1 : ∀ c, z.count (w c) = 2 := fun c => by rw [hcnt]; exact (hmult c).2
  have h2 : ∀ x ∈ z, ‖x‖ = 1 → ∃ c, x = w c := fun x hx hx1 => (hcirc x hx1).1 (hmem x hx)
  have h3 : (z.filter fun x => decide (‖x‖ < 1)).length = m - 1 - k := by
    have := inside_count (by omega) En hp0 hinjw hcirc hw1 fun c => (hmult c).2
    rw [← hzr, Multiset.filter_coe, Multiset.coe_card] at this
    omega
  have hcount : ∀ x ∈ z, ‖x‖ = 1 → z.count x = 2 := fun x hx hx1 => by
    obtain ⟨c, rfl⟩ := h2 x hx hx1
    exact h1 c
  obtain ⟨g1, g2⟩ := C46_selection_partial argsort hsort z hcount k
  refine ⟨h1, h2, h3, fun sel hsel c hc => ?_, fun h2k => ?_⟩
  · by_cases hlt : (z.filter fun x => decide (‖x‖ < 1)).length < k
    · rw [g1 hlt] at hsel
      cases hsel
    · obtain ⟨sel', rest, e1, _, e3, _⟩ := g2 (not_lt.1 hlt)
      rw [e1] at hsel
      cases hsel
      have := e3.subset (List.mem_append_left rest hc)
      simp only [List.mem_filter, decide_eq_true_eq] at this
      have h4 := hw1 c
      linarith [this.2]
  · have hg : selectRoots argsort z k = .ok none := g1 (by omega)
    have hres : ensureNResolvable k ((m : ℤ) - 1) = .ok () := if_neg (by omega)
    unfold rootMusicEstimate
    rw [dif_pos rfl, hres]
    have : R.submatrix id (Fin.cast (rfl : m = m)) = R := rfl
    simp only [this, ← hEndef, ← hz, hg]

/-- Hypotheses of `C46_exact_covariance`: two sources on three sensors; the estimator fails for every implementation of the library calls. -/
example (eigh : Eigh) (roots : NpRoots) (argsort : List ℝ → List ℕ) (hsort : IsArgsort argsort) :
    rootMusicEstimate eigh roots argsort 1
      (covModel (ulaMat 3 fun c => phaseFactor (1 / 2) 1 "sin" ((![0, 1 / 2] : Fin 2 → ℝ) c)) (1 : Matrix (Fin 2) (Fin 2) ℂ) 1) 2 none "rad" = .ok none :=
  (C46_exact_covariance eigh roots argsort hsort exampleScene (by norm_num) PosDef.one 1 rfl none "rad").2.2.2.2 (by norm_num)

theorem broadsideScene : UlaScene (1 / 2) 1 3 (⟨fun _ => 0, "sin"⟩ : FF1D 1) where
  d_pos := by norm_num
  wl_pos := by norm_num
  few := by norm_num
  valid := ⟨by simp [Unit1D], fun i => by simp [InRange1D]⟩
  distinct := fun i j _ => Subsingleton.elim i j
  unambiguous := fun c e => by simp
  not_endfire := fun h => absurd rfl h

theorem phaseFactor_broadside (d wl : ℝ) : phaseFactor d wl "sin" 0 = 1 := by
  simp [phaseFactor, angleOf]

/-- **C46** (negation, end to end). One source at broadside, seen by three sensors half a wavelength apart, with the exact covariance
matrix (unit source power and noise variance): whatever the eigenvectors, the order of the roots and the sorting of ties, root-MUSIC
returns the estimate `sin θ = 1` (or `-1`), endfire, instead of `sin θ = 0`. -/
theorem C46_wrong_doa (eigh : Eigh) (roots : NpRoots) (argsort : List ℝ → List ℕ) (hsort : IsArgsort argsort) :
    ∃ s : FF1D 1, rootMusicEstimate eigh roots argsort 1
      (covModel (ulaMat 3 fun _ : Fin 1 => phaseFactor (1 / 2) 1 "sin" 0) (1 : Matrix (Fin 1) (Fin 1) ℂ) 1) 1 none "sin" = .ok (some s) ∧
      (s.loc 0 = 1 ∨ s.loc 0 = -1) := by
  obtain ⟨h1, h2, h3, -, -⟩ := C46_exact_covariance eigh roots argsort hsort broadsideScene (by norm_num) PosDef.one 1 rfl none "sin"
  have hpi := Real.pi_pos
  obtain ⟨s, sel, rest, e1, e2, -, e4, -, e6⟩ := (C46_estimate_partial eigh roots argsort hsort (wl := 1) (δ := 1 / 2) one_pos (by norm_num)
    (d0 := none) (Or.inr ⟨rfl, by norm_num⟩)
    (covModel (ulaMat 3 fun _ : Fin 1 => phaseFactor (1 / 2) 1 "sin" 0) (1 : Matrix (Fin 1) (Fin 1) ℂ) 1) (k := 1) (by norm_num) (u := "sin")
    (Or.inr (Or.inr rfl)) rfl
    (fun x hx hx1 => by obtain ⟨c, rfl⟩ := h2 x hx hx1; exact h1 c)
    (fun x _ _ => by
      have := Complex.abs_arg_le_pi x
      have h : 2 * Real.pi * (1 / 2) / 1 = Real.pi := by ring
      rw [h]; exact this)).2 (by rw [h3])
  refine ⟨s, e1, ?_⟩
  have hmem : sel 0 ∈ (roots.run (rootCoeffs (noiseProjector (getNoiseSubspace eigh (covModel (ulaMat 3 fun _ : Fin 1 => phaseFactor (1 / 2) 1 "sin" 0) (1 : Matrix (Fin 1) (Fin 1) ℂ) 1) 1)))) ∧ ‖sel 0‖ < 1 := by
    have : sel 0 ∈ List.ofFn sel ++ rest := List.mem_append_left _ (List.mem_ofFn.2 ⟨0, rfl⟩)
    simpa using e4.subset this
  have hA : Function.Injective (ulaMat 3 fun _ : Fin 1 => phaseFactor (1 / 2) 1 "sin" 0).mulVec :=
    ulaMat_injective (fun i j _ => Subsingleton.elim i j) (by norm_num)
  have hproj : noiseProjector (getNoiseSubspace eigh (covModel (ulaMat 3 fun _ : Fin 1 => phaseFactor (1 / 2) 1 "sin" 0) (1 : Matrix (Fin 1) (Fin 1) ℂ) 1) 1) =
      complProj (ulaMat 3 fun _ : Fin 1 => phaseFactor (1 / 2) 1 "sin" 0) :=
    noise_proj (by norm_num) hA PosDef.one (eigh.spec _ (covModel_isHermitian _ PosDef.one.isHermitian 1))
  rw [hproj] at hmem
  have hA1 : (ulaMat 3 fun _ : Fin 1 => phaseFactor (1 / 2) 1 "sin" 0) = Matrix.of fun _ _ => 1 := by
    ext i j
    simp [ulaMat, phaseFactor_broadside]
  have hC : ∀ i j, complProj (ulaMat 3 fun _ : Fin 1 => phaseFactor (1 / 2) 1 "sin" 0) i j = (if i = j then 1 else 0) - 1 / 3 := by
    intro i j
    rw [hA1]
    have hG : ((Matrix.of fun _ _ => 1 : Matrix (Fin 3) (Fin 1) ℂ)ᴴ * (Matrix.of fun _ _ => 1 : Matrix (Fin 3) (Fin 1) ℂ)) = (3 : ℂ) • (1 : Matrix (Fin 1) (Fin 1) ℂ) := by
      ext a b
      have : a = b := Subsingleton.elim a b
      simp [mul_apply, this]
    have hinv : ((3 : ℂ) • (1 : Matrix (Fin 1) (Fin 1) ℂ))⁻¹ = (1 / 3 : ℂ) • 1 := by
      apply Matrix.inv_eq_right_inv
      rw [smul_mul_smul_comm]; norm_num
    rw [Spec.complProj, Spec.leftInv, hG, hinv]
    simp [Matrix.sub_apply, Matrix.mul_apply, Matrix.one_apply]
  have hroot : (polyOf (rootCoeffs (complProj (ulaMat 3 fun _ : Fin 1 => phaseFactor (1 / 2) 1 "sin" 0)))).IsRoot (sel 0) := by
    have h := roots.spec (rootCoeffs (complProj (ulaMat 3 fun _ : Fin 1 => phaseFactor (1 / 2) 1 "sin" 0)))
    have h' : sel 0 ∈ ((roots.run (rootCoeffs (complProj (ulaMat 3 fun _ : Fin 1 => phaseFactor (1 / 2) 1 "sin" 0))) : List ℂ) : Multiset ℂ) := hmem.1
    rw [h] at h'
    exact (mem_roots'.1 h').2
  set x := sel 0 with hx
  have hquad : x ^ 2 + 4 * x + 1 = 0 := by
    have h1 : x ≠ 1 := fun h => by have := hmem.2; rw [h] at this; simp at this
    have h2 : (x - 1) ^ 2 * (x ^ 2 + 4 * x + 1) = 0 := by
      have := hroot
      simp only [IsRoot.def, rootCoeffs, diagSum, List.range_succ, List.range_zero, hC] at this
      have h3 : (starRingEnd ℂ) 3 = 3 := Complex.conj_eq_iff_real.2 ⟨3, by simp⟩
      simp [polyOf, Fin.ext_iff, List.range_succ, h3] at this
      linear_combination (-3) * this
    exact (mul_eq_zero.1 h2).resolve_left (pow_ne_zero _ (sub_ne_zero.2 h1))
  have hs3 := Real.sq_sqrt (show (0 : ℝ) ≤ 3 by norm_num)
  have hs1 : (1 : ℝ) < √3 := by rw [Real.lt_sqrt] <;> norm_num
  have hs2 : √3 < 2 := by rw [Real.sqrt_lt] <;> norm_num
  have hxr : x = ((-2 + √3 : ℝ) : ℂ) := by
    have hs3c : ((√3 : ℝ) : ℂ) ^ 2 = 3 := by rw [← Complex.ofReal_pow, hs3]; simp
    have : (x - ((-2 + √3 : ℝ) : ℂ)) * (x - ((-2 - √3 : ℝ) : ℂ)) = 0 := by
      push_cast
      linear_combination hquad - hs3c
    rcases mul_eq_zero.1 this with h | h
    · exact sub_eq_zero.1 h
    · exfalso
      have h2 := hmem.2
      rw [sub_eq_zero.1 h, Complex.norm_real, Real.norm_eq_abs, abs_lt] at h2
      linarith [h2.1]
  have hphase := e6 0
  have hloc := e2.2.2 0
  rw [e2.1] at hloc
  have hin : -1 ≤ s.loc 0 ∧ s.loc 0 ≤ 1 := by
    rcases hloc with ⟨h, _⟩ | ⟨h, _⟩ | ⟨_, h⟩
    · exact absurd h (by decide)
    · exact absurd h (by decide)
    · exact h
  have hcos : Real.cos (Real.pi * s.loc 0) = -1 := by
    have hsin : Real.sin (angleOf "sin" (s.loc 0)) = s.loc 0 := by
      rw [angleOf, if_neg (by decide), if_pos rfl, Real.sin_arcsin hin.1 hin.2]
    have h := congrArg Complex.re hphase
    rw [show sel 0 = _ from hxr, Complex.norm_real, Real.norm_eq_abs, abs_of_neg (by linarith), Complex.re_ofReal_mul, Complex.ofReal_re] at h
    have h4 : (phaseFactor (1 / 2) 1 "sin" (s.loc 0)).re = Real.cos (Real.pi * s.loc 0) := by
      unfold phaseFactor
      rw [hsin, mul_comm Complex.I, Complex.exp_ofReal_mul_I_re]
      congr 1
      ring
    rw [h4] at h
    have h5 : (-2 + √3) * (Real.cos (Real.pi * s.loc 0) + 1) = 0 := by linarith
    rcases mul_eq_zero.1 h5 with h6 | h6 <;> linarith
  by_contra hne
  push Not at hne
  have h7 : |s.loc 0| < 1 := by
    rw [abs_lt]
    exact ⟨lt_of_le_of_ne hin.1 fun h => hne.2 h.symm, lt_of_le_of_ne hin.2 hne.1⟩
  have h8 : Real.cos Real.pi < Real.cos |Real.pi * s.loc 0| := by
    apply Real.cos_lt_cos_of_nonneg_of_le_pi (abs_nonneg _) le_rfl
    rw [abs_mul, abs_of_pos hpi]
    nlinarith
  rw [Real.cos_abs, hcos, Real.cos_pi] at h8
  exact lt_irrefl _ h8

end Doa.Props
