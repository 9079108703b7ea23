import Verif.Props.MirrorEsprit

/-!
# C104: mirror images, root-MUSIC

With it, C81: root-MUSIC does not depend on the order in which the library lists the roots.
-/

namespace Doa.Props

open Doa Doa.Spec Matrix
open scoped ComplexOrder

variable {m k : ℕ}

/-! ### Specification -/

open Classical in
/-- Which `k` of the listed numbers inside the unit circle are closest to it is determined: there are fewer than `k` inside, or exactly `k` of them
(counted with multiplicity) lie beyond some radius. -/
def ClosestDetermined (z : List ℂ) (k : ℕ) : Prop :=
  (z.filter fun x => decide (‖x‖ < 1)).length < k ∨ ∃ ρ : ℝ, (z.filter fun x => decide (ρ < ‖x‖ ∧ ‖x‖ < 1)).length = k

/-- Every listed number on the unit circle is listed exactly twice. -/
def DoubleOnCircle (z : List ℂ) : Prop := ∀ x ∈ z, ‖x‖ = 1 → z.count x = 2

/-! ### Selection of the roots -/

open Classical in
theorem selected_perm {argsort : List ℝ → List ℕ} (hsort : IsArgsort argsort) {z : List ℂ} (hcount : DoubleOnCircle z) {ρ : ℝ} {k : ℕ}
    (hρ : (z.filter fun x => decide (ρ < ‖x‖ ∧ ‖x‖ < 1)).length = k) :
    ∃ sel, selectRoots argsort z k = .ok (some sel) ∧ sel.length = k ∧ sel.Perm (z.filter fun x => decide (ρ < ‖x‖ ∧ ‖x‖ < 1)) := by
  have hff : (z.filter fun x => decide (ρ < ‖x‖ ∧ ‖x‖ < 1)) = (z.filter fun x => decide (‖x‖ < 1)).filter fun x => decide (ρ < ‖x‖) := by
    rw [List.filter_filter]
    refine List.filter_congr fun x _ => ?_
    simp
  rw [hff] at hρ ⊢
  obtain ⟨sel, rest, h1, h2, h3, h4⟩ := (C46_selection_partial argsort hsort z hcount k).2
    (hρ ▸ List.length_filter_le _ _)
  refine ⟨sel, h1, h2, ?_⟩
  have h5 := h3.filter fun x => decide (ρ < ‖x‖)
  have h6 : (sel.filter fun x => decide (ρ < ‖x‖)).length + (rest.filter fun x => decide (ρ < ‖x‖)).length = k := by
    rw [← hρ, ← h5.length_eq, List.filter_append, List.length_append]
  have hall : ∀ x ∈ sel, ρ < ‖x‖ := by
    by_contra hc
    push Not at hc
    obtain ⟨x, hx, hxρ⟩ := hc
    have hr : rest.filter (fun x => decide (ρ < ‖x‖)) = [] := by
      rw [List.filter_eq_nil_iff]
      intro y hy
      have := h4 x hx y hy
      simp only [decide_eq_true_eq, not_lt]
      linarith
    rw [hr, List.length_nil, add_zero] at h6
    have h7 : (sel.filter fun x => decide (ρ < ‖x‖)) = sel := List.filter_sublist.eq_of_length (by omega)
    rw [List.filter_eq_self] at h7
    have := h7 x hx
    simp only [decide_eq_true_eq] at this
    linarith
  have hsel : (sel.filter fun x => decide (ρ < ‖x‖)) = sel := by
    rw [List.filter_eq_self]
    intro x hx
    simpa using hall x hx
  rw [hsel] at h6
  have hr : rest.filter (fun x => decide (ρ < ‖x‖)) = [] := List.length_eq_zero_iff.1 (by omega)
  rw [List.filter_append, hsel, hr, List.append_nil] at h5
  exact h5

open Classical in
/-- The roots selected from a list and from its image in any order. -/
theorem select_image {argsort argsort' : List ℝ → List ℕ} (hsort : IsArgsort argsort) (hsort' : IsArgsort argsort') {z z' : List ℂ} {f : ℂ → ℂ}
    (hf : Function.Injective f) (hn : ∀ x, ‖f x‖ = ‖x‖) (hz : z'.Perm (z.map f)) (hcount : DoubleOnCircle z) {k : ℕ} (hsep : ClosestDetermined z k) :
    (selectRoots argsort z k = .ok none ∧ selectRoots argsort' z' k = .ok none) ∨
    ∃ sel sel', selectRoots argsort z k = .ok (some sel) ∧ selectRoots argsort' z' k = .ok (some sel') ∧ sel.length = k ∧
      sel'.Perm (sel.map f) := by
  have hcount' : DoubleOnCircle z' := by
    intro y hy hy1
    obtain ⟨x, hx, rfl⟩ := List.mem_map.1 (hz.subset hy)
    rw [hz.count_eq, List.count_map_of_injective z f hf]
    exact hcount x hx (by rw [← hn]; exact hy1)
  have hfil : ∀ p : ℝ → Bool, (z'.filter fun x => p ‖x‖).Perm ((z.filter fun x => p ‖x‖).map f) := by
    intro p
    refine (hz.filter _).trans ?_
    rw [List.filter_map]
    refine List.Perm.map f (List.Perm.of_eq (List.filter_congr fun x _ => ?_))
    simp only [Function.comp_apply, hn]
  rcases hsep with h | ⟨ρ, h⟩
  · have h' : (z'.filter fun x => decide (‖x‖ < 1)).length < k := by
      have := (hfil fun r => decide (r < 1)).length_eq
      rw [List.length_map] at this
      rw [this]
      exact h
    exact Or.inl ⟨(C46_selection_partial argsort hsort z hcount k).1 h, (C46_selection_partial argsort' hsort' z' hcount' k).1 h'⟩
  · have h' : (z'.filter fun x => decide (ρ < ‖x‖ ∧ ‖x‖ < 1)).length = k := by
      have := (hfil fun r => decide (ρ < r ∧ r < 1)).length_eq
      rw [List.length_map] at this
      rw [this]
      exact h
    obtain ⟨sel, h1, h2, h3⟩ := selected_perm hsort hcount h
    obtain ⟨sel', h4, h5, h6⟩ := selected_perm hsort' hcount' h'
    exact Or.inr ⟨sel, sel', h1, h4, h2, (h6.trans (hfil fun r => decide (ρ < r ∧ r < 1))).trans (h3.map f).symm⟩

theorem getD_multiset {l : List ℂ} (h : l.length = k) : Multiset.map (fun i : Fin k => l.getD i 0) Finset.univ.val = (l : Multiset ℂ) := by
  subst h
  have h1 : (fun i : Fin l.length => l.getD i 0) = l.get := by
    funext i
    simp
  rw [h1, Fin.univ_val_map, List.ofFn_get]

/-- The steps of root-MUSIC after the noise subspace. -/
theorem rootMusic_eq (eigh : Eigh) (roots : NpRoots) (argsort : List ℝ → List ℕ) (wl : ℝ) (R : Matrix (Fin m) (Fin m) ℂ) (k : ℕ) (d0 : Option ℝ)
    (unit : String) : rootMusicEstimate eigh roots argsort wl R k d0 unit =
      match ensureNResolvable k ((m : ℤ) - 1) with
      | .error e => .error e
      | .ok _ =>
        match selectRoots argsort (roots.run (rootCoeffs (noiseProjector (getNoiseSubspace eigh R k)))) k with
        | .error e => .error e
        | .ok none => .ok none
        | .ok (some zs) => (FF1D.fromZ (fun i : Fin k => zs.getD i 0) wl (d0.getD (wl / 2)) unit).map some := by
  unfold rootMusicEstimate
  rw [dif_pos rfl]
  have : R.submatrix id (Fin.cast (rfl : m = m)) = R := rfl
  simp only [this]
  cases ensureNResolvable k ((m : ℤ) - 1) with
  | error e => rfl
  | ok _ =>
    simp only
    cases selectRoots argsort (roots.run (rootCoeffs (noiseProjector (getNoiseSubspace eigh R k)))) k with
    | error e => rfl
    | ok o =>
      cases o with
      | none => rfl
      | some zs =>
        simp only
        cases FF1D.fromZ (fun i : Fin k => zs.getD i 0) wl (d0.getD (wl / 2)) unit <;> rfl

theorem roots_perm (roots roots' : NpRoots) (c : List ℂ) : (roots'.run c).Perm (roots.run c) := by
  rw [← Multiset.coe_eq_coe]
  exact (roots'.spec c).trans (roots.spec c).symm

/-- **C81** (root-MUSIC, numerical routines). Under the hypotheses of `C81_root_music`, and if it is determined which `k` roots inside the unit
circle are closest to it, root-MUSIC returns the same result for `R` and for `g R + s 1`, whatever eigenvectors `eigh` returns, in whatever order
`np.roots` lists the roots and in whatever order `np.argsort` puts equal distances. -/
theorem C81_root_music_any (eigh eigh' : Eigh) (roots roots' : NpRoots) {argsort argsort' : List ℝ → List ℕ} (hsort : IsArgsort argsort)
    (hsort' : IsArgsort argsort') (wl : ℝ) {R : Matrix (Fin m) (Fin m) ℂ} (hR : R.IsHermitian) (hgap : HasGap R (m - k)) {g : ℝ} (hg : 0 < g) (s : ℝ)
    (d0 : Option ℝ) (unit : String) (hcirc : DoubleOnCircle (roots.run (rootCoeffs (noiseProjector (getNoiseSubspace eigh R k)))))
    (hsep : ClosestDetermined (roots.run (rootCoeffs (noiseProjector (getNoiseSubspace eigh R k)))) k) :
    rootMusicEstimate eigh' roots' argsort' wl ((g : ℂ) • R + (s : ℂ) • (1 : Matrix (Fin m) (Fin m) ℂ)) k d0 unit =
      rootMusicEstimate eigh roots argsort wl R k d0 unit := by
  rw [C81_root_music eigh eigh' roots' argsort' wl hR hgap hg s, rootMusic_eq, rootMusic_eq]
  cases ensureNResolvable k ((m : ℤ) - 1) with
  | error e => rfl
  | ok _ =>
    simp only
    rcases select_image (z' := roots'.run (rootCoeffs (noiseProjector (getNoiseSubspace eigh R k)))) hsort hsort' Function.injective_id (fun _ => rfl)
        (by rw [List.map_id]; exact roots_perm roots roots' _) hcirc hsep with
      ⟨h1, h2⟩ | ⟨sel, sel', h1, h2, h3, h4⟩
    · rw [h1, h2]
    · rw [h1, h2]
      simp only
      rw [List.map_id] at h4
      rw [fromZ_multiset]
      rw [getD_multiset h3, getD_multiset (h4.length_eq.trans h3)]
      exact Multiset.coe_eq_coe.2 h4

/-! ### Conjugated coefficients -/

theorem diagSum_conj (C : Matrix (Fin m) (Fin m) ℂ) (i : ℕ) : diagSum (conjM C) i = star (diagSum C i) := by
  have h : star (diagSum C i) = ((List.range (m - i)).map fun j => star (if h : j + i < m then C ⟨j, by omega⟩ ⟨j + i, h⟩ else 0)).sum := by
    rw [diagSum, Complex.star_def, map_list_sum, List.map_map]
    rfl
  rw [h, diagSum]
  congr 1
  refine List.map_congr_left fun j _ => ?_
  split_ifs
  · rfl
  · simp

theorem rootCoeffs_conj (C : Matrix (Fin m) (Fin m) ℂ) : rootCoeffs (conjM C) = (rootCoeffs C).map star := by
  simp [rootCoeffs, diagSum_conj, Function.comp_def]

theorem polyOf_conj (l : List ℂ) : polyOf (l.map star) = (polyOf l).map (starRingEnd ℂ) := by
  induction l with
  | nil => simp [polyOf]
  | cons c cs ih =>
    have h : (c :: cs).map star = star c :: cs.map star := rfl
    rw [h, polyOf, polyOf, ih, List.length_map]
    simp

theorem roots_conj (roots roots' : NpRoots) (C : Matrix (Fin m) (Fin m) ℂ) :
    (roots'.run (rootCoeffs (conjM C))).Perm ((roots.run (rootCoeffs C)).map star) := by
  rw [← Multiset.coe_eq_coe]
  refine (roots'.spec _).trans ?_
  rw [rootCoeffs_conj, polyOf_conj, (IsAlgClosed.splits (polyOf (rootCoeffs C))).roots_map, ← roots.spec (rootCoeffs C)]
  rfl

/-- **C104** (root-MUSIC). For Hermitian `R` with an eigenvalue gap, root-MUSIC returns from the complex conjugate of `R` the mirrored estimates, or
is unsuccessful or raises an exception in the same way; provided roots on the unit circle are double, it is determined which `k` roots inside are
closest to it, and no estimate has a phase step of exactly `π`. This holds whatever eigenvectors the library returns and in whatever order it lists
roots. -/
theorem C104_root_music (eigh eigh' : Eigh) (roots roots' : NpRoots) {argsort argsort' : List ℝ → List ℕ} (hsort : IsArgsort argsort)
    (hsort' : IsArgsort argsort') (wl : ℝ) {R : Matrix (Fin m) (Fin m) ℂ} (hR : R.IsHermitian) (hgap : HasGap R (m - k))
    (d0 : Option ℝ) (unit : String) (hcirc : DoubleOnCircle (roots.run (rootCoeffs (noiseProjector (getNoiseSubspace eigh R k)))))
    (hsep : ClosestDetermined (roots.run (rootCoeffs (noiseProjector (getNoiseSubspace eigh R k)))) k)
    (hb : ∀ s, rootMusicEstimate eigh roots argsort wl R k d0 unit = .ok (some s) → OffBoundary wl (d0.getD (wl / 2)) s) :
    rootMusicEstimate eigh' roots' argsort' wl (conjM R) k d0 unit =
      (rootMusicEstimate eigh roots argsort wl R k d0 unit).map fun o => o.map mirrorPlacement := by
  revert hb
  rw [rootMusic_eq, rootMusic_eq]
  cases ensureNResolvable k ((m : ℤ) - 1) with
  | error e => exact fun _ => rfl
  | ok _ =>
    simp only
    have hp : noiseProjector (getNoiseSubspace eigh' (conjM R) k) = conjM (noiseProjector (getNoiseSubspace eigh R k)) :=
      noiseProjector_conj eigh eigh' hR hgap
    rcases select_image hsort hsort' star_injective (fun x => norm_star x) (roots_conj roots roots' _) hcirc hsep with
      ⟨h1, h2⟩ | ⟨sel, sel', h1, h2, h3, h4⟩
    · rw [hp, h1, h2]
      exact fun _ => rfl
    · rw [hp, h1, h2]
      simp only
      intro hb
      have h5 : FF1D.fromZ (fun i : Fin k => sel'.getD i 0) wl (d0.getD (wl / 2)) unit =
          FF1D.fromZ (fun i : Fin k => star (sel.getD i 0)) wl (d0.getD (wl / 2)) unit := by
        refine fromZ_multiset ?_ _ _ _
        rw [getD_multiset (h4.length_eq.trans (by simpa using h3)), Multiset.coe_eq_coe.2 h4, ← Multiset.map_coe, ← getD_multiset h3,
          Multiset.map_map]
        rfl
      rw [h5, fromZ_conj _ _ _ _ fun s hs => hb s (by rw [hs]; rfl)]
      cases FF1D.fromZ (fun i : Fin k => sel.getD i 0) wl (d0.getD (wl / 2)) unit <;> rfl

/-! ### A concrete case -/

/-- Two sensors, one source with response `(2, j)`, noise variance one. -/
theorem two_sensor_case (eigh : Eigh) (roots : NpRoots) {argsort : List ℝ → List ℕ} (hsort : IsArgsort argsort) :
    let R := covModel (Matrix.of fun (i : Fin 2) (_ : Fin 1) => (![2, Complex.I] i : ℂ)) 1 1
    R.IsHermitian ∧ conjM R ≠ R ∧ HasGap R (2 - 1) ∧
      DoubleOnCircle (roots.run (rootCoeffs (noiseProjector (getNoiseSubspace eigh R 1)))) ∧
      ClosestDetermined (roots.run (rootCoeffs (noiseProjector (getNoiseSubspace eigh R 1)))) 1 ∧
      (∀ s, rootMusicEstimate eigh roots argsort 1 R 1 none "rad" = .ok (some s) → OffBoundary 1 ((none : Option ℝ).getD (1 / 2)) s) ∧
      ∃ s, rootMusicEstimate eigh roots argsort 1 R 1 none "rad" = .ok (some s) := by
  classical
  intro R
  set A : Matrix (Fin 2) (Fin 1) ℂ := Matrix.of fun (i : Fin 2) (_ : Fin 1) => (![2, Complex.I] i : ℂ) with hA
  have hinj : Function.Injective A.mulVec := injective_one fun h => by
    have := congrFun h 0
    simp [Matrix.col, hA] at this
  have hR : R.IsHermitian := covModel_isHermitian _ isHermitian_one 1
  have hproj : noiseProjector (getNoiseSubspace eigh R 1) = complProj A := noise_proj (by norm_num) hinj PosDef.one (eigh.spec _ hR)
  have hG : Aᴴ * A = (5 : ℂ) • (1 : Matrix (Fin 1) (Fin 1) ℂ) := by
    ext a b
    have h1 : a = 0 := Subsingleton.elim a 0
    have h2 : b = 0 := Subsingleton.elim b 0
    subst h1 h2
    have h2 : (starRingEnd ℂ) 2 = 2 := Complex.conj_eq_iff_real.2 ⟨2, by simp⟩
    simp [hA, Matrix.mul_apply, Fin.sum_univ_two, h2]
    norm_num
  have hinv : ((5 : ℂ) • (1 : Matrix (Fin 1) (Fin 1) ℂ))⁻¹ = (1 / 5 : ℂ) • 1 := by
    apply Matrix.inv_eq_right_inv
    rw [smul_mul_smul_comm]; norm_num
  have hC : ∀ i j, complProj A i j = (if i = j then 1 else 0) - 1 / 5 * ((![2, Complex.I] i : ℂ) * star (![2, Complex.I] j : ℂ)) := by
    intro i j
    rw [Spec.complProj, Spec.leftInv, hG, hinv]
    simp [hA, Matrix.sub_apply, Matrix.mul_apply, Matrix.one_apply]
  have hpoly : polyOf (rootCoeffs (complProj A)) = Polynomial.C (2 * Complex.I / 5) * ((Polynomial.X - Polynomial.C (2 * Complex.I)) * (Polynomial.X - Polynomial.C (Complex.I / 2))) := by
    have hI := Complex.I_sq
    have h2 : (starRingEnd ℂ) 2 = 2 := Complex.conj_eq_iff_real.2 ⟨2, by simp⟩
    have h5 : (starRingEnd ℂ) 5 = 5 := Complex.conj_eq_iff_real.2 ⟨5, by simp⟩
    have hc : rootCoeffs (complProj A) = [2 * Complex.I / 5, 1, -(2 * Complex.I / 5)] := by
      simp [rootCoeffs, diagSum, List.range_succ, hC, h2, h5]
      refine ⟨by ring, by ring, by ring⟩
    rw [hc]
    have e : (Polynomial.X - Polynomial.C (2 * Complex.I)) * (Polynomial.X - Polynomial.C (Complex.I / 2)) =
        Polynomial.X ^ 2 - Polynomial.C (5 * Complex.I / 2) * Polynomial.X + Polynomial.C (-1) := by
      have e1 : (5 * Complex.I / 2 : ℂ) = 2 * Complex.I + Complex.I / 2 := by ring
      have e2 : (-1 : ℂ) = 2 * Complex.I * (Complex.I / 2) := by linear_combination -hI
      rw [e1, e2, Polynomial.C_add]
      generalize (2 * Complex.I : ℂ) = α
      generalize (Complex.I / 2 : ℂ) = γ
      rw [Polynomial.C_mul]
      ring
    rw [e]
    have e3 : (1 : ℂ) = -(2 * Complex.I / 5 * (5 * Complex.I / 2)) := by linear_combination hI
    have e4 : -(2 * Complex.I / 5 : ℂ) = 2 * Complex.I / 5 * (-1) := by ring
    simp only [polyOf, List.length_cons, List.length_nil]
    rw [e4, mul_add, mul_sub, ← mul_assoc, ← Polynomial.C_mul, ← Polynomial.C_mul, e3]
    simp
    ring
  have hne : polyOf (rootCoeffs (complProj A)) ≠ 0 := by
    rw [hpoly]
    refine mul_ne_zero (Polynomial.C_ne_zero.2 (by simp)) (mul_ne_zero (Polynomial.X_sub_C_ne_zero _) (Polynomial.X_sub_C_ne_zero _))
  set z := roots.run (rootCoeffs (noiseProjector (getNoiseSubspace eigh R 1))) with hz
  have hzp : z.Perm [2 * Complex.I, Complex.I / 2] := by
    rw [← Multiset.coe_eq_coe, hz, hproj, roots.spec (rootCoeffs (complProj A)), hpoly, Polynomial.roots_C_mul _ (by simp),
      Polynomial.roots_mul (mul_ne_zero (Polynomial.X_sub_C_ne_zero _) (Polynomial.X_sub_C_ne_zero _)), Polynomial.roots_X_sub_C,
      Polynomial.roots_X_sub_C]
    rfl
  have hn1 : ‖(2 * Complex.I : ℂ)‖ = 2 := by simp
  have hn2 : ‖(Complex.I / 2 : ℂ)‖ = 1 / 2 := by simp
  have hd : DoubleOnCircle z := by
    intro x hx h1
    have := hzp.subset hx
    simp only [List.mem_cons, List.not_mem_nil, or_false] at this
    rcases this with rfl | rfl
    · rw [hn1] at h1; norm_num at h1
    · rw [hn2] at h1; norm_num at h1
  have hfil : (z.filter fun x => decide ((0 : ℝ) < ‖x‖ ∧ ‖x‖ < 1)).Perm [Complex.I / 2] := by
    refine (hzp.filter _).trans ?_
    rw [List.filter_cons, List.filter_cons]
    simp only [hn1, hn2]
    norm_num
  obtain ⟨sel, h1, h2, h3⟩ := selected_perm hsort hd (k := 1) (by rw [hfil.length_eq]; rfl)
  have hsel : sel = [Complex.I / 2] := List.perm_singleton.1 (h3.trans hfil)
  have hres : rootMusicEstimate eigh roots argsort 1 R 1 none "rad" =
      (FF1D.fromZ (fun _ : Fin 1 => Complex.I / 2) 1 (1 / 2) "rad").map some := by
    rw [rootMusic_eq, ← hz]
    have : ensureNResolvable ((1 : ℕ) : ℤ) (((2 : ℕ) : ℤ) - 1) = .ok () := if_neg (by norm_num)
    rw [this]
    simp only
    rw [h1, hsel]
    simp only [Option.getD_none]
    congr 2
    funext i
    have : i = 0 := Subsingleton.elim i 0
    subst this
    simp
  have harg : Complex.arg (Complex.I / 2) = Real.pi / 2 := by
    have : Complex.I / 2 = ((1 / 2 : ℝ) : ℂ) * Complex.I := by push_cast; ring
    rw [this, Complex.arg_real_mul _ (by norm_num), Complex.arg_I]
  have hpi := Real.pi_pos
  refine ⟨hR, fun h => ?_, hasGap_covModel hinj PosDef.one 1, hd, Or.inr ⟨0, by rw [hfil.length_eq]; rfl⟩, fun s hs => ?_, ?_⟩
  · have h1 := congrFun (congrFun h 0) 1
    have h2 := congrArg Complex.im h1
    simp [conjM, R, covModel, Matrix.mul_apply, hA] at h2
    norm_num at h2
  · rw [hres] at hs
    cases hf : FF1D.fromZ (fun _ : Fin 1 => Complex.I / 2) 1 (1 / 2) "rad" with
    | error e => rw [hf] at hs; cases hs
    | ok s' =>
      rw [hf] at hs
      cases hs
      exact offBoundary_fromZ (fun _ => by rw [harg]; linarith) hf
  · obtain ⟨s, h1, -⟩ := (C92_from_z_partial (fun _ : Fin 1 => Complex.I / 2) (wl := 1) (d0 := 1 / 2) one_pos (by norm_num) "rad" (by simp [Unit1D])).1
      (fun i => by
        rw [harg, abs_of_pos (by linarith)]
        linarith)
    exact ⟨s, by rw [hres, h1]; rfl⟩

/-- `C104_root_music` applies to it, for any two sets of numerical routines. -/
example (eigh eigh' : Eigh) (roots roots' : NpRoots) {argsort argsort' : List ℝ → List ℕ} (hsort : IsArgsort argsort) (hsort' : IsArgsort argsort') :
    let R := covModel (Matrix.of fun (i : Fin 2) (_ : Fin 1) => (![2, Complex.I] i : ℂ)) 1 1
    rootMusicEstimate eigh' roots' argsort' 1 (conjM R) 1 none "rad" =
      (rootMusicEstimate eigh roots argsort 1 R 1 none "rad").map fun o => o.map mirrorPlacement := by
  intro R
  obtain ⟨h1, -, h3, h4, h5, h6, -⟩ := two_sensor_case eigh roots hsort
  exact C104_root_music eigh eigh' roots roots' hsort hsort' 1 h1 h3 none "rad" h4 h5 h6

/-- The exclusion of phase steps of exactly `π` is needed: for one source at broadside on three sensors the covariance matrix is real, so its
conjugate is the same matrix, but the estimate (`sin θ = ±1`) is not its own mirror image. -/
theorem C104_boundary_violated (eigh : Eigh) (roots : NpRoots) (argsort : List ℝ → List ℕ) (hsort : IsArgsort argsort) :
    let R := covModel (ulaMat 3 fun _ : Fin 1 => phaseFactor (1 / 2) 1 "sin" 0) (1 : Matrix (Fin 1) (Fin 1) ℂ) 1
    conjM R = R ∧ rootMusicEstimate eigh roots argsort 1 (conjM R) 1 none "sin" ≠
      (rootMusicEstimate eigh roots argsort 1 R 1 none "sin").map fun o => o.map mirrorPlacement := by
  intro R
  have hreal : conjM R = R := by
    have hA1 : (ulaMat 3 fun _ : Fin 1 => phaseFactor (1 / 2) 1 "sin" 0) = Matrix.of fun _ _ => 1 := by
      ext i j
      simp [ulaMat, phaseFactor_broadside]
    have hR1 : R = covModel (Matrix.of fun (_ : Fin 3) (_ : Fin 1) => (1 : ℂ)) 1 1 := congrArg (fun B => covModel B 1 1) hA1
    rw [hR1]
    ext i j
    by_cases hij : i = j <;> simp [conjM, covModel, Matrix.mul_apply, Matrix.one_apply, hij]
  refine ⟨hreal, ?_⟩
  obtain ⟨s, h1, h2⟩ := C46_wrong_doa eigh roots argsort hsort
  rw [hreal]
  show rootMusicEstimate eigh roots argsort 1 (covModel _ _ 1) 1 none "sin" ≠ Except.map _ (rootMusicEstimate eigh roots argsort 1 (covModel _ _ 1) 1 none "sin")
  rw [h1]
  intro h
  simp only [Except.map, Except.ok.injEq, Option.map_some, Option.some.injEq] at h
  have h3 : s.loc 0 = -s.loc 0 := congrArg (fun t : FF1D 1 => t.loc 0) h
  rcases h2 with h2 | h2 <;> rw [h2] at h3 <;> norm_num at h3

end Doa.Props
