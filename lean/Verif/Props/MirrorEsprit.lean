import Mathlib.Analysis.Complex.Polynomial.Basic
import Verif.Props.Mirror
import Verif.Props.FromZ

/-!
# C104: mirror images, ESPRIT
-/

namespace Doa.Props

open Doa Doa.Spec Matrix
open scoped ComplexOrder

variable {m k : ℕ}

/-! ### Specification -/

/-- The placement with every direction negated, in increasing order when the given one is. -/
def mirrorPlacement (s : FF1D k) : FF1D k := ⟨fun i => -s.loc i.rev, s.unit⟩

/-- No direction of the placement is one whose phase step over the distance `d` is exactly `π` (where `+π` and `-π` cannot be told apart). -/
def OffBoundary (wl d : ℝ) (s : FF1D k) : Prop := ∀ i, 2 * Real.pi * d / wl * Real.sin (angleOf s.unit (s.loc i)) ≠ Real.pi

/-! ### Conjugated library functions -/

theorem conjM_conjM {n : ℕ} (M : Matrix (Fin m) (Fin n) ℂ) : conjM (conjM M) = M := by
  ext i j
  simp [conjM]

theorem conjM_one : conjM (1 : Matrix (Fin m) (Fin m) ℂ) = 1 := by
  ext i j
  by_cases hij : i = j <;> simp [conjM, hij, Matrix.one_apply]

theorem isHermitian_conjM {R : Matrix (Fin m) (Fin m) ℂ} (hR : R.IsHermitian) : (conjM R).IsHermitian := by
  rw [IsHermitian, conjM_herm, hR.eq]

theorem isEigh_conjM {R E : Matrix (Fin m) (Fin m) ℂ} {w : Fin m → ℝ} (h : IsEigh R w E) : IsEigh (conjM R) w (conjM E) := by
  have hdiag : ∀ w : Fin m → ℝ, conjM (diagonal fun j => (w j : ℂ)) = diagonal fun j => (w j : ℂ) := fun w => by
    ext i j
    by_cases hij : i = j <;> simp [conjM, hij, diagonal_apply]
  refine ⟨h.mono, ?_, ?_⟩
  · rw [conjM_herm, ← conjM_mul, h.orth, conjM_one]
  · rw [← conjM_mul, h.eig, conjM_mul, hdiag]

theorem hasGap_conjM {R : Matrix (Fin m) (Fin m) ℂ} {q : ℕ} (h : HasGap R q) : HasGap (conjM R) q := by
  obtain ⟨w, E, h1, h2⟩ := h
  exact ⟨w, conjM E, isEigh_conjM h1, h2⟩

/-- The eigensolver that conjugates its input and its output. -/
noncomputable def conjEigh (e : Eigh) : Eigh where
  run M := ((e.run (conjM M)).1, conjM (e.run (conjM M)).2)
  spec R hR := by
    have := isEigh_conjM (e.spec _ (isHermitian_conjM hR))
    rwa [conjM_conjM] at this

/-- The eigenvalue solver that conjugates its input and its output. -/
noncomputable def conjEigvals (e : NpEigvals) : NpEigvals where
  run M := fun i => star (e.run (conjM M) i)
  spec M := by
    have h1 : (conjM M).charpoly = M.charpoly.map (starRingEnd ℂ) := charpoly_map M (starRingEnd ℂ)
    have h2 := e.spec (conjM M)
    rw [h1, (IsAlgClosed.splits M.charpoly).roots_map] at h2
    have h3 := congrArg (Multiset.map star) h2
    rw [Multiset.map_map, Multiset.map_map] at h3
    refine h3.trans ?_
    conv_rhs => rw [← Multiset.map_id M.charpoly.roots]
    exact Multiset.map_congr rfl fun z _ => by simp

/-! ### Conversion of the phase factors -/

theorem sortVec_neg (x : Fin k → ℝ) : sortVec (fun i => -x i) = fun i => -sortVec x i.rev := by
  have hp : ∀ x : Fin k → ℝ, Multiset.map (sortVec x) Finset.univ.val = Multiset.map x Finset.univ.val := by
    intro x
    have := congrArg Finset.val (Finset.map_univ_equiv (Tuple.sort x))
    rw [Finset.map_val] at this
    conv_rhs => rw [← this, Multiset.map_map]
    rfl
  refine monotone_unique (Tuple.monotone_sort _) (fun i j hij => ?_) ?_
  · exact neg_le_neg (Tuple.monotone_sort x (Fin.rev_le_rev.2 hij))
  · have h1 := congrArg Finset.val (Finset.map_univ_equiv (Fin.revPerm (n := k)))
    rw [Finset.map_val] at h1
    have h2 : Multiset.map (fun i : Fin k => -sortVec x i.rev) Finset.univ.val = Multiset.map (fun i => -sortVec x i) Finset.univ.val := by
      conv_rhs => rw [← h1, Multiset.map_map]
      rfl
    have h3 := congrArg (Multiset.map fun v : ℝ => -v) (hp x)
    rw [Multiset.map_map, Multiset.map_map] at h3
    rw [hp, h2]
    exact h3.symm

/-- `from_z` when all phases belong to directions. -/
theorem fromZ_ok (wl d : ℝ) (hwl : wl ≠ 0) (u : String) : ∃ (g h : ℝ → ℝ) (w : String), (∀ x, g (-x) = -g x) ∧ (∀ x, h (-x) = -h x) ∧
    (∀ x, -1 ≤ x → x ≤ 1 → Real.sin (angleOf w (h (g x))) = x) ∧
    ∀ z : Fin k → ℂ, (∀ i, |Complex.arg (z i) / (2 * Real.pi * d / wl)| ≤ 1) →
      FF1D.fromZ z wl d u = .ok ⟨fun i => h (sortVec (fun i => g (Complex.arg (z i) / (2 * Real.pi * d / wl))) i), w⟩ := by
  have hpi := Real.pi_pos
  by_cases h1 : u = "sin"
  · refine ⟨id, id, "sin", fun _ => rfl, fun _ => rfl, fun x hx hx' => ?_, fun z hz => ?_⟩
    · simp [angleOf, Real.sin_arcsin hx hx']
    · unfold FF1D.fromZ
      dsimp only
      rw [if_neg hwl, if_pos h1]
      unfold FF1D.init
      simp only [validRange1D, String.reduceEq, if_false, if_true]
      rw [if_neg]
      · rfl
      · rintro (⟨i, hi⟩ | ⟨i, hi⟩)
        · have := (abs_le.1 (hz ((Tuple.sort fun i => Complex.arg (z i) / (2 * Real.pi * d / wl)) i))).1
          simp only [sortVec, Function.comp_apply] at hi
          linarith
        · have := (abs_le.1 (hz ((Tuple.sort fun i => Complex.arg (z i) / (2 * Real.pi * d / wl)) i))).2
          simp only [sortVec, Function.comp_apply] at hi
          linarith
  · have hno : ∀ z : Fin k → ℂ, (∀ i, |Complex.arg (z i) / (2 * Real.pi * d / wl)| ≤ 1) →
        ¬ ∃ i, 1 < |Complex.arg (z i) / (2 * Real.pi * d / wl)| := fun z hz ⟨i, hi⟩ => absurd hi (not_lt.2 (hz i))
    by_cases h2 : u = "rad"
    · refine ⟨Real.arcsin, id, "rad", Real.arcsin_neg, fun _ => rfl, fun x hx hx' => ?_, fun z hz => ?_⟩
      · simp [angleOf, Real.sin_arcsin hx hx']
      · unfold FF1D.fromZ
        dsimp only
        rw [if_neg hwl, if_neg h1, if_neg (hno z hz), if_pos h2]
        unfold FF1D.init
        simp only [validRange1D, if_true]
        rw [if_neg]
        · rfl
        · rintro (⟨i, hi⟩ | ⟨i, hi⟩)
          · simp only [sortVec, Function.comp_apply] at hi
            have := Real.neg_pi_div_two_le_arcsin (Complex.arg (z ((Tuple.sort fun i => Real.arcsin (Complex.arg (z i) / (2 * Real.pi * d / wl))) i)) / (2 * Real.pi * d / wl))
            linarith
          · simp only [sortVec, Function.comp_apply] at hi
            have := Real.arcsin_le_pi_div_two (Complex.arg (z ((Tuple.sort fun i => Real.arcsin (Complex.arg (z i) / (2 * Real.pi * d / wl))) i)) / (2 * Real.pi * d / wl))
            linarith
    · refine ⟨Real.arcsin, rad2deg, "deg", Real.arcsin_neg, fun x => by simp [rad2deg, neg_mul], fun x hx hx' => ?_, fun z hz => ?_⟩
      · have : Real.arcsin x * 180 / Real.pi * Real.pi / 180 = Real.arcsin x := by field_simp
        have h3 : rad2deg (Real.arcsin x) * Real.pi / 180 = Real.arcsin x := by
          unfold rad2deg
          field_simp
        simp [angleOf, h3, Real.sin_arcsin hx hx']
      · unfold FF1D.fromZ
        dsimp only
        rw [if_neg hwl, if_neg h1, if_neg (hno z hz), if_neg h2]
        unfold FF1D.init
        simp only [validRange1D, String.reduceEq, if_false, if_true]
        have hr : ∀ x : ℝ, -90 ≤ rad2deg (Real.arcsin x) ∧ rad2deg (Real.arcsin x) ≤ 90 := by
          intro x
          have h3 := Real.neg_pi_div_two_le_arcsin x
          have h4 := Real.arcsin_le_pi_div_two x
          have : rad2deg (Real.arcsin x) = Real.arcsin x * 180 / Real.pi := by unfold rad2deg; ring
          rw [this, le_div_iff₀ hpi, div_le_iff₀ hpi]
          constructor <;> linarith
        rw [if_neg]
        rintro (⟨i, hi⟩ | ⟨i, hi⟩)
        · exact absurd hi (not_lt.2 (hr _).1)
        · exact absurd hi (not_lt.2 (hr _).2)

/-- `from_z` when some phase does not belong to a direction. -/
theorem fromZ_error (wl d : ℝ) (hwl : wl ≠ 0) (u : String) (z : Fin k → ℂ) (hz : ∃ i, 1 < |Complex.arg (z i) / (2 * Real.pi * d / wl)|) :
    FF1D.fromZ z wl d u = .error (if u = "sin" then .typeError else .returnsNaN) := by
  unfold FF1D.fromZ
  dsimp only
  rw [if_neg hwl]
  by_cases hs : u = "sin"
  · rw [if_pos hs, if_pos hs]
    set x : Fin k → ℝ := fun i => Complex.arg (z i) / (2 * Real.pi * d / wl) with hx
    unfold FF1D.init
    simp only [validRange1D, String.reduceEq, if_false, if_true]
    obtain ⟨i, hi⟩ := hz
    have hj : sortVec x ((Tuple.sort x).symm i) = x i := by simp [sortVec]
    rw [if_pos]
    rcases lt_abs.1 hi with h | h
    · exact Or.inr ⟨(Tuple.sort x).symm i, by rw [hj]; exact h⟩
    · exact Or.inl ⟨(Tuple.sort x).symm i, by rw [hj]; simp only [hx]; linarith⟩
  · rw [if_neg hs, if_neg hs, if_pos hz]

theorem fromZ_conj (z : Fin k → ℂ) (wl d : ℝ) (u : String) (hb : ∀ s, FF1D.fromZ z wl d u = .ok s → OffBoundary wl d s) :
    FF1D.fromZ (fun i => star (z i)) wl d u = (FF1D.fromZ z wl d u).map mirrorPlacement := by
  by_cases hwl : wl = 0
  · simp [FF1D.fromZ, hwl, Except.map]
  have harg : ∀ w : ℂ, |Complex.arg (star w) / (2 * Real.pi * d / wl)| = |Complex.arg w / (2 * Real.pi * d / wl)| := by
    intro w
    rw [Complex.star_def, Complex.arg_conj]
    split_ifs with h
    · rw [h]
    · rw [neg_div, abs_neg]
  by_cases hz : ∃ i, 1 < |Complex.arg (z i) / (2 * Real.pi * d / wl)|
  · rw [fromZ_error wl d hwl u z hz, fromZ_error wl d hwl u _ (by simpa only [harg] using hz)]
    rfl
  push Not at hz
  obtain ⟨g, h, w, hg, hh, hs, hok⟩ := fromZ_ok (k := k) wl d hwl u
  have h1 := hok z hz
  have hb' := hb _ h1
  have hneg : ∀ i, Complex.arg (star (z i)) / (2 * Real.pi * d / wl) = -(Complex.arg (z i) / (2 * Real.pi * d / wl)) := by
    intro i
    by_cases hc : 2 * Real.pi * d / wl = 0
    · rw [hc]; simp
    have := hb' ((Tuple.sort fun i => g (Complex.arg (z i) / (2 * Real.pi * d / wl))).symm i)
    simp only [sortVec, Function.comp_apply, Equiv.apply_symm_apply] at this
    rw [hs _ (abs_le.1 (hz i)).1 (abs_le.1 (hz i)).2, mul_div_cancel₀ _ hc] at this
    rw [Complex.star_def, Complex.arg_conj, if_neg this, neg_div]
  rw [h1, hok _ (fun i => by rw [harg]; exact hz i)]
  simp only [hneg, hg, Except.map, mirrorPlacement]
  rw [sortVec_neg]
  simp only [hh]

/-! ### The steps of ESPRIT -/

theorem conjM_signalCols (E : Matrix (Fin m) (Fin m) ℂ) (hk : k ≤ m) : signalCols (conjM E) hk = conjM (signalCols E hk) := rfl

theorem conjM_scaleRows (buf : Matrix (Fin m) (Fin k) ℂ) (d : ℕ) (w : List ℝ) : scaleRows (conjM buf) d w = conjM (scaleRows buf d w) := by
  ext r c
  simp only [scaleRows, conjM, Matrix.map_apply]
  split_ifs
  · cases w[r.1 - d]? <;> simp
  · rfl

theorem conjM_applyWeights (buf : Matrix (Fin m) (Fin k) ℂ) (d : ℕ) (rw : Option (List ℝ)) :
    applyWeights (conjM buf) d rw = conjM (applyWeights buf d rw) := by
  cases rw with
  | none => rfl
  | some w => simp only [applyWeights, conjM_scaleRows]

theorem conjM_hstack {n : ℕ} (a b : Matrix (Fin n) (Fin k) ℂ) : hstack2 (conjM a) (conjM b) = conjM (hstack2 a b) := by
  ext i j
  simp only [hstack2, conjM, Matrix.map_apply]
  refine Fin.addCases (fun j => ?_) (fun j => ?_) j
  · simp
  · simp only [Fin.addCases_right, Matrix.map_apply]

theorem npSolve_conj {n : ℕ} (M : Matrix (Fin n) (Fin n) ℂ) (B : Matrix (Fin n) (Fin k) ℂ) :
    npSolve (conjM M) (conjM B) = (npSolve M B).map conjM := by
  have hdet : (conjM M).det = star M.det := (RingHom.map_det (starRingEnd ℂ) M).symm
  unfold npSolve
  by_cases h : IsUnit M.det
  · have h' : IsUnit (conjM M).det := by
      rw [hdet, isUnit_iff_ne_zero, star_ne_zero]
      exact h.ne_zero
    rw [if_pos h, if_pos h']
    simp only [Except.map, Except.ok.injEq]
    rw [conjM_mul]
    congr 1
    refine inv_eq_left_inv ?_
    rw [← conjM_mul, nonsing_inv_mul _ h, conjM_one]
  · have h' : ¬ IsUnit (conjM M).det := by
      rw [hdet, isUnit_iff_ne_zero, star_ne_zero]
      exact fun h' => h (isUnit_iff_ne_zero.2 h')
    rw [if_neg h, if_neg h']
    rfl

theorem phiLS_conj {n : ℕ} (a b : Matrix (Fin n) (Fin k) ℂ) : phiLS (conjM a) (conjM b) = (phiLS a b).map conjM := by
  simp only [phiLS, conjM_herm, ← conjM_mul, npSolve_conj]

theorem phiTLS_conj (eigh : Eigh) {n : ℕ} (a b : Matrix (Fin n) (Fin k) ℂ) :
    phiTLS (conjEigh eigh) (conjM a) (conjM b) = (phiTLS eigh a b).map conjM := by
  have hE : ((conjEigh eigh).run ((hstack2 (conjM a) (conjM b))ᴴ * hstack2 (conjM a) (conjM b))).2 =
      conjM (eigh.run ((hstack2 a b)ᴴ * hstack2 a b)).2 := by
    show conjM (eigh.run (conjM _)).2 = _
    rw [conjM_hstack, conjM_herm, ← conjM_mul, conjM_conjM]
  unfold phiTLS
  simp only [hE]
  generalize (eigh.run ((hstack2 a b)ᴴ * hstack2 a b)).2 = E
  have := npSolve_conj (fun i j => E (Fin.natAdd k j) (Fin.natAdd k i).rev : Matrix (Fin k) (Fin k) ℂ)
    (fun i j => E (Fin.castAdd k j) (Fin.natAdd k i).rev : Matrix (Fin k) (Fin k) ℂ)
  have h2 : npSolve (fun i j => conjM E (Fin.natAdd k i) (Fin.natAdd k j).rev : Matrix (Fin k) (Fin k) ℂ)ᵀ
      (fun i j => conjM E (Fin.castAdd k i) (Fin.natAdd k j).rev : Matrix (Fin k) (Fin k) ℂ)ᵀ = 
      (npSolve (fun i j => E (Fin.natAdd k i) (Fin.natAdd k j).rev : Matrix (Fin k) (Fin k) ℂ)ᵀ
        (fun i j => E (Fin.castAdd k i) (Fin.natAdd k j).rev : Matrix (Fin k) (Fin k) ℂ)ᵀ).map conjM := this
  rw [h2]
  cases npSolve (fun i j => E (Fin.natAdd k i) (Fin.natAdd k j).rev : Matrix (Fin k) (Fin k) ℂ)ᵀ
        (fun i j => E (Fin.castAdd k i) (Fin.natAdd k j).rev : Matrix (Fin k) (Fin k) ℂ)ᵀ with
  | error e => rfl
  | ok X =>
    simp only [Except.map, Except.ok.injEq]
    ext i j
    simp [conjM]

theorem tlsWellPosed_conj {eigh : Eigh} {R : Matrix (Fin m) (Fin m) ℂ} {d : ℕ} {w : Option (List ℝ)} (h : TlsWellPosed eigh R k d w) :
    TlsWellPosed (conjEigh eigh) (conjM R) k d w := by
  intro hk
  have h1 := hasGap_conjM (h hk)
  have h2 : ((conjEigh eigh).run (conjM R)).2 = conjM (eigh.run R).2 := by
    show conjM (eigh.run (conjM _)).2 = _
    rw [conjM_conjM]
  rw [conjM_mul, ← conjM_herm, ← conjM_hstack] at h1
  rw [h2, conjM_signalCols, conjM_applyWeights]
  exact h1

/-- **C104** (ESPRIT). If the `k` largest eigenvalues of `R` are separated from the others (and, for total least squares, the least squares
problem is well posed), then from the complex conjugate of `R` ESPRIT returns the mirrored estimates, or raises the same exception; whatever
eigenvectors the library returns and in whatever order it lists eigenvalues. An estimate whose phase step over the displacement is exactly `π`
is excluded. -/
theorem C104_esprit (eigh eigh' : Eigh) (ev ev' : NpEigvals) (wl : ℝ)
    {R : Matrix (Fin m) (Fin m) ℂ} (hR : R.IsHermitian) (hgap : HasGap R (m - k))
    (d0 : Option ℝ) (disp : ℤ) (formulation : String) (rw : RowWeights) (unit : String)
    (htls : formulation = "tls" → ∀ w, resolveWeights rw (m - disp.toNat) = .ok w → TlsWellPosed eigh R k disp.toNat w)
    (hb : ∀ s, espritEstimate eigh ev wl R k d0 disp formulation rw unit = .ok s → OffBoundary wl (d0.getD (wl / 2) * (disp : ℝ)) s) :
    espritEstimate eigh' ev' wl (conjM R) k d0 disp formulation rw unit =
      (espritEstimate eigh ev wl R k d0 disp formulation rw unit).map mirrorPlacement := by
  have hswap := C81_esprit (conjEigh eigh) eigh' (conjEigvals ev) ev' wl (isHermitian_conjM hR) (hasGap_conjM hgap) one_pos 0 d0 disp formulation
    rw unit (fun h w hw => tlsWellPosed_conj (htls h w hw))
  simp only [Complex.ofReal_one, one_smul, Complex.ofReal_zero, zero_smul, add_zero] at hswap
  rw [hswap]
  clear hswap
  revert hb
  unfold espritEstimate
  by_cases hd : disp < 1
  · rw [if_pos hd, if_pos hd]
    exact fun _ => rfl
  rw [if_neg hd, if_neg hd]
  have hdisp : ((disp.toNat : ℕ) : ℝ) = (disp : ℝ) := by
    have : ((disp.toNat : ℕ) : ℤ) = disp := Int.toNat_of_nonneg (by omega)
    exact_mod_cast congrArg (fun z : ℤ => (z : ℝ)) this
  cases ensureNResolvable k ((m : ℤ) - disp) with
  | error e => exact fun _ => rfl
  | ok u =>
    simp only
    cases hw : resolveWeights rw (m - disp.toNat) with
    | error e => exact fun _ => rfl
    | ok w =>
      simp only
      by_cases hk : k ≤ m
      · rw [dif_pos hk, dif_pos hk]
        have h2 : ((conjEigh eigh).run (conjM R)).2 = conjM (eigh.run R).2 := by
          show conjM (eigh.run (conjM _)).2 = _
          rw [conjM_conjM]
        rw [h2, conjM_signalCols, conjM_applyWeights, hdisp]
        generalize applyWeights (signalCols (eigh.run R).2 hk) disp.toNat w = buf
        have hp : (if formulation = "tls" then phiTLS (conjEigh eigh) (es1View (conjM buf) disp.toNat) (es2View (conjM buf) disp.toNat)
            else if formulation = "ls" then phiLS (es1View (conjM buf) disp.toNat) (es2View (conjM buf) disp.toNat) else .error .valueError) =
            (if formulation = "tls" then phiTLS eigh (es1View buf disp.toNat) (es2View buf disp.toNat)
              else if formulation = "ls" then phiLS (es1View buf disp.toNat) (es2View buf disp.toNat) else .error .valueError).map conjM := by
          split_ifs
          · exact phiTLS_conj eigh _ _
          · exact phiLS_conj _ _
          · rfl
        rw [hp]
        generalize (if formulation = "tls" then phiTLS eigh (es1View buf disp.toNat) (es2View buf disp.toNat)
              else if formulation = "ls" then phiLS (es1View buf disp.toNat) (es2View buf disp.toNat) else .error .valueError) = phi
        cases phi with
        | error e => exact fun _ => rfl
        | ok Phi =>
          simp only [Except.map]
          intro hb
          have h3 : (conjEigvals ev).run (conjM Phi) = fun i => star (ev.run Phi i) := by
            show (fun i => star (ev.run (conjM (conjM Phi)) i)) = _
            rw [conjM_conjM]
          rw [h3]
          exact fromZ_conj _ _ _ _ hb
      · rw [dif_neg hk, dif_neg hk]
        exact fun _ => rfl

theorem offBoundary_fromZ {z : Fin k → ℂ} {wl d : ℝ} {u : String} (hz : ∀ i, Complex.arg (z i) ≠ Real.pi) {s : FF1D k}
    (h : FF1D.fromZ z wl d u = .ok s) : OffBoundary wl d s := by
  have hwl : wl ≠ 0 := fun h0 => by simp [FF1D.fromZ, h0] at h
  by_cases hbad : ∃ i, 1 < |Complex.arg (z i) / (2 * Real.pi * d / wl)|
  · rw [fromZ_error wl d hwl u z hbad] at h
    cases h
  push Not at hbad
  obtain ⟨g, f, w, -, -, hs, hok⟩ := fromZ_ok (k := k) wl d hwl u
  rw [hok z hbad] at h
  cases h
  intro i
  have hb := hbad ((Tuple.sort fun i => g (Complex.arg (z i) / (2 * Real.pi * d / wl))) i)
  simp only [sortVec, Function.comp_apply]
  rw [hs _ (abs_le.1 hb).1 (abs_le.1 hb).2]
  by_cases hc : 2 * Real.pi * d / wl = 0
  · rw [hc, zero_mul]
    exact Real.pi_ne_zero.symm
  · rw [mul_div_cancel₀ _ hc]
    exact hz _

/-- Two unit-power sources seen by a four-element ULA in noise of variance one: for the conjugated covariance matrix ESPRIT returns the mirrored
estimates, with either formulation and for any library functions. -/
example (eigh eigh' : Eigh) (ev ev' : NpEigvals) (form : String) (hf : form = "ls" ∨ form = "tls") :
    let R := covModel (ulaMat 4 ![(1 : ℂ), Complex.I]) 1 1
    espritEstimate eigh' ev' 1 (conjM R) 2 none 1 form (.str "none") "rad" =
      (espritEstimate eigh ev 1 R 2 none 1 form (.str "none") "rad").map mirrorPlacement ∧
    ∃ s, espritEstimate eigh ev 1 R 2 none 1 form (.str "none") "rad" = .ok s := by
  intro R
  have hz : Function.Injective ![(1 : ℂ), Complex.I] := by
    intro i j h
    fin_cases i <;> fin_cases j
    · rfl
    · have := congrArg Complex.re h
      simp at this
    · have := congrArg Complex.re h
      simp at this
    · rfl
  have hfz := esprit_fromZ eigh ev 1 hz (by norm_num) (m := 4) PosDef.one 1 none form hf "rad"
  have harg : ∀ i, Complex.arg (![(1 : ℂ), Complex.I] i) = ![0, Real.pi / 2] i := by
    intro i
    fin_cases i <;> simp
  have hpi := Real.pi_pos
  refine ⟨C104_esprit eigh eigh' ev ev' 1 (covModel_isHermitian _ isHermitian_one 1) (hasGap_covModel (ulaMat_injective hz (by norm_num)) PosDef.one 1)
    none 1 form _ "rad" (fun _ w hw => ?_) (fun s hs => ?_), ?_⟩
  · have : w = none := by
      simp [resolveWeights] at hw
      exact hw.symm
    rw [this]
    exact tlsWellPosed_ula eigh hz PosDef.one 1 (by norm_num)
  · rw [hfz] at hs
    have := offBoundary_fromZ (fun i => ?_) hs
    · simpa using this
    · rw [harg]
      fin_cases i
      · simpa using hpi.ne
      · show Real.pi / 2 ≠ Real.pi
        linarith
  · obtain ⟨s, h1, -⟩ := (C92_from_z_partial ![(1 : ℂ), Complex.I] (wl := 1) (d0 := 1 / 2) one_pos (by norm_num) "rad" (by simp [Unit1D])).1 (fun i => by
      rw [harg]
      fin_cases i
      · simp [hpi.le]
      · show |Real.pi / 2| ≤ _
        rw [abs_of_pos (by linarith)]
        linarith)
    exact ⟨s, by rw [hfz]; simpa using h1⟩

end Doa.Props
