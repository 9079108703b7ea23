import Mathlib.Topology.Instances.Matrix
import Verif.Lemmas.EspritBasis
import Verif.Props.RootMusicEstimate
import Verif.Props.Esprit

/-!
# C92: roots outside the visible region
-/

namespace Doa.Props

open Doa Doa.Spec Matrix Filter Topology
open scoped ComplexOrder

variable {m k : ℕ}

/-- **C92** (`from_z`). Phase factors of real directions are converted to valid, sorted directions with these phase factors. If some phase
factor does not belong to a direction, unit `'sin'` raises an exception, whereas `'rad'` and `'deg'` return a placement containing NaN. -/
theorem C92_from_z_partial (z : Fin k → ℂ) {wl d0 : ℝ} (hwl : 0 < wl) (hd : 0 < d0) (u : String) (hu : Unit1D u) :
    ((∀ i, |Complex.arg (z i)| ≤ 2 * Real.pi * d0 / wl) →
      ∃ s : FF1D k, FF1D.fromZ z wl d0 u = .ok s ∧ (s.unit = u ∧ Valid1D s) ∧ Monotone s.loc ∧
        ∃ τ : Equiv.Perm (Fin k), ∀ i, z (τ i) = (‖z (τ i)‖ : ℂ) * phaseFactor d0 wl u (s.loc i)) ∧
    ((∃ i, 2 * Real.pi * d0 / wl < |Complex.arg (z i)|) →
      FF1D.fromZ z wl d0 u = .error (if u = "sin" then .typeError else .returnsNaN)) := by
  refine ⟨fun hz => fromZ_phase z hwl hd hz u hu, fun ⟨i, hi⟩ => ?_⟩
  have hc : 0 < 2 * Real.pi * d0 / wl := by have := Real.pi_pos; positivity
  have h1 : 1 < |Complex.arg (z i) / (2 * Real.pi * d0 / wl)| := by
    rw [abs_div, abs_of_pos hc, one_lt_div hc]
    exact hi
  unfold FF1D.fromZ
  dsimp only
  rw [if_neg hwl.ne']
  by_cases hs : u = "sin"
  · rw [if_pos hs, if_pos hs]
    set x : Fin k → ℝ := fun i => Complex.arg (z i) / (2 * Real.pi * d0 / wl) with hx
    unfold FF1D.init
    simp only [validRange1D, String.reduceEq, if_false, if_true]
    rw [if_pos]
    have hj : ∃ j, sortVec x j = x i := ⟨(Tuple.sort x).symm i, by simp [sortVec]⟩
    obtain ⟨j, hj⟩ := hj
    rcases lt_abs.1 h1 with h | h
    · exact Or.inr ⟨j, by rw [hj]; exact h⟩
    · exact Or.inl ⟨j, by rw [hj]; show Complex.arg (z i) / (2 * Real.pi * d0 / wl) < -1; linarith⟩
  · rw [if_neg hs, if_neg hs, if_pos ⟨i, h1⟩]

/-- **C92** (half-wavelength spacing). For a spacing of at least half a wavelength, in particular for the default one, `from_z` returns valid,
sorted directions whatever the roots are. -/
theorem C92_half_wavelength (z : Fin k → ℂ) {wl d0 : ℝ} (hwl : 0 < wl) (hd : wl / 2 ≤ d0) (u : String) (hu : Unit1D u) :
    ∃ s : FF1D k, FF1D.fromZ z wl d0 u = .ok s ∧ s.unit = u ∧ Valid1D s ∧ Monotone s.loc := by
  have hpi := Real.pi_pos
  have hd0 : 0 < d0 := by linarith
  obtain ⟨s, h1, ⟨h2, h3⟩, h4, -⟩ := (C92_from_z_partial z hwl hd0 u hu).1 fun i => by
    refine (Complex.abs_arg_le_pi _).trans ?_
    rw [le_div_iff₀ hwl]
    nlinarith
  exact ⟨s, h1, h2, h3, h4⟩

/-- ESPRIT on the covariance of arbitrary distinct phase factors. -/
theorem esprit_fromZ (eigh : Eigh) (ev : NpEigvals) (wl : ℝ) {z : Fin k → ℂ} (hz : Function.Injective z) (hk : k + 1 ≤ m)
    {P : Matrix (Fin k) (Fin k) ℂ} (hP : P.PosDef) (σ : ℝ) (d0 : Option ℝ) (form : String) (hform : form = "ls" ∨ form = "tls") (unit : String) :
    espritEstimate eigh ev wl (covModel (ulaMat m z) P σ) k d0 1 form (.str "none") unit = FF1D.fromZ z wl (d0.getD (wl / 2)) unit := by
  have hkm : k ≤ m := by omega
  obtain ⟨T, hT, hls, htls⟩ := C47_rotation_partial eigh (m := m) (d := 1) hz (by omega) hkm hP σ none (Or.inl rfl)
  obtain ⟨π, hπ⟩ := eigvals_similar ev hT fun c => z c ^ 1
  unfold espritEstimate
  rw [if_neg (by omega)]
  unfold ensureNResolvable
  rw [if_neg (by omega)]
  have hw : resolveWeights (.str "none") (m - 1) = .ok none := by simp [resolveWeights]
  simp only [Int.toNat_one, hw, dif_pos hkm]
  have hphi : (if form = "tls" then phiTLS eigh (es1View (applyWeights (signalCols (eigh.run (covModel (ulaMat m z) P σ)).2 hkm) 1 none) 1)
          (es2View (applyWeights (signalCols (eigh.run (covModel (ulaMat m z) P σ)).2 hkm) 1 none) 1)
        else if form = "ls" then phiLS (es1View (applyWeights (signalCols (eigh.run (covModel (ulaMat m z) P σ)).2 hkm) 1 none) 1)
          (es2View (applyWeights (signalCols (eigh.run (covModel (ulaMat m z) P σ)).2 hkm) 1 none) 1)
        else .error .valueError) = .ok (T⁻¹ * diagonal (fun c => z c ^ 1) * T) := by
    rcases hform with rfl | rfl
    · simp only [String.reduceEq, if_false, if_true]; exact hls
    · simp only [if_true]; exact htls
  rw [hphi]
  simp only [Nat.cast_one, mul_one]
  refine fromZ_multiset ?_ _ _ _
  have e : ev.run (T⁻¹ * diagonal (fun c => z c ^ 1) * T) = z ∘ π := by
    funext i
    rw [hπ i, pow_one]
    rfl
  rw [e, ← Multiset.map_map]
  congr 1
  have := congrArg Finset.val (Finset.map_univ_equiv π)
  rw [Finset.map_val] at this
  exact this

/-- **C92** (violated by ESPRIT). If the array is sampled more finely than half a wavelength and one of the rank-one components of the
covariance has a phase factor outside the visible region, `Esprit1D.estimate` returns NaN, marked as resolved. -/
theorem C92_esprit_violated (eigh : Eigh) (ev : NpEigvals) {wl d : ℝ} (hwl : 0 < wl) (hd : 0 < d) {z : Fin k → ℂ} (hz : Function.Injective z)
    (hk : k + 1 ≤ m) {P : Matrix (Fin k) (Fin k) ℂ} (hP : P.PosDef) (σ : ℝ) (form : String) (hform : form = "ls" ∨ form = "tls")
    (hout : ∃ i, 2 * Real.pi * d / wl < |Complex.arg (z i)|) :
    espritEstimate eigh ev wl (covModel (ulaMat m z) P σ) k (some d) 1 form (.str "none") "rad" = .error .returnsNaN := by
  rw [esprit_fromZ eigh ev wl hz hk hP σ (some d) form hform "rad"]
  exact (C92_from_z_partial z hwl hd "rad" (Or.inl rfl)).2 hout

/-- **C92** (endfire). For a source at endfire and a spacing below half a wavelength, the exact covariance gives the exact direction, but there
are covariances as close to it as desired for which the result is NaN. -/
theorem C92_endfire_violated (eigh : Eigh) (ev : NpEigvals) {wl d : ℝ} (hwl : 0 < wl) (hd : 0 < d) (hs : d < wl / 2) (hm : 2 ≤ m) {σ : ℝ}
    (form : String) (hform : form = "ls" ∨ form = "tls") :
    let R := covModel (ulaMat m fun _ : Fin 1 => phaseFactor d wl "rad" (Real.pi / 2)) 1 σ
    (∃ s, espritEstimate eigh ev wl R 1 (some d) 1 form (.str "none") "rad" = .ok s ∧ s.loc 0 = Real.pi / 2) ∧
    ∀ δ : ℝ, 0 < δ → ∃ R' : Matrix (Fin m) (Fin m) ℂ, R'.IsHermitian ∧ (∀ i j, ‖R' i j - R i j‖ < δ) ∧
      espritEstimate eigh ev wl R' 1 (some d) 1 form (.str "none") "rad" = .error .returnsNaN := by
  intro R
  have hpi := Real.pi_pos
  have hinj : ∀ z : ℂ, Function.Injective fun _ : Fin 1 => z := fun z i j _ => Subsingleton.elim i j
  set c := 2 * Real.pi * d / wl with hc
  have hcpos : 0 < c := by positivity
  have hcpi : c < Real.pi := by
    rw [hc, div_lt_iff₀ hwl]
    nlinarith
  have hR : R = covModel (ulaMat m fun _ : Fin 1 => Complex.exp (Complex.I * (c : ℂ))) 1 σ := by
    show covModel _ _ _ = _
    congr 2
    funext _
    unfold phaseFactor
    rw [show angleOf "rad" (Real.pi / 2) = Real.pi / 2 by simp [angleOf], Real.sin_pi_div_two, mul_one]
  refine ⟨?_, fun δ hδ => ?_⟩
  · show ∃ s, espritEstimate eigh ev wl R 1 (some d) 1 form (.str "none") "rad" = .ok s ∧ _
    rw [hR, esprit_fromZ eigh ev wl (hinj _) (by omega) PosDef.one σ (some d) form hform "rad"]
    obtain ⟨s, h1, -, -, σ', h2⟩ := C21_from_z (fun _ : Fin 1 => Real.pi / 2) (fun _ => 1) wl d hwl hd (fun _ => Or.inl ⟨rfl, by linarith, le_rfl⟩)
      (fun _ => one_pos) (fun _ => by rw [Real.sin_pi_div_two, mul_one, ← hc, abs_of_pos hcpos]; exact hcpi) "rad" (Or.inl rfl)
    refine ⟨s, ?_, by rw [h2]; simp [reprIn]⟩
    rw [← h1]
    congr 1
    funext _
    rw [Real.sin_pi_div_two, mul_one, ← hc, Complex.ofReal_one, one_mul]
  · set F : ℝ → Matrix (Fin m) (Fin m) ℂ := fun t => covModel (ulaMat m fun _ : Fin 1 => Complex.exp (Complex.I * (t : ℂ))) 1 σ with hF
    have hcont : ∀ i j, Continuous fun t => F t i j := by
      intro i j
      simp only [hF, covModel, ulaMat, Matrix.mul_one, Matrix.add_apply, Matrix.mul_apply, conjTranspose_apply]
      fun_prop
    have hev : ∀ᶠ t in 𝓝[>] c, (∀ i j, ‖F t i j - F c i j‖ < δ) ∧ t < Real.pi ∧ c < t := by
      refine (eventually_all.2 fun i => eventually_all.2 fun j => ?_).and ((eventually_nhdsWithin_of_eventually_nhds (gt_mem_nhds hcpi)).and self_mem_nhdsWithin)
      have h0 : Tendsto (fun t => ‖F t i j - F c i j‖) (𝓝 c) (𝓝 ‖F c i j - F c i j‖) := (((hcont i j).sub continuous_const).norm).tendsto c
      rw [sub_self, norm_zero] at h0
      exact eventually_nhdsWithin_of_eventually_nhds (h0.eventually (gt_mem_nhds hδ))
    obtain ⟨t, h1, h2, h3⟩ := hev.exists
    refine ⟨F t, covModel_isHermitian _ isHermitian_one σ, fun i j => by rw [hR]; exact h1 i j, ?_⟩
    refine C92_esprit_violated eigh ev hwl hd (hinj _) (by omega) PosDef.one σ form hform ⟨0, ?_⟩
    rw [mul_comm Complex.I, Complex.arg_exp_mul_I, (toIocMod_eq_self Real.two_pi_pos).2 ⟨by linarith, by linarith⟩, abs_of_pos (by linarith)]
    exact h3

/-- Non-vacuity: quarter-wavelength spacing, phase factor -1. -/
example : espritEstimate someEigh someEigvals 1 (covModel (ulaMat 3 fun _ : Fin 1 => (-1 : ℂ)) 1 1) 1 (some (1 / 4)) 1 "tls" (.str "none") "rad" =
    .error .returnsNaN :=
  C92_esprit_violated someEigh someEigvals one_pos (by norm_num) (fun i j _ => Subsingleton.elim i j) (by norm_num) PosDef.one 1 "tls" (Or.inr rfl)
    ⟨0, by rw [Complex.arg_neg_one, abs_of_pos Real.pi_pos]; have := Real.pi_pos; linarith⟩

end Doa.Props
