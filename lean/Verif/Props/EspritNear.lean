import Verif.Lemmas.EspritLimit
import Verif.Props.Consistency

/-!
# C85: ESPRIT is stable and consistent

The estimates are real numbers, not grid points, so stability means: the estimates are as close as desired
to the true directions when the covariance matrix is close enough to the exact one.
-/

namespace Doa.Props

open Doa Matrix Doa.Spec Filter Topology MeasureTheory
open scoped ComplexOrder

variable {m k : ℕ}

/-- ESPRIT near the exact covariance matrix of a ULA. -/
theorem esprit_near {t : Fin k → ℝ} {d wl : ℝ} (hd : 0 < d) (hwl : 0 < wl) {z : Fin k → ℂ}
    (hz : ∀ c, z c = Complex.exp (Complex.I * ((2 * Real.pi * d / wl * Real.sin (t c) : ℝ) : ℂ)))
    (hzinj : Function.Injective z) (ht : ∀ c, InRange1D "rad" (t c)) (hstrict : ∀ c, |Real.sin (t c)| < 1)
    (disp : ℕ) (hdisp : 1 ≤ disp) (hk : k + disp ≤ m)
    (hamb : ∀ c, |2 * Real.pi * (d * disp) / wl * Real.sin (t c)| < Real.pi)
    (d0 : Option ℝ) (hd0 : d0 = some d ∨ d0 = none ∧ d = wl / 2)
    (form : String) (hform : form = "ls" ∨ form = "tls") (rw : RowWeights)
    (hrw : rw = .str "none" ∨ m ≤ 2 * disp ∧
      (rw = .str "default" ∨ ∃ w, rw = .vec w ∧ w.length = m - disp ∧ ∀ x ∈ w, x ≠ 0))
    {P : Matrix (Fin k) (Fin k) ℂ} (hP : P.PosDef) (σ : ℝ) (unit : String) (hunit : Unit1D unit) {ε : ℝ} (hε : 0 < ε) :
    ∀ᶠ R in 𝓝 (covModel (ulaMat m z) P σ), R.IsHermitian → ∀ (eigh : Eigh) (ev : NpEigvals),
      ∃ s, espritEstimate eigh ev wl R k d0 disp form rw unit = .ok s ∧ s.unit = unit ∧ Monotone s.loc ∧
        ∃ π : Equiv.Perm (Fin k), ∀ i, |s.loc i - reprIn unit (t (π i))| < ε := by
  classical
  refine Filter.mem_iff_ultrafilter.2 fun f hf => ?_
  by_contra hbad
  have hbad' := (Ultrafilter.eventually_not (f := f)).2 hbad
  -- choose the failing implementations
  have hch : ∀ R : Matrix (Fin m) (Fin m) ℂ, ∃ e : Eigh × NpEigvals, ¬ (R.IsHermitian → ∀ (eigh : Eigh) (ev : NpEigvals),
      ∃ s, espritEstimate eigh ev wl R k d0 disp form rw unit = .ok s ∧ s.unit = unit ∧ Monotone s.loc ∧
        ∃ π : Equiv.Perm (Fin k), ∀ i, |s.loc i - reprIn unit (t (π i))| < ε) →
      R.IsHermitian ∧ ¬ ∃ s, espritEstimate e.1 e.2 wl R k d0 disp form rw unit = .ok s ∧ s.unit = unit ∧ Monotone s.loc ∧
        ∃ π : Equiv.Perm (Fin k), ∀ i, |s.loc i - reprIn unit (t (π i))| < ε := by
    intro R
    by_cases hR : R.IsHermitian → ∀ (eigh : Eigh) (ev : NpEigvals),
      ∃ s, espritEstimate eigh ev wl R k d0 disp form rw unit = .ok s ∧ s.unit = unit ∧ Monotone s.loc ∧
        ∃ π : Equiv.Perm (Fin k), ∀ i, |s.loc i - reprIn unit (t (π i))| < ε
    · exact ⟨(someEigh, someEigvals), fun h => absurd hR h⟩
    · have hR' := hR
      push Not at hR'
      obtain ⟨h1, eigh, ev, h2⟩ := hR'
      refine ⟨(eigh, ev), fun _ => ⟨h1, ?_⟩⟩
      rintro ⟨s, a1, a2, a3, π, a4⟩
      obtain ⟨i, hi⟩ := h2 s a1 a2 a3 π
      exact absurd (a4 i) (not_lt.2 hi)
  choose e he using hch
  have hherm : ∀ᶠ R in (f : Filter (Matrix (Fin m) (Fin m) ℂ)), R.IsHermitian := by
    filter_upwards [hbad'] with R hR using (he R hR).1
  have hR0 : Tendsto (fun R : Matrix (Fin m) (Fin m) ℂ => R) f (𝓝 (covModel (ulaMat m z) P σ)) := hf
  -- the outer eigendecomposition
  obtain ⟨w0, E0, hE0, -, hE⟩ := eigh_limit f hR0 (w := fun R => ((e R).1.run R).1) (E := fun R => ((e R).1.run R).2)
    (by filter_upwards [hherm] with R hR using (e R).1.spec R hR)
  have hkm : k ≤ m := by omega
  obtain ⟨T, hT, hfac⟩ := signal_factor (ulaMat_injective hzinj hkm) hP hE0 hkm
  -- the weights
  obtain ⟨w, hw1, hw2⟩ : ∃ w, resolveWeights rw (m - disp) = .ok w ∧
      (w = none ∨ m ≤ 2 * disp ∧ ∃ w', w = some w' ∧ w'.length = m - disp ∧ ∀ x ∈ w', x ≠ 0) := by
    rcases hrw with rfl | ⟨hn, rfl | ⟨w, rfl, hl, hx⟩⟩
    · exact ⟨none, by simp [resolveWeights], Or.inl rfl⟩
    · obtain ⟨h1, _, h3, _⟩ := C52_default_row_weights (m - disp)
      refine ⟨some (getDefaultRowWeights (m - disp)), by simp [resolveWeights], Or.inr
        ⟨by omega, _, rfl, h1, fun x hx => ?_⟩⟩
      have := h3 x hx
      positivity
    · refine ⟨some w, ?_, Or.inr ⟨by omega, w, rfl, by omega, hx⟩⟩
      simp only [resolveWeights]
      rw [if_neg (by omega)]
  have hw : ∀ r < m - disp, totalWeight w disp r ≠ 0 ∧ totalWeight w disp (r + disp) = totalWeight w disp r := by
    intro r hr
    rcases hw2 with rfl | ⟨hn, w', rfl, hl, hx⟩
    · simp [totalWeight]
    · obtain ⟨h1, h2⟩ := totalWeight_shift w' hl hn r hr
      rw [h1, h2]
      refine ⟨?_, rfl⟩
      rw [List.getD_eq_getElem?_getD, List.getElem?_eq_getElem (by omega), Option.getD_some]
      exact hx _ (List.getElem_mem _)
  -- the views
  obtain ⟨hv1, hv2⟩ := views_ula (m := m) (z := z) T disp w
  have h3 : (diagonal fun r : Fin (m - disp) => (totalWeight w disp (r.1 + disp) : ℂ)) =
      diagonal fun r : Fin (m - disp) => (totalWeight w disp r.1 : ℂ) := by
    congr 1
    funext r
    rw [(hw r.1 r.2).2]
  rw [h3] at hv2
  have hB : Function.Injective
      ((diagonal fun r : Fin (m - disp) => (totalWeight w disp r.1 : ℂ)) * ulaMat (m - disp) z).mulVec := by
    intro x y hxy
    simp only [← mulVec_mulVec] at hxy
    apply ulaMat_injective hzinj (show k ≤ m - disp by omega)
    funext r
    have := congrFun hxy r
    simp only [mulVec_diagonal] at this
    exact mul_left_cancel₀ (by exact_mod_cast (hw r.1 r.2).1) this
  let buf : Matrix (Fin m) (Fin m) ℂ → Matrix (Fin m) (Fin k) ℂ := fun R =>
    applyWeights (signalCols ((e R).1.run R).2 hkm) disp w
  have hbuf : ∀ r c, Tendsto (fun R => buf R r c) f (𝓝 (applyWeights (ulaMat m z * T) disp w r c)) := by
    intro r c
    rw [← hfac]
    simp only [buf, applyWeights_apply, signalCols]
    exact ((tendsto_pi_nhds.1 ((tendsto_pi_nhds.1 hE) r)) _).const_mul _
  have ha : Tendsto (fun R => es1View (buf R) disp) f (𝓝 (es1View (applyWeights (ulaMat m z * T) disp w) disp)) :=
    tendsto_pi_nhds.2 fun r => tendsto_pi_nhds.2 fun c => hbuf _ _
  have hb : Tendsto (fun R => es2View (buf R) disp) f (𝓝 (es2View (applyWeights (ulaMat m z * T) disp w) disp)) :=
    tendsto_pi_nhds.2 fun r => tendsto_pi_nhds.2 fun c => hbuf _ _
  rw [hv1] at ha
  rw [hv2] at hb
  -- the rotation matrix
  obtain ⟨Phi, hPhi, hPhi0⟩ : ∃ Phi : Matrix (Fin m) (Fin m) ℂ → Matrix (Fin k) (Fin k) ℂ,
      (∀ᶠ R in f, (if form = "tls" then phiTLS (e R).1 (es1View (buf R) disp) (es2View (buf R) disp)
        else if form = "ls" then phiLS (es1View (buf R) disp) (es2View (buf R) disp)
        else .error .valueError) = .ok (Phi R)) ∧
      Tendsto Phi f (𝓝 (T⁻¹ * diagonal (fun c => z c ^ disp) * T)) := by
    rcases hform with rfl | rfl
    · obtain ⟨Phi, h1, h2⟩ := phiLS_limit f hB hT ha hb
      exact ⟨Phi, by simpa only [String.reduceEq, if_false, if_true] using h1, h2⟩
    · obtain ⟨Phi, h1, h2⟩ := phiTLS_limit f (fun R => (e R).1) hB hT ha hb
      exact ⟨Phi, by simpa only [if_true] using h1, h2⟩
  -- its eigenvalues
  obtain ⟨v0, hv, hv0⟩ := eigvals_limit f (fun R => (e R).2) hPhi0
  obtain ⟨π, hπ⟩ := eigvals_similar someEigvals hT fun c => z c ^ disp
  obtain ⟨π', hπ'⟩ := exists_perm_of_map_eq (hv0.trans (someEigvals.spec _).symm)
  have hzpow : ∀ c, z c ^ disp = Complex.exp (Complex.I *
      ((2 * Real.pi * (d * disp) / wl * Real.sin (t c) : ℝ) : ℂ)) := by
    intro c
    rw [hz, ← Complex.exp_nat_mul]
    congr 1
    push_cast
    ring
  have hv' : Tendsto (fun R => (e R).2.run (Phi R)) f (𝓝 fun i => ((1 : ℝ) : ℂ) * Complex.exp (Complex.I *
      ((2 * Real.pi * (d * disp) / wl * Real.sin (t (π (π' i))) : ℝ) : ℂ))) := by
    have h5 : v0 = fun i => ((1 : ℝ) : ℂ) * Complex.exp (Complex.I *
      ((2 * Real.pi * (d * disp) / wl * Real.sin (t (π (π' i))) : ℝ) : ℂ)) := by
      funext i
      rw [hπ', hπ, hzpow, Complex.ofReal_one, one_mul]
    rwa [← h5]
  obtain ⟨s, ρ, hs, hs'⟩ := fromZ_limit f (t := fun i => t (π (π' i))) (ρ := fun _ => 1) hwl
    (d0 := d * disp) (by positivity) (fun i => ht _) (fun _ => one_pos) (fun i => hamb _) (fun i => hstrict _) hv' unit hunit
  have hdd : d0.getD (wl / 2) = d := by
    rcases hd0 with rfl | ⟨rfl, h⟩
    · rfl
    · exact h.symm
  have hclose : ∀ᶠ R in (f : Filter (Matrix (Fin m) (Fin m) ℂ)), ∀ i, |(s R).loc i - reprIn unit (t (π (π' (ρ i))))| < ε := by
    rw [eventually_all]
    intro i
    have := Metric.tendsto_nhds.1 (hs' i) ε hε
    filter_upwards [this] with R hR
    rwa [Real.dist_eq] at hR
  obtain ⟨R, r1, r2, r3, r4⟩ := (hbad'.and (hPhi.and (hs.and hclose))).exists
  refine (he R r1).2 ⟨s R, ?_, r3.2.1, r3.2.2, (ρ.trans π').trans π, fun i => r4 i⟩
  unfold espritEstimate
  rw [if_neg (by omega)]
  unfold ensureNResolvable
  rw [if_neg (by omega)]
  simp only [Int.toNat_natCast, hw1, dif_pos hkm, hdd]
  rw [r2]
  exact r3.1

/-- **C85** (stability). ULA of `n` sensors, `k ≤ n - displacement` distinct sources strictly inside the field of view and without
ambiguity. For every `ε > 0` there is a `δ > 0` such that ESPRIT (least squares or total least squares) on every Hermitian matrix whose
entries are closer than `δ` to those of the exact covariance matrix succeeds and returns, in ascending order and in the requested unit,
one direction within `ε` of each true one; whatever eigenvectors and order of eigenvalues the numerical routines return. -/
theorem C85_esprit {n : ℕ} {d wl : ℝ} (hd : 0 < d) (hwl : 0 < wl)
    {name : Option String} {a : GridArray} (ha : ula n (.scalar d) name {} = .ok a)
    (l : Fin a.element.outputSize) (src : FF1D k) (hsrc : Valid1D src)
    (hinj : Function.Injective src.loc) (hstrict : ∀ c, |Real.sin (angleOf src.unit (src.loc c))| < 1)
    (disp : ℕ) (hdisp : 1 ≤ disp) (hk : k + disp ≤ n)
    (hamb : ∀ c, |2 * Real.pi * (d * disp) / wl * Real.sin (angleOf src.unit (src.loc c))| < Real.pi)
    (d0 : Option ℝ) (hd0 : d0 = some d ∨ d0 = none ∧ d = wl / 2)
    (form : String) (hform : form = "ls" ∨ form = "tls") (rw : RowWeights)
    (hrw : rw = .str "none" ∨ n ≤ 2 * disp ∧
      (rw = .str "default" ∨ ∃ w, rw = .vec w ∧ w.length = n - disp ∧ ∀ x ∈ w, x ≠ 0))
    {P : Matrix (Fin k) (Fin k) ℂ} (hP : P.PosDef) (σ : ℝ) (unit : String) (hunit : Unit1D unit) :
    ∃ S, steering a.toArrayDesign (.ff1 src) wl false "all" = .ok S ∧
      ∀ ε > 0, ∃ δ > 0, ∀ R : Matrix (Fin a.size) (Fin a.size) ℂ, R.IsHermitian →
        (∀ i j, ‖R i j - covModel (S.A l) P σ i j‖ < δ) → ∀ (eigh : Eigh) (ev : NpEigvals),
          ∃ s, espritEstimate eigh ev wl R k d0 disp form rw unit = .ok s ∧ s.unit = unit ∧ Monotone s.loc ∧
            ∃ π : Equiv.Perm (Fin k), ∀ i, |s.loc i - reprIn unit (angleOf src.unit (src.loc (π i)))| < ε := by
  have : NeZero wl := ⟨hwl.ne'⟩
  have hsize : a.size = n := (C01_ula_geometry n d name {} a ha).1
  obtain ⟨S, hS, hSv⟩ := ula_steering ha src hsrc wl "all" (by simp)
  refine ⟨S, hS, fun ε hε => ?_⟩
  have hSm : S.A l = ulaMat a.size fun c => phaseFactor d wl src.unit (src.loc c) := by
    funext i c
    exact hSv l i c
  have h1 := esprit_near (m := a.size) (t := fun c => angleOf src.unit (src.loc c)) hd hwl
    (z := fun c => phaseFactor d wl src.unit (src.loc c)) (fun c => rfl) (inj_of_sin hsrc hinj hd hwl hdisp hamb)
    (fun c => Or.inl ⟨rfl, inRange1D_angle (hsrc.2 c)⟩) hstrict disp hdisp (by omega) hamb d0 hd0 form hform rw
    (by rw [hsize]; exact hrw) hP σ unit hunit hε
  obtain ⟨δ, hδ, h2⟩ := near_entries h1
  refine ⟨δ, hδ, fun R hR hn => h2 R (fun i j => ?_) hR⟩
  rw [← hSm]
  exact hn i j

/-- **C85** (consistency). In a simulated experiment with independent draws of mean zero and variance one the probability that ESPRIT
does not return every source to within `ε` tends to 0 as the number of snapshots grows. -/
theorem C85_consistent {sqrtm : Sqrtm} (hs : IsSqrtm sqrtm) {n : ℕ} {d wl : ℝ} (hd : 0 < d) (hwl : 0 < wl)
    {name : Option String} {a : GridArray} (ha : ula n (.scalar d) name {} = .ok a)
    (l : Fin a.element.outputSize) (src : FF1D k) (hsrc : Valid1D src)
    (hinj : Function.Injective src.loc) (hstrict : ∀ c, |Real.sin (angleOf src.unit (src.loc c))| < 1)
    (disp : ℕ) (hdisp : 1 ≤ disp) (hk : k + disp ≤ n)
    (hamb : ∀ c, |2 * Real.pi * (d * disp) / wl * Real.sin (angleOf src.unit (src.loc c))| < Real.pi)
    (d0 : Option ℝ) (hd0 : d0 = some d ∨ d0 = none ∧ d = wl / 2)
    (form : String) (hform : form = "ls" ∨ form = "tls") (rw : RowWeights)
    (hrw : rw = .str "none" ∨ n ≤ 2 * disp ∧
      (rw = .str "default" ∨ ∃ w, rw = .vec w ∧ w.length = n - disp ∧ ∀ x ∈ w, x ≠ 0))
    (unit : String) (hunit : Unit1D unit)
    {C1 C2 : CovArg} {g1 : StoGen k} {g2 : StoGen a.size}
    (hg1 : stoInit sqrtm k C1 = .ok g1) (hg2 : stoInit sqrtm a.size C2 = .ok g2)
    {P : Matrix (Fin k) (Fin k) ℂ} (hPd : Denotes k C1 P) (hP : P.PosDef) {σ : ℝ} (hσ : 0 ≤ σ)
    (hQd : Denotes a.size C2 ((σ : ℂ) • (1 : Matrix (Fin a.size) (Fin a.size) ℂ)))
    {ν : Measure ℝ} [IsProbabilityMeasure ν] (hν : UnitLaw ν) {ε : ℝ} (hε : 0 < ε) :
    Tendsto (fun n => (Measure.pi fun _ : Fin n => Measure.pi fun _ => ν)
      {d : Fin n → SnapshotDraw k a.size | ¬ ∃ Y R, experiment a.toArrayDesign (.ff1 src) wl g1 g2 n d = .ok ⟨n, Y, R⟩ ∧
        ∀ (eigh : Eigh) (ev : NpEigvals),
          ∃ s, espritEstimate eigh ev wl (R l) k d0 disp form rw unit = .ok s ∧ s.unit = unit ∧ Monotone s.loc ∧
            ∃ π : Equiv.Perm (Fin k), ∀ i, |s.loc i - reprIn unit (angleOf src.unit (src.loc (π i)))| < ε}) atTop (𝓝 0) := by
  obtain ⟨S, hS, hn⟩ := C85_esprit hd hwl ha l src hsrc hinj hstrict disp hdisp hk hamb d0 hd0 form hform rw hrw hP σ unit hunit
  exact C84_probability hs a.toArrayDesign (.ff1 src) wl S hS (grid_scalar ha) hg1 hg2 hPd hQd hP.posSemidef (scaled_one_posSemidef hσ) hν l _ (hn ε hε)

/-- The directions of the examples. -/
theorem ex_sin (c : Fin 2) : Real.sin (angleOf "sin" ((![0.7, -0.4] : Fin 2 → ℝ) c)) = (![0.7, -0.4] : Fin 2 → ℝ) c := by
  simp only [angleOf, String.reduceEq, if_false, if_true]
  apply Real.sin_arcsin <;> fin_cases c <;> norm_num

/-- Non-vacuity: five sensors, two sources at `sin θ = -0.4, 0.7`, unequal powers, displacement 1, TLS without weights, Gaussian
draws: the probability of an error of at least a thousandth of a degree tends to zero. -/
example : ∃ (a : GridArray) (l : Fin a.element.outputSize) (g1 : StoGen 2) (g2 : StoGen a.size),
    ula 5 (.scalar (1 / 2)) none {} = .ok a ∧ stoInit someSqrtm 2 (.vector [4, 1]) = .ok g1 ∧
    Tendsto (fun n => (Measure.pi fun _ : Fin n => Measure.pi fun _ => ProbabilityTheory.gaussianReal 0 1)
      {d : Fin n → SnapshotDraw 2 a.size | ¬ ∃ Y R,
        experiment a.toArrayDesign (.ff1 ⟨![0.7, -0.4], "sin"⟩) 1 g1 g2 n d = .ok ⟨n, Y, R⟩ ∧ ∀ (eigh : Eigh) (ev : NpEigvals),
          ∃ s, espritEstimate eigh ev 1 (R l) 2 none 1 "tls" (.str "none") "deg" = .ok s ∧ s.unit = "deg" ∧ Monotone s.loc ∧
            ∃ π : Equiv.Perm (Fin 2), ∀ i, |s.loc i - reprIn "deg" (angleOf "sin" ((![0.7, -0.4] : Fin 2 → ℝ) (π i)))| < 0.001})
      atTop (𝓝 0) := by
  obtain ⟨a, ha⟩ := ula_ok 5 (1 / 2) none
  have hel : a.element = .isotropicScalar := (gridInit_spec ha).2.2.1
  have hl : 0 < a.element.outputSize := by rw [hel]; decide
  have hpi := Real.pi_pos
  have hP : Denotes 2 (.vector [4, 1]) (Matrix.diagonal (![4, 1] : Fin 2 → ℂ)) := by
    refine ⟨rfl, ?_⟩
    ext i j
    fin_cases i <;> fin_cases j <;> simp
  have hQ : Denotes a.size (.scalar 1) (((1 : ℝ) : ℂ) • (1 : Matrix (Fin a.size) (Fin a.size) ℂ)) := by
    show _ = _
    ext i j
    simp [Matrix.one_apply]
  obtain ⟨g1, hg1⟩ := ((C56_accepts someSqrtm 2 (.vector [4, 1])).1).2 ⟨_, hP⟩
  obtain ⟨g2, hg2⟩ := ((C56_accepts someSqrtm a.size (.scalar 1)).1).2 ⟨_, hQ⟩
  refine ⟨a, ⟨0, hl⟩, g1, g2, ha, hg1, ?_⟩
  have key := C85_consistent someSqrtm_spec (d := 1 / 2) (wl := 1) (by norm_num) (by norm_num) ha ⟨0, hl⟩ (k := 2) ⟨![0.7, -0.4], "sin"⟩
    ⟨Or.inr (Or.inr rfl), fun c => Or.inr (Or.inr ⟨rfl, by fin_cases c <;> norm_num⟩)⟩
    (by intro c e h; fin_cases c <;> fin_cases e <;> first | rfl | (norm_num at h))
    (by intro c; rw [ex_sin, abs_lt]; fin_cases c <;> norm_num) 1 le_rfl (by norm_num)
    (by
      intro c
      rw [ex_sin, abs_lt]
      fin_cases c
      · constructor <;> simp <;> nlinarith
      · constructor <;> simp <;> nlinarith)
    none (Or.inr ⟨rfl, rfl⟩) "tls" (Or.inr rfl) (.str "none") (Or.inl rfl) "deg" (Or.inr (Or.inl rfl)) hg1 hg2 hP
    (PosDef.diagonal (by intro i; fin_cases i <;> simp)) zero_le_one hQ unitLaw_gaussian (ε := 0.001) (by norm_num)
  exact key

end Doa.Props
