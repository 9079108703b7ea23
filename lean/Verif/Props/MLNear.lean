import Verif.Lemmas.MLLimit
import Verif.Props.EspritNear
import Verif.Props.ML
import Verif.Model.MLEstimate

/-!
# ML estimation from estimated covariance matrices: C98
-/

namespace Doa.Props

open Doa Doa.Spec Matrix Filter Topology MeasureTheory
open scoped ComplexOrder

variable {ι : Type*} {m k : ℕ}

theorem ultra_real {p : ℕ} (f : Ultrafilter ι) (g : ι → Fin p → ℝ) (C : ℝ)
    (h : ∀ᶠ i in f, ∀ r, |g i r| ≤ C) : ∃ g0, Tendsto g f (𝓝 g0) := by
  have hK : IsCompact (Set.univ.pi fun _ : Fin p => Metric.closedBall (0 : ℝ) C) :=
    isCompact_univ_pi fun _ => isCompact_closedBall _ _
  obtain ⟨g0, _, hg⟩ := hK.ultrafilter_le_nhds (f.map g) (by
    rw [le_principal_iff]
    show ∀ᶠ i in (f : Filter ι), g i ∈ _
    filter_upwards [h] with i hi
    intro r _
    simpa using hi r)
  exact ⟨g0, hg⟩

theorem inRange_bound {u : String} {x : ℝ} (h : InRange1D u x) : |x| ≤ 90 := by
  have := Real.pi_le_four
  rcases h with ⟨-, h1, h2⟩ | ⟨-, h1, h2⟩ | ⟨-, h1, h2⟩ <;> rw [abs_le] <;> constructor <;> linarith

theorem inRange_limit (f : Ultrafilter ι) {u : String} {g : ι → ℝ} {x : ℝ} (hg : Tendsto g f (𝓝 x))
    (h : ∀ᶠ i in f, InRange1D u (g i)) : InRange1D u x := by
  have hc : IsClosed {y | InRange1D u y} := by
    have : {y | InRange1D u y} = {y | u = "rad" ∧ y ∈ Set.Icc (-(Real.pi / 2)) (Real.pi / 2)} ∪
        ({y | u = "deg" ∧ y ∈ Set.Icc (-90 : ℝ) 90} ∪ {y | u = "sin" ∧ y ∈ Set.Icc (-1 : ℝ) 1}) := rfl
    rw [this]
    have hcl : ∀ (p : Prop) (a b : ℝ), IsClosed {y | p ∧ y ∈ Set.Icc a b} := by
      intro p a b
      by_cases hp : p
      · simp only [hp, true_and]; exact isClosed_Icc
      · simp only [hp, false_and]; exact isClosed_empty
    exact (hcl _ _ _).union ((hcl _ _ _).union (hcl _ _ _))
  exact hc.mem_of_tendsto hg h

theorem phaseFactor_continuous (d wl : ℝ) (u : String) : Continuous (phaseFactor d wl u) := by
  have h1 : Continuous (angleOf u) := by
    unfold angleOf
    split_ifs
    · fun_prop
    · exact Real.continuous_arcsin
    · exact continuous_id
  unfold phaseFactor
  exact Complex.continuous_exp.comp (continuous_const.mul (Complex.continuous_ofReal.comp
    (continuous_const.mul (Real.continuous_sin.comp h1))))

/-- No direction in the field of view has the phase factor of the source at sine `x`. -/
theorem fov_unambiguous {d wl : ℝ} (hd : 0 < d) {u : String} {x y : ℝ}
    (h : d * (1 + |Real.sin (angleOf u y)|) < wl) : d * |Real.sin (angleOf u x) - Real.sin (angleOf u y)| < wl := by
  refine lt_of_le_of_lt (mul_le_mul_of_nonneg_left ?_ hd.le) h
  refine (abs_sub _ _).trans ?_
  have := Real.abs_sin_le_one (angleOf u x)
  linarith

/-- The argument shared by the three objectives: if every limit of the projections of better candidates fixes the steering vectors, better
candidates are close to the truth. -/
theorem near_of_fix {d wl : ℝ} (hd : 0 < d) (hwl : 0 < wl) {s : FF1D k} (hs : Valid1D s) (hinj : Function.Injective s.loc)
    (hfov : ∀ c, d * (1 + |Real.sin (angleOf s.unit (s.loc c))|) < wl) (hk : k < m)
    {R0 : Matrix (Fin m) (Fin m) ℂ} (p : Matrix (Fin m) (Fin m) ℂ → Eigh → Matrix (Fin m) (Fin k) ℂ → Prop)
    (hfix : ∀ (f : Ultrafilter (Matrix (Fin m) (Fin m) ℂ)), (f : Filter _) ≤ 𝓝 R0 →
      ∀ (e : Matrix (Fin m) (Fin m) ℂ → Eigh) (B : Matrix (Fin m) (Fin m) ℂ → Matrix (Fin m) (Fin k) ℂ)
        (Q : Matrix (Fin m) (Fin m) ℂ → Matrix (Fin m) (Fin m) ℂ) (Q0 : Matrix (Fin m) (Fin m) ℂ),
      (∀ᶠ R in (f : Filter (Matrix (Fin m) (Fin m) ℂ)), R.IsHermitian ∧ p R (e R) (B R)) → (∀ R, projm (B R) true = .ok (Q R)) →
      (∀ R, IsProjOnto (Q R) (B R)) → Tendsto Q f (𝓝 Q0) → Q0ᴴ = Q0 → Q0 * Q0 = Q0 → (trace Q0).re ≤ k →
      Q0 * ulaMat m (fun c => phaseFactor d wl s.unit (s.loc c)) = ulaMat m fun c => phaseFactor d wl s.unit (s.loc c))
    {ε : ℝ} (hε : 0 < ε) :
    ∀ᶠ R in 𝓝 R0, R.IsHermitian → ∀ (eigh : Eigh) (s' : FF1D k), Valid1D s' → s'.unit = s.unit →
      p R eigh (ulaMat m fun c => phaseFactor d wl s'.unit (s'.loc c)) →
      ∃ e : Equiv.Perm (Fin k), ∀ c, |s'.loc c - s.loc (e c)| < ε := by
  classical
  refine Filter.mem_iff_ultrafilter.2 fun f hf => ?_
  by_contra hbad
  have hbad' := (Ultrafilter.eventually_not (f := f)).2 hbad
  have hch : ∀ R : Matrix (Fin m) (Fin m) ℂ, ∃ q : Eigh × FF1D k,
      ¬ (R.IsHermitian → ∀ (eigh : Eigh) (s' : FF1D k), Valid1D s' → s'.unit = s.unit →
        p R eigh (ulaMat m fun c => phaseFactor d wl s'.unit (s'.loc c)) →
        ∃ e : Equiv.Perm (Fin k), ∀ c, |s'.loc c - s.loc (e c)| < ε) →
      (R.IsHermitian ∧ Valid1D q.2 ∧ q.2.unit = s.unit ∧
        p R q.1 (ulaMat m fun c => phaseFactor d wl q.2.unit (q.2.loc c)) ∧
        ∀ e : Equiv.Perm (Fin k), ∃ c, ε ≤ |q.2.loc c - s.loc (e c)|) := by
    intro R
    by_cases hR : R.IsHermitian → ∀ (eigh : Eigh) (s' : FF1D k), Valid1D s' → s'.unit = s.unit →
        p R eigh (ulaMat m fun c => phaseFactor d wl s'.unit (s'.loc c)) →
        ∃ e : Equiv.Perm (Fin k), ∀ c, |s'.loc c - s.loc (e c)| < ε
    · exact ⟨(someEigh, s), fun h => absurd hR h⟩
    · have hR' := hR
      push Not at hR'
      obtain ⟨h1, eigh, s', h2, h3, h4, h5⟩ := hR'
      exact ⟨(eigh, s'), fun _ => ⟨h1, h2, h3, h4, h5⟩⟩
  choose q hq using hch
  have hev : ∀ᶠ R in (f : Filter (Matrix (Fin m) (Fin m) ℂ)), R.IsHermitian ∧ Valid1D (q R).2 ∧ (q R).2.unit = s.unit ∧
        p R (q R).1 (ulaMat m fun c => phaseFactor d wl (q R).2.unit ((q R).2.loc c)) ∧
        ∀ e : Equiv.Perm (Fin k), ∃ c, ε ≤ |(q R).2.loc c - s.loc (e c)| := by
    filter_upwards [hbad'] with R hR using hq R hR
  obtain ⟨x0, hx0⟩ := ultra_real f (fun R => (q R).2.loc) 90 (by
    filter_upwards [hev] with R hR c using inRange_bound (hR.2.1.2 c))
  have hxr : ∀ c, InRange1D s.unit (x0 c) := fun c => inRange_limit f ((tendsto_pi_nhds.1 hx0) c) (by
    filter_upwards [hev] with R hR
    rw [← hR.2.2.1]
    exact hR.2.1.2 c)
  obtain ⟨Q, Q0, h1, h2, h3, h4, h5, h6⟩ := proj_limit f
    (B := fun R => ulaMat m fun c => phaseFactor d wl s.unit ((q R).2.loc c))
  have hfixed := hfix f hf (fun R => (q R).1) _ Q Q0 (by
    filter_upwards [hev] with R hR
    refine ⟨hR.1, ?_⟩
    have := hR.2.2.2.1
    rwa [hR.2.2.1] at this) h1 h2 h3 h4 h5 h6
  have hw : Tendsto (fun R c => phaseFactor d wl s.unit ((q R).2.loc c)) f (𝓝 fun c => phaseFactor d wl s.unit (x0 c)) :=
    tendsto_pi_nhds.2 fun c => ((phaseFactor_continuous d wl s.unit).tendsto _).comp ((tendsto_pi_nhds.1 hx0) c)
  have hz : Function.Injective fun c => phaseFactor d wl s.unit (s.loc c) := fun c c' hcc =>
    hinj (phaseFactor_inj hd hwl (hs.2 c) (hs.2 c') (fov_unambiguous hd (hfov c')) hcc)
  obtain ⟨e, he⟩ := roots_limit f hw h3 h2 h4 hk hz hfixed
  have hxe : ∀ c, x0 c = s.loc (e c) := fun c =>
    phaseFactor_inj hd hwl (hxr c) (hs.2 _) (fov_unambiguous hd (hfov (e c))) (congrFun he c)
  have hclose : ∀ᶠ R in (f : Filter (Matrix (Fin m) (Fin m) ℂ)), ∀ c, |(q R).2.loc c - s.loc (e c)| < ε := by
    rw [eventually_all]
    intro c
    have := Metric.tendsto_nhds.1 ((tendsto_pi_nhds.1 hx0) c) ε hε
    filter_upwards [this] with R hR
    rwa [Real.dist_eq, hxe c] at hR
  obtain ⟨R, r1, r2⟩ := (hev.and hclose).exists
  obtain ⟨c, hc⟩ := r1.2.2.2.2 e
  exact absurd (r2 c) (not_lt.2 hc)

theorem tendsto_const_sub_mul {f : Filter (Matrix (Fin m) (Fin m) ℂ)} {Q : Matrix (Fin m) (Fin m) ℂ → Matrix (Fin m) (Fin m) ℂ} {Q0}
    (hQ : Tendsto Q f (𝓝 Q0)) {M : Matrix (Fin m) (Fin m) ℂ → Matrix (Fin m) (Fin m) ℂ} {M0} (hM : Tendsto M f (𝓝 M0)) :
    Tendsto (fun R => (trace ((1 - Q R) * M R)).re) f (𝓝 (trace ((1 - Q0) * M0)).re) :=
  (Complex.continuous_re.tendsto _).comp (tendsto_trace (tendsto_matMul (tendsto_const_nhds.sub hQ) hM))

/-- CML: limits of the projections of better candidates fix the steering vectors. -/
theorem cml_fix {A : Matrix (Fin m) (Fin k) ℂ} (hA : Function.Injective A.mulVec) {P : Matrix (Fin k) (Fin k) ℂ} (hP : P.PosDef)
    {σ : ℝ} (hσ : 0 ≤ σ) (f : Ultrafilter (Matrix (Fin m) (Fin m) ℂ)) (hf : (f : Filter _) ≤ 𝓝 (covModel A P σ))
    (B : Matrix (Fin m) (Fin m) ℂ → Matrix (Fin m) (Fin k) ℂ)
    (Q : Matrix (Fin m) (Fin m) ℂ → Matrix (Fin m) (Fin m) ℂ) (Q0 : Matrix (Fin m) (Fin m) ℂ)
    (hB : ∀ᶠ R in (f : Filter (Matrix (Fin m) (Fin m) ℂ)), ∃ v v', cmlObjective A R = .ok v ∧ cmlObjective (B R) R = .ok v' ∧ v' ≤ v)
    (h1 : ∀ R, projm (B R) true = .ok (Q R)) (h3 : Tendsto Q f (𝓝 Q0)) (h4 : Q0ᴴ = Q0) (h5 : Q0 * Q0 = Q0) (h6 : (trace Q0).re ≤ k) :
    Q0 * A = A := by
  obtain ⟨QA, a1, -⟩ := projm_facts A
  have hR0 : Tendsto (fun R : Matrix (Fin m) (Fin m) ℂ => R) f (𝓝 (covModel A P σ)) := hf
  refine cml_proj hP hσ h4 h5 h6 ?_
  have hA0 := (C54_cml_minimum hA hP.posSemidef hσ).1
  simp only [cmlObjective, a1] at hA0
  rw [← Except.ok.inj hA0]
  refine le_of_tendsto_of_tendsto (tendsto_const_sub_mul h3 hR0) (tendsto_const_sub_mul (Q := fun _ => QA) tendsto_const_nhds hR0) ?_
  filter_upwards [hB] with R hR
  obtain ⟨v, v', e1, e2, e3⟩ := hR
  simp only [cmlObjective, a1, h1] at e1 e2
  rw [Except.ok.inj e1, Except.ok.inj e2]
  exact e3

/-- The matrix `M` of WSF from an eigendecomposition. -/
noncomputable def wsfOf (v : Fin m → ℝ) (E : Matrix (Fin m) (Fin m) ℂ) (hk : k ≤ m) : Matrix (Fin m) (Fin m) ℂ :=
  let Es := signalCols E hk
  let vs : Fin k → ℝ := fun c => v ⟨m - k + c.1, by omega⟩
  let sigmaEst := (∑ j : Fin (m - k), v ⟨j.1, by omega⟩) / ((m : ℝ) - (k : ℝ))
  let w : Fin k → ℝ := fun c => (vs c - sigmaEst) * (vs c - sigmaEst) / vs c
  (Matrix.of fun i c => Es i c * (w c : ℂ)) * Esᴴ

theorem wsfM_eq (eigh : Eigh) (R : Matrix (Fin m) (Fin m) ℂ) (hk : k ≤ m) :
    wsfM eigh R hk = wsfOf (eigh.run R).1 (eigh.run R).2 hk := rfl

theorem wsfOf_exact {A : Matrix (Fin m) (Fin k) ℂ} (hA : Function.Injective A.mulVec)
    {P : Matrix (Fin k) (Fin k) ℂ} (hP : P.PosDef) {σ : ℝ} (hσ : 0 ≤ σ) (hk : k < m) {v : Fin m → ℝ} {E : Matrix (Fin m) (Fin m) ℂ}
    (hE : IsEigh (covModel A P σ) v E) :
    ∃ (T : Matrix (Fin k) (Fin k) ℂ) (w : Fin k → ℝ), IsUnit T.det ∧ (∀ c, 0 < w c) ∧
      wsfOf v E hk.le = (A * T) * diagonal (fun c => (w c : ℂ)) * (A * T)ᴴ := by
  obtain ⟨T, hT, hs⟩ := signal_factor hA hP hE hk.le
  have hmk : ((m : ℝ) - (k : ℝ)) = ((m - k : ℕ) : ℝ) := by rw [Nat.cast_sub hk.le]
  have hne : ((m - k : ℕ) : ℝ) ≠ 0 := by
    have : m - k ≠ 0 := by omega
    exact_mod_cast this
  have hest : (∑ j : Fin (m - k), v ⟨j.1, by omega⟩) / ((m : ℝ) - (k : ℝ)) = σ := by
    rw [Finset.sum_congr rfl fun j _ => (hE.noise hA hP ⟨j.1, by omega⟩ j.2).1, Finset.sum_const, hmk,
      Finset.card_univ, Fintype.card_fin, nsmul_eq_mul]
    field_simp
  have hgt : ∀ c : Fin k, σ < v ⟨m - k + c.1, by omega⟩ := fun c =>
    (hE.split hA hP ⟨m - k + c.1, by omega⟩).2 (by simp)
  refine ⟨T, fun c => (v ⟨m - k + c.1, by omega⟩ - σ) * (v ⟨m - k + c.1, by omega⟩ - σ) / v ⟨m - k + c.1, by omega⟩, hT, ?_, ?_⟩
  · intro c
    have h1 := hgt c
    exact div_pos (mul_pos (by linarith) (by linarith)) (by linarith)
  · simp only [wsfOf, hest, ← hs]
    congr 1
    ext i c
    rw [mul_diagonal]
    rfl

/-- WSF: the same. -/
theorem wsf_fix {A : Matrix (Fin m) (Fin k) ℂ} (hA : Function.Injective A.mulVec) {P : Matrix (Fin k) (Fin k) ℂ} (hP : P.PosDef)
    {σ : ℝ} (hσ : 0 ≤ σ) (hk : k < m) (f : Ultrafilter (Matrix (Fin m) (Fin m) ℂ)) (hf : (f : Filter _) ≤ 𝓝 (covModel A P σ))
    (e : Matrix (Fin m) (Fin m) ℂ → Eigh) (B : Matrix (Fin m) (Fin m) ℂ → Matrix (Fin m) (Fin k) ℂ)
    (Q : Matrix (Fin m) (Fin m) ℂ → Matrix (Fin m) (Fin m) ℂ) (Q0 : Matrix (Fin m) (Fin m) ℂ)
    (hB : ∀ᶠ R in (f : Filter (Matrix (Fin m) (Fin m) ℂ)), R.IsHermitian ∧
      ∃ v v', wsfObjective A (wsfM (e R) R hk.le) = .ok v ∧ wsfObjective (B R) (wsfM (e R) R hk.le) = .ok v' ∧ v' ≤ v)
    (h1 : ∀ R, projm (B R) true = .ok (Q R)) (h3 : Tendsto Q f (𝓝 Q0)) (h4 : Q0ᴴ = Q0) (h5 : Q0 * Q0 = Q0) :
    Q0 * A = A := by
  obtain ⟨QA, a1, a2, -⟩ := projm_facts A
  have hR0 : Tendsto (fun R : Matrix (Fin m) (Fin m) ℂ => R) f (𝓝 (covModel A P σ)) := hf
  obtain ⟨v0, E0, hE0, hv, hE⟩ := eigh_limit f hR0 (w := fun R => ((e R).run R).1) (E := fun R => ((e R).run R).2)
    (by filter_upwards [hB] with R hR using (e R).spec R hR.1)
  obtain ⟨T, w, hT, hw, hM0⟩ := wsfOf_exact hA hP hσ hk hE0
  have hM : Tendsto (fun R => wsfM (e R) R hk.le) f (𝓝 (wsfOf v0 E0 hk.le)) := by
    simp only [wsfM_eq, wsfOf]
    have hvj : ∀ j, Tendsto (fun R => ((e R).run R).1 j) f (𝓝 (v0 j)) := fun j => (tendsto_pi_nhds.1 hv) j
    have hs : Tendsto (fun R => signalCols ((e R).run R).2 hk.le) f (𝓝 (signalCols E0 hk.le)) :=
      tendsto_pi_nhds.2 fun i => tendsto_pi_nhds.2 fun c => tendsto_entry hE i _
    refine tendsto_matMul ?_ (tendsto_conjTranspose hs)
    refine tendsto_pi_nhds.2 fun i => tendsto_pi_nhds.2 fun c => ?_
    simp only [Matrix.of_apply]
    refine (tendsto_entry hs i c).mul ((Complex.continuous_ofReal.tendsto _).comp ?_)
    have hsum : Tendsto (fun R => (∑ j : Fin (m - k), ((e R).run R).1 ⟨j.1, by omega⟩) / ((m : ℝ) - (k : ℝ))) f
        (𝓝 ((∑ j : Fin (m - k), v0 ⟨j.1, by omega⟩) / ((m : ℝ) - (k : ℝ)))) :=
      (tendsto_finsetSum _ fun j _ => hvj _).div_const _
    have hne : v0 ⟨m - k + c.1, by omega⟩ ≠ 0 := by
      have := (hE0.split hA hP ⟨m - k + c.1, by omega⟩).2 (by simp)
      exact (lt_of_le_of_lt hσ this).ne'
    exact (((hvj _).sub hsum).mul ((hvj _).sub hsum)).div (hvj _) hne
  rw [hM0] at hM
  refine wsf_proj hT hw h4 h5 ?_
  have hz : (trace ((1 - QA) * ((A * T) * diagonal (fun c => (w c : ℂ)) * (A * T)ᴴ))).re = 0 := by
    rw [Matrix.mul_assoc A T, Matrix.mul_assoc A, ← Matrix.mul_assoc (1 - QA), compl_mul a2, Matrix.zero_mul, trace_zero, Complex.zero_re]
  rw [← hz]
  refine le_of_tendsto_of_tendsto (tendsto_const_sub_mul h3 hM) (tendsto_const_sub_mul (Q := fun _ => QA) tendsto_const_nhds hM) ?_
  filter_upwards [hB] with R hR
  obtain ⟨-, v, v', e1, e2, e3⟩ := hR
  simp only [wsfObjective, a1, h1] at e1 e2
  rw [Except.ok.inj e1, Except.ok.inj e2]
  exact e3

/-- Hermitian matrices close to a positive definite matrix are positive definite. -/
theorem posDef_limit (f : Ultrafilter (Matrix (Fin m) (Fin m) ℂ)) {R0 : Matrix (Fin m) (Fin m) ℂ} (hf : (f : Filter _) ≤ 𝓝 R0)
    (hR0 : R0.PosDef) (hH : ∀ᶠ R in (f : Filter (Matrix (Fin m) (Fin m) ℂ)), R.IsHermitian) :
    ∀ᶠ R in (f : Filter (Matrix (Fin m) (Fin m) ℂ)), R.PosDef := by
  obtain ⟨v0, E0, hE0, hv, -⟩ := eigh_limit f (R := fun R => R) hf (w := fun R => (someEigh.run R).1) (E := fun R => (someEigh.run R).2)
    (by filter_upwards [hH] with R hR using someEigh.spec R hR)
  have hpos : ∀ᶠ R in (f : Filter (Matrix (Fin m) (Fin m) ℂ)), ∀ i, 0 < (someEigh.run R).1 i := by
    rw [eventually_all]
    exact fun i => ((tendsto_pi_nhds.1 hv) i).eventually (lt_mem_nhds (hE0.pos hR0 i))
  filter_upwards [hH, hpos] with R h1 h2
  have hE := someEigh.spec R h1
  have hu : IsUnit (someEigh.run R).2 := by
    rw [isUnit_iff_isUnit_det]
    exact Matrix.isUnit_det_of_left_inverse hE.orth
  rw [← Matrix.IsUnit.posDef_star_left_conjugate_iff hu]
  rw [star_eq_conjTranspose, Matrix.mul_assoc, hE.eig, ← Matrix.mul_assoc, hE.orth, Matrix.one_mul, posDef_diagonal_iff]
  exact fun i => Complex.zero_lt_real.2 (h2 i)

theorem tendsto_amlH {f : Filter (Matrix (Fin m) (Fin m) ℂ)} {Q : Matrix (Fin m) (Fin m) ℂ → Matrix (Fin m) (Fin m) ℂ} {Q0}
    (hQ : Tendsto Q f (𝓝 Q0)) {R0 : Matrix (Fin m) (Fin m) ℂ} (hf : f ≤ 𝓝 R0) :
    Tendsto (fun R => (amlH k (Q R) R).det.re) f (𝓝 (amlH k Q0 R0).det.re) := by
  have hR : Tendsto (fun R : Matrix (Fin m) (Fin m) ℂ => R) f (𝓝 R0) := hf
  have h1 : Tendsto (fun R => amlH k (Q R) R) f (𝓝 (amlH k Q0 R0)) := by
    unfold amlH
    have hc : Tendsto (fun R => 1 - Q R) f (𝓝 (1 - Q0)) := tendsto_const_nhds.sub hQ
    exact (tendsto_matMul (tendsto_matMul hQ hR) hQ).add (((tendsto_trace (tendsto_matMul hc hR)).div_const _).smul hc)
  exact (Complex.continuous_re.tendsto _).comp (((continuous_id.matrix_det).tendsto _).comp h1)

/-- AML: the same, with more than `2 k` sensors. -/
theorem aml_fix {A : Matrix (Fin m) (Fin k) ℂ} (hA : Function.Injective A.mulVec) {P : Matrix (Fin k) (Fin k) ℂ} (hP : P.PosDef)
    {σ : ℝ} (hσ : 0 < σ) (hk : 2 * k < m) (f : Ultrafilter (Matrix (Fin m) (Fin m) ℂ)) (hf : (f : Filter _) ≤ 𝓝 (covModel A P σ))
    (B : Matrix (Fin m) (Fin m) ℂ → Matrix (Fin m) (Fin k) ℂ)
    (Q : Matrix (Fin m) (Fin m) ℂ → Matrix (Fin m) (Fin m) ℂ) (Q0 : Matrix (Fin m) (Fin m) ℂ)
    (hB : ∀ᶠ R in (f : Filter (Matrix (Fin m) (Fin m) ℂ)), R.IsHermitian ∧
      ∃ v v', amlObjective A R = .ok v ∧ amlObjective (B R) R = .ok v' ∧ v' ≤ v)
    (h1 : ∀ R, projm (B R) true = .ok (Q R)) (h2 : ∀ R, IsProjOnto (Q R) (B R))
    (h3 : Tendsto Q f (𝓝 Q0)) (h4 : Q0ᴴ = Q0) (h5 : Q0 * Q0 = Q0) (h6 : (trace Q0).re ≤ k) :
    Q0 * A = A := by
  have hkm : k < m := by omega
  obtain ⟨QA, a1, a2, -⟩ := projm_facts A
  have hR0 := covModel_posDef A hP.posSemidef hσ
  have hpd := posDef_limit f hf hR0 (by filter_upwards [hB] with R hR using hR.1)
  have hA0 := (C54_aml_minimum hkm).2 A hA P hP.posSemidef σ hσ
  obtain ⟨QA', b1, -, b2, b3, -⟩ := aml_eval A hR0 hkm
  rw [a1] at b1
  obtain rfl := Except.ok.inj b1
  have hdet : (amlH k QA (covModel A P σ)).det.re = (covModel A P σ).det.re := by
    rw [hA0] at b3
    have := WithTop.coe_injective (Except.ok.inj b3)
    exact (Real.log_injOn_pos (Complex.lt_def.1 hR0.det_pos).1 (Complex.lt_def.1 b2.det_pos).1 this).symm
  have hle : (amlH k Q0 (covModel A P σ)).det.re ≤ (covModel A P σ).det.re := by
    rw [← hdet]
    refine le_of_tendsto_of_tendsto (tendsto_amlH h3 hf) (tendsto_amlH (Q := fun _ => QA) tendsto_const_nhds hf) ?_
    filter_upwards [hB, hpd] with R hR hRp
    obtain ⟨-, v, v', e1, e2, e3⟩ := hR
    obtain ⟨Q1, c1, -, c2, c3, -⟩ := aml_eval A hRp hkm
    obtain ⟨Q2, d1, -, d2, d3, -⟩ := aml_eval (B R) hRp hkm
    rw [a1] at c1
    rw [h1] at d1
    obtain rfl := Except.ok.inj c1
    obtain rfl := Except.ok.inj d1
    rw [c3] at e1
    rw [d3] at e2
    rw [← Except.ok.inj e1, ← Except.ok.inj e2, WithTop.coe_le_coe] at e3
    exact (Real.log_le_log_iff (Complex.lt_def.1 d2.det_pos).1 (Complex.lt_def.1 c2.det_pos).1).1 e3
  have hx : ∀ R, ∃ x : Fin m → ℂ, ‖x‖ = 1 ∧ Aᴴ *ᵥ x = 0 ∧ Q R *ᵥ x = 0 := by
    intro R
    obtain ⟨x, x1, x2, x3⟩ := exists_common_null A (B R) (by omega : k + k < m)
    have hn : ‖x‖ ≠ 0 := norm_ne_zero_iff.2 x1
    refine ⟨((‖x‖⁻¹ : ℝ) : ℂ) • x, ?_, ?_, ?_⟩
    · rw [norm_smul, Complex.norm_real, norm_inv, norm_norm, inv_mul_cancel₀ hn]
    · rw [mulVec_smul, x2, smul_zero]
    · rw [mulVec_smul, (h2 R).kills x ((kills_iff (B R) x).2 x3), smul_zero]
  choose x x1 x2 x3 using hx
  obtain ⟨x0, hx0⟩ := ultra_bounded_vec f x 1 (Eventually.of_forall fun R r => (norm_le_pi_norm (x R) r).trans (x1 R).le)
  have g1 : ‖x0‖ = 1 := by
    refine tendsto_nhds_unique ((continuous_norm.tendsto _).comp hx0) ?_
    refine Tendsto.congr (fun R => (x1 R).symm) tendsto_const_nhds
  refine aml_proj hP hσ hkm h4 h5 h6 (x := x0) (by rintro rfl; simp at g1) ?_ ?_ hle
  · exact tendsto_nhds_unique (tendsto_mulVec (A := fun _ => Aᴴ) tendsto_const_nhds hx0)
      (Tendsto.congr (fun R => (x2 R).symm) tendsto_const_nhds)
  · exact tendsto_nhds_unique (tendsto_mulVec h3 hx0) (Tendsto.congr (fun R => (x3 R).symm) tendsto_const_nhds)

/-- The second outcome is a value not larger than the first one. -/
def NotWorse {V : Type} [LE V] (truth cand : Res V) : Prop := ∃ v v', truth = .ok v ∧ cand = .ok v' ∧ v' ≤ v

/-- **C98** (stability). Uniform linear array, `k < n` sources with pairwise different directions of which none has an alias in the field of
view, positive definite source covariance. For every `ε` there is a `δ > 0` such that for every Hermitian matrix whose entries are
closer than `δ` to those of the exact covariance, every candidate whose CML objective (WSF objective; AML objective, with positive
noise power and more than `2 k` sensors) is not larger than that of the true directions -- in particular every global minimiser --
coincides with the true directions to within `ε` up to the order. -/
theorem C98_stable {n : ℕ} {d wl : ℝ} (hd : 0 < d) (hwl : 0 < wl) {name : Option String} {a : GridArray}
    (ha : ula n (.scalar d) name {} = .ok a) (l : Fin a.toArrayDesign.element.outputSize)
    {s : FF1D k} (hs : Valid1D s) (hinj : Function.Injective s.loc)
    (hfov : ∀ c, d * (1 + |Real.sin (angleOf s.unit (s.loc c))|) < wl)
    (hk : k < a.toArrayDesign.size) {P : Matrix (Fin k) (Fin k) ℂ} (hP : P.PosDef) {σ : ℝ} (hσ : 0 ≤ σ) :
    ∃ S, steering a.toArrayDesign (.ff1 s) wl false "all" = .ok S ∧
      ∀ ε > 0, ∃ δ > 0, ∀ R : Matrix (Fin a.toArrayDesign.size) (Fin a.toArrayDesign.size) ℂ, R.IsHermitian →
        (∀ i j, ‖R i j - covModel (S.A l) P σ i j‖ < δ) → ∀ (eigh : Eigh) (s' : FF1D k), Valid1D s' → s'.unit = s.unit →
          (NotWorse (mlEval a.toArrayDesign l wl (fun B => cmlObjective B R) s) (mlEval a.toArrayDesign l wl (fun B => cmlObjective B R) s') ∨
           NotWorse (mlEval a.toArrayDesign l wl (fun B => wsfObjective B (wsfM eigh R hk.le)) s)
             (mlEval a.toArrayDesign l wl (fun B => wsfObjective B (wsfM eigh R hk.le)) s') ∨
           0 < σ ∧ 2 * k < a.toArrayDesign.size ∧
             NotWorse (mlEval a.toArrayDesign l wl (fun B => amlObjective B R) s)
               (mlEval a.toArrayDesign l wl (fun B => amlObjective B R) s')) →
          ∃ e : Equiv.Perm (Fin k), ∀ c, |s'.loc c - s.loc (e c)| < ε := by
  have : NeZero wl := ⟨hwl.ne'⟩
  have hev : ∀ (V : Type) (obj : Matrix (Fin a.toArrayDesign.size) (Fin k) ℂ → Res V) (t : FF1D k), Valid1D t →
      mlEval a.toArrayDesign l wl obj t =
        obj (ulaMat a.toArrayDesign.size fun c => phaseFactor d wl t.unit (t.loc c)) := by
    intro V obj t ht
    obtain ⟨S, h1, h2⟩ := ula_steering ha t ht wl "known" (by simp)
    simp only [mlEval, h1]
    congr 1
    ext i c
    exact h2 l i c
  obtain ⟨S, hS, hSv⟩ := ula_steering ha s hs wl "all" (by simp)
  refine ⟨S, hS, fun ε hε => ?_⟩
  have hSm : S.A l = ulaMat a.toArrayDesign.size fun c => phaseFactor d wl s.unit (s.loc c) := by
    funext i c
    exact hSv l i c
  have hz : Function.Injective fun c => phaseFactor d wl s.unit (s.loc c) := fun c c' hcc =>
    hinj (phaseFactor_inj hd hwl (hs.2 c) (hs.2 c') (fov_unambiguous hd (hfov c')) hcc)
  have hA := ulaMat_injective (m := a.toArrayDesign.size) hz hk.le
  rw [hSm]
  set A := ulaMat a.toArrayDesign.size fun c => phaseFactor d wl s.unit (s.loc c) with hAdef
  have k1 := near_of_fix (R0 := covModel A P σ) hd hwl hs hinj hfov hk
    (fun R _ B => NotWorse (cmlObjective A R) (cmlObjective B R))
    (fun f hf e B Q Q0 h0 h1 h2 h3 h4 h5 h6 => cml_fix hA hP hσ f hf B Q Q0 (by filter_upwards [h0] with R hR using hR.2) h1 h3 h4 h5 h6) hε
  have k2 := near_of_fix (R0 := covModel A P σ) hd hwl hs hinj hfov hk
    (fun R e B => NotWorse (wsfObjective A (wsfM e R hk.le)) (wsfObjective B (wsfM e R hk.le)))
    (fun f hf e B Q Q0 h0 h1 h2 h3 h4 h5 h6 => wsf_fix hA hP hσ hk f hf e B Q Q0 h0 h1 h3 h4 h5) hε
  have k3 : ∀ᶠ R in 𝓝 (covModel A P σ), 0 < σ ∧ 2 * k < a.toArrayDesign.size → R.IsHermitian → ∀ (eigh : Eigh) (s' : FF1D k), Valid1D s' →
      s'.unit = s.unit →
      NotWorse (amlObjective A R) (amlObjective (ulaMat a.toArrayDesign.size fun c => phaseFactor d wl s'.unit (s'.loc c)) R) →
      ∃ e : Equiv.Perm (Fin k), ∀ c, |s'.loc c - s.loc (e c)| < ε := by
    by_cases hc : 0 < σ ∧ 2 * k < a.toArrayDesign.size
    · have := near_of_fix (R0 := covModel A P σ) hd hwl hs hinj hfov hk
        (fun R _ B => NotWorse (amlObjective A R) (amlObjective B R))
        (fun f hf e B Q Q0 h0 h1 h2 h3 h4 h5 h6 => aml_fix hA hP hc.1 hc.2 f hf B Q Q0 h0 h1 h2 h3 h4 h5 h6) hε
      filter_upwards [this] with R hR _ using hR
    · exact Eventually.of_forall fun R h => absurd h hc
  obtain ⟨δ, hδ, h2⟩ := near_entries (k1.and (k2.and k3))
  refine ⟨δ, hδ, fun R hR hn eigh s' hs' hu hcase => ?_⟩
  obtain ⟨g1, g2, g3⟩ := h2 R hn
  rw [hev _ _ s hs, hev _ _ s' hs', hev _ _ s hs, hev _ _ s' hs', hev _ _ s hs, hev _ _ s' hs'] at hcase
  rcases hcase with h | h | ⟨c1, c2, h⟩
  · exact g1 hR eigh s' hs' hu h
  · exact g2 hR eigh s' hs' hu h
  · exact g3 ⟨c1, c2⟩ hR eigh s' hs' hu h

theorem rowsFF1_eval {V : Type} {a : ArrayDesign} {l : Fin a.element.outputSize} {wl : ℝ} (obj : ∀ j, Matrix (Fin a.size) (Fin j) ℂ → Res V)
    {k : ℕ} {rows : List LocRow} (h : rows.length = k) (u : String) :
    mlEval a l wl (obj rows.length) (rowsFF1 rows u) =
      mlEval a l wl (obj k) ⟨fun c => (rows.get (c.cast h.symm)).coords.headD 0, u⟩ := by
  subst h
  rfl

theorem rowsOf_eval {V : Type} {a : ArrayDesign} {l : Fin a.element.outputSize} {wl : ℝ} (obj : ∀ j, Matrix (Fin a.size) (Fin j) ℂ → Res V)
    {k : ℕ} {x : List ℝ} (hx : x.length = k) (u : String) :
    mlEval a l wl (obj _) (rowsFF1 (rowsOf k 1 x) u) = mlEval a l wl (obj k) ⟨fun c => x.get (c.cast hx.symm), u⟩ := by
  rw [rowsFF1_eval obj (rowsOf_length k 1 x) u]
  congr 2
  funext c
  have hc : c.1 < x.length := by rw [hx]; exact c.2
  simp only [rowsOf, List.get_eq_getElem, List.getElem_map, List.getElem_range, Nat.mul_one, Fin.val_cast]
  show (List.take 1 (List.drop c.1 x)).headD 0 = x[c.1]
  rw [List.drop_eq_getElem_cons hc]
  rfl

/-- **C98** (estimates). The same for complete calls of `estimate`: the estimator is CML, WSF or AML (with positive noise power and more
than `2 k` sensors), `sources0` is any initial guess of `k` float-valued directions in the unit of the true ones, and the optimizer is any
strategy that respects its bounds and, when it reports success, returns a point at which the objective is not larger than at the true
directions. Then `estimate`, if it reports success, returns a new placement with the true directions to within `ε`. -/
theorem C98_estimate {n : ℕ} {d wl : ℝ} (hd : 0 < d) (hwl : 0 < wl) {name : Option String} {a : GridArray}
    (ha : ula n (.scalar d) name {} = .ok a) (l : Fin a.toArrayDesign.element.outputSize)
    {s : FF1D k} (hs : Valid1D s) (hinj : Function.Injective s.loc)
    (hfov : ∀ c, d * (1 + |Real.sin (angleOf s.unit (s.loc c))|) < wl)
    (hk : k < a.toArrayDesign.size) {P : Matrix (Fin k) (Fin k) ℂ} (hP : P.PosDef) {σ : ℝ} (hσ : 0 ≤ σ) :
    ∃ S, steering a.toArrayDesign (.ff1 s) wl false "all" = .ok S ∧
      ∀ ε > 0, ∃ δ > 0, ∀ R : Matrix (Fin a.toArrayDesign.size) (Fin a.toArrayDesign.size) ℂ, R.IsHermitian →
        (∀ i j, ‖R i j - covModel (S.A l) P σ i j‖ < δ) →
        ∀ (eigh : Eigh) (opt : List ℝ → List (EReal × EReal) → Optimizer) (c : MLCall),
          (c = cmlCall a.toArrayDesign l wl R opt ∨ c = wsfCall eigh a.toArrayDesign l wl R hk.le opt ∨
            0 < σ ∧ 2 * k < a.toArrayDesign.size ∧ c = amlCall a.toArrayDesign l wl R opt) →
          ∀ (st : MLState), SeparateBuffers st.heap → ∀ (r0 : ℕ) (rows : List LocRow), st.heap.view r0 = some (rows, s.unit) →
          FloatShape k 1 rows →
          (∀ ranges, validRanges .ff1 s.unit = .ok ranges →
            Respects (pyRepeat ranges k) (opt (rows.flatMap LocRow.coords) (pyRepeat ranges k)) ∧
            ∀ x, (opt (rows.flatMap LocRow.coords) (pyRepeat ranges k)).solve (objective c.nll k 1 s.unit) = .ok (true, x) →
              NotWorse (objective c.nll k 1 s.unit (List.ofFn s.loc)) (objective c.nll k 1 s.unit x)) →
          ∀ p, (st.estimate a.toArrayDesign.size c r0).1 = .ok (true, some p) →
            ∃ est : Fin k → ℝ, (st.estimate a.toArrayDesign.size c r0).2.heap.view p =
                some (List.ofFn fun i => ⟨false, [est i]⟩, s.unit) ∧
              ∃ e : Equiv.Perm (Fin k), ∀ i, |est i - s.loc (e i)| < ε := by
  obtain ⟨S, hS, hnear⟩ := C98_stable hd hwl ha l hs hinj hfov hk hP hσ
  refine ⟨S, hS, fun ε hε => ?_⟩
  obtain ⟨δ, hδ, hn⟩ := hnear ε hε
  refine ⟨δ, hδ, fun R hR hclose eigh opt c hc st hsep r0 rows hview hshape hboth p hp => ?_⟩
  have hck : c.kind = .ff1 ∧ c.shape = [a.toArrayDesign.size, a.toArrayDesign.size] ∧ c.prepare = .ok () ∧ c.opt = opt := by
    rcases hc with rfl | rfl | ⟨-, -, rfl⟩ <;> exact ⟨rfl, rfl, rfl, rfl⟩
  obtain ⟨hkind, hshp, hprep, hopt⟩ := hck
  obtain ⟨pr, hpr⟩ : ∃ pr, validRange1D s.unit = some pr := by
    rcases hs.1 with h | h | h <;> rw [h] <;> simp [validRange1D]
  have hr : validRanges c.kind s.unit = .ok [((pr.1 : EReal), (pr.2 : EReal))] := by
    rw [hkind]; simp [validRanges, hpr]
  obtain ⟨hresp, hnw⟩ := hboth _ (by rw [← hkind]; exact hr)
  obtain ⟨c1, c2, c3, c4⟩ := C53_estimate hsep hview hshape hk hshp hprep hr
  rw [hopt] at c1 c2 c3 c4
  obtain ⟨est, e1, e2, e3⟩ := C53_in_range hsep hview hr hshape hk hshp hprep (by rw [hopt]; exact hresp) hp
  generalize hsol : (opt (rows.flatMap LocRow.coords) (pyRepeat [((pr.1 : EReal), (pr.2 : EReal))] k)).solve
    (objective c.nll k 1 s.unit) = sol at c1 c2 c3 c4
  rcases sol with e | ⟨b, x⟩
  · rw [c1 e rfl] at hp; cases hp
  cases b with
  | false => rw [c2 x rfl] at hp; cases hp
  | true =>
    have hlen : x.length = k := by
      have := (respects_solve hresp hsol).1
      rwa [pyRepeat_length, List.length_singleton, Nat.mul_one] at this
    obtain ⟨q, q1, -, q2⟩ := c4 x rfl (by omega)
    rw [q1] at hp
    obtain rfl : q = p := by simpa using hp
    rw [q2] at e1
    have hrows : rowsOf k 1 x = List.ofFn fun i : Fin k => (⟨false, [x.get (i.cast hlen.symm)]⟩ : LocRow) := by
      apply List.ext_getElem
      · rw [rowsOf_length, List.length_ofFn]
      · intro i h1 h2
        have hi : i < x.length := by rw [List.length_ofFn] at h2; omega
        simp only [rowsOf, List.getElem_map, List.getElem_range, Nat.mul_one, List.getElem_ofFn, Fin.cast_mk, List.get_eq_getElem]
        rw [List.drop_eq_getElem_cons hi]
        rfl
    refine ⟨fun i => x.get (i.cast hlen.symm), by rw [q2, hrows], ?_⟩
    have hest : est = rowsOf k 1 x := (Prod.mk.inj (Option.some.inj e1)).1.symm
    have hval : Valid1D (⟨fun i => x.get (i.cast hlen.symm), s.unit⟩ : FF1D k) := by
      refine ⟨hs.1, fun i => ?_⟩
      have := e3 ⟨false, [x.get (i.cast hlen.symm)]⟩ (by rw [hest, hrows, List.mem_ofFn]; exact ⟨i, rfl⟩)
      rw [hkind] at this
      obtain ⟨t, t1, t2⟩ := this
      obtain rfl : x.get (i.cast hlen.symm) = t := by simpa using t1
      exact t2
    refine hn R hR hclose eigh ⟨_, s.unit⟩ hval rfl ?_
    have hl0 : (List.ofFn s.loc).length = k := List.length_ofFn
    have hs0 : (⟨fun c => (List.ofFn s.loc).get (c.cast hl0.symm), s.unit⟩ : FF1D k) = s := by
      cases s
      simp
    obtain ⟨v, v', n1, n2, n3⟩ := hnw x hsol
    simp only [objective, List.length_ofFn, Nat.mul_one, lt_irrefl, if_false, hlen] at n1 n2
    have hlift : ∀ {r : Res ℝ} {w : WithTop ℝ}, liftVal r = .ok w → ∃ y : ℝ, r = .ok y ∧ w = y := by
      intro r w h
      cases r with
      | error e => cases h
      | ok y => exact ⟨y, rfl, (Except.ok.inj h).symm⟩
    rcases hc with rfl | rfl | ⟨g1, g2, rfl⟩
    · left
      simp only [cmlCall] at n1 n2
      rw [rowsOf_eval (fun j B => cmlObjective B R) hl0, hs0] at n1
      rw [rowsOf_eval (fun j B => cmlObjective B R) hlen] at n2
      obtain ⟨y, y1, rfl⟩ := hlift n1
      obtain ⟨y', y2, rfl⟩ := hlift n2
      exact ⟨y, y', y1, y2, WithTop.coe_le_coe.1 n3⟩
    · right; left
      simp only [wsfCall] at n1 n2
      rw [rowsOf_eval (fun j B => wsfObjective B (wsfM eigh R hk.le)) hl0, hs0] at n1
      rw [rowsOf_eval (fun j B => wsfObjective B (wsfM eigh R hk.le)) hlen] at n2
      obtain ⟨y, y1, rfl⟩ := hlift n1
      obtain ⟨y', y2, rfl⟩ := hlift n2
      exact ⟨y, y', y1, y2, WithTop.coe_le_coe.1 n3⟩
    · right; right
      simp only [amlCall] at n1 n2
      rw [rowsOf_eval (fun j B => amlObjective B R) hl0, hs0] at n1
      rw [rowsOf_eval (fun j B => amlObjective B R) hlen] at n2
      exact ⟨g1, g2, v, v', n1, n2, n3⟩

/-- **C98** (consistency). In a simulated experiment with independent draws of mean zero and variance one the probability that some
candidate at least as good as the truth for the CML or WSF objective (AML, with positive noise power and more than `2 k` sensors) is
not within `ε` of the truth tends to 0 as the number of snapshots grows: minimisers of the objectives are consistent. -/
theorem C98_consistent {sqrtm : Sqrtm} (hsq : IsSqrtm sqrtm) {n : ℕ} {d wl : ℝ} (hd : 0 < d) (hwl : 0 < wl) {name : Option String}
    {a : GridArray} (ha : ula n (.scalar d) name {} = .ok a) (l : Fin a.toArrayDesign.element.outputSize)
    {s : FF1D k} (hs : Valid1D s) (hinj : Function.Injective s.loc)
    (hfov : ∀ c, d * (1 + |Real.sin (angleOf s.unit (s.loc c))|) < wl) (hk : k < a.toArrayDesign.size)
    {C1 C2 : CovArg} {g1 : StoGen k} {g2 : StoGen a.size}
    (hg1 : stoInit sqrtm k C1 = .ok g1) (hg2 : stoInit sqrtm a.size C2 = .ok g2)
    {P : Matrix (Fin k) (Fin k) ℂ} (hPd : Denotes k C1 P) (hP : P.PosDef) {σ : ℝ} (hσ : 0 ≤ σ)
    (hQd : Denotes a.size C2 ((σ : ℂ) • (1 : Matrix (Fin a.size) (Fin a.size) ℂ)))
    {ν : Measure ℝ} [IsProbabilityMeasure ν] (hν : UnitLaw ν) {ε : ℝ} (hε : 0 < ε) :
    Tendsto (fun n => (Measure.pi fun _ : Fin n => Measure.pi fun _ => ν)
      {d : Fin n → SnapshotDraw k a.size | ¬ ∃ Y R, experiment a.toArrayDesign (.ff1 s) wl g1 g2 n d = .ok ⟨n, Y, R⟩ ∧
        ∀ (eigh : Eigh) (s' : FF1D k), Valid1D s' → s'.unit = s.unit →
          (NotWorse (mlEval a.toArrayDesign l wl (fun B => cmlObjective B (R l)) s)
             (mlEval a.toArrayDesign l wl (fun B => cmlObjective B (R l)) s') ∨
           NotWorse (mlEval a.toArrayDesign l wl (fun B => wsfObjective B (wsfM eigh (R l) hk.le)) s)
             (mlEval a.toArrayDesign l wl (fun B => wsfObjective B (wsfM eigh (R l) hk.le)) s') ∨
           0 < σ ∧ 2 * k < a.toArrayDesign.size ∧
             NotWorse (mlEval a.toArrayDesign l wl (fun B => amlObjective B (R l)) s)
               (mlEval a.toArrayDesign l wl (fun B => amlObjective B (R l)) s')) →
          ∃ e : Equiv.Perm (Fin k), ∀ c, |s'.loc c - s.loc (e c)| < ε}) atTop (𝓝 0) := by
  obtain ⟨S, hS, hn⟩ := C98_stable hd hwl ha l hs hinj hfov hk hP hσ
  exact C84_probability hsq a.toArrayDesign (.ff1 s) wl S hS (grid_scalar ha) hg1 hg2 hPd hQd hP.posSemidef (scaled_one_posSemidef hσ) hν l _ (hn ε hε)

/-! ### The hypotheses can be met -/

/-- Non-vacuity: five sensors, two sources at `sin θ = -0.4, 0.7`, unequal powers: near the exact covariance no candidate with an error of
a thousandth or more has a smaller CML objective than the truth. -/
example : ∃ (a : GridArray) (l : Fin a.toArrayDesign.element.outputSize) (S : Steering a.toArrayDesign.element.outputSize a.toArrayDesign.size 2),
    ula 5 (.scalar (1 / 2)) none {} = .ok a ∧ steering a.toArrayDesign (.ff1 ⟨![0.7, -0.4], "sin"⟩) 1 false "all" = .ok S ∧
    ∃ δ > 0, ∀ R : Matrix (Fin a.toArrayDesign.size) (Fin a.toArrayDesign.size) ℂ, R.IsHermitian →
      (∀ i j, ‖R i j - covModel (S.A l) (Matrix.diagonal (![4, 1] : Fin 2 → ℂ)) 1 i j‖ < δ) → ∀ (s' : FF1D 2), Valid1D s' → s'.unit = "sin" →
      NotWorse (mlEval a.toArrayDesign l 1 (fun B => cmlObjective B R) ⟨![0.7, -0.4], "sin"⟩)
        (mlEval a.toArrayDesign l 1 (fun B => cmlObjective B R) s') →
      ∃ e : Equiv.Perm (Fin 2), ∀ c, |s'.loc c - (![0.7, -0.4] : Fin 2 → ℝ) (e c)| < 0.001 := by
  obtain ⟨a, ha⟩ := ula_ok 5 (1 / 2) none
  have hel : a.toArrayDesign.element = .isotropicScalar := (gridInit_spec ha).2.2.1
  have hl : 0 < a.toArrayDesign.element.outputSize := by rw [hel]; decide
  have hsz : a.toArrayDesign.size = 5 := (C01_ula_geometry 5 (1 / 2) none {} a ha).1
  obtain ⟨S, hS, h⟩ := C98_stable (d := 1 / 2) (wl := 1) (by norm_num) (by norm_num) ha ⟨0, hl⟩ (k := 2) (s := ⟨![0.7, -0.4], "sin"⟩)
    ⟨Or.inr (Or.inr rfl), fun c => Or.inr (Or.inr ⟨rfl, by fin_cases c <;> norm_num⟩)⟩
    (by intro c e h; fin_cases c <;> fin_cases e <;> first | rfl | (norm_num at h))
    (by intro c; rw [ex_sin]; fin_cases c <;> norm_num [abs_of_pos, abs_of_neg]) (by omega)
    (P := Matrix.diagonal (![4, 1] : Fin 2 → ℂ)) (PosDef.diagonal (by intro i; fin_cases i <;> simp)) (σ := 1) zero_le_one
  obtain ⟨δ, hδ, h'⟩ := h 0.001 (by norm_num)
  exact ⟨a, ⟨0, hl⟩, S, ha, hS, δ, hδ, fun R hR hc s' hs' hu hw => h' R hR hc someEigh s' hs' hu (Or.inl hw)⟩

/-- Non-vacuity of the conditions on the optimizer: one that reports the true directions at once meets them, and `estimate` returns them. -/
example (c : MLCall) (v : WithTop ℝ) (hv : objective c.nll 2 1 "sin" [0.7, -0.4] = .ok v) :
    ∀ ranges, validRanges .ff1 "sin" = .ok ranges → Respects (pyRepeat ranges 2) (.done true [0.7, -0.4]) ∧
      ∀ x, (Optimizer.done true [0.7, -0.4]).solve (objective c.nll 2 1 "sin") = .ok (true, x) →
        NotWorse (objective c.nll 2 1 "sin" (List.ofFn ![0.7, -0.4])) (objective c.nll 2 1 "sin" x) := by
  intro ranges hr
  have hr' : ranges = [(((-1 : ℝ) : EReal), ((1 : ℝ) : EReal))] := by
    simp only [validRanges, validRange1D, String.reduceEq, if_false, if_true] at hr
    exact (Except.ok.inj hr).symm
  subst hr'
  constructor
  · intro _
    refine ⟨rfl, fun t v b h1 h2 => ?_⟩
    rcases t with _ | _ | t
    · simp [pyRepeat] at h1 h2
      subst h1; subst h2
      constructor
      · show ((-1 : ℝ) : EReal) ≤ _
        rw [EReal.coe_le_coe_iff]; norm_num
      · show _ ≤ ((1 : ℝ) : EReal)
        rw [EReal.coe_le_coe_iff]; norm_num
    · simp [pyRepeat] at h1 h2
      subst h1; subst h2
      constructor
      · show ((-1 : ℝ) : EReal) ≤ _
        rw [EReal.coe_le_coe_iff]; norm_num
      · show _ ≤ ((1 : ℝ) : EReal)
        rw [EReal.coe_le_coe_iff]; norm_num
    · simp at h1
  · intro x hx
    simp only [Optimizer.solve, Except.ok.injEq, Prod.mk.injEq, true_and] at hx
    subst hx
    have : List.ofFn (![0.7, -0.4] : Fin 2 → ℝ) = [0.7, -0.4] := by simp [List.ofFn_succ]
    rw [this]
    exact ⟨v, v, hv, hv, le_rfl⟩

end Doa.Props
