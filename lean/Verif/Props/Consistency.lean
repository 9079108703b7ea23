import Mathlib.Probability.StrongLaw
import Mathlib.Probability.Independence.InfinitePi
import Mathlib.Probability.Distributions.Gaussian.Real
import Mathlib.MeasureTheory.Function.ConvergenceInMeasure
import Verif.Spec.Draws
import Verif.Props.Signals
import Verif.Props.Robust

/-!
# C84: simulated experiments converge

With more and more snapshots the sample covariance matrix of a simulated experiment converges to the
covariance matrix of the model, and the probability that a subspace estimator does not return exactly
the sources (on the grid) tends to zero.
-/

namespace Doa.Props

open Doa Doa.Spec Matrix MeasureTheory ProbabilityTheory Filter
open scoped ComplexOrder Topology

variable {k : ℕ}

/-! ### One snapshot -/

/-- The coefficient of a draw in the entry `i` of `B * randcn`. -/
noncomputable def snapCoef {dim r : ℕ} (B : Matrix (Fin r) (Fin dim) ℂ) (i : Fin r) (q : Bool × Fin dim) : ℂ :=
  B i q.2 * ((Real.sqrt (1 / 2) : ℂ) * if q.1 then Complex.I else 1)

theorem mul_randcn_col {dim n r : ℕ} (B : Matrix (Fin r) (Fin dim) ℂ) (d : Fin n → Bool × Fin dim → ℝ) (i : Fin r) (t : Fin n) :
    (B * randcn (Matrix.of fun c t => d t (true, c)) (Matrix.of fun c t => d t (false, c))) i t = ∑ q, snapCoef B i q * (d t q : ℂ) := by
  rw [Fintype.sum_prod_type]
  simp only [Fintype.sum_bool, snapCoef, Matrix.mul_apply, Bool.false_eq_true, if_false, if_true]
  rw [← Finset.sum_add_distrib]
  refine Finset.sum_congr rfl fun c _ => ?_
  simp only [randcn, Matrix.of_apply]
  ring

theorem snapCoef_star {dim r : ℕ} (B B' : Matrix (Fin r) (Fin dim) ℂ) (i j : Fin r) :
    ∑ q, snapCoef B i q * star (snapCoef B' j q) = (B * B'ᴴ) i j := by
  rw [Fintype.sum_prod_type]
  simp only [Fintype.sum_bool, snapCoef, Bool.false_eq_true, if_false, if_true, Matrix.mul_apply, Matrix.conjTranspose_apply]
  rw [← Finset.sum_add_distrib]
  refine Finset.sum_congr rfl fun c _ => ?_
  simp only [star_mul', Complex.star_def, Complex.conj_ofReal, Complex.conj_I, map_one]
  linear_combination (B i c * (starRingEnd ℂ) (B' j c) * (1 - Complex.I * Complex.I)) * half_sq -
    (B i c * (starRingEnd ℂ) (B' j c)) / 2 * Complex.I_mul_I

/-- The contribution of one snapshot to the entry `i, j` of the covariance matrix. -/
noncomputable def outerEntry {m : ℕ} (co : Fin m → (Bool × Fin k) ⊕ (Bool × Fin m) → ℂ) (i j : Fin m) (x : SnapshotDraw k m) : ℂ :=
  (∑ q, co i q * (x q : ℂ)) * star (∑ q, co j q * (x q : ℂ))

theorem outerEntry_continuous {m : ℕ} (co : Fin m → (Bool × Fin k) ⊕ (Bool × Fin m) → ℂ) (i j : Fin m) :
    Continuous (outerEntry (k := k) co i j) := by
  unfold outerEntry
  have h : ∀ i, Continuous fun x : SnapshotDraw k m => ∑ q, co i q * (x q : ℂ) := fun i =>
    continuous_finsetSum _ fun q _ => continuous_const.mul (Complex.continuous_ofReal.comp (continuous_apply q))
  exact (h i).mul (h j).star

/-- The sample covariance matrix is an average over the snapshots. -/
theorem experiment_average {sqrtm : Sqrtm} (hs : IsSqrtm sqrtm) (a : ArrayDesign) (src : Sources k) (wl : ℝ) (out)
    (hA : steering a src wl false "all" = .ok out) (hone : a.element.outputSize = 1) {C1 C2 : CovArg} {g1 : StoGen k} {g2 : StoGen a.size}
    (hg1 : stoInit sqrtm k C1 = .ok g1) (hg2 : stoInit sqrtm a.size C2 = .ok g2) {P Q}
    (hP : Denotes k C1 P) (hQ : Denotes a.size C2 Q) (hPp : P.PosSemidef) (hQp : Q.PosSemidef) :
    ∃ co : Fin a.element.outputSize → Fin a.size → (Bool × Fin k) ⊕ (Bool × Fin a.size) → ℂ,
      (∀ l i j, ∑ q, co l i q * star (co l j q) = (out.A l * P * (out.A l)ᴴ + Q) i j) ∧
      ∀ n (d : Fin n → SnapshotDraw k a.size), ∃ Y R, experiment a src wl g1 g2 n d = .ok ⟨n, Y, R⟩ ∧
        ∀ l, (R l).IsHermitian ∧ ∀ i j, R l i j = (n : ℂ)⁻¹ * ∑ t, outerEntry (co l) i j (d t) := by
  obtain ⟨B1, hB1, he1⟩ := emit_factor hs hg1 hP hPp
  obtain ⟨B2, hB2, he2⟩ := emit_factor hs hg2 hQ hQp
  refine ⟨fun l i => Sum.elim (snapCoef (out.A l * B1) i) (snapCoef B2 i), fun l i j => ?_, fun n d => ?_⟩
  · rw [Fintype.sum_sum_type]
    simp only [Sum.elim_inl, Sum.elim_inr]
    rw [snapCoef_star, snapCoef_star, hB2, Matrix.conjTranspose_mul, Matrix.add_apply]
    congr 2
    rw [← hB1]
    simp only [Matrix.mul_assoc]
  · refine ⟨_, _, (C57_snapshots a src wl out hA hone _ _).2, fun l => ⟨?_, fun i j => ?_⟩⟩
    · rw [IsHermitian, conjTranspose_smul, conjTranspose_mul, conjTranspose_conjTranspose]
      simp
    · rw [Matrix.smul_apply, Matrix.mul_apply, smul_eq_mul]
      congr 1
      refine Finset.sum_congr rfl fun t _ => ?_
      have hY : ∀ i, (out.A l * g1.emit n (Matrix.of fun i t => d t (.inl (true, i))) (Matrix.of fun i t => d t (.inl (false, i))) +
          g2.emit n (Matrix.of fun i t => d t (.inr (true, i))) (Matrix.of fun i t => d t (.inr (false, i)))) i t =
          ∑ q, (Sum.elim (snapCoef (out.A l * B1) i) (snapCoef B2 i) : _ → ℂ) q * (d t q : ℂ) := by
        intro i
        rw [he1, he2, ← Matrix.mul_assoc, Matrix.add_apply, mul_randcn_col (out.A l * B1) (fun t q => d t (.inl q)),
          mul_randcn_col B2 (fun t q => d t (.inr q)), Fintype.sum_sum_type]
        rfl
      rw [conjTranspose_apply, hY, hY]
      rfl

/-! ### The strong law -/

/-- **C84** (sample covariance). Let the numbers drawn for the snapshots be pairwise independent from snapshot to snapshot and
identically distributed, and white within a snapshot (C56). Then almost surely the sample covariance matrix returned by
`get_narrowband_snapshots` for the first `n` snapshots converges, as `n` grows, to the covariance matrix `A P Aᴴ + Q` of the model. -/
theorem C84_sample_covariance {sqrtm : Sqrtm} (hs : IsSqrtm sqrtm) (a : ArrayDesign) (src : Sources k) (wl : ℝ) (out)
    (hA : steering a src wl false "all" = .ok out) (hone : a.element.outputSize = 1) {C1 C2 : CovArg} {g1 : StoGen k} {g2 : StoGen a.size}
    (hg1 : stoInit sqrtm k C1 = .ok g1) (hg2 : stoInit sqrtm a.size C2 = .ok g2) {P Q}
    (hP : Denotes k C1 P) (hQ : Denotes a.size C2 Q) (hPp : P.PosSemidef) (hQp : Q.PosSemidef)
    {Ω : Type} [MeasurableSpace Ω] (μ : Measure Ω) (D : ℕ → Ω → SnapshotDraw k a.size)
    (hindep : Pairwise fun s t => IndepFun (D s) (D t) μ) (hident : ∀ t, IdentDistrib (D t) (D 0) μ μ)
    (hw : White μ fun q ω => D 0 ω q) :
    ∃ R : Ω → ℕ → Fin a.element.outputSize → Matrix (Fin a.size) (Fin a.size) ℂ,
      (∀ ω n, ∃ Y, experiment a src wl g1 g2 n (fun t => D t ω) = .ok ⟨n, Y, R ω n⟩) ∧
      (∀ ω n l, (R ω n l).IsHermitian) ∧
      ∀ᵐ ω ∂μ, ∀ l i j, Tendsto (fun n => R ω n l i j) atTop (𝓝 ((out.A l * P * (out.A l)ᴴ + Q) i j)) := by
  obtain ⟨co, hco, hex⟩ := experiment_average hs a src wl out hA hone hg1 hg2 hP hQ hPp hQp
  choose Y R hYR hR using hex
  refine ⟨fun ω n => R n fun t => D t ω, fun ω n => ⟨_, hYR n _⟩, fun ω n l => (hR n _ l).1, ?_⟩
  rw [ae_all_iff]; intro l
  rw [ae_all_iff]; intro i
  rw [ae_all_iff]; intro j
  have hc := outerEntry_continuous (co l) i j
  have hls := hw.lin_star (co l i) (co l j)
  have h := strong_law_ae (fun t ω => outerEntry (co l) i j (D t ω)) hls.1
    (fun s t hst => (hindep hst).comp hc.measurable hc.measurable) (fun t => (hident t).comp hc.measurable)
  have hmean : ∫ ω, outerEntry (co l) i j (D 0 ω) ∂μ = (out.A l * P * (out.A l)ᴴ + Q) i j := by
    rw [← hco]
    exact hls.2
  filter_upwards [h] with ω hω
  rw [hmean] at hω
  refine hω.congr fun n => ?_
  rw [(hR n _ l).2, Complex.real_smul]
  push_cast
  congr 1
  exact (Fin.sum_univ_eq_sum_range (fun t => outerEntry (co l) i j (D t ω)) n).symm

/-! ### Independent draws from one distribution -/

/-- Draws from a product measure are white. -/
theorem white_pi {ι : Type} [Fintype ι] [DecidableEq ι] {ν : Measure ℝ} [IsProbabilityMeasure ν] (hν : UnitLaw ν) :
    White (Measure.pi fun _ : ι => ν) fun q x => x q := by
  have hmp : ∀ q : ι, MeasurePreserving (Function.eval q) (Measure.pi fun _ : ι => ν) ν := fun q => measurePreserving_eval _ q
  have hint : ∀ (q : ι) (f : ℝ → ℝ), AEStronglyMeasurable f ν → ∫ x, f (x q) ∂(Measure.pi fun _ : ι => ν) = ∫ y, f y ∂ν := by
    intro q f hf
    have := integral_map (μ := Measure.pi fun _ : ι => ν) (φ := Function.eval q) (f := f) (hmp q).aemeasurable (by rw [(hmp q).map_eq]; exact hf)
    rw [(hmp q).map_eq] at this
    exact this.symm
  refine ⟨fun q => hν.memLp.comp_measurePreserving (hmp q), fun q => ?_, fun q q' => ?_⟩
  · rw [← hν.mean]
    exact hint q (fun x => x) measurable_id.aestronglyMeasurable
  · split_ifs with h
    · subst h
      rw [← hν.variance, ← hint q (fun x => x ^ 2) (by fun_prop)]
      simp only [sq]
    · have hi : IndepFun (fun x : ι → ℝ => x q) (fun x => x q') (Measure.pi fun _ : ι => ν) :=
        (iIndepFun_pi (μ := fun _ : ι => ν) (X := fun _ y => y) fun _ => aemeasurable_id).indepFun h
      rw [hi.integral_fun_mul_eq_mul_integral (measurable_pi_apply q).aestronglyMeasurable (measurable_pi_apply q').aestronglyMeasurable,
        hint q (fun x => x) measurable_id.aestronglyMeasurable, hν.mean, zero_mul]

/-- The standard normal distribution has mean zero and variance one. -/
theorem unitLaw_gaussian : UnitLaw (gaussianReal 0 1) := by
  refine ⟨memLp_id_gaussianReal 2, integral_id_gaussianReal, ?_⟩
  have h := variance_id_gaussianReal (μ := 0) (v := 1)
  rw [variance_of_integral_eq_zero measurable_id.aemeasurable (by simpa using integral_id_gaussianReal (μ := 0) (v := 1))] at h
  simpa using h

/-- The first `n` of infinitely many independent snapshots are `n` independent snapshots. -/
theorem first_snapshots {X : Type} [MeasurableSpace X] (ρ : Measure X) [IsProbabilityMeasure ρ] (n : ℕ) :
    MeasurePreserving (fun (ω : ℕ → X) (t : Fin n) => ω t) (Measure.infinitePi fun _ => ρ) (Measure.pi fun _ => ρ) := by
  refine ⟨by fun_prop, ?_⟩
  have hind : iIndepFun (fun (t : Fin n) (ω : ℕ → X) => ω t) (Measure.infinitePi fun _ : ℕ => ρ) :=
    (iIndepFun_infinitePi (P := fun _ : ℕ => ρ) (X := fun _ y => y) fun _ => measurable_id).precomp Fin.val_injective
  rw [(iIndepFun_iff_map_fun_eq_pi_map (fun t => (measurable_pi_apply _).aemeasurable)).1 hind]
  congr 1
  funext t
  exact (measurePreserving_eval_infinitePi (fun _ : ℕ => ρ) t.1).map_eq

/-- **C84** (consistency). All numbers of an experiment with `n` snapshots are drawn independently from one distribution with mean zero
and variance one. Whatever property of the sample covariance matrix holds for all Hermitian matrices close to the covariance matrix of
the model, holds with a probability that tends to 1 as `n` grows. -/
theorem C84_probability {sqrtm : Sqrtm} (hs : IsSqrtm sqrtm) (a : ArrayDesign) (src : Sources k) (wl : ℝ) (out)
    (hA : steering a src wl false "all" = .ok out) (hone : a.element.outputSize = 1) {C1 C2 : CovArg} {g1 : StoGen k} {g2 : StoGen a.size}
    (hg1 : stoInit sqrtm k C1 = .ok g1) (hg2 : stoInit sqrtm a.size C2 = .ok g2) {P Q}
    (hP : Denotes k C1 P) (hQ : Denotes a.size C2 Q) (hPp : P.PosSemidef) (hQp : Q.PosSemidef)
    {ν : Measure ℝ} [IsProbabilityMeasure ν] (hν : UnitLaw ν) (l : Fin a.element.outputSize)
    (good : Matrix (Fin a.size) (Fin a.size) ℂ → Prop)
    (hgood : ∃ δ > 0, ∀ R : Matrix (Fin a.size) (Fin a.size) ℂ, R.IsHermitian →
      (∀ i j, ‖R i j - (out.A l * P * (out.A l)ᴴ + Q) i j‖ < δ) → good R) :
    Tendsto (fun n => (Measure.pi fun _ : Fin n => Measure.pi fun _ => ν)
      {d : Fin n → SnapshotDraw k a.size | ¬ ∃ Y R, experiment a src wl g1 g2 n d = .ok ⟨n, Y, R⟩ ∧ good (R l)}) atTop (𝓝 0) := by
  obtain ⟨δ, hδ, hgood⟩ := hgood
  obtain ⟨co, hco, hex⟩ := experiment_average hs a src wl out hA hone hg1 hg2 hP hQ hPp hQp
  set ρ : Measure (SnapshotDraw k a.size) := Measure.pi fun _ => ν with hρ
  set M := out.A l * P * (out.A l)ᴴ + Q with hM
  let M0 : Fin a.size → Fin a.size → ℂ := fun i j => M i j
  -- the sample covariance matrix as a function of the draws
  let F : (n : ℕ) → (Fin n → SnapshotDraw k a.size) → Fin a.size → Fin a.size → ℂ := fun n d i j =>
    (n : ℂ)⁻¹ * ∑ t, outerEntry (co l) i j (d t)
  have hF : ∀ n, Continuous (F n) := fun n => continuous_pi fun i => continuous_pi fun j =>
    continuous_const.mul (continuous_finsetSum _ fun t _ => (outerEntry_continuous (co l) i j).comp (continuous_apply t))
  let bad : (n : ℕ) → Set (Fin n → SnapshotDraw k a.size) := fun n => {d | ENNReal.ofReal δ ≤ edist (F n d) M0}
  have hsub : ∀ n, {d : Fin n → SnapshotDraw k a.size | ¬ ∃ Y R, experiment a src wl g1 g2 n d = .ok ⟨n, Y, R⟩ ∧ good (R l)} ⊆ bad n := by
    intro n d hd
    by_contra hb
    refine hd ?_
    obtain ⟨Y, R, h1, h2⟩ := hex n d
    refine ⟨Y, R, h1, hgood _ (h2 l).1 fun i j => ?_⟩
    have hb' : edist (F n d) M0 < ENNReal.ofReal δ := not_le.1 hb
    rw [edist_lt_ofReal, dist_pi_lt_iff hδ] at hb'
    have := (dist_pi_lt_iff hδ).1 (hb' i) j
    rw [dist_eq_norm] at this
    rw [(h2 l).2 i j]
    exact this
  have hmeas : ∀ n, MeasurableSet (bad n) := fun n => by
    have hc : Continuous fun d => edist (F n d) M0 := (hF n).edist continuous_const
    exact measurableSet_le measurable_const hc.measurable
  -- infinitely many snapshots
  have hD : ∀ t : ℕ, MeasurePreserving (Function.eval t) (Measure.infinitePi fun _ : ℕ => ρ) ρ := fun t => measurePreserving_eval_infinitePi _ t
  have hwhite : White (Measure.infinitePi fun _ : ℕ => ρ) fun q (ω : ℕ → SnapshotDraw k a.size) => ω 0 q := by
    have h := white_pi (ι := (Bool × Fin k) ⊕ (Bool × Fin a.size)) hν
    have hint : ∀ f : SnapshotDraw k a.size → ℝ, AEStronglyMeasurable f ρ →
        ∫ ω, f (ω 0) ∂(Measure.infinitePi fun _ : ℕ => ρ) = ∫ y, f y ∂ρ := by
      intro f hf
      have := integral_map (μ := Measure.infinitePi fun _ : ℕ => ρ) (φ := Function.eval 0) (f := f) (hD 0).aemeasurable
        (by rw [(hD 0).map_eq]; exact hf)
      rw [(hD 0).map_eq] at this
      exact this.symm
    refine ⟨fun q => (h.memLp q).comp_measurePreserving (hD 0), fun q => ?_, fun q q' => ?_⟩
    · rw [← h.mean q]
      exact hint (fun x => x q) (measurable_pi_apply q).aestronglyMeasurable
    · rw [← h.cov q q']
      exact hint (fun x => x q * x q') ((measurable_pi_apply q).mul (measurable_pi_apply q')).aestronglyMeasurable
  have hind : iIndepFun (fun (t : ℕ) (ω : ℕ → SnapshotDraw k a.size) => ω t) (Measure.infinitePi fun _ : ℕ => ρ) :=
    iIndepFun_infinitePi (P := fun _ : ℕ => ρ) (X := fun _ y => y) fun _ => measurable_id
  obtain ⟨R, hR1, -, hR2⟩ := C84_sample_covariance hs a src wl out hA hone hg1 hg2 hP hQ hPp hQp (Measure.infinitePi fun _ : ℕ => ρ)
    (fun t ω => ω t) (fun s t hst => hind.indepFun hst)
    (fun t => ⟨(measurable_pi_apply t).aemeasurable, (measurable_pi_apply 0).aemeasurable, by
      have e1 := (hD t).map_eq
      have e2 := (hD 0).map_eq
      exact e1.trans e2.symm⟩) hwhite
  have hlim : ∀ᵐ ω ∂(Measure.infinitePi fun _ : ℕ => ρ), Tendsto (fun n => F n fun t => ω t) atTop (𝓝 M0) := by
    filter_upwards [hR2] with ω hω
    rw [tendsto_pi_nhds]
    intro i
    rw [tendsto_pi_nhds]
    intro j
    refine (hω l i j).congr fun n => ?_
    obtain ⟨Y, hY⟩ := hR1 ω n
    obtain ⟨Y', R', h1, h2⟩ := hex n fun t => ω t
    rw [hY] at h1
    have h3 : R ω n = R' := by
      have := Except.ok.inj h1
      simp only [Sigma.mk.injEq, heq_eq_eq, true_and, Prod.mk.injEq] at this
      exact this.2
    rw [h3]
    exact (h2 l).2 i j
  have htm := tendstoInMeasure_of_tendsto_ae 
    (f := fun n (ω : ℕ → SnapshotDraw k a.size) => F n fun t => ω t) (g := fun _ => M0)
    (fun n => ((hF n).comp (continuous_pi fun t : Fin n => continuous_apply (A := fun _ : ℕ => SnapshotDraw k a.size) t.1)).aestronglyMeasurable) hlim
  have h0 := htm (ENNReal.ofReal δ) (by simpa using hδ)
  refine tendsto_of_tendsto_of_tendsto_of_le_of_le tendsto_const_nhds h0 (fun _ => zero_le) fun n => ?_
  refine (measure_mono (hsub n)).trans (le_of_eq ?_)
  rw [← (first_snapshots ρ n).measure_preimage (hmeas n).nullMeasurableSet]
  rfl

/-- **C84** (strong consistency). In an experiment with more and more snapshots, drawn as in `C84_sample_covariance`, whatever property of
the sample covariance matrix holds for all Hermitian matrices close to the covariance matrix of the model, holds
almost surely for all but finitely many numbers of snapshots. -/
theorem C84_almost_surely {sqrtm : Sqrtm} (hs : IsSqrtm sqrtm) (a : ArrayDesign) (src : Sources k) (wl : ℝ) (out)
    (hA : steering a src wl false "all" = .ok out) (hone : a.element.outputSize = 1) {C1 C2 : CovArg} {g1 : StoGen k} {g2 : StoGen a.size}
    (hg1 : stoInit sqrtm k C1 = .ok g1) (hg2 : stoInit sqrtm a.size C2 = .ok g2) {P Q}
    (hP : Denotes k C1 P) (hQ : Denotes a.size C2 Q) (hPp : P.PosSemidef) (hQp : Q.PosSemidef)
    {Ω : Type} [MeasurableSpace Ω] (μ : Measure Ω) (D : ℕ → Ω → SnapshotDraw k a.size)
    (hindep : Pairwise fun s t => IndepFun (D s) (D t) μ) (hident : ∀ t, IdentDistrib (D t) (D 0) μ μ)
    (hw : White μ fun q ω => D 0 ω q) (l : Fin a.element.outputSize)
    (good : Matrix (Fin a.size) (Fin a.size) ℂ → Prop)
    (hgood : ∃ δ > 0, ∀ R : Matrix (Fin a.size) (Fin a.size) ℂ, R.IsHermitian →
      (∀ i j, ‖R i j - (out.A l * P * (out.A l)ᴴ + Q) i j‖ < δ) → good R) :
    ∀ᵐ ω ∂μ, ∀ᶠ n in atTop, ∃ Y R, experiment a src wl g1 g2 n (fun t => D t ω) = .ok ⟨n, Y, R⟩ ∧ good (R l) := by
  obtain ⟨δ, hδ, hgood⟩ := hgood
  obtain ⟨R, hR1, hR2, hR3⟩ := C84_sample_covariance hs a src wl out hA hone hg1 hg2 hP hQ hPp hQp μ D hindep hident hw
  filter_upwards [hR3] with ω hω
  have hev : ∀ᶠ n in atTop, ∀ i j, ‖R ω n l i j - (out.A l * P * (out.A l)ᴴ + Q) i j‖ < δ := by
    rw [eventually_all]
    intro i
    rw [eventually_all]
    intro j
    have := (Metric.tendsto_nhds.1 (hω l i j)) δ hδ
    simpa only [dist_eq_norm] using this
  filter_upwards [hev] with n hn
  obtain ⟨Y, hY⟩ := hR1 ω n
  exact ⟨Y, R ω n, hY, hgood _ (hR2 ω n l) hn⟩

/-- Noise of equal power at all sensors. -/
theorem scaled_one_posSemidef {m : ℕ} {σ : ℝ} (hσ : 0 ≤ σ) : ((σ : ℂ) • (1 : Matrix (Fin m) (Fin m) ℂ)).PosSemidef :=
  PosSemidef.one.smul (by exact_mod_cast hσ)

/-! ### The estimators -/

/-- **C84** (MUSIC). Under the conditions under which MUSIC finds the sources from the exact covariance matrix (C43, C83), with all
numbers of the experiment drawn independently from one distribution with mean zero and variance one, the
probability that MUSIC, given the sample covariance matrix of `n` snapshots, does not return exactly the sources tends to 0. -/
theorem C84_music {sqrtm : Sqrtm} (hs : IsSqrtm sqrtm) {a : ArrayDesign} (hel : a.element = .isotropicScalar)
    (hknown : ∀ p ∈ a.perturbations, p.isKnown = true) {ps : List Perturbation} (hps : Usable a "all" ps)
    (l : Fin a.element.outputSize) (wl : ℝ) (cfg : EstCfg (WithTop ℝ) (List (Fin a.size → ℂ)))
    {x : List ℝ} {names : List String} {u : String}
    (hg : cfg.grid = ⟨.ff1, [⟨x, false⟩], names, [u]⟩) (hu : Unit1D u) (hx : ∀ v ∈ x, InRange1D u v)
    (hpf : cfg.peakFinder = findPeaksSimple) (hsort : IsArgsort cfg.argsort)
    (hcomp : cfg.compute = atomColumns1D a l wl u)
    (src : FF1D k) (hsu : src.unit = u) (idx : Fin k → ℕ) (hidx : ∀ c, x[idx c]? = some (src.loc c))
    (hsep : ∀ c e, c < e → idx c + 1 < idx e) (h1 : ∀ c, 1 ≤ idx c)
    (h2 : ∀ c, idx c + 1 < x.length) (hk : 1 ≤ k) (hka : k < a.size)
    {S : Steering a.element.outputSize a.size k} (hS : steering a (.ff1 src) wl false "all" = .ok S)
    (hA : Function.Injective (S.A l).mulVec)
    (hident : ∀ j v, x[j]? = some v → (∃ y, response a l wl u "all" v = S.A l *ᵥ y) → ∃ c, j = idx c)
    {C1 C2 : CovArg} {g1 : StoGen k} {g2 : StoGen a.size}
    (hg1 : stoInit sqrtm k C1 = .ok g1) (hg2 : stoInit sqrtm a.size C2 = .ok g2)
    {P : Matrix (Fin k) (Fin k) ℂ} (hPd : Denotes k C1 P) (hP : P.PosDef) {σ : ℝ} (hσ : 0 ≤ σ)
    (hQd : Denotes a.size C2 ((σ : ℂ) • (1 : Matrix (Fin a.size) (Fin a.size) ℂ)))
    {ν : Measure ℝ} [IsProbabilityMeasure ν] (hν : UnitLaw ν) :
    Tendsto (fun n => (Measure.pi fun _ : Fin n => Measure.pi fun _ => ν)
      {d : Fin n → SnapshotDraw k a.size | ¬ ∃ Y R, experiment a (.ff1 src) wl g1 g2 n d = .ok ⟨n, Y, R⟩ ∧
        ∀ (eigh : Eigh) (ops : List (EstOp (WithTop ℝ) (List (Fin a.size → ℂ)))),
          ∃ o st', musicEstimate eigh cfg (cfg.run ops).1 (R l) k {} = (.ok o, st') ∧
            ∃ sp, o.observe st' = (true, some (some (List.ofFn fun c => [src.loc c], u)), sp)}) atTop (𝓝 0) :=
  C84_probability hs a (.ff1 src) wl S hS (by rw [hel]; rfl) hg1 hg2 hPd hQd hP.posSemidef (scaled_one_posSemidef hσ) hν l _
    (C83_music hel hknown hps l wl cfg hg hu hx hpf hsort hcomp src hsu idx hidx hsep h1 h2 hk hka hS hA hident hP σ)

/-- **C84** (MUSIC, two-dimensional grids). -/
theorem C84_music_2d {sqrtm : Sqrtm} (hs : IsSqrtm sqrtm) {a : ArrayDesign} (hel : a.element = .isotropicScalar)
    (hknown : ∀ p ∈ a.perturbations, p.isKnown = true) {ps : List Perturbation} (hps : Usable a "all" ps)
    (l : Fin a.element.outputSize) (wl : ℝ) (cfg : EstCfg (WithTop ℝ) (List (Fin a.size → ℂ)))
    {ga gb : List ℝ} {names : List String} {u : String}
    (hg : cfg.grid = ⟨.ff2, [⟨ga, false⟩, ⟨gb, false⟩], names, [u, u]⟩) (hu : Unit2D u)
    (hx : ∀ v ∈ ga, ∀ w ∈ gb, InRange2D u (v, w))
    (hpf : cfg.peakFinder = findPeaksSimple) (hsort : IsArgsort cfg.argsort)
    (hcomp : cfg.compute = atomColumns2D a l wl u)
    (src : FF2D k) (hsu : src.unit = u) (ia ib : Fin k → ℕ) (ha : ∀ c, ga[ia c]? = some (src.loc c).1)
    (hb : ∀ c, gb[ib c]? = some (src.loc c).2) (hord : ∀ c e, c < e → ia c < ia e ∨ ia c = ia e ∧ ib c < ib e)
    (hsep : ∀ c e, c ≠ e → ia c + 1 < ia e ∨ ia e + 1 < ia c ∨ ib c + 1 < ib e ∨ ib e + 1 < ib c)
    (hk : 1 ≤ k) (hka : k < a.size)
    {S : Steering a.element.outputSize a.size k} (hS : steering a (.ff2 src) wl false "all" = .ok S)
    (hA : Function.Injective (S.A l).mulVec)
    (hident : ∀ i j v w, ga[i]? = some v → gb[j]? = some w →
      (∃ y, response2 a l wl u "all" (v, w) = S.A l *ᵥ y) → ∃ c, i = ia c ∧ j = ib c)
    {C1 C2 : CovArg} {g1 : StoGen k} {g2 : StoGen a.size}
    (hg1 : stoInit sqrtm k C1 = .ok g1) (hg2 : stoInit sqrtm a.size C2 = .ok g2)
    {P : Matrix (Fin k) (Fin k) ℂ} (hPd : Denotes k C1 P) (hP : P.PosDef) {σ : ℝ} (hσ : 0 ≤ σ)
    (hQd : Denotes a.size C2 ((σ : ℂ) • (1 : Matrix (Fin a.size) (Fin a.size) ℂ)))
    {ν : Measure ℝ} [IsProbabilityMeasure ν] (hν : UnitLaw ν) :
    Tendsto (fun n => (Measure.pi fun _ : Fin n => Measure.pi fun _ => ν)
      {d : Fin n → SnapshotDraw k a.size | ¬ ∃ Y R, experiment a (.ff2 src) wl g1 g2 n d = .ok ⟨n, Y, R⟩ ∧
        ∀ (eigh : Eigh) (ops : List (EstOp (WithTop ℝ) (List (Fin a.size → ℂ)))),
          ∃ o st', musicEstimate eigh cfg (cfg.run ops).1 (R l) k {} = (.ok o, st') ∧
            ∃ sp, o.observe st' = (true, some (some (List.ofFn fun c => [(src.loc c).1, (src.loc c).2], u)), sp)}) atTop (𝓝 0) :=
  C84_probability hs a (.ff2 src) wl S hS (by rw [hel]; rfl) hg1 hg2 hPd hQd hP.posSemidef (scaled_one_posSemidef hσ) hν l _
    (C83_music_2d hel hknown hps l wl cfg hg hu hx hpf hsort hcomp src hsu ia ib ha hb hord hsep hk hka hS hA hident hP σ)

/-- **C84** (uniform linear arrays). The conditions hold for a uniform linear array with known gain, phase and coupling errors and
sources on an unambiguous grid. -/
theorem C84_music_ula {sqrtm : Sqrtm} (hs : IsSqrtm sqrtm) {a : ArrayDesign} (hel : a.element = .isotropicScalar)
    (hknown : ∀ p ∈ a.perturbations, p.isKnown = true) (hps : Usable a "all" a.perturbations)
    (hkd : (a.perturbations.map Perturbation.kind).Nodup)
    (hno : ∀ err kn, Perturbation.location err kn ∉ a.perturbations) (hinv : IsUnit (totalFactor a.size a.perturbations))
    {d wl : ℝ} (hd : 0 < d) (hwl : 0 < wl) (hnd : a.ndim = 1) (hloc : ∀ i, i < a.size → a.locations.at0 i 0 = (i : ℝ) * d)
    (l : Fin a.element.outputSize) (cfg : EstCfg (WithTop ℝ) (List (Fin a.size → ℂ)))
    {x : List ℝ} {names : List String} {u : String}
    (hg : cfg.grid = ⟨.ff1, [⟨x, false⟩], names, [u]⟩) (hu : Unit1D u) (hx : ∀ v ∈ x, InRange1D u v) (hxd : x.Nodup)
    (hamb : ∀ v ∈ x, ∀ w ∈ x, d * |Real.sin (angleOf u v) - Real.sin (angleOf u w)| < wl)
    (hpf : cfg.peakFinder = findPeaksSimple) (hsort : IsArgsort cfg.argsort)
    (hcomp : cfg.compute = atomColumns1D a l wl u)
    (src : FF1D k) (hsu : src.unit = u) (idx : Fin k → ℕ) (hidx : ∀ c, x[idx c]? = some (src.loc c))
    (hsep : ∀ c e, c < e → idx c + 1 < idx e) (h1 : ∀ c, 1 ≤ idx c)
    (h2 : ∀ c, idx c + 1 < x.length) (hk : 1 ≤ k) (hka : k < a.size)
    {C1 C2 : CovArg} {g1 : StoGen k} {g2 : StoGen a.size}
    (hg1 : stoInit sqrtm k C1 = .ok g1) (hg2 : stoInit sqrtm a.size C2 = .ok g2)
    {P : Matrix (Fin k) (Fin k) ℂ} (hPd : Denotes k C1 P) (hP : P.PosDef) {σ : ℝ} (hσ : 0 ≤ σ)
    (hQd : Denotes a.size C2 ((σ : ℂ) • (1 : Matrix (Fin a.size) (Fin a.size) ℂ)))
    {ν : Measure ℝ} [IsProbabilityMeasure ν] (hν : UnitLaw ν) :
    Tendsto (fun n => (Measure.pi fun _ : Fin n => Measure.pi fun _ => ν)
      {d : Fin n → SnapshotDraw k a.size | ¬ ∃ Y R, experiment a (.ff1 src) wl g1 g2 n d = .ok ⟨n, Y, R⟩ ∧
        ∀ (eigh : Eigh) (ops : List (EstOp (WithTop ℝ) (List (Fin a.size → ℂ)))),
          ∃ o st', musicEstimate eigh cfg (cfg.run ops).1 (R l) k {} = (.ok o, st') ∧
            ∃ sp, o.observe st' = (true, some (some (List.ofFn fun c => [src.loc c], u)), sp)}) atTop (𝓝 0) := by
  obtain ⟨S, hS, hn⟩ := C83_music_ula hel hknown hps hkd hno hinv hd hwl hnd hloc l cfg hg hu hx hxd hamb hpf hsort hcomp src hsu idx hidx
    hsep h1 h2 hk hka hP σ
  exact C84_probability hs a (.ff1 src) wl S hS (by rw [hel]; rfl) hg1 hg2 hPd hQd hP.posSemidef (scaled_one_posSemidef hσ) hν l _ hn

/-- **C84** (rectangular arrays). -/
theorem C84_music_ura {sqrtm : Sqrtm} (hs : IsSqrtm sqrtm) {n1 n2 : ℕ} {d0 : D0Arg} {dx dy wl : ℝ}
    (hd : uraSpacing d0 = some (dx, dy)) (hdx : 0 < dx) (hdy : 0 < dy)
    (hwl : 0 < wl) {name : Option String} {a : GridArray} (haa : ura n1 n2 d0 name {} = .ok a)
    (l : Fin a.element.outputSize) (cfg : EstCfg (WithTop ℝ) (List (Fin a.size → ℂ)))
    {ga gb : List ℝ} {names : List String} {u : String}
    (hg : cfg.grid = ⟨.ff2, [⟨ga, false⟩, ⟨gb, false⟩], names, [u, u]⟩) (hu : Unit2D u)
    (hx : ∀ v ∈ ga, ∀ w ∈ gb, InRange2D u (v, w))
    (hdist : ∀ (i i' j j' : ℕ) (v v' w w' : ℝ), ga[i]? = some v → ga[i']? = some v' → gb[j]? = some w → gb[j']? = some w' →
      dirCos u (v, w) = dirCos u (v', w') → i = i' ∧ j = j')
    (hamb : ∀ v ∈ ga, ∀ v' ∈ ga, ∀ w ∈ gb, ∀ w' ∈ gb, dx * |(dirCos u (v, w)).1 - (dirCos u (v', w')).1| < wl ∧
      dy * |(dirCos u (v, w)).2 - (dirCos u (v', w')).2| < wl)
    (hpf : cfg.peakFinder = findPeaksSimple) (hsort : IsArgsort cfg.argsort)
    (hcomp : cfg.compute = atomColumns2D a.toArrayDesign l wl u)
    (src : FF2D k) (hsu : src.unit = u) (ia ib : Fin k → ℕ) (ha : ∀ c, ga[ia c]? = some (src.loc c).1)
    (hb : ∀ c, gb[ib c]? = some (src.loc c).2) (hord : ∀ c e, c < e → ia c < ia e ∨ ia c = ia e ∧ ib c < ib e)
    (hsep : ∀ c e, c ≠ e → ia c + 1 < ia e ∨ ia e + 1 < ia c ∨ ib c + 1 < ib e ∨ ib e + 1 < ib c)
    (hk : 1 ≤ k) (hk1 : k < n1) (hk2 : k < n2)
    {C1 C2 : CovArg} {g1 : StoGen k} {g2 : StoGen a.size}
    (hg1 : stoInit sqrtm k C1 = .ok g1) (hg2 : stoInit sqrtm a.size C2 = .ok g2)
    {P : Matrix (Fin k) (Fin k) ℂ} (hPd : Denotes k C1 P) (hP : P.PosDef) {σ : ℝ} (hσ : 0 ≤ σ)
    (hQd : Denotes a.size C2 ((σ : ℂ) • (1 : Matrix (Fin a.size) (Fin a.size) ℂ)))
    {ν : Measure ℝ} [IsProbabilityMeasure ν] (hν : UnitLaw ν) :
    Tendsto (fun n => (Measure.pi fun _ : Fin n => Measure.pi fun _ => ν)
      {d : Fin n → SnapshotDraw k a.size | ¬ ∃ Y R, experiment a.toArrayDesign (.ff2 src) wl g1 g2 n d = .ok ⟨n, Y, R⟩ ∧
        ∀ (eigh : Eigh) (ops : List (EstOp (WithTop ℝ) (List (Fin a.size → ℂ)))),
          ∃ o st', musicEstimate eigh cfg (cfg.run ops).1 (R l) k {} = (.ok o, st') ∧
            ∃ sp, o.observe st' = (true, some (some (List.ofFn fun c => [(src.loc c).1, (src.loc c).2], u)), sp)}) atTop (𝓝 0) := by
  obtain ⟨S, hS, hn⟩ := C83_music_ura hd hdx hdy hwl haa l cfg hg hu hx hdist hamb hpf hsort hcomp src hsu ia ib ha hb hord hsep hk hk1 hk2 hP σ
  exact C84_probability hs a.toArrayDesign (.ff2 src) wl S hS (grid_scalar haa) hg1 hg2 hPd hQd hP.posSemidef (scaled_one_posSemidef hσ) hν l _ hn

/-- **C84** (Min-Norm). -/
theorem C84_min_norm_ula {sqrtm : Sqrtm} (hs : IsSqrtm sqrtm) {n : ℕ} {d wl : ℝ} (hd : 0 < d) (hwl : 0 < wl)
    {name : Option String} {a : GridArray} (ha : ula n (.scalar d) name {} = .ok a) [NeZero a.size]
    (l : Fin a.element.outputSize) (cfg : EstCfg (WithTop ℝ) (List (Fin a.size → ℂ)))
    {x : List ℝ} {names : List String} {u : String}
    (hg : cfg.grid = ⟨.ff1, [⟨x, false⟩], names, [u]⟩) (hu : Unit1D u) (hx : ∀ v ∈ x, InRange1D u v)
    (hnd : x.Nodup)
    (hamb : ∀ v ∈ x, ∀ w ∈ x, d * |Real.sin (angleOf u v) - Real.sin (angleOf u w)| < wl)
    (hpf : cfg.peakFinder = findPeaksSimple) (hsort : IsArgsort cfg.argsort)
    (hcomp : cfg.compute = atomColumns1D a.toArrayDesign l wl u)
    (src : FF1D k) (hsu : src.unit = u) (idx : Fin k → ℕ)
    (hidx : ∀ c, x[idx c]? = some (src.loc c))
    (hsep : ∀ c e, c < e → idx c + 1 < idx e) (h1 : ∀ c, 1 ≤ idx c)
    (h2 : ∀ c, idx c + 1 < x.length) (hk : 1 ≤ k) (hkn : k < n)
    {C1 C2 : CovArg} {g1 : StoGen k} {g2 : StoGen a.size}
    (hg1 : stoInit sqrtm k C1 = .ok g1) (hg2 : stoInit sqrtm a.size C2 = .ok g2)
    {P : Matrix (Fin k) (Fin k) ℂ} (hPd : Denotes k C1 P) (hP : P.PosDef) {σ : ℝ} (hσ : 0 ≤ σ)
    (hQd : Denotes a.size C2 ((σ : ℂ) • (1 : Matrix (Fin a.size) (Fin a.size) ℂ)))
    {ν : Measure ℝ} [IsProbabilityMeasure ν] (hν : UnitLaw ν) :
    Tendsto (fun n => (Measure.pi fun _ : Fin n => Measure.pi fun _ => ν)
      {d : Fin n → SnapshotDraw k a.size | ¬ ∃ Y R, experiment a.toArrayDesign (.ff1 src) wl g1 g2 n d = .ok ⟨n, Y, R⟩ ∧
        ∀ (eigh : Eigh) (ops : List (EstOp (WithTop ℝ) (List (Fin a.size → ℂ)))),
          ∃ o st', minNormEstimate eigh cfg (cfg.run ops).1 (R l) k {} = (.ok o, st') ∧
            ∃ sp, o.observe st' = (true, some (some (List.ofFn fun c => [src.loc c], u)), sp)}) atTop (𝓝 0) := by
  obtain ⟨S, hS, hn⟩ := C83_min_norm_ula hd hwl ha l cfg hg hu hx hnd hamb hpf hsort hcomp src hsu idx hidx hsep h1 h2 hk hkn hP σ
  exact C84_probability hs a.toArrayDesign (.ff1 src) wl S hS (grid_scalar ha) hg1 hg2 hPd hQd hP.posSemidef (scaled_one_posSemidef hσ) hν l _ hn

/-- **C84** (beamformers). For one source, the probability that the Bartlett beamformer (or the MVDR beamformer, with noise of positive power) does
not return exactly the source tends to 0. -/
theorem C84_beamformers_ula {sqrtm : Sqrtm} (hs : IsSqrtm sqrtm) {n : ℕ} (hn : 2 ≤ n) {d wl : ℝ} (hd : 0 < d) (hwl : 0 < wl)
    {name : Option String} {a : GridArray} (ha : ula n (.scalar d) name {} = .ok a) (l : Fin a.element.outputSize)
    (cfg : EstCfg ℝ (List (Fin a.size → ℂ))) (cfg' : EstCfg (WithTop ℝ) (List (Fin a.size → ℂ)))
    {x : List ℝ} {names : List String} {u : String}
    (hg : cfg.grid = ⟨.ff1, [⟨x, false⟩], names, [u]⟩) (hg' : cfg'.grid = cfg.grid) (hu : Unit1D u) (hx : ∀ v ∈ x, InRange1D u v)
    (hxd : x.Nodup) (hamb : ∀ v ∈ x, ∀ w ∈ x, d * |Real.sin (angleOf u v) - Real.sin (angleOf u w)| < wl)
    (hpf : cfg.peakFinder = findPeaksSimple) (hpf' : cfg'.peakFinder = findPeaksSimple)
    (hsort : IsArgsort cfg.argsort) (hsort' : IsArgsort cfg'.argsort)
    (hcomp : cfg.compute = atomColumns1D a.toArrayDesign l wl u) (hcomp' : cfg'.compute = atomColumns1D a.toArrayDesign l wl u)
    (src : FF1D 1) (hsu : src.unit = u) (j0 : ℕ) (hj : x[j0]? = some (src.loc 0)) (h1 : 1 ≤ j0) (h2 : j0 + 1 < x.length)
    {C1 C2 : CovArg} {g1 : StoGen 1} {g2 : StoGen a.size}
    (hg1 : stoInit sqrtm 1 C1 = .ok g1) (hg2 : stoInit sqrtm a.size C2 = .ok g2)
    {P : Matrix (Fin 1) (Fin 1) ℂ} (hPd : Denotes 1 C1 P) (hP : P.PosDef) {σ : ℝ} (hσ : 0 ≤ σ)
    (hQd : Denotes a.size C2 ((σ : ℂ) • (1 : Matrix (Fin a.size) (Fin a.size) ℂ)))
    {ν : Measure ℝ} [IsProbabilityMeasure ν] (hν : UnitLaw ν) :
    Tendsto (fun n => (Measure.pi fun _ : Fin n => Measure.pi fun _ => ν)
      {d : Fin n → SnapshotDraw 1 a.size | ¬ ∃ Y R, experiment a.toArrayDesign (.ff1 src) wl g1 g2 n d = .ok ⟨n, Y, R⟩ ∧
        ∀ ops : List (EstOp ℝ (List (Fin a.size → ℂ))), ∃ o st', bartlettEstimate cfg (cfg.run ops).1 (R l) 1 {} = (.ok o, st') ∧
            ∃ sp, o.observe st' = (true, some (some ([[src.loc 0]], u)), sp)}) atTop (𝓝 0) ∧
    (0 < σ → Tendsto (fun n => (Measure.pi fun _ : Fin n => Measure.pi fun _ => ν)
      {d : Fin n → SnapshotDraw 1 a.size | ¬ ∃ Y R, experiment a.toArrayDesign (.ff1 src) wl g1 g2 n d = .ok ⟨n, Y, R⟩ ∧
        ∀ ops : List (EstOp (WithTop ℝ) (List (Fin a.size → ℂ))), ∃ o st', mvdrEstimate cfg' (cfg'.run ops).1 (R l) 1 {} = (.ok o, st') ∧
            ∃ sp, o.observe st' = (true, some (some ([[src.loc 0]], u)), sp)}) atTop (𝓝 0)) := by
  obtain ⟨S, hS, hb, hm⟩ := C83_beamformers_ula hn hd hwl ha l cfg cfg' hg hg' hu hx hxd hamb hpf hpf' hsort hsort' hcomp hcomp' src hsu j0 hj h1 h2 hP
  constructor
  · obtain ⟨δ, hδ, h⟩ := hb σ
    exact C84_probability hs a.toArrayDesign (.ff1 src) wl S hS (grid_scalar ha) hg1 hg2 hPd hQd hP.posSemidef (scaled_one_posSemidef hσ) hν l _
      ⟨δ, hδ, fun R _ hR => h R hR⟩
  · intro hσ'
    obtain ⟨δ, hδ, h⟩ := hm σ hσ'
    exact C84_probability hs a.toArrayDesign (.ff1 src) wl S hS (grid_scalar ha) hg1 hg2 hPd hQd hP.posSemidef (scaled_one_posSemidef hσ) hν l _
      ⟨δ, hδ, fun R _ hR => h R hR⟩

/-- The hypotheses of `C84_music_ula` hold for normally distributed numbers, two sources of power 1 and 2 and the array of
three sensors with gain and coupling errors. -/
example : ∃ (cfg : EstCfg (WithTop ℝ) (List (Fin calibratedArray.size → ℂ))) (g1 : StoGen 2) (g2 : StoGen calibratedArray.size)
    (l : Fin calibratedArray.element.outputSize),
    Tendsto (fun n => (Measure.pi fun _ : Fin n => Measure.pi fun _ => gaussianReal 0 1)
      {d : Fin n → SnapshotDraw 2 calibratedArray.size | ¬ ∃ Y R,
        experiment calibratedArray (.ff1 ⟨![-0.5, 0.5], "sin"⟩) 1 g1 g2 n d = .ok ⟨n, Y, R⟩ ∧
        ∀ (eigh : Eigh) (ops : List (EstOp (WithTop ℝ) (List (Fin calibratedArray.size → ℂ)))),
          ∃ o st', musicEstimate eigh cfg (cfg.run ops).1 (R l) 2 {} = (.ok o, st') ∧
            ∃ sp, o.observe st' = (true, some (some (List.ofFn fun c => [(![-0.5, 0.5] : Fin 2 → ℝ) c], "sin")), sp)}) atTop (𝓝 0) := by
  have hP : Denotes 2 (.vector [1, 2]) (Matrix.diagonal (![1, 2] : Fin 2 → ℂ)) := by
    refine ⟨rfl, ?_⟩
    ext i j
    fin_cases i <;> fin_cases j <;> simp
  have hQ : Denotes calibratedArray.size (.scalar 1) (((1 : ℝ) : ℂ) • (1 : Matrix (Fin calibratedArray.size) (Fin calibratedArray.size) ℂ)) := by
    show _ = _
    ext i j
    simp [Matrix.one_apply]
  obtain ⟨g1, hg1⟩ := ((C56_accepts someSqrtm 2 (.vector [1, 2])).1).2 ⟨_, hP⟩
  obtain ⟨g2, hg2⟩ := ((C56_accepts someSqrtm calibratedArray.size (.scalar 1)).1).2 ⟨_, hQ⟩
  obtain ⟨h1, h2, h3, h4, h5, h6, h7⟩ := calibratedArray_ok
  exact ⟨_, g1, g2, ⟨0, by decide⟩, C84_music_ula (k := 2) someSqrtm_spec (a := calibratedArray) rfl h2 h1 h3 h4 h5 (d := 1 / 2) (wl := 1)
    (by norm_num) one_pos h6 h7 ⟨0, by decide⟩
    ⟨⟨.ff1, [⟨exGrid, false⟩], [], ["sin"]⟩, atomColumns1D calibratedArray ⟨0, by decide⟩ 1 "sin", findPeaksSimple, stableArgsort, true, false⟩
    rfl (Or.inr (Or.inr rfl)) exGrid_inRange (by norm_num [exGrid]) exGrid_unambiguous rfl stableArgsort_isArgsort rfl ⟨![-0.5, 0.5], "sin"⟩ rfl ![1, 3]
    (by intro c; fin_cases c <;> rfl) (by decide) (by decide) (by decide) (by norm_num) (by decide) hg1 hg2 hP
    (PosDef.diagonal (by intro i; fin_cases i <;> simp)) zero_le_one hQ unitLaw_gaussian⟩

end Doa.Props

