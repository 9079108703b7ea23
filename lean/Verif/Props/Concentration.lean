import Mathlib.Probability.Moments.Variance
import Verif.Props.Consistency

/-!
# C88: how fast the sample covariance matrix converges
-/

namespace Doa.Props

open Doa Doa.Spec Matrix MeasureTheory ProbabilityTheory Filter
open scoped ComplexOrder Topology

variable {k : ℕ}

/-- Chebyshev's inequality for an average over independent snapshots. -/
theorem chebyshev_pi {X : Type} [MeasurableSpace X] (ρ : Measure X) [IsProbabilityMeasure ρ] {g : X → ℝ} (hg : MemLp g 2 ρ)
    {n : ℕ} (hn : 0 < n) {r : ℝ} (hr : 0 < r) :
    (Measure.pi fun _ : Fin n => ρ) {d | r ≤ |(n : ℝ)⁻¹ * ∑ t, g (d t) - ∫ x, g x ∂ρ|} ≤ ENNReal.ofReal (variance g ρ / (n * r ^ 2)) := by
  have hn' : (0 : ℝ) < n := by exact_mod_cast hn
  have hmp : ∀ t : Fin n, MeasurePreserving (Function.eval t) (Measure.pi fun _ : Fin n => ρ) ρ := fun t => measurePreserving_eval _ t
  have hmem : ∀ t : Fin n, MemLp (fun d : Fin n → X => g (d t)) 2 (Measure.pi fun _ : Fin n => ρ) := fun t =>
    hg.comp_measurePreserving (hmp t)
  have hS : MemLp (fun d : Fin n → X => (n : ℝ)⁻¹ * ∑ t, g (d t)) 2 (Measure.pi fun _ : Fin n => ρ) :=
    (memLp_finsetSum _ fun t _ => hmem t).const_mul _
  have hint : ∀ t : Fin n, ∫ d, g (d t) ∂(Measure.pi fun _ : Fin n => ρ) = ∫ x, g x ∂ρ := by
    intro t
    have := integral_map (μ := Measure.pi fun _ : Fin n => ρ) (φ := Function.eval t) (f := g) (hmp t).aemeasurable
      (by rw [(hmp t).map_eq]; exact hg.1)
    rw [(hmp t).map_eq] at this
    exact this.symm
  have hmean : ∫ d, (n : ℝ)⁻¹ * ∑ t, g (d t) ∂(Measure.pi fun _ : Fin n => ρ) = ∫ x, g x ∂ρ := by
    rw [integral_const_mul, integral_finsetSum _ fun t _ => (hmem t).integrable (by norm_num)]
    simp only [hint, Finset.sum_const, Finset.card_univ, Fintype.card_fin, nsmul_eq_mul]
    field_simp
  have hvar : variance (fun d : Fin n → X => (n : ℝ)⁻¹ * ∑ t, g (d t)) (Measure.pi fun _ : Fin n => ρ) = variance g ρ / n := by
    rw [variance_const_mul]
    have := variance_sum_pi (μ := fun _ : Fin n => ρ) (X := fun _ => g) fun _ => hg
    have e : (∑ t : Fin n, fun d : Fin n → X => g (d t)) = fun d => ∑ t, g (d t) := by
      funext d
      simp
    rw [e] at this
    rw [this]
    simp only [Finset.sum_const, Finset.card_univ, Fintype.card_fin, nsmul_eq_mul]
    field_simp
  have h := meas_ge_le_variance_div_sq hS hr
  rw [hmean, hvar] at h
  refine h.trans (le_of_eq ?_)
  congr 1
  field_simp

/-- The same for complex averages. -/
theorem chebyshev_pi_complex {X : Type} [MeasurableSpace X] (ρ : Measure X) [IsProbabilityMeasure ρ] {g : X → ℂ} (hg : MemLp g 2 ρ)
    {n : ℕ} (hn : 0 < n) {r : ℝ} (hr : 0 < r) :
    (Measure.pi fun _ : Fin n => ρ) {d | r ≤ ‖(n : ℂ)⁻¹ * ∑ t, g (d t) - ∫ x, g x ∂ρ‖} ≤
      ENNReal.ofReal (4 * (variance (fun x => (g x).re) ρ + variance (fun x => (g x).im) ρ) / (n * r ^ 2)) := by
  have hn' : (0 : ℝ) < n := by exact_mod_cast hn
  have hi : Integrable g ρ := hg.integrable (by norm_num)
  have h1 := chebyshev_pi ρ (g := fun x => (g x).re) hg.re hn (half_pos hr)
  have h2 := chebyshev_pi ρ (g := fun x => (g x).im) hg.im hn (half_pos hr)
  have hre : (∫ x, g x ∂ρ).re = ∫ x, (g x).re ∂ρ := by
    have := integral_re hi
    exact this.symm
  have him : (∫ x, g x ∂ρ).im = ∫ x, (g x).im ∂ρ := by
    have := integral_im hi
    exact this.symm
  have hset : {d : Fin n → X | r ≤ ‖(n : ℂ)⁻¹ * ∑ t, g (d t) - ∫ x, g x ∂ρ‖} ⊆
      {d | r / 2 ≤ |(n : ℝ)⁻¹ * ∑ t, (g (d t)).re - ∫ x, (g x).re ∂ρ|} ∪
      {d | r / 2 ≤ |(n : ℝ)⁻¹ * ∑ t, (g (d t)).im - ∫ x, (g x).im ∂ρ|} := by
    intro d hd
    by_contra hc
    rw [Set.mem_union, not_or] at hc
    have hle := Complex.norm_le_abs_re_add_abs_im ((n : ℂ)⁻¹ * ∑ t, g (d t) - ∫ x, g x ∂ρ)
    have e : ((n : ℂ)⁻¹) = (((n : ℝ)⁻¹ : ℝ) : ℂ) := by push_cast; rfl
    have c1 : |((n : ℂ)⁻¹ * ∑ t, g (d t) - ∫ x, g x ∂ρ).re| < r / 2 := by
      rw [Complex.sub_re, e, Complex.re_ofReal_mul, Complex.re_sum, hre]
      exact not_le.1 hc.1
    have c2 : |((n : ℂ)⁻¹ * ∑ t, g (d t) - ∫ x, g x ∂ρ).im| < r / 2 := by
      rw [Complex.sub_im, e, Complex.im_ofReal_mul, Complex.im_sum, him]
      exact not_le.1 hc.2
    have hd' : r ≤ ‖(n : ℂ)⁻¹ * ∑ t, g (d t) - ∫ x, g x ∂ρ‖ := hd
    have := hle.trans_lt (add_lt_add c1 c2)
    rw [add_halves] at this
    exact absurd hd' (not_le.2 this)
  have harith : ∀ v1 v2 : ℝ, 0 ≤ v1 → 0 ≤ v2 → ENNReal.ofReal (v1 / (n * (r / 2) ^ 2)) + ENNReal.ofReal (v2 / (n * (r / 2) ^ 2)) =
      ENNReal.ofReal (4 * (v1 + v2) / (n * r ^ 2)) := by
    intro v1 v2 hv1 hv2
    rw [← ENNReal.ofReal_add (by positivity) (by positivity)]
    congr 1
    field_simp
    ring
  rw [← harith _ _ (variance_nonneg _ _) (variance_nonneg _ _)]
  exact (measure_mono hset).trans ((measure_union_le _ _).trans (add_le_add h1 h2))

/-- A product of two entries of a snapshot has a variance when the draws have a fourth moment. -/
theorem outerEntry_memLp {m : ℕ} (co : Fin m → (Bool × Fin k) ⊕ (Bool × Fin m) → ℂ) (i j : Fin m) {ν : Measure ℝ}
    [IsProbabilityMeasure ν] (h4 : MemLp id 4 ν) :
    MemLp (outerEntry (k := k) co i j) 2 (Measure.pi fun _ => ν) := by
  have hmp : ∀ q : (Bool × Fin k) ⊕ (Bool × Fin m), MeasurePreserving (Function.eval q) (Measure.pi fun _ => ν) ν :=
    fun q => measurePreserving_eval _ q
  have hq : ∀ q : (Bool × Fin k) ⊕ (Bool × Fin m), MemLp (fun x : SnapshotDraw k m => ((x q : ℝ) : ℂ)) 4 (Measure.pi fun _ => ν) := by
    intro q
    have := (h4.comp_measurePreserving (hmp q)).ofReal (K := ℂ)
    exact this
  have hl : ∀ i, MemLp (fun x : SnapshotDraw k m => ∑ q, co i q * ((x q : ℝ) : ℂ)) 4 (Measure.pi fun _ => ν) := fun i =>
    memLp_finsetSum _ fun q _ => (hq q).const_mul _
  have : ENNReal.HolderTriple 4 4 2 := by
    constructor
    have e : (4 : ENNReal) = 2 * 2 := by norm_num
    rw [e, ENNReal.mul_inv (by simp) (by simp), ← mul_add, ENNReal.inv_two_add_inv_two, mul_one]
  exact (hl j).star.mul' (hl i)

/-- **C88** (rate). Let the numbers of an experiment with `n` snapshots be drawn independently from one distribution with mean
zero, variance one and a fourth moment. Then for a constant `C` that depends neither on `n` nor on `r`, the probability that an
entry of the sample covariance matrix is `r` or more away from the model is at most `C / (n r²)`. -/
theorem C88_rate {sqrtm : Sqrtm} (hs : IsSqrtm sqrtm) (a : ArrayDesign) (src : Sources k) (wl : ℝ) (out)
    (hA : steering a src wl false "all" = .ok out) (hone : a.element.outputSize = 1) {C1 C2 : CovArg} {g1 : StoGen k} {g2 : StoGen a.size}
    (hg1 : stoInit sqrtm k C1 = .ok g1) (hg2 : stoInit sqrtm a.size C2 = .ok g2) {P Q}
    (hP : Denotes k C1 P) (hQ : Denotes a.size C2 Q) (hPp : P.PosSemidef) (hQp : Q.PosSemidef)
    {ν : Measure ℝ} [IsProbabilityMeasure ν] (hν : UnitLaw ν) (h4 : MemLp id 4 ν) (l : Fin a.element.outputSize) :
    ∃ C : ℝ, 0 ≤ C ∧ ∀ n : ℕ, 0 < n → ∀ r : ℝ, 0 < r →
      (Measure.pi fun _ : Fin n => Measure.pi fun _ => ν)
        {d : Fin n → SnapshotDraw k a.size | ¬ ∃ Y R, experiment a src wl g1 g2 n d = .ok ⟨n, Y, R⟩ ∧ (R l).IsHermitian ∧
          ∀ i j, ‖R l i j - (out.A l * P * (out.A l)ᴴ + Q) i j‖ < r} ≤ ENNReal.ofReal (C / (n * r ^ 2)) := by
  obtain ⟨co, hco, hex⟩ := experiment_average hs a src wl out hA hone hg1 hg2 hP hQ hPp hQp
  set ρ : Measure (SnapshotDraw k a.size) := Measure.pi fun _ => ν with hρ
  let V : Fin a.size → Fin a.size → ℝ := fun i j => 4 * (variance (fun x => (outerEntry (k := k) (co l) i j x).re) ρ +
    variance (fun x => (outerEntry (k := k) (co l) i j x).im) ρ)
  have hV : ∀ i j, 0 ≤ V i j := fun i j => mul_nonneg (by norm_num) (add_nonneg (variance_nonneg _ _) (variance_nonneg _ _))
  refine ⟨∑ i, ∑ j, V i j, Finset.sum_nonneg fun i _ => Finset.sum_nonneg fun j _ => hV i j, fun n hn r hr => ?_⟩
  have hn' : (0 : ℝ) < n := by exact_mod_cast hn
  have hmean : ∀ i j, ∫ x, outerEntry (co l) i j x ∂ρ = (out.A l * P * (out.A l)ᴴ + Q) i j := by
    intro i j
    rw [← hco]
    exact ((white_pi (ι := (Bool × Fin k) ⊕ (Bool × Fin a.size)) hν).lin_star (co l i) (co l j)).2
  have hone : ∀ i j, (Measure.pi fun _ : Fin n => ρ) {d | r ≤ ‖(n : ℂ)⁻¹ * ∑ t, outerEntry (co l) i j (d t) -
      (out.A l * P * (out.A l)ᴴ + Q) i j‖} ≤ ENNReal.ofReal (V i j / (n * r ^ 2)) := by
    intro i j
    have := chebyshev_pi_complex ρ (outerEntry_memLp (co l) i j h4) hn hr
    rw [hmean] at this
    exact this
  refine (measure_mono (t := ⋃ i, ⋃ j, {d | r ≤ ‖(n : ℂ)⁻¹ * ∑ t, outerEntry (co l) i j (d t) -
      (out.A l * P * (out.A l)ᴴ + Q) i j‖}) ?_).trans ?_
  · intro d hd
    by_contra hc
    simp only [Set.mem_iUnion, Set.mem_ofPred_eq, not_exists, not_le] at hc
    obtain ⟨Y, R, h1, h2⟩ := hex n d
    exact hd ⟨Y, R, h1, (h2 l).1, fun i j => by rw [(h2 l).2]; exact hc i j⟩
  · refine (measure_iUnion_fintype_le _ _).trans ?_
    refine (Finset.sum_le_sum fun i _ => (measure_iUnion_fintype_le _ _).trans (Finset.sum_le_sum fun j _ => hone i j)).trans (le_of_eq ?_)
    simp only [Finset.sum_div]
    rw [ENNReal.ofReal_sum_of_nonneg fun i _ => Finset.sum_nonneg fun j _ => div_nonneg (hV i j) (by positivity)]
    refine Finset.sum_congr rfl fun i _ => ?_
    rw [ENNReal.ofReal_sum_of_nonneg fun j _ => div_nonneg (hV i j) (by positivity)]

/-- **C88** (samples needed). For every property that holds for all Hermitian matrices close to the covariance matrix of the model, the
probability that the sample covariance matrix of `n` snapshots lacks it is at most `C / n`. -/
theorem C88_property {sqrtm : Sqrtm} (hs : IsSqrtm sqrtm) (a : ArrayDesign) (src : Sources k) (wl : ℝ) (out)
    (hA : steering a src wl false "all" = .ok out) (hone : a.element.outputSize = 1) {C1 C2 : CovArg} {g1 : StoGen k} {g2 : StoGen a.size}
    (hg1 : stoInit sqrtm k C1 = .ok g1) (hg2 : stoInit sqrtm a.size C2 = .ok g2) {P Q}
    (hP : Denotes k C1 P) (hQ : Denotes a.size C2 Q) (hPp : P.PosSemidef) (hQp : Q.PosSemidef)
    {ν : Measure ℝ} [IsProbabilityMeasure ν] (hν : UnitLaw ν) (h4 : MemLp id 4 ν) (l : Fin a.element.outputSize)
    (good : Matrix (Fin a.size) (Fin a.size) ℂ → Prop)
    (hgood : ∃ δ > 0, ∀ R : Matrix (Fin a.size) (Fin a.size) ℂ, R.IsHermitian →
      (∀ i j, ‖R i j - (out.A l * P * (out.A l)ᴴ + Q) i j‖ < δ) → good R) :
    ∃ C : ℝ, 0 ≤ C ∧ ∀ n : ℕ, 0 < n → (Measure.pi fun _ : Fin n => Measure.pi fun _ => ν)
      {d : Fin n → SnapshotDraw k a.size | ¬ ∃ Y R, experiment a src wl g1 g2 n d = .ok ⟨n, Y, R⟩ ∧ good (R l)} ≤
        ENNReal.ofReal (C / n) := by
  obtain ⟨δ, hδ, hgood⟩ := hgood
  obtain ⟨C, hC, h⟩ := C88_rate hs a src wl out hA hone hg1 hg2 hP hQ hPp hQp hν h4 l
  refine ⟨C / δ ^ 2, by positivity, fun n hn => ?_⟩
  refine (measure_mono ?_).trans ((h n hn δ hδ).trans (le_of_eq ?_))
  · intro d hd hc
    obtain ⟨Y, R, h1, h2, h3⟩ := hc
    exact hd ⟨Y, R, h1, hgood _ h2 h3⟩
  · congr 1
    rw [div_div, mul_comm]

/-- Normally distributed signals and noise: a three-element ULA, two sources. -/
example : ∃ (a : GridArray) (g1 : StoGen 2) (g2 : StoGen a.size) (S : Steering a.element.outputSize a.size 2) (C : ℝ),
    steering a.toArrayDesign (.ff1 ⟨![0, 1 / 2], "sin"⟩) 1 false "all" = .ok S ∧
    ∀ (l : Fin a.element.outputSize) (n : ℕ), 0 < n → (Measure.pi fun _ : Fin n => Measure.pi fun _ => gaussianReal 0 1)
      {d : Fin n → SnapshotDraw 2 a.size | ¬ ∃ Y R, experiment a.toArrayDesign (.ff1 ⟨![0, 1 / 2], "sin"⟩) 1 g1 g2 n d = .ok ⟨n, Y, R⟩ ∧
        ∀ i j, ‖R l i j - (S.A l * Matrix.diagonal (![1, 2] : Fin 2 → ℂ) * (S.A l)ᴴ + ((1 : ℝ) : ℂ) • (1 : Matrix (Fin a.size) (Fin a.size) ℂ)) i j‖ < 0.1} ≤ ENNReal.ofReal (C / n) := by
  obtain ⟨a, ha⟩ := ula_ok 3 (1 / 2) none
  have hel : a.element = .isotropicScalar := (gridInit_spec ha).2.2.1
  have hl : a.element.outputSize = 1 := by rw [hel]; rfl
  have hP : Denotes 2 (.vector [1, 2]) (Matrix.diagonal (![1, 2] : Fin 2 → ℂ)) := by
    refine ⟨rfl, ?_⟩
    ext i j
    fin_cases i <;> fin_cases j <;> simp
  have hQ : Denotes a.size (.scalar 1) (((1 : ℝ) : ℂ) • (1 : Matrix (Fin a.size) (Fin a.size) ℂ)) := by
    show _ = _
    ext i j
    simp [Matrix.one_apply]
  obtain ⟨g1, hg1⟩ := ((C56_accepts someSqrtm 2 (.vector [1, 2])).1).2 ⟨_, hP⟩
  obtain ⟨g2, hg2⟩ := ((C56_accepts someSqrtm a.size (.scalar 1)).1).2 ⟨_, hQ⟩
  have hv : Valid1D (⟨![0, 1 / 2], "sin"⟩ : FF1D 2) := ⟨by simp [Unit1D], fun i => by fin_cases i <;> simp [InRange1D] <;> norm_num⟩
  obtain ⟨S, hS, -⟩ := ula_steering ha ⟨![0, 1 / 2], "sin"⟩ hv 1 "all" (by simp)
  obtain ⟨C, -, h⟩ := C88_property someSqrtm_spec a.toArrayDesign (.ff1 ⟨![0, 1 / 2], "sin"⟩) 1 S hS (grid_scalar ha) hg1 hg2 hP hQ
    (PosSemidef.diagonal (by intro i; fin_cases i <;> simp)) (scaled_one_posSemidef zero_le_one) unitLaw_gaussian (memLp_id_gaussianReal 4)
    ⟨0, by omega⟩ (fun R => ∀ i j, ‖R i j - (S.A ⟨0, by omega⟩ * Matrix.diagonal (![1, 2] : Fin 2 → ℂ) * (S.A ⟨0, by omega⟩)ᴴ + ((1 : ℝ) : ℂ) • (1 : Matrix (Fin a.size) (Fin a.size) ℂ)) i j‖ < 0.1)
    ⟨0.1, by norm_num, fun R _ h => h⟩
  refine ⟨a, g1, g2, S, C, hS, fun l n hn => ?_⟩
  have hl0 : l = ⟨0, by omega⟩ := Fin.ext (by have := l.2; omega)
  rw [hl0]
  exact h n hn

end Doa.Props
