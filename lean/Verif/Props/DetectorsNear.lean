import Verif.Lemmas.Weyl
import Verif.Props.SourceNumber
import Verif.Props.Concentration
import Verif.Props.CrbUla
import Verif.Props.RootMusicEstimate

/-!
# C89: source number detectors on sample covariance matrices
-/

namespace Doa.Props

open Doa Doa.Spec Matrix MeasureTheory ProbabilityTheory Filter Finset
open scoped ComplexOrder Topology

variable {k m : ℕ}

/-! ### Eigenvalue lists close to an ideal one -/

theorem continuous_eigAt (j : ℕ) : Continuous fun v : Fin m → ℝ => eigAt (List.ofFn v) j := by
  by_cases hj : j < m
  · have : (fun v : Fin m → ℝ => eigAt (List.ofFn v) j) = fun v => v ⟨j, hj⟩ := by
      funext v
      exact eigAt_ofFn v hj
    rw [this]
    exact continuous_apply _
  · have : (fun v : Fin m → ℝ => eigAt (List.ofFn v) j) = fun _ => 0 := by
      funext v
      rw [eigAt, List.getD_eq_getElem?_getD, List.getElem?_eq_none (by simpa using hj)]
      rfl
    rw [this]
    exact continuous_const

theorem continuousAt_likelihood {w : Fin m → ℝ} (hw : ∀ j, 0 < w j) {i : ℕ} (hi : i < m) :
    ContinuousAt (fun v : Fin m → ℝ => likelihood (List.ofFn v) 1 i) w := by
  have hpos : ∀ j < m - i, 0 < eigAt (List.ofFn w) j := fun j hj => by
    rw [eigAt_ofFn w (by omega)]
    exact hw _
  have hd : (0 : ℝ) < ((m - i : ℕ) : ℝ) := by
    have : 0 < m - i := by omega
    exact_mod_cast this
  have hsum : Continuous fun v : Fin m → ℝ => (∑ j ∈ range (m - i), eigAt (List.ofFn v) j) / ((m - i : ℕ) : ℝ) :=
    (continuous_finsetSum _ fun j _ => continuous_eigAt j).div_const _
  simp only [likelihood, List.length_ofFn]
  refine continuousAt_const.mul (ContinuousAt.sub (continuousAt_const.mul (hsum.continuousAt.log ?_)) ?_)
  · refine (div_pos (Finset.sum_pos (fun j hj => hpos j (mem_range.1 hj)) ⟨0, mem_range.2 (by omega)⟩) hd).ne'
  · exact tendsto_finsetSum _ fun j hj => (continuous_eigAt j).continuousAt.log (hpos j (mem_range.1 hj)).ne'

theorem likelihood_linear (l : List ℝ) (N i : ℕ) : likelihood l N i = N * likelihood l 1 i := by
  simp [likelihood]

/-- The likelihood term of the true number of sources is quadratic in the deviation of the noise eigenvalues. -/
theorem likelihood_le {l : List ℝ} {σ r : ℝ} (hσ : 0 < σ) (hk : k < l.length) (hr : ∀ j < l.length - k, |eigAt l j - σ| ≤ r)
    (hhalf : ∀ j < l.length - k, σ / 2 ≤ eigAt l j) : likelihood l 1 k ≤ 2 * (l.length - k : ℕ) * r ^ 2 / σ ^ 2 := by
  set d := l.length - k with hd
  have hd0 : 0 < d := by omega
  have hdr : (0 : ℝ) < d := by exact_mod_cast hd0
  let u : ℕ → ℝ := fun j => eigAt l j / σ - 1
  have hx : ∀ j, eigAt l j = σ * (1 + u j) := by
    intro j
    simp only [u]
    field_simp
    ring
  have hu : ∀ j < d, -(1 / 2) ≤ u j := by
    intro j hj
    have := hhalf j hj
    rw [hx j] at this
    by_contra hc
    rw [not_le] at hc
    nlinarith
  have hu2 : ∀ j < d, (u j) ^ 2 ≤ r ^ 2 / σ ^ 2 := by
    intro j hj
    have := hr j hj
    rw [hx j] at this
    have e : σ * (1 + u j) - σ = σ * u j := by ring
    rw [e] at this
    have h2 := pow_le_pow_left₀ (abs_nonneg _) this 2
    rw [sq_abs, mul_pow] at h2
    rw [le_div_iff₀ (by positivity)]
    linarith
  have hlog : ∀ j < d, Real.log σ + (u j - 2 * (u j) ^ 2) ≤ Real.log (eigAt l j) := by
    intro j hj
    have h0 := hu j hj
    have h1 : 0 < 1 + u j := by linarith
    rw [hx j, Real.log_mul hσ.ne' h1.ne']
    have h2 := Real.one_sub_inv_le_log_of_pos h1
    have h3 : u j - 2 * (u j) ^ 2 ≤ 1 - (1 + u j)⁻¹ := by
      have : 1 - (1 + u j)⁻¹ = u j / (1 + u j) := by field_simp; ring
      rw [this, le_div_iff₀ h1]
      nlinarith [mul_nonneg (sq_nonneg (u j)) (by linarith : (0 : ℝ) ≤ 1 + 2 * u j)]
    linarith
  have hmean : (d : ℝ) * Real.log ((∑ j ∈ range d, eigAt l j) / d) ≤ d * Real.log σ + ∑ j ∈ range d, u j := by
    have e : (∑ j ∈ range d, eigAt l j) / d = σ * ((d + ∑ j ∈ range d, u j) / d) := by
      rw [Finset.sum_congr rfl fun j _ => hx j, ← Finset.mul_sum, Finset.sum_add_distrib]
      simp only [sum_const, card_range, nsmul_eq_mul, mul_one]
      ring
    have hS : 0 < (d + ∑ j ∈ range d, u j) := by
      have : ∑ j ∈ range d, (-(1 / 2) : ℝ) ≤ ∑ j ∈ range d, u j := Finset.sum_le_sum fun j hj => hu j (mem_range.1 hj)
      simp only [sum_const, card_range, nsmul_eq_mul] at this
      linarith
    rw [e, Real.log_mul hσ.ne' (div_pos hS hdr).ne']
    have h2 := Real.log_le_sub_one_of_pos (div_pos hS hdr)
    have h3 : (d : ℝ) * ((d + ∑ j ∈ range d, u j) / d - 1) = ∑ j ∈ range d, u j := by
      field_simp
      ring
    have h4 := mul_le_mul_of_nonneg_left h2 hdr.le
    rw [h3] at h4
    linarith
  have hsum : (d : ℝ) * Real.log σ + ∑ j ∈ range d, (u j - 2 * (u j) ^ 2) ≤ ∑ j ∈ range d, Real.log (eigAt l j) := by
    have : ∑ j ∈ range d, (Real.log σ + (u j - 2 * (u j) ^ 2)) ≤ ∑ j ∈ range d, Real.log (eigAt l j) :=
      Finset.sum_le_sum fun j hj => hlog j (mem_range.1 hj)
    rw [Finset.sum_add_distrib] at this
    simpa only [sum_const, card_range, nsmul_eq_mul] using this
  have hsq : ∑ j ∈ range d, (u j) ^ 2 ≤ d * (r ^ 2 / σ ^ 2) := by
    have : ∑ j ∈ range d, (u j) ^ 2 ≤ ∑ j ∈ range d, r ^ 2 / σ ^ 2 := Finset.sum_le_sum fun j hj => hu2 j (mem_range.1 hj)
    simpa only [sum_const, card_range, nsmul_eq_mul] using this
  rw [Finset.sum_sub_distrib, ← Finset.mul_sum] at hsum
  have e : likelihood l 1 k = d * Real.log ((∑ j ∈ range d, eigAt l j) / d) - ∑ j ∈ range d, Real.log (eigAt l j) := by
    simp [likelihood, hd]
  rw [e]
  calc _ ≤ 2 * ∑ j ∈ range d, (u j) ^ 2 := by linarith
    _ ≤ 2 * (d * (r ^ 2 / σ ^ 2)) := by linarith
    _ = _ := by ring

/-- With a small likelihood term of the true number of sources, MDL does not report more. -/
theorem mdl_not_above (f : EigvalshFn) {l : List ℝ} (hl : ∀ x ∈ l, 0 < x) (hk : k < l.length) {N : ℕ}
    (hN : likelihood l N k < 1 / 2 * Real.log N) : ∃ r ≤ k, mdl f (.vec l) N = .ok r := by
  have hne : l ≠ [] := by
    intro h0; subst h0; simp at hk
  obtain ⟨-, hm, -⟩ := C50_minimiser f N hl
  have hN1 : 1 ≤ N := by
    by_contra h0
    obtain rfl : N = 0 := by omega
    have := (C50_statistic hl 0 hk).2.1
    simp only [Nat.cast_zero, Real.log_zero, mul_zero] at hN
    linarith
  obtain ⟨r, hr, h1, h2, h3⟩ := hm hne hN1
  refine ⟨r, ?_, h1⟩
  by_contra hc
  rw [not_le] at hc
  have h4 := h3 k hc
  have h5 : 0 ≤ likelihood l N r := by
    exact (C50_statistic hl N hr).2.1
  have hlog : 0 ≤ Real.log (N : ℝ) := Real.log_natCast_nonneg N
  have hkr : (k : ℝ) + 1 ≤ r := by exact_mod_cast hc
  have hrm : (r : ℝ) + 1 ≤ l.length := by exact_mod_cast hr
  have hpen : (k : ℝ) * (2 * l.length - k) + 1 ≤ (r : ℝ) * (2 * l.length - r) := by nlinarith
  rw [mdlCriterion, mdlCriterion] at h4
  have h6 := mul_le_mul_of_nonneg_right hpen hlog
  nlinarith

theorem near_pos {w : Fin m → ℝ} (hw : ∀ j, 0 < w j) : ∀ᶠ v in 𝓝 w, ∀ x ∈ List.ofFn v, 0 < x := by
  have h : ∀ᶠ v in 𝓝 w, ∀ j, 0 < v j := by
    rw [eventually_all]
    intro j
    exact (continuous_apply j).continuousAt.eventually (lt_mem_nhds (hw j))
  filter_upwards [h] with v hv x hx
  rw [List.mem_ofFn] at hx
  obtain ⟨j, rfl⟩ := hx
  exact hv j

theorem ideal_pos {w : Fin m → ℝ} {σ : ℝ} (h : IdealNoise (List.ofFn w) k σ) (j : Fin m) : 0 < w j :=
  IdealNoise.all_pos h _ (List.mem_ofFn.2 ⟨j, rfl⟩)

/-- Near an ideal eigenvalue list the detectors do not report less than the number of sources, for all large numbers of snapshots. -/
theorem no_underestimate {w : Fin m → ℝ} {σ : ℝ} (h : IdealNoise (List.ofFn w) k σ)
    (hgap : ∀ j < (List.ofFn w).length, (List.ofFn w).length - k ≤ j → σ < eigAt (List.ofFn w) j) :
    ∃ N₀, ∀ᶠ v in 𝓝 w, ∀ N ≥ N₀, ∀ f : EigvalshFn, (∃ r ≥ k, aic f (.vec (List.ofFn v)) N = .ok r) ∧
      ∃ r ≥ k, mdl f (.vec (List.ofFn v)) N = .ok r := by
  have hw : ∀ j, 0 < w j := ideal_pos h
  have hkm : k < m := by simpa using h.lt
  have hlik0 : likelihood (List.ofFn w) 1 k = 0 := IdealNoise.likelihood_zero h 1 le_rfl h.lt
  have hex : ∀ i, ∃ c : ℝ, 0 < c ∧ (i < k → likelihood (List.ofFn w) 1 i = c) := by
    intro i
    by_cases hi : i < k
    · obtain ⟨c, hc, h'⟩ := IdealNoise.likelihood_pos h hgap hi
      exact ⟨c, hc, fun _ => by rw [h' 1]; simp⟩
    · exact ⟨1, one_pos, fun h' => absurd h' hi⟩
  choose c hc hlik using hex
  obtain ⟨ε, hε, hεc⟩ : ∃ ε : ℝ, 0 < ε ∧ ∀ i < k, ε < c i := by
    rcases Nat.eq_zero_or_pos k with rfl | hk
    · exact ⟨1, one_pos, by simp⟩
    · obtain ⟨i₀, -, hi₀⟩ := Finset.exists_min_image (range k) c ⟨0, mem_range.2 hk⟩
      exact ⟨c i₀ / 2, half_pos (hc i₀), fun i hi => (half_lt_self (hc i₀)).trans_le (hi₀ i (mem_range.2 hi))⟩
  set B : ℝ := (k : ℝ) * (2 * m - k) with hB
  have hBnn : 0 ≤ B := by
    have := penalty_mono (m := m) (Nat.zero_le k) hkm.le
    simpa using this
  have e1 : ∀ᶠ N : ℕ in Filter.atTop, B < N * ε := by
    have := (tendsto_natCast_atTop_atTop (R := ℝ)).atTop_mul_const hε
    exact this.eventually_gt_atTop B
  have e2 : ∀ᶠ N : ℕ in Filter.atTop, B * Real.log N < N * ε := by
    have ho := (Real.isLittleO_log_id_atTop.comp_tendsto (tendsto_natCast_atTop_atTop (R := ℝ)))
    have hb := ho.bound (c := ε / (B + 1)) (by positivity)
    filter_upwards [hb, Filter.eventually_ge_atTop 1] with N hN hN1
    simp only [Function.comp, Real.norm_eq_abs, id] at hN
    have hN1' : (1 : ℝ) ≤ N := by exact_mod_cast hN1
    rw [abs_of_nonneg (Real.log_natCast_nonneg N), abs_of_nonneg (by linarith)] at hN
    have hB1 : 0 < B + 1 := by linarith
    calc B * Real.log N ≤ B * (ε / (B + 1) * N) := mul_le_mul_of_nonneg_left hN hBnn
      _ = (N * ε) * (B / (B + 1)) := by field_simp
      _ < (N * ε) * 1 := by
        apply mul_lt_mul_of_pos_left _ (by positivity)
        rw [div_lt_one hB1]; linarith
      _ = N * ε := mul_one _
  obtain ⟨N₀, hN₀⟩ := Filter.eventually_atTop.1 (e1.and e2)
  have e3 : ∀ᶠ v in 𝓝 w, ∀ i ∈ range k, ε < likelihood (List.ofFn v) 1 i - likelihood (List.ofFn v) 1 k := by
    rw [Filter.eventually_all_finset]
    intro i hi
    have hi' := mem_range.1 hi
    refine ((continuousAt_likelihood hw (by omega)).sub (continuousAt_likelihood hw hkm)).eventually (lt_mem_nhds ?_)
    show ε < likelihood (List.ofFn w) 1 i - likelihood (List.ofFn w) 1 k
    rw [hlik0, hlik i hi', sub_zero]
    exact hεc i hi'
  refine ⟨N₀, ?_⟩
  filter_upwards [e3, near_pos hw] with v hv hvpos N hN f
  obtain ⟨b1, b2⟩ := hN₀ N hN
  have hne : List.ofFn v ≠ [] := by
    intro h0
    have := congrArg List.length h0
    simp at this
    omega
  have hlen : (List.ofFn v).length = m := List.length_ofFn
  obtain ⟨ha, hm, -⟩ := C50_minimiser f N hvpos
  obtain ⟨q, hq, hq1, hq2, -⟩ := ha hne
  have hN1 : 1 ≤ N := by
    by_contra h0
    obtain rfl : N = 0 := by omega
    simp only [Nat.cast_zero, zero_mul] at b1
    linarith
  obtain ⟨q', hq', hq1', hq2', -⟩ := hm hne hN1
  have hlog : 0 ≤ Real.log (N : ℝ) := Real.log_natCast_nonneg N
  have hNn : (0 : ℝ) ≤ N := Nat.cast_nonneg N
  refine ⟨⟨q, ?_, hq1⟩, q', ?_, hq1'⟩
  · by_contra hc
    have hqk : q < k := not_le.1 hc
    have h4 := hq2 k (by rw [hlen]; exact hkm)
    rw [aicCriterion, aicCriterion, likelihood_linear _ N q, likelihood_linear _ N k, hlen] at h4
    have h5 := mul_le_mul_of_nonneg_left (hv q (mem_range.2 hqk)).le hNn
    have h6 := penalty_mono (m := m) (Nat.zero_le q) (by omega)
    simp only [Nat.cast_zero, zero_mul] at h6
    rw [mul_sub] at h5
    linarith
  · by_contra hc
    have hqk : q' < k := not_le.1 hc
    have h4 := hq2' k (by rw [hlen]; exact hkm)
    rw [mdlCriterion, mdlCriterion, likelihood_linear _ N q', likelihood_linear _ N k, hlen] at h4
    have h5 := mul_le_mul_of_nonneg_left (hv q' (mem_range.2 hqk)).le hNn
    have h6 := penalty_mono (m := m) (Nat.zero_le q') (by omega)
    simp only [Nat.cast_zero, zero_mul] at h6
    have h7 : 0 ≤ ((q' : ℝ) * (2 * m - q')) * Real.log N := mul_nonneg h6 hlog
    have h8 : 0 ≤ B * Real.log N := mul_nonneg hBnn hlog
    have h9 : (1 / 2 : ℝ) * (k * (2 * m - k) + 1) * Real.log N =
        (1 / 2) * (B * Real.log N) + (1 / 2) * Real.log N := by rw [hB]; ring
    have h10 : (1 / 2 : ℝ) * (q' * (2 * m - q') + 1) * Real.log N =
        (1 / 2) * (((q' : ℝ) * (2 * m - q')) * Real.log N) + (1 / 2) * Real.log N := by ring
    rw [h9, h10] at h4
    rw [mul_sub] at h5
    linarith

/-- Near an ideal eigenvalue list MDL reports the number of sources when the deviation is small compared with `sqrt (log N / N)`. -/
theorem mdl_near {w : Fin m → ℝ} {σ : ℝ} (h : IdealNoise (List.ofFn w) k σ)
    (hgap : ∀ j < (List.ofFn w).length, (List.ofFn w).length - k ≤ j → σ < eigAt (List.ofFn w) j) :
    ∃ N₀ : ℕ, ∃ c : ℝ, 0 < c ∧ ∀ᶠ v in 𝓝 w, ∀ N : ℕ, N₀ ≤ N → ∀ r : ℝ, (∀ j, |v j - w j| ≤ r) → N * r ^ 2 < c * Real.log N → ∀ f : EigvalshFn,
      mdl f (.vec (List.ofFn v)) N = .ok k := by
  have hw : ∀ j, 0 < w j := ideal_pos h
  have hkm : k < m := by simpa using h.lt
  obtain ⟨N₀, hN₀⟩ := no_underestimate h hgap
  have hd : 0 < ((m - k : ℕ) : ℝ) := by
    have : 0 < m - k := by omega
    exact_mod_cast this
  have hσ := h.pos
  have e4 : ∀ᶠ v in 𝓝 w, ∀ j ∈ range (m - k), σ / 2 < eigAt (List.ofFn v) j := by
    rw [Filter.eventually_all_finset]
    intro j hj
    refine (continuous_eigAt j).continuousAt.eventually (lt_mem_nhds ?_)
    have := h.noise j (by simpa using mem_range.1 hj)
    show σ / 2 < eigAt (List.ofFn w) j
    rw [this]
    exact half_lt_self hσ
  refine ⟨N₀, σ ^ 2 / (4 * (m - k : ℕ)), by positivity, ?_⟩
  filter_upwards [hN₀, near_pos hw, e4] with v hv hvpos hhalf N hN r hr hsmall f
  have hlen : (List.ofFn v).length = m := List.length_ofFn
  obtain ⟨q, hq, hq1⟩ := (hv N hN f).2
  have hlik : likelihood (List.ofFn v) N k < 1 / 2 * Real.log N := by
    rw [likelihood_linear]
    have h1 := likelihood_le (k := k) (l := List.ofFn v) (r := r) hσ (by rw [hlen]; exact hkm) (by
      intro j hj
      rw [hlen] at hj
      have e := h.noise j (by simpa using hj)
      rw [eigAt_ofFn w (by omega)] at e
      rw [eigAt_ofFn v (by omega), ← e]
      exact hr _) (by
      intro j hj
      rw [hlen] at hj
      exact (hhalf j (mem_range.2 hj)).le)
    rw [hlen] at h1
    have h2 := mul_le_mul_of_nonneg_left h1 (Nat.cast_nonneg (α := ℝ) N)
    refine h2.trans_lt ?_
    have h3 := mul_lt_mul_of_pos_left hsmall (by positivity : 0 < 2 * ((m - k : ℕ) : ℝ) / σ ^ 2)
    calc _ = 2 * ((m - k : ℕ) : ℝ) / σ ^ 2 * (N * r ^ 2) := by ring
      _ < _ := h3
      _ = _ := by
        field_simp
        norm_num
  obtain ⟨q', hq', hq1'⟩ := mdl_not_above f hvpos (by rw [hlen]; exact hkm) hlik
  rw [hq1] at hq1'
  have := Except.ok.inj hq1'
  rw [hq1]
  congr 1
  omega

theorem continuous_gapAt (j : ℕ) : Continuous fun v : Fin m → ℝ => gapAt (List.ofFn v) j := by
  simp only [gapAt, List.length_ofFn]
  exact (continuous_eigAt _).sub (continuous_eigAt _)

theorem continuous_gapVar (j : ℕ) : Continuous fun v : Fin m → ℝ => gapVar (List.ofFn v) j := by
  have hmean : Continuous fun v : Fin m → ℝ => gapMean (List.ofFn v) j := by
    simp only [gapMean, List.length_ofFn]
    exact (continuous_finsetSum _ fun i _ => continuous_gapAt i).div_const _
  simp only [gapVar, List.length_ofFn]
  exact (continuous_finsetSum _ fun i _ => ((continuous_gapAt i).sub hmean).pow 2).div_const _

/-- Near an ideal eigenvalue list SORTE reports the number of sources. -/
theorem sorte_near {w : Fin m → ℝ} {σ : ℝ} (hk1 : 1 ≤ k) (hk : k + 3 ≤ m)
    (hnoise : ∀ j < m - k, eigAt (List.ofFn w) j = σ) (hgap : σ < eigAt (List.ofFn w) (m - k))
    (hres : 1 / 2 ^ 52 < (eigAt (List.ofFn w) (m - k) - σ) ^ 2 * ((m - k : ℕ) - 1) / (m - k : ℕ) ^ 2) :
    ∀ᶠ v in 𝓝 w, ∀ f : EigvalshFn, sorte f (.vec (List.ofFn v)) = .ok k := by
  have hlen : ∀ v : Fin m → ℝ, (List.ofFn v).length = m := fun v => List.length_ofFn
  obtain ⟨hb, hz⟩ := gapVar_boundary (l := List.ofFn w) (σ := σ) hk1 (by rw [hlen]; omega) (by rw [hlen]; exact hnoise)
  rw [hlen] at hb
  rw [← hb] at hres
  have hpos : ∀ j < k - 1, 0 < gapVar (List.ofFn w) (j + 1) := by
    intro j hj
    refine gapVar_pos (a := k - 1) (b := k) (by omega) (by rw [hlen]; omega) (by omega) (by rw [hlen]; omega) ?_
    rw [gapAt, gapAt, hlen, hnoise (m - 2 - (k - 1)) (by omega), hnoise (m - 1 - k) (by omega),
      hnoise (m - 2 - k) (by omega), show m - 1 - (k - 1) = m - k by omega]
    linarith
  have e1 : ∀ᶠ v in 𝓝 w, 1 / 2 ^ 52 < gapVar (List.ofFn v) (k - 1) :=
    (continuous_gapVar _).continuousAt.eventually (lt_mem_nhds hres)
  have e2 : ∀ᶠ v in 𝓝 w, ∀ j ∈ range m, k ≤ j → gapVar (List.ofFn v) j < 1 / 2 ^ 52 := by
    rw [Filter.eventually_all_finset]
    intro j _
    by_cases hj : k ≤ j
    · have : ∀ᶠ v in 𝓝 w, gapVar (List.ofFn v) j < 1 / 2 ^ 52 :=
        (continuous_gapVar j).continuousAt.eventually (gt_mem_nhds (by show gapVar (List.ofFn w) j < _; rw [hz j hj]; positivity))
      filter_upwards [this] with v hv _ using hv
    · exact Filter.Eventually.of_forall fun v h => absurd h hj
  have e3 : ∀ᶠ v in 𝓝 w, ∀ j ∈ range (k - 1), gapVar (List.ofFn v) k * gapVar (List.ofFn v) j <
      gapVar (List.ofFn v) (j + 1) * gapVar (List.ofFn v) (k - 1) := by
    rw [Filter.eventually_all_finset]
    intro j hj
    have hc := (((continuous_gapVar (m := m) (j + 1)).mul (continuous_gapVar (k - 1))).sub
      ((continuous_gapVar k).mul (continuous_gapVar j))).continuousAt (x := w)
    have := hc.eventually (lt_mem_nhds (a := 0) (by
      show 0 < gapVar (List.ofFn w) (j + 1) * gapVar (List.ofFn w) (k - 1) - gapVar (List.ofFn w) k * gapVar (List.ofFn w) j
      rw [hz k le_rfl, zero_mul, sub_zero]
      exact mul_pos (hpos j (mem_range.1 hj)) (lt_trans (by positivity) hres)))
    filter_upwards [this] with v hv using sub_pos.1 hv
  filter_upwards [e1, e2, e3] with v h1 h2 h3 f
  obtain ⟨r, hr, g1, g2, g3⟩ := sorteVec_eq (l := List.ofFn v) (by rw [hlen]; omega)
  rw [hlen] at hr g2
  have hk0 : sorteRatio (List.ofFn v) (k - 1) = ((gapVar (List.ofFn v) k / gapVar (List.ofFn v) (k - 1) : ℝ) : WithTop ℝ) := by
    rw [sorteRatio, if_neg (not_lt.2 h1.le), show k - 1 + 1 = k by omega]
  have hlo : ∀ j < k - 1, sorteRatio (List.ofFn v) (k - 1) < sorteRatio (List.ofFn v) j := by
    intro j hj
    rw [hk0, sorteRatio]
    split
    · exact WithTop.coe_lt_top _
    · rename_i hc
      rw [WithTop.coe_lt_coe, div_lt_div_iff₀ (lt_trans (by positivity) h1) (lt_of_lt_of_le (by positivity) (not_lt.1 hc))]
      exact h3 j (mem_range.2 hj)
  have hhi : ∀ j ≥ k, j < m → sorteRatio (List.ofFn v) j = ⊤ := by
    intro j hj hjm
    rw [sorteRatio, if_pos (h2 j (mem_range.2 hjm) hj)]
  have : r = k - 1 := by
    rcases lt_trichotomy r (k - 1) with hlt | heq | hgt
    · exact absurd (hlo r hlt) (not_lt.2 (g2 (k - 1) (by omega)))
    · exact heq
    · have h4 := g3 (k - 1) hgt
      rw [hk0, hhi r (by omega) (by omega)] at h4
      exact absurd h4 (by simp)
  rw [sorte, g1, this, show k - 1 + 1 = k by omega]

/-! ### Matrices close to the covariance matrix of the model -/

theorem eig_near {w : Fin m → ℝ} {R0 E : Matrix (Fin m) (Fin m) ℂ} (hw : IsEigh R0 w E) {p : (Fin m → ℝ) → Prop} (hp : ∀ᶠ v in 𝓝 w, p v) :
    ∃ δ : ℝ, 0 < δ ∧ ∀ R : Matrix (Fin m) (Fin m) ℂ, R.IsHermitian → (∀ i j, ‖R i j - R0 i j‖ < δ) →
      ∀ f : EigvalshFn, f.Spec → p (f.run m R) := by
  obtain ⟨ε, hε, hp⟩ := Metric.eventually_nhds_iff.1 hp
  refine ⟨ε / (m + 1), by positivity, fun R hR hd f hf => hp ?_⟩
  obtain ⟨E', hE'⟩ := hf m R hR
  rw [dist_pi_lt_iff hε]
  intro j
  have h := weyl_entries hw hE' (fun i j => (hd i j).le) j
  rw [Real.dist_eq]
  refine h.trans_lt ?_
  rw [mul_div_assoc', div_lt_iff₀ (by positivity)]
  nlinarith

/-- **C89** (no underestimation). For the covariance matrix of `k` sources in white noise there are `δ > 0` and `N₀` such that for every
Hermitian matrix whose entries differ from it by less than `δ` and every number of snapshots from `N₀` on, `aic` and `mdl` report at least
`k` sources. -/
theorem C89_no_underestimate {A : Matrix (Fin m) (Fin k) ℂ} (hA : Function.Injective A.mulVec) {P : Matrix (Fin k) (Fin k) ℂ}
    (hP : P.PosDef) {σ : ℝ} (hσ : 0 < σ) (hk : k < m) :
    ∃ δ : ℝ, 0 < δ ∧ ∃ N₀ : ℕ, ∀ R : Matrix (Fin m) (Fin m) ℂ, R.IsHermitian → (∀ i j, ‖R i j - covModel A P σ i j‖ < δ) →
      ∀ N : ℕ, N₀ ≤ N → ∀ f : EigvalshFn, f.Spec →
        (∃ r, k ≤ r ∧ aic f (.mat m R) N = .ok r) ∧ ∃ r, k ≤ r ∧ mdl f (.mat m R) N = .ok r := by
  obtain ⟨E, hE⟩ := someEigvalsh_spec m _ (covModel_isHermitian A hP.isHermitian σ)
  obtain ⟨h1, h2⟩ := covModel_ideal someEigvalsh_spec hA hP hσ hk
  obtain ⟨N₀, h3⟩ := no_underestimate h1 h2
  obtain ⟨δ, hδ, h4⟩ := eig_near hE h3
  exact ⟨δ, hδ, N₀, fun R hR hd N hN f hf => h4 R hR hd f hf N hN f⟩

/-- **C89** (MDL). There are `δ > 0`, `c > 0` and `N₀` such that for every Hermitian matrix whose entries differ from the covariance
matrix of `k` sources in white noise by less than `δ` and at most `r`, and every number of snapshots `N` from `N₀` on
with `N r² < c log N`, `mdl` reports `k` sources. -/
theorem C89_mdl {A : Matrix (Fin m) (Fin k) ℂ} (hA : Function.Injective A.mulVec) {P : Matrix (Fin k) (Fin k) ℂ}
    (hP : P.PosDef) {σ : ℝ} (hσ : 0 < σ) (hk : k < m) :
    ∃ δ : ℝ, 0 < δ ∧ ∃ c : ℝ, 0 < c ∧ ∃ N₀ : ℕ, ∀ R : Matrix (Fin m) (Fin m) ℂ, R.IsHermitian →
      (∀ i j, ‖R i j - covModel A P σ i j‖ < δ) → ∀ r : ℝ, (∀ i j, ‖R i j - covModel A P σ i j‖ ≤ r) →
      ∀ N : ℕ, N₀ ≤ N → N * r ^ 2 < c * Real.log N → ∀ f : EigvalshFn, f.Spec → mdl f (.mat m R) N = .ok k := by
  obtain ⟨E, hE⟩ := someEigvalsh_spec m _ (covModel_isHermitian A hP.isHermitian σ)
  obtain ⟨h1, h2⟩ := covModel_ideal someEigvalsh_spec hA hP hσ hk
  obtain ⟨N₀, c, hc, h3⟩ := mdl_near h1 h2
  obtain ⟨δ, hδ, h4⟩ := eig_near hE h3
  have hm : (0 : ℝ) < m := by
    have : 0 < m := by omega
    exact_mod_cast this
  refine ⟨δ, hδ, c / m ^ 2, by positivity, N₀, fun R hR hd r hr N hN hsmall f hf => ?_⟩
  obtain ⟨E', hE'⟩ := hf m R hR
  refine h4 R hR hd f hf N hN (m * r) (weyl_entries hE hE' hr) ?_ f
  have := mul_lt_mul_of_pos_left hsmall (by positivity : (0 : ℝ) < m ^ 2)
  calc _ = (m : ℝ) ^ 2 * (N * r ^ 2) := by ring
    _ < _ := this
    _ = _ := by field_simp

/-- **C89** (SORTE). If the gap between the least signal eigenvalue and the noise level is resolved (strictly; C51), then `sorte`
reports `k` sources for every Hermitian matrix close to the covariance matrix of `k` sources in white noise. -/
theorem C89_sorte {A : Matrix (Fin m) (Fin k) ℂ} (hA : Function.Injective A.mulVec) {P : Matrix (Fin k) (Fin k) ℂ}
    (hP : P.PosDef) {σ : ℝ} (hk1 : 1 ≤ k) (hk : k + 3 ≤ m) {w : Fin m → ℝ} {E : Matrix (Fin m) (Fin m) ℂ}
    (hw : IsEigh (covModel A P σ) w E)
    (hres : 1 / 2 ^ 52 < (w ⟨m - k, by omega⟩ - σ) ^ 2 * ((m - k : ℕ) - 1) / (m - k : ℕ) ^ 2) :
    ∃ δ : ℝ, 0 < δ ∧ ∀ R : Matrix (Fin m) (Fin m) ℂ, R.IsHermitian → (∀ i j, ‖R i j - covModel A P σ i j‖ < δ) →
      ∀ f : EigvalshFn, f.Spec → sorte f (.mat m R) = .ok k := by
  obtain ⟨h1, h2⟩ : (∀ j < m - k, eigAt (List.ofFn w) j = σ) ∧ σ < eigAt (List.ofFn w) (m - k) := by
    constructor
    · intro j hj
      rw [eigAt_ofFn w (by omega)]
      exact (hw.noise hA hP ⟨j, by omega⟩ hj).1
    · rw [eigAt_ofFn w (by omega)]
      exact (hw.split hA hP ⟨m - k, by omega⟩).2 le_rfl
  obtain ⟨δ, hδ, h4⟩ := eig_near hw (sorte_near hk1 hk h1 h2 (by rw [eigAt_ofFn w (by omega)]; exact hres))
  exact ⟨δ, hδ, fun R hR hd f hf => h4 R hR hd f hf f⟩

/-! ### Sample covariance matrices -/

/-- **C89** (consistency of MDL). All numbers of an experiment with `n` snapshots of `k` sources with linearly independent steering
vectors in white noise are drawn independently from one distribution with mean zero, variance one and a fourth moment. The
probability that `mdl`, given the sample covariance matrix and `n`, does not report `k` sources is at most `C / log n`, hence tends to 0. -/
theorem C89_mdl_consistent {sqrtm : Sqrtm} (hs : IsSqrtm sqrtm) (a : ArrayDesign) (src : Sources k) (wl : ℝ) (out)
    (hA : steering a src wl false "all" = .ok out) (hone : a.element.outputSize = 1) {C1 C2 : CovArg} {g1 : StoGen k} {g2 : StoGen a.size}
    (hg1 : stoInit sqrtm k C1 = .ok g1) (hg2 : stoInit sqrtm a.size C2 = .ok g2) {P} (hPd : Denotes k C1 P) (hP : P.PosDef)
    {σ : ℝ} (hσ : 0 < σ) (hQd : Denotes a.size C2 ((σ : ℂ) • (1 : Matrix (Fin a.size) (Fin a.size) ℂ)))
    {ν : Measure ℝ} [IsProbabilityMeasure ν] (hν : UnitLaw ν) (h4 : MemLp id 4 ν) (l : Fin a.element.outputSize)
    (hinj : Function.Injective (out.A l).mulVec) (hk : k < a.size) :
    (∃ C : ℝ, 0 ≤ C ∧ ∀ n : ℕ, 2 ≤ n → (Measure.pi fun _ : Fin n => Measure.pi fun _ => ν)
      {d : Fin n → SnapshotDraw k a.size | ¬ ∃ Y R, experiment a src wl g1 g2 n d = .ok ⟨n, Y, R⟩ ∧
        ∀ f : EigvalshFn, f.Spec → mdl f (.mat a.size (R l)) n = .ok k} ≤ ENNReal.ofReal (C / Real.log n)) ∧
    Tendsto (fun n : ℕ => (Measure.pi fun _ : Fin n => Measure.pi fun _ => ν)
      {d : Fin n → SnapshotDraw k a.size | ¬ ∃ Y R, experiment a src wl g1 g2 n d = .ok ⟨n, Y, R⟩ ∧
        ∀ f : EigvalshFn, f.Spec → mdl f (.mat a.size (R l)) n = .ok k}) atTop (𝓝 0) := by
  obtain ⟨δ, hδ, c, hc, N₀, hmdl⟩ := C89_mdl hinj hP hσ hk
  obtain ⟨C, hC, hrate⟩ := C88_rate hs a src wl out hA hone hg1 hg2 hPd hQd hP.posSemidef (scaled_one_posSemidef hσ.le) hν h4 l
  have hfirst : ∃ C : ℝ, 0 ≤ C ∧ ∀ n : ℕ, 2 ≤ n → (Measure.pi fun _ : Fin n => Measure.pi fun _ => ν)
      {d : Fin n → SnapshotDraw k a.size | ¬ ∃ Y R, experiment a src wl g1 g2 n d = .ok ⟨n, Y, R⟩ ∧
        ∀ f : EigvalshFn, f.Spec → mdl f (.mat a.size (R l)) n = .ok k} ≤ ENNReal.ofReal (C / Real.log n) := by
    -- the deviation allowed with `n` snapshots
    have hev : ∀ᶠ n : ℕ in atTop, c / 2 * Real.log n < δ ^ 2 * n := by
      have ho := (Real.isLittleO_log_id_atTop.comp_tendsto (tendsto_natCast_atTop_atTop (R := ℝ)))
      have hb := ho.bound (c := δ ^ 2 / c) (by positivity)
      filter_upwards [hb, Filter.eventually_ge_atTop 1] with n hn hn1
      simp only [Function.comp, Real.norm_eq_abs, id] at hn
      have hn1' : (1 : ℝ) ≤ n := by exact_mod_cast hn1
      rw [abs_of_nonneg (Real.log_natCast_nonneg n), abs_of_nonneg (by linarith)] at hn
      calc c / 2 * Real.log n ≤ c / 2 * (δ ^ 2 / c * n) := mul_le_mul_of_nonneg_left hn (by positivity)
        _ = δ ^ 2 * n / 2 := by field_simp
        _ < δ ^ 2 * n := half_lt_self (by positivity)
    obtain ⟨N₁, hN₁⟩ := Filter.eventually_atTop.1 hev
    set M := max (max N₀ N₁) 2 with hM
    have hMlog : 0 ≤ Real.log M := Real.log_natCast_nonneg M
    refine ⟨max (2 * C / c) (Real.log M), le_max_of_le_right hMlog, fun n hn => ?_⟩
    have hn0 : (0 : ℝ) < n := by
      have : 0 < n := by omega
      exact_mod_cast this
    have hlog : 0 < Real.log n := Real.log_pos (by
      have : 1 < n := by omega
      exact_mod_cast this)
    by_cases hnM : n < M
    · refine prob_le_one.trans ?_
      rw [← ENNReal.ofReal_one]
      refine ENNReal.ofReal_le_ofReal ?_
      rw [le_div_iff₀ hlog, one_mul]
      refine le_max_of_le_right (Real.log_le_log hn0 ?_)
      exact_mod_cast hnM.le
    · rw [not_lt] at hnM
      have hn1 : N₁ ≤ n := ((le_max_right _ _).trans (le_max_left _ _)).trans hnM
      have hn2 : N₀ ≤ n := ((le_max_left _ _).trans (le_max_left _ _)).trans hnM
      have hlt := hN₁ n hn1
      set r := Real.sqrt (c / 2 * Real.log n / n) with hr
      have hr2 : r ^ 2 = c / 2 * Real.log n / n := Real.sq_sqrt (by positivity)
      have hrpos : 0 < r := Real.sqrt_pos.2 (by positivity)
      have hrδ : r < δ := by
        rw [hr, Real.sqrt_lt' hδ, div_lt_iff₀ hn0]
        exact hlt
      have hnr : n * r ^ 2 = c / 2 * Real.log n := by
        rw [hr2]
        field_simp
      refine (measure_mono ?_).trans ((hrate n (by omega) r hrpos).trans (ENNReal.ofReal_le_ofReal ?_))
      · intro d hd hc'
        obtain ⟨Y, R, e1, e2, e3⟩ := hc'
        refine hd ⟨Y, R, e1, fun f hf => hmdl (R l) e2 (fun i j => (e3 i j).trans hrδ) r (fun i j => (e3 i j).le) n hn2 ?_ f hf⟩
        rw [hnr]
        exact mul_lt_mul_of_pos_right (half_lt_self hc) hlog
      · rw [hnr, le_div_iff₀ hlog]
        refine le_max_of_le_left (le_of_eq ?_)
        field_simp
  refine ⟨hfirst, ?_⟩
  obtain ⟨C', hC', hb⟩ := hfirst
  have hlim : Tendsto (fun n : ℕ => ENNReal.ofReal (C' / Real.log n)) atTop (𝓝 0) := by
    rw [← ENNReal.ofReal_zero]
    refine ENNReal.tendsto_ofReal ?_
    exact (tendsto_const_nhds (x := C')).div_atTop (Real.tendsto_log_atTop.comp tendsto_natCast_atTop_atTop)
  refine tendsto_of_tendsto_of_tendsto_of_le_of_le' tendsto_const_nhds hlim (Filter.Eventually.of_forall fun _ => zero_le) ?_
  filter_upwards [Filter.eventually_ge_atTop 2] with n hn using hb n hn

/-- **C89** (AIC in experiments). With the draws of `C89_mdl_consistent` the probability that `aic` reports fewer than `k` sources is at most
`C / n`. -/
theorem C89_aic_consistent {sqrtm : Sqrtm} (hs : IsSqrtm sqrtm) (a : ArrayDesign) (src : Sources k) (wl : ℝ) (out)
    (hA : steering a src wl false "all" = .ok out) (hone : a.element.outputSize = 1) {C1 C2 : CovArg} {g1 : StoGen k} {g2 : StoGen a.size}
    (hg1 : stoInit sqrtm k C1 = .ok g1) (hg2 : stoInit sqrtm a.size C2 = .ok g2) {P} (hPd : Denotes k C1 P) (hP : P.PosDef)
    {σ : ℝ} (hσ : 0 < σ) (hQd : Denotes a.size C2 ((σ : ℂ) • (1 : Matrix (Fin a.size) (Fin a.size) ℂ)))
    {ν : Measure ℝ} [IsProbabilityMeasure ν] (hν : UnitLaw ν) (h4 : MemLp id 4 ν) (l : Fin a.element.outputSize)
    (hinj : Function.Injective (out.A l).mulVec) (hk : k < a.size) :
    ∃ C : ℝ, 0 ≤ C ∧ ∀ n : ℕ, 0 < n → (Measure.pi fun _ : Fin n => Measure.pi fun _ => ν)
      {d : Fin n → SnapshotDraw k a.size | ¬ ∃ Y R, experiment a src wl g1 g2 n d = .ok ⟨n, Y, R⟩ ∧
        ∀ f : EigvalshFn, f.Spec → ∃ r, k ≤ r ∧ aic f (.mat a.size (R l)) n = .ok r} ≤ ENNReal.ofReal (C / n) := by
  obtain ⟨δ, hδ, N₀, haic⟩ := C89_no_underestimate hinj hP hσ hk
  obtain ⟨C, hC, hrate⟩ := C88_property hs a src wl out hA hone hg1 hg2 hPd hQd hP.posSemidef (scaled_one_posSemidef hσ.le) hν h4 l
    (fun R => ∀ N : ℕ, N₀ ≤ N → ∀ f : EigvalshFn, f.Spec → ∃ r, k ≤ r ∧ aic f (.mat a.size R) N = .ok r)
    ⟨δ, hδ, fun R hR hd N hN f hf => (haic R hR hd N hN f hf).1⟩
  refine ⟨max C N₀, le_max_of_le_left hC, fun n hn => ?_⟩
  have hn0 : (0 : ℝ) < n := by exact_mod_cast hn
  by_cases hnN : n < N₀
  · refine prob_le_one.trans ?_
    rw [← ENNReal.ofReal_one]
    refine ENNReal.ofReal_le_ofReal ?_
    rw [le_div_iff₀ hn0, one_mul]
    refine le_max_of_le_right ?_
    exact_mod_cast hnN.le
  · refine (measure_mono ?_).trans ((hrate n hn).trans (ENNReal.ofReal_le_ofReal ?_))
    · intro d hd hc
      obtain ⟨Y, R, e1, e2⟩ := hc
      exact hd ⟨Y, R, e1, fun f hf => e2 n (not_lt.1 hnN) f hf⟩
    · exact div_le_div_of_nonneg_right (le_max_left _ _) hn0.le

/-- **C89** (SORTE in experiments). If the gap between the least signal eigenvalue and the noise level is resolved, the probability that
`sorte` does not report `k` sources is at most `C / n`. -/
theorem C89_sorte_consistent {sqrtm : Sqrtm} (hs : IsSqrtm sqrtm) (a : ArrayDesign) (src : Sources k) (wl : ℝ) (out)
    (hA : steering a src wl false "all" = .ok out) (hone : a.element.outputSize = 1) {C1 C2 : CovArg} {g1 : StoGen k} {g2 : StoGen a.size}
    (hg1 : stoInit sqrtm k C1 = .ok g1) (hg2 : stoInit sqrtm a.size C2 = .ok g2) {P} (hPd : Denotes k C1 P) (hP : P.PosDef)
    {σ : ℝ} (hσ : 0 ≤ σ) (hQd : Denotes a.size C2 ((σ : ℂ) • (1 : Matrix (Fin a.size) (Fin a.size) ℂ)))
    {ν : Measure ℝ} [IsProbabilityMeasure ν] (hν : UnitLaw ν) (h4 : MemLp id 4 ν) (l : Fin a.element.outputSize)
    (hinj : Function.Injective (out.A l).mulVec) (hk1 : 1 ≤ k) (hk : k + 3 ≤ a.size) {w : Fin a.size → ℝ} {E}
    (hw : IsEigh (covModel (out.A l) P σ) w E)
    (hres : 1 / 2 ^ 52 < (w ⟨a.size - k, by omega⟩ - σ) ^ 2 * ((a.size - k : ℕ) - 1) / (a.size - k : ℕ) ^ 2) :
    ∃ C : ℝ, 0 ≤ C ∧ ∀ n : ℕ, 0 < n → (Measure.pi fun _ : Fin n => Measure.pi fun _ => ν)
      {d : Fin n → SnapshotDraw k a.size | ¬ ∃ Y R, experiment a src wl g1 g2 n d = .ok ⟨n, Y, R⟩ ∧
        ∀ f : EigvalshFn, f.Spec → sorte f (.mat a.size (R l)) = .ok k} ≤ ENNReal.ofReal (C / n) :=
  C88_property hs a src wl out hA hone hg1 hg2 hPd hQd hP.posSemidef (scaled_one_posSemidef hσ) hν h4 l
    (fun R => ∀ f : EigvalshFn, f.Spec → sorte f (.mat a.size R) = .ok k)
    (C89_sorte hinj hP hk1 hk hw hres)

/-- The steering vectors of different sources in a ULA are linearly independent. -/
theorem ula_injective {d wl : ℝ} {n : ℕ} {src : FF1D k} (h : UlaScene d wl n src) {name : Option String} {a : GridArray}
    (ha : ula n (.scalar d) name {} = .ok a) :
    ∃ S, steering a.toArrayDesign (.ff1 src) wl false "all" = .ok S ∧ ∀ l, Function.Injective (S.A l).mulVec := by
  have : NeZero wl := ⟨h.wl_pos.ne'⟩
  have hsz : a.toArrayDesign.size = n := (C01_ula_geometry n d name {} a ha).1
  obtain ⟨S, hS, hSv⟩ := ula_steering ha src h.valid wl "all" (by simp)
  refine ⟨S, hS, fun l => ?_⟩
  have hz : Function.Injective fun c => phaseFactor d wl src.unit (src.loc c) := fun c e hce =>
    h.distinct (phaseFactor_inj h.d_pos h.wl_pos (h.valid.2 c) (h.valid.2 e) (h.unambiguous c e) hce)
  have e : S.A l = ulaMat a.toArrayDesign.size fun c => phaseFactor d wl src.unit (src.loc c) := by
    ext i c
    rw [hSv]
    rfl
  rw [e]
  exact ulaMat_injective hz (by rw [hsz]; exact h.few.le)

/-- **C89** (uniform linear array). For fewer different sources than sensors of a ULA, in white noise, with normally distributed signals and
noise (or any others with mean zero, variance one and a fourth moment): the probability that `mdl` on `n` snapshots does not report
the number of sources is at most `C / log n`, the probability that `aic` reports fewer is at most `C / n`. -/
theorem C89_ula {sqrtm : Sqrtm} (hs : IsSqrtm sqrtm) {d wl : ℝ} {n : ℕ} {src : FF1D k} (h : UlaScene d wl n src)
    {name : Option String} {a : GridArray} (ha : ula n (.scalar d) name {} = .ok a) {C1 C2 : CovArg} {g1 : StoGen k} {g2 : StoGen a.size}
    (hg1 : stoInit sqrtm k C1 = .ok g1) (hg2 : stoInit sqrtm a.size C2 = .ok g2) {P} (hPd : Denotes k C1 P) (hP : P.PosDef)
    {σ : ℝ} (hσ : 0 < σ) (hQd : Denotes a.size C2 ((σ : ℂ) • (1 : Matrix (Fin a.size) (Fin a.size) ℂ)))
    {ν : Measure ℝ} [IsProbabilityMeasure ν] (hν : UnitLaw ν) (h4 : MemLp id 4 ν) (l : Fin a.element.outputSize) :
    ∃ C : ℝ, 0 ≤ C ∧ ∀ n : ℕ, 2 ≤ n →
      (Measure.pi fun _ : Fin n => Measure.pi fun _ => ν)
        {d : Fin n → SnapshotDraw k a.size | ¬ ∃ Y R, experiment a.toArrayDesign (.ff1 src) wl g1 g2 n d = .ok ⟨n, Y, R⟩ ∧
          ∀ f : EigvalshFn, f.Spec → mdl f (.mat a.size (R l)) n = .ok k} ≤ ENNReal.ofReal (C / Real.log n) ∧
      (Measure.pi fun _ : Fin n => Measure.pi fun _ => ν)
        {d : Fin n → SnapshotDraw k a.size | ¬ ∃ Y R, experiment a.toArrayDesign (.ff1 src) wl g1 g2 n d = .ok ⟨n, Y, R⟩ ∧
          ∀ f : EigvalshFn, f.Spec → ∃ r, k ≤ r ∧ aic f (.mat a.size (R l)) n = .ok r} ≤ ENNReal.ofReal (C / n) := by
  have hsz : a.toArrayDesign.size = n := (C01_ula_geometry n d name {} a ha).1
  obtain ⟨S, hS, hinj⟩ := ula_injective h ha
  have hk : k < a.toArrayDesign.size := by rw [hsz]; exact h.few
  obtain ⟨⟨C, hC, h1⟩, -⟩ := C89_mdl_consistent hs a.toArrayDesign (.ff1 src) wl S hS (grid_scalar ha) hg1 hg2 hPd hP hσ hQd hν h4 l (hinj l) hk
  obtain ⟨C', hC', h2⟩ := C89_aic_consistent hs a.toArrayDesign (.ff1 src) wl S hS (grid_scalar ha) hg1 hg2 hPd hP hσ hQd hν h4 l (hinj l) hk
  refine ⟨max C C', le_max_of_le_left hC, fun n hn => ⟨(h1 n hn).trans (ENNReal.ofReal_le_ofReal ?_),
    (h2 n (by omega)).trans (ENNReal.ofReal_le_ofReal ?_)⟩⟩
  · exact div_le_div_of_nonneg_right (le_max_left _ _) (Real.log_natCast_nonneg n)
  · exact div_le_div_of_nonneg_right (le_max_right _ _) (Nat.cast_nonneg n)

/-- Two sources at 0 and 30 degrees, three sensors, normally distributed signals and noise. -/
example : ∃ (a : GridArray) (g1 : StoGen 2) (g2 : StoGen a.size) (l : Fin a.element.outputSize) (C : ℝ), ula 3 (.scalar (1 / 2)) none {} = .ok a ∧
    ∀ n : ℕ, 2 ≤ n → (Measure.pi fun _ : Fin n => Measure.pi fun _ => gaussianReal 0 1)
      {d : Fin n → SnapshotDraw 2 a.size | ¬ ∃ Y R, experiment a.toArrayDesign (.ff1 ⟨![0, 1 / 2], "sin"⟩) 1 g1 g2 n d = .ok ⟨n, Y, R⟩ ∧
        mdl someEigvalsh (.mat a.size (R l)) n = .ok 2} ≤ ENNReal.ofReal (C / Real.log n) := by
  obtain ⟨a, ha⟩ := ula_ok 3 (1 / 2) none
  have hel : a.element = .isotropicScalar := (gridInit_spec ha).2.2.1
  have hl : 0 < a.element.outputSize := by rw [hel]; decide
  have hP : Denotes 2 (.vector [1, 2]) (Matrix.diagonal (![1, 2] : Fin 2 → ℂ)) := by
    refine ⟨rfl, ?_⟩
    ext i j
    fin_cases i <;> fin_cases j <;> simp
  have hQ : Denotes a.size (.scalar 1) (((1 : ℝ) : ℂ) • (1 : Matrix (Fin a.size) (Fin a.size) ℂ)) := by
    show _ = _
    ext i j
    simp [Matrix.one_apply]
  obtain ⟨g1, hg1⟩ := ((C56_accepts someSqrtm 2 (.vector [1, 2])).1).2 ⟨_, hP⟩
  obtain ⟨g2, hg2⟩ := ((C56_accepts someSqrtm a.size (.scalar 1)).1).2 ⟨_, hQ⟩
  obtain ⟨C, -, h⟩ := C89_ula someSqrtm_spec exampleScene ha hg1 hg2 hP
    (PosDef.diagonal (by intro i; fin_cases i <;> simp)) one_pos hQ unitLaw_gaussian (memLp_id_gaussianReal 4) ⟨0, hl⟩
  refine ⟨a, g1, g2, ⟨0, hl⟩, C, ha, fun n hn => (measure_mono ?_).trans (h n hn).1⟩
  rintro d hd ⟨Y, R, e1, e2⟩
  exact hd ⟨Y, R, e1, e2 someEigvalsh someEigvalsh_spec⟩

/-- The hypotheses of `C89_sorte`: one source, four sensors, equal powers. -/
example : ∃ δ : ℝ, 0 < δ ∧ ∀ R : Matrix (Fin 4) (Fin 4) ℂ, R.IsHermitian →
    (∀ i j, ‖R i j - covModel (ulaMat 4 fun _ : Fin 1 => 1) (1 : Matrix (Fin 1) (Fin 1) ℂ) 1 i j‖ < δ) →
    ∀ f : EigvalshFn, f.Spec → sorte f (.mat 4 R) = .ok 1 := by
  have hA : Function.Injective (ulaMat 4 fun _ : Fin 1 => (1 : ℂ)).mulVec :=
    ulaMat_injective (fun i j _ => Subsingleton.elim i j) (by norm_num)
  have hP : (1 : Matrix (Fin 1) (Fin 1) ℂ).PosDef := PosDef.one
  obtain ⟨w, E, hw⟩ := exists_isEigh _ (covModel_isHermitian (ulaMat 4 fun _ : Fin 1 => (1 : ℂ)) hP.isHermitian 1)
  refine C89_sorte hA hP le_rfl (by norm_num) hw ?_
  have htr : (trace (covModel (ulaMat 4 fun _ : Fin 1 => (1 : ℂ)) (1 : Matrix (Fin 1) (Fin 1) ℂ) 1)) = ∑ j, (w j : ℂ) := by
    have hR : covModel (ulaMat 4 fun _ : Fin 1 => (1 : ℂ)) (1 : Matrix (Fin 1) (Fin 1) ℂ) 1 = E * diagonal (fun j => (w j : ℂ)) * Eᴴ := by
      rw [← hw.eig, Matrix.mul_assoc, hw.orth', Matrix.mul_one]
    rw [hR, trace_mul_comm, ← Matrix.mul_assoc, hw.orth, Matrix.one_mul, trace_diagonal]
  have h0 := (hw.noise hA hP 0 (by norm_num)).1
  have h1 := (hw.noise hA hP 1 (by norm_num)).1
  have h2 := (hw.noise hA hP 2 (by norm_num)).1
  have htr2 : trace (covModel (ulaMat 4 fun _ : Fin 1 => (1 : ℂ)) (1 : Matrix (Fin 1) (Fin 1) ℂ) 1) = 8 := by
    simp [trace, covModel, Matrix.mul_apply, ulaMat]
    norm_num
  rw [htr2, Fin.sum_univ_four, h0, h1, h2] at htr
  have h3 : w 3 = 5 := by
    have := congrArg Complex.re htr
    simp at this
    linarith
  show 1 / 2 ^ 52 < (w 3 - 1) ^ 2 * _ / _
  rw [h3]
  norm_num

/-- Why the deviation has to shrink with the number of snapshots: the eigenvalues `1, 1 + ε, 3` are as close as desired to those of one
source, but for all large numbers of snapshots both criteria report two sources. -/
theorem C89_needs_small_deviation (f : EigvalshFn) {ε : ℝ} (hε : 0 < ε) :
    ∃ N₀, ∀ N ≥ N₀, aic f (.vec [1, 1 + ε, 3]) N = .ok 2 ∧ mdl f (.vec [1, 1 + ε, 3]) N = .ok 2 := by
  have h2 : ∀ j < [1, 1 + ε, 3].length, [1, 1 + ε, 3].length - 2 ≤ j → (1 : ℝ) < eigAt [1, 1 + ε, 3] j := by
    intro j hj h1
    simp only [List.length_cons, List.length_nil] at hj h1
    interval_cases j
    · simp [eigAt, hε]
    · norm_num [eigAt]
  refine C50_consistent f (σ := 1) ⟨by simp, one_pos, ?_, fun j hj h1 => (h2 j hj h1).le⟩ h2
  intro j hj
  simp only [List.length_cons, List.length_nil] at hj
  interval_cases j
  simp [eigAt]

end Doa.Props
