import Verif.Props.CircularArrays
import Verif.Props.SparseLinear

/-!
# C102: Min-Norm with a single source, on any array
-/

namespace Doa.Props

open Doa Doa.Spec Matrix Complex
open scoped ComplexOrder

variable {m : ℕ}

/-- The noise subspace spans the orthogonal complement of the response to the source. -/
theorem noise_project (eigh : Eigh) {A : Matrix (Fin m) (Fin 1) ℂ} (h0 : A.col 0 ≠ 0) {P : Matrix (Fin 1) (Fin 1) ℂ} (hP : P.PosDef) (σ : ℝ)
    {w : Fin m → ℂ} (hw : star (A.col 0) ⬝ᵥ w = 0) :
    getNoiseSubspace eigh (covModel A P σ) 1 *ᵥ ((getNoiseSubspace eigh (covModel A P σ) 1)ᴴ *ᵥ w) = w := by
  obtain ⟨-, hE, hz⟩ := C43_noise_subspace eigh (σ := σ) le_rfl (injective_one h0) hP
  generalize getNoiseSubspace eigh (covModel A P σ) 1 = En at hE hz
  have ha : Enᴴ *ᵥ A.col 0 = 0 := (hz _).2 ⟨fun _ => 1, by rw [mulVec_one, one_smul]⟩
  obtain ⟨y, hy⟩ := (hz (w - En *ᵥ (Enᴴ *ᵥ w))).1 (by rw [mulVec_sub, mulVec_mulVec _ Enᴴ En, hE, one_mulVec, sub_self])
  rw [mulVec_one] at hy
  have h1 : star (A.col 0) ⬝ᵥ (w - En *ᵥ (Enᴴ *ᵥ w)) = 0 := by
    have e : star (A.col 0) ᵥ* En = 0 := by
      have := star_mulVec Enᴴ (A.col 0)
      rw [ha, star_zero, conjTranspose_conjTranspose] at this
      exact this.symm
    rw [dotProduct_sub, hw, dotProduct_mulVec, e, zero_dotProduct, sub_zero]
  rw [hy, dotProduct_smul, power_eq, smul_eq_mul] at h1
  have hp : (power (A.col 0) : ℂ) ≠ 0 := by exact_mod_cast (power_pos h0).ne'
  rw [(mul_eq_zero.1 h1).resolve_right hp, zero_smul] at hy
  exact (sub_eq_zero.1 hy).symm

/-- The Min-Norm spectrum of one source is infinite at the source and finite elsewhere, if the first sensor sees all candidates equally
strongly and some other sensor sees the source. -/
theorem minNorm_dominant [NeZero m] (eigh : Eigh) {L : List (Fin m → ℂ)} {A : Matrix (Fin m) (Fin 1) ℂ} {j0 : ℕ}
    (h : Unambiguous L (A.col 0) j0) (hfirst : ∀ v ∈ L, ‖v 0‖ = ‖A 0 0‖) (h00 : A 0 0 ≠ 0) (hother : ∃ i, i ≠ 0 ∧ A i 0 ≠ 0)
    {P : Matrix (Fin 1) (Fin 1) ℂ} (hP : P.PosDef) (σ : ℝ) :
    Dominant (fMinNorm (getNoiseSubspace eigh (covModel A P σ) 1) L) fun _ : Fin 1 => j0 := by
  have hproj := fun w hw => noise_project eigh h.nonzero hP σ (w := w) hw
  obtain ⟨-, hE, hz⟩ := C43_noise_subspace eigh (σ := σ) le_rfl (injective_one h.nonzero) hP
  generalize getNoiseSubspace eigh (covModel A P σ) 1 = En at hE hz hproj
  have hc : ∃ j, En 0 j ≠ 0 := by
    by_contra hn
    push Not at hn
    obtain ⟨y, hy⟩ := (hz (Pi.single 0 1)).1 (by
      funext j
      simp [mulVec, dotProduct, hn j, Pi.single_apply])
    rw [mulVec_one] at hy
    obtain ⟨i, hi, hAi⟩ := hother
    have e1 := congrFun hy i
    rw [Pi.smul_apply, Pi.single_eq_of_ne hi, smul_eq_mul, Matrix.col_apply] at e1
    have e2 := congrFun hy 0
    rw [Pi.smul_apply, Pi.single_eq_same, (mul_eq_zero.1 e1.symm).resolve_right hAi, zero_smul] at e2
    exact one_ne_zero e2
  have hp : (power (A.col 0) : ℂ) ≠ 0 := by exact_mod_cast (power_pos h.nonzero).ne'
  obtain ⟨g, hg⟩ : ∃ g : ℝ, g = ∑ l, ‖En 0 l‖ ^ 2 := ⟨_, rfl⟩
  have hg0 : 0 < g := by
    rw [hg]
    obtain ⟨j, hj⟩ := hc
    exact Finset.sum_pos' (fun l _ => by positivity) ⟨j, Finset.mem_univ _, by have := norm_pos_iff.2 hj; positivity⟩
  have hgc : (g : ℂ) ≠ 0 := by exact_mod_cast hg0.ne'
  have ha : Enᴴ *ᵥ A.col 0 = 0 := (hz _).2 ⟨fun _ => 1, by rw [mulVec_one, one_smul]⟩
  have hden : ∀ v, star (minNormVec En) ⬝ᵥ v = (v 0 - A 0 0 * ((star (A.col 0) ⬝ᵥ v) / power (A.col 0))) / g := by
    intro v
    have hw : star (A.col 0) ⬝ᵥ (v - ((star (A.col 0) ⬝ᵥ v) / power (A.col 0)) • A.col 0) = 0 := by
      rw [dotProduct_sub, dotProduct_smul, power_eq, smul_eq_mul, div_mul_cancel₀ _ hp, sub_self]
    have h1 := hproj _ hw
    have h2 : Enᴴ *ᵥ (v - ((star (A.col 0) ⬝ᵥ v) / power (A.col 0)) • A.col 0) = Enᴴ *ᵥ v := by
      rw [mulVec_sub, mulVec_smul, ha, smul_zero, sub_zero]
    rw [h2] at h1
    have h3 := congrFun h1 0
    rw [Pi.sub_apply, Pi.smul_apply, smul_eq_mul, Matrix.col_apply] at h3
    rw [mul_comm (A 0 0), ← h3]
    have h4 : star (minNormVec En) ⬝ᵥ v = star (fun j => star (En 0 j) / ((∑ l, ‖En 0 l‖ ^ 2 : ℝ) : ℂ)) ⬝ᵥ (Enᴴ *ᵥ v) := by
      unfold minNormVec
      rw [star_mulVec, ← dotProduct_mulVec]
    rw [h4, ← hg]
    simp only [mulVec, dotProduct, Finset.sum_div]
    refine Finset.sum_congr rfl fun j _ => ?_
    rw [Pi.star_apply, star_div₀, star_star, Complex.star_def, Complex.conj_ofReal]
    ring
  intro c j v w hj hv hw
  simp only [fMinNorm, List.getElem?_map, h.at_source, Option.map_some, Option.some.injEq, Option.map_eq_some_iff] at hv hw
  obtain ⟨x, hx, rfl⟩ := hv
  have d0 : minNormDenom En (A.col 0) = 0 := by
    rw [minNormDenom, hden, power_eq, div_self hp, mul_one, Matrix.col_apply, sub_self, zero_div]
    simp
  have d1 : minNormDenom En x ≠ 0 := by
    intro hd
    rw [minNormDenom, sq_eq_zero_iff, norm_eq_zero, hden, div_eq_zero_iff, or_iff_left hgc, sub_eq_zero] at hd
    have hn := congrArg norm hd
    rw [hfirst x (List.mem_of_getElem? hx), norm_mul, norm_div, Complex.norm_real, Real.norm_eq_abs, abs_of_pos (power_pos h.nonzero)] at hn
    have h0 : 0 < ‖A 0 0‖ := norm_pos_iff.2 h00
    have h1 : ‖star (A.col 0) ⬝ᵥ x‖ = power (A.col 0) := by
      have hpp := power_pos h.nonzero
      field_simp at hn
      linarith
    have hcs := strict_cs h.nonzero (h.different j x hx (hj 0))
    rw [h1, h.equal_power x (List.mem_of_getElem? hx)] at hcs
    nlinarith
  rw [← hw, d0]
  unfold npRecip
  rw [if_pos rfl, if_neg d1]
  exact WithTop.coe_lt_top _

/-- **C102** (one-dimensional grids). One source at an interior point of a one-dimensional grid, an array with isotropic scalar elements
whose perturbations are all known, the exact covariance: if all grid points have responses of the same power and the same strength at the
first sensor, none of the other ones proportional to the response to the source, then `MinNorm` returns exactly the source. -/
theorem C102_one_dimensional (eigh : Eigh) {a : ArrayDesign} [NeZero a.size] (hel : a.element = .isotropicScalar)
    (hknown : ∀ p ∈ a.perturbations, p.isKnown = true) {ps : List Perturbation} (hps : Usable a "all" ps)
    (l : Fin a.element.outputSize) (wl : ℝ) (cfg : EstCfg (WithTop ℝ) (List (Fin a.size → ℂ)))
    {x : List ℝ} {names : List String} {u : String}
    (hg : cfg.grid = ⟨.ff1, [⟨x, false⟩], names, [u]⟩) (hu : Unit1D u) (hx : ∀ v ∈ x, InRange1D u v)
    (hpf : cfg.peakFinder = findPeaksSimple) (hsort : IsArgsort cfg.argsort)
    (hcomp : cfg.compute = atomColumns1D a l wl u)
    (src : FF1D 1) (hsu : src.unit = u) (j0 : ℕ) (hj : x[j0]? = some (src.loc 0)) (h1 : 1 ≤ j0) (h2 : j0 + 1 < x.length)
    {S : Steering a.element.outputSize a.size 1} (hS : steering a (.ff1 src) wl false "all" = .ok S)
    (hpow : ∀ v ∈ x, power (response a l wl u "all" v) = power (response a l wl u "all" (src.loc 0)))
    (hfirst : ∀ v ∈ x, ‖response a l wl u "all" v 0‖ = ‖response a l wl u "all" (src.loc 0) 0‖)
    (h00 : response a l wl u "all" (src.loc 0) 0 ≠ 0) (hother : ∃ i, i ≠ 0 ∧ response a l wl u "all" (src.loc 0) i ≠ 0)
    (hdiff : ∀ j v, x[j]? = some v → j ≠ j0 → ∀ z : ℂ, response a l wl u "all" v ≠ z • response a l wl u "all" (src.loc 0))
    {P : Matrix (Fin 1) (Fin 1) ℂ} (hP : P.PosDef) (σ : ℝ) (ops : List (EstOp (WithTop ℝ) (List (Fin a.size → ℂ)))) :
    ∃ o st', minNormEstimate eigh cfg (cfg.run ops).1 (covModel (S.A l) P σ) 1 {} = (.ok o, st') ∧
      ∃ sp, o.observe st' = (true, some (some ([[src.loc 0]], u)), sp) := by
  have hrows := rows_1d hg hu hx
  have hne : response a l wl u "all" (src.loc 0) ≠ 0 := fun h => h00 (by rw [h]; rfl)
  obtain ⟨hcr, hun⟩ := single_unambiguous hel hknown hps l wl src hsu j0 hj hS hne hpow hdiff
  have hcol : ∀ i, S.A l i 0 = response a l wl u "all" (src.loc 0) i := fun i => by
    rw [steering_columns hel l wl "all" src hS, hsu]
  have hall : ∀ v ∈ atomColumns1D a l wl u (x.map fun v => [v]), ‖v 0‖ = ‖S.A l 0 0‖ := by
    have : NeZero wl := steering_wl hS
    have hfk : a.filterPerturbations "known" = a.filterPerturbations "all" := by
      have hv : ∀ p ∈ a.perts.values, p.isKnown = true := hknown
      simp only [ArrayDesign.filterPerturbations, String.reduceEq, if_true, if_false]
      rw [List.filter_eq_self.2 hv]
    have hresp : ∀ v, response a l wl u "known" v = response a l wl u "all" v := fun v => by
      unfold response steering
      rw [hfk]
    rw [atoms_eq hel l wl u _ (hfk.trans hps.selected) hps.rows hps.dim hps.shape]
    simp only [hresp, List.map_map]
    intro v hv
    obtain ⟨y, hy, rfl⟩ := List.mem_map.1 hv
    rw [hcol]
    exact hfirst y hy
  obtain ⟨i, hi, hAi⟩ := hother
  have hsz : 1 < a.size := by
    have h1 := i.2
    have h2 : i.1 ≠ 0 := fun h => hi (Fin.ext (by simpa using h))
    omega
  obtain ⟨o, st', e1, e2⟩ := recovers_one cfg hg hu hx hpf hsort ops (fMinNorm (getNoiseSubspace eigh (covModel (S.A l) P σ) 1)) hrows
    (by rw [hcomp]; simp [fMinNorm, hcr]) h1 h2 hj
    (by rw [hcomp]; exact minNorm_dominant eigh hun hall (by rw [hcol]; exact h00) ⟨i, hi, by rw [hcol]; exact hAi⟩ hP σ)
  refine ⟨o, st', ?_, _, e2⟩
  unfold minNormEstimate
  rw [subspaceArgs_ok eigh (fun En => fMinNorm En) (covModel (S.A l) P σ) 1 {} hsz]
  exact e1

/-- The atoms of a two-dimensional grid search. -/
theorem single_unambiguous2 {a : ArrayDesign} (hel : a.element = .isotropicScalar)
    (hknown : ∀ p ∈ a.perturbations, p.isKnown = true) {ps : List Perturbation} (hps : Usable a "all" ps)
    (l : Fin a.element.outputSize) (wl : ℝ) {g : SearchGrid} {ga gb : List ℝ} {names : List String} {u : String}
    (hg : g = ⟨.ff2, [⟨ga, false⟩, ⟨gb, false⟩], names, [u, u]⟩) (hu : Unit2D u)
    (hx : ∀ v ∈ ga, ∀ w ∈ gb, InRange2D u (v, w))
    (src : FF2D 1) (hsu : src.unit = u) (i0 j0 : ℕ) (hi : ga[i0]? = some (src.loc 0).1) (hj : gb[j0]? = some (src.loc 0).2)
    {S : Steering a.element.outputSize a.size 1} (hS : steering a (.ff2 src) wl false "all" = .ok S)
    (hne : response2 a l wl u "all" (src.loc 0) ≠ 0)
    (hpow : ∀ v ∈ ga, ∀ w ∈ gb, power (response2 a l wl u "all" (v, w)) = power (response2 a l wl u "all" (src.loc 0)))
    (hdiff : ∀ i j v w, ga[i]? = some v → gb[j]? = some w → ¬ (i = i0 ∧ j = j0) →
      ∀ z : ℂ, response2 a l wl u "all" (v, w) ≠ z • response2 a l wl u "all" (src.loc 0)) :
    ∃ rows, g.placementRows = .ok rows ∧ (atomColumns2D a l wl u rows).length = ga.length * gb.length ∧
      (∀ v ∈ atomColumns2D a l wl u rows, ∃ y ∈ ga, ∃ z ∈ gb, v = response2 a l wl u "all" (y, z)) ∧
      (S.A l).col 0 = response2 a l wl u "all" (src.loc 0) ∧
      Unambiguous (atomColumns2D a l wl u rows) ((S.A l).col 0) (i0 * gb.length + j0) := by
  have : NeZero wl := steering_wl hS
  have hfk : a.filterPerturbations "known" = a.filterPerturbations "all" := by
    have hv : ∀ p ∈ a.perts.values, p.isKnown = true := hknown
    simp only [ArrayDesign.filterPerturbations, String.reduceEq, if_true, if_false]
    rw [List.filter_eq_self.2 hv]
  have hresp : ∀ v, response2 a l wl u "known" v = response2 a l wl u "all" v := fun v => by
    unfold response2 steering
    rw [hfk]
  obtain ⟨rows, hr1, hr2, hr3⟩ := rows_2d hg hu hx
  have hcr : atomColumns2D a l wl u rows = rows.map fun r => response2 a l wl u "all" (azEl r) := by
    rw [atoms_eq2 hel l wl u rows ⟨hfk.trans hps.selected, hps.rows, hps.dim, hps.shape⟩]
    simp only [hresp]
  have hcol : (S.A l).col 0 = response2 a l wl u "all" (src.loc 0) := by
    funext i
    rw [Matrix.col_apply, steering_columns2 hel l wl "all" src hS, hsu]
  have hL : ∀ i j v w, ga[i]? = some v → gb[j]? = some w →
      (atomColumns2D a l wl u rows)[i * gb.length + j]? = some (response2 a l wl u "all" (v, w)) := by
    intro i j v w hv hw
    rw [hcr, List.getElem?_map, hr3 i j v w hv hw]
    rfl
  have hflat : ∀ (j : ℕ) (v : Fin a.size → ℂ), (atomColumns2D a l wl u rows)[j]? = some v →
      ∃ p q y z, j = p * gb.length + q ∧ ga[p]? = some y ∧ gb[q]? = some z ∧ v = response2 a l wl u "all" (y, z) := by
    intro j v hv
    have hjl : j < ga.length * gb.length := by
      have := (List.getElem?_eq_some_iff.1 hv).1
      rw [hcr, List.length_map, hr2] at this
      exact this
    obtain ⟨p, q, y, z, rfl, e1, e2⟩ := flat_2d hjl
    rw [hL _ _ _ _ e1 e2, Option.some.injEq] at hv
    exact ⟨p, q, y, z, rfl, e1, e2, hv.symm⟩
  have hun : Unambiguous (atomColumns2D a l wl u rows) ((S.A l).col 0) (i0 * gb.length + j0) := by
    rw [hcol]
    refine ⟨hne, hL _ _ _ _ hi hj, ?_, ?_⟩
    · intro v hv
      obtain ⟨j, hv⟩ := List.getElem?_of_mem hv
      obtain ⟨p, q, y, z, -, e1, e2, rfl⟩ := hflat j v hv
      exact hpow y (List.mem_of_getElem? e1) z (List.mem_of_getElem? e2)
    · intro j v hv hjj
      obtain ⟨p, q, y, z, rfl, e1, e2, rfl⟩ := hflat j v hv
      refine hdiff p q y z e1 e2 ?_
      rintro ⟨rfl, rfl⟩
      exact hjj rfl
  have hlen : (atomColumns2D a l wl u rows).length = ga.length * gb.length := by rw [hcr, List.length_map, hr2]
  refine ⟨rows, hr1, hlen, fun v hv => ?_, hcol, hun⟩
  obtain ⟨j, hv⟩ := List.getElem?_of_mem hv
  obtain ⟨p, q, y, z, -, e1, e2, rfl⟩ := hflat j v hv
  exact ⟨y, List.mem_of_getElem? e1, z, List.mem_of_getElem? e2, rfl⟩

/-- **C102** (two-dimensional grids). The same on azimuth/elevation grids, where the source may also lie on the border of the grid. -/
theorem C102_two_dimensional (eigh : Eigh) {a : ArrayDesign} [NeZero a.size] (hel : a.element = .isotropicScalar)
    (hknown : ∀ p ∈ a.perturbations, p.isKnown = true) {ps : List Perturbation} (hps : Usable a "all" ps)
    (l : Fin a.element.outputSize) (wl : ℝ) (cfg : EstCfg (WithTop ℝ) (List (Fin a.size → ℂ)))
    {ga gb : List ℝ} {names : List String} {u : String}
    (hg : cfg.grid = ⟨.ff2, [⟨ga, false⟩, ⟨gb, false⟩], names, [u, u]⟩) (hu : Unit2D u)
    (hx : ∀ v ∈ ga, ∀ w ∈ gb, InRange2D u (v, w))
    (hpf : cfg.peakFinder = findPeaksSimple) (hsort : IsArgsort cfg.argsort)
    (hcomp : cfg.compute = atomColumns2D a l wl u)
    (src : FF2D 1) (hsu : src.unit = u) (i0 j0 : ℕ) (hi : ga[i0]? = some (src.loc 0).1) (hj : gb[j0]? = some (src.loc 0).2)
    {S : Steering a.element.outputSize a.size 1} (hS : steering a (.ff2 src) wl false "all" = .ok S)
    (hpow : ∀ v ∈ ga, ∀ w ∈ gb, power (response2 a l wl u "all" (v, w)) = power (response2 a l wl u "all" (src.loc 0)))
    (hfirst : ∀ v ∈ ga, ∀ w ∈ gb, ‖response2 a l wl u "all" (v, w) 0‖ = ‖response2 a l wl u "all" (src.loc 0) 0‖)
    (h00 : response2 a l wl u "all" (src.loc 0) 0 ≠ 0) (hother : ∃ i, i ≠ 0 ∧ response2 a l wl u "all" (src.loc 0) i ≠ 0)
    (hdiff : ∀ i j v w, ga[i]? = some v → gb[j]? = some w → ¬ (i = i0 ∧ j = j0) →
      ∀ z : ℂ, response2 a l wl u "all" (v, w) ≠ z • response2 a l wl u "all" (src.loc 0))
    {P : Matrix (Fin 1) (Fin 1) ℂ} (hP : P.PosDef) (σ : ℝ) (ops : List (EstOp (WithTop ℝ) (List (Fin a.size → ℂ)))) :
    ∃ o st', minNormEstimate eigh cfg (cfg.run ops).1 (covModel (S.A l) P σ) 1 {} = (.ok o, st') ∧
      ∃ sp, o.observe st' = (true, some (some ([[(src.loc 0).1, (src.loc 0).2]], u)), sp) := by
  have hne : response2 a l wl u "all" (src.loc 0) ≠ 0 := fun h => h00 (by rw [h]; rfl)
  obtain ⟨rows, hr1, hlen, hmem, hcol, hun⟩ := single_unambiguous2 hel hknown hps l wl hg hu hx src hsu i0 j0 hi hj hS hne hpow hdiff
  have hcol' : ∀ i, S.A l i 0 = response2 a l wl u "all" (src.loc 0) i := fun i => congrFun hcol i
  have hall : ∀ v ∈ atomColumns2D a l wl u rows, ‖v 0‖ = ‖S.A l 0 0‖ := by
    intro v hv
    obtain ⟨y, hy, z, hz, rfl⟩ := hmem v hv
    rw [hcol']
    exact hfirst y hy z hz
  obtain ⟨i, hi', hAi⟩ := hother
  have hsz : 1 < a.size := by
    have h1 := i.2
    have h2 : i.1 ≠ 0 := fun h => hi' (Fin.ext (by simpa using h))
    omega
  obtain ⟨o, st', e1, e2⟩ := recovers_2d cfg hg hu hx hpf hsort ops ⟨fMinNorm (getNoiseSubspace eigh (covModel (S.A l) P σ) 1), 1, false, 10, 3⟩
    le_rfl rfl hr1 (by rw [hcomp]; simp [fMinNorm, hlen]) src (fun _ => i0) (fun _ => j0) (fun c => by fin_cases c; exact hi)
    (fun c => by fin_cases c; exact hj) (fun c e h => absurd h (fin_one_lt c e)) (fun c e => rfl)
    (by rw [hcomp]; exact minNorm_dominant eigh hun hall (by rw [hcol']; exact h00) ⟨i, hi', by rw [hcol']; exact hAi⟩ hP σ)
  refine ⟨o, st', ?_, _, by simpa [List.ofFn_succ] using e2⟩
  unfold minNormEstimate
  rw [subspaceArgs_ok eigh (fun En => fMinNorm En) (covModel (S.A l) P σ) 1 {} hsz]
  exact e1

/-- **C102** (circular arrays). With neighbours less than half a wavelength apart, a uniform circular array locates one source with Min-Norm, on
every azimuth/elevation grid above the plane of the array. -/
theorem C102_circular (eigh : Eigh) {n : ℕ} (hn : 3 ≤ n) {r wl : ℝ} (hr : 0 < r) (hamb : 4 * r * Real.sin (Real.pi / n) < wl)
    {name : Option String} {kw : Kwargs} {a : ArrayDesign} (haa : uca n r name kw = .ok a) [NeZero a.size] (l : Fin a.element.outputSize)
    (cfg : EstCfg (WithTop ℝ) (List (Fin a.size → ℂ))) {ga gb : List ℝ} {names : List String} {u : String}
    (hg : cfg.grid = ⟨.ff2, [⟨ga, false⟩, ⟨gb, false⟩], names, [u, u]⟩) (hgr : UpperGrid u ga gb)
    (hpf : cfg.peakFinder = findPeaksSimple) (hsort : IsArgsort cfg.argsort) (hcomp : cfg.compute = atomColumns2D a l wl u)
    (src : FF2D 1) (hsu : src.unit = u) (hi : (src.loc 0).1 ∈ ga) (hj : (src.loc 0).2 ∈ gb)
    {P : Matrix (Fin 1) (Fin 1) ℂ} (hP : P.PosDef) (σ : ℝ) (ops : List (EstOp (WithTop ℝ) (List (Fin a.size → ℂ)))) :
    ∃ S, steering a (.ff2 src) wl false "all" = .ok S ∧
      ∃ o st', minNormEstimate eigh cfg (cfg.run ops).1 (covModel (S.A l) P σ) 1 {} = (.ok o, st') ∧
        ∃ sp, o.observe st' = (true, some (some ([[(src.loc 0).1, (src.loc 0).2]], u)), sp) := by
  have hpi := Real.pi_pos
  have hnp : (3 : ℝ) ≤ n := by exact_mod_cast hn
  have hs2 : 0 < Real.sin (Real.pi / n) := Real.sin_pos_of_pos_of_lt_pi (by positivity) (by rw [div_lt_iff₀ (by linarith)]; nlinarith)
  have hwl : 0 < wl := by nlinarith [mul_pos hr hs2]
  have : NeZero wl := ⟨hwl.ne'⟩
  have hn1 : 1 ≤ n := by omega
  obtain ⟨hsize, hel, hkn, hus, hst⟩ := uca_steering hn1 haa
  obtain ⟨S, hS, -⟩ := hst src (hsu ▸ hgr.unit) wl
  obtain ⟨i0, hi⟩ := List.getElem?_of_mem hi
  obtain ⟨j0, hj⟩ := List.getElem?_of_mem hj
  have hnorm : ∀ v p, ‖response2 a l wl u "all" v p‖ = 1 := fun v p => by
    rw [uca_response2 hn1 haa l hgr.unit, mul_comm, Complex.norm_exp_ofReal_mul_I]
  have hnz : ∀ v p, response2 a l wl u "all" v p ≠ 0 := fun v p => norm_ne_zero_iff.1 (by rw [hnorm]; exact one_ne_zero)
  refine ⟨S, hS, C102_two_dimensional eigh hel hkn hus l wl cfg hg hgr.unit hgr.inRange hpf hsort hcomp src hsu i0 j0 hi hj hS
      (fun v _ w _ => by rw [uca_power hn1 haa l hgr.unit, uca_power hn1 haa l hgr.unit]) (fun v _ w _ => by rw [hnorm, hnorm]) (hnz _ _)
      ⟨⟨1, by omega⟩, fun h => absurd (congrArg Fin.val h) (by simp), hnz _ _⟩
      (fun i j v w hv hw hij z hz => hij (hgr.inj hv hi hw hj (C100_unambiguous hn hr hamb haa l hgr.unit hgr.unit _ _ z hz))) hP σ ops⟩

/-- **C102** (linear arrays). Two sensors one spacing unit apart (as in uniform, nested, co-prime and minimum redundancy arrays, see
`C101_nested`, `C101_coprime`, `C101_mrla`) suffice for Min-Norm to return exactly the position of a single source. -/
theorem C102_linear (eigh : Eigh) {a : GridArray} {l : List ℤ} {δ wl : ℝ} (h : LinearGrid a l δ) (hel : a.element = .isotropicScalar)
    (hp : a.perts = []) [NeZero a.toArrayDesign.size] (hδ : 0 < δ) (hwl : 0 < wl) (hrun : HasRun l 2) (j : Fin a.element.outputSize)
    (cfg : EstCfg (WithTop ℝ) (List (Fin a.size → ℂ))) {x : List ℝ} {names : List String} {u : String}
    (hg : cfg.grid = ⟨.ff1, [⟨x, false⟩], names, [u]⟩) (hu : Unit1D u) (hx : ∀ v ∈ x, InRange1D u v)
    (hxd : x.Nodup) (hamb : ∀ v ∈ x, ∀ w ∈ x, δ * |Real.sin (angleOf u v) - Real.sin (angleOf u w)| < wl)
    (hpf : cfg.peakFinder = findPeaksSimple) (hsort : IsArgsort cfg.argsort)
    (hcomp : cfg.compute = atomColumns1D a.toArrayDesign j wl u)
    (src : FF1D 1) (hsu : src.unit = u) (j0 : ℕ) (hj : x[j0]? = some (src.loc 0)) (h1 : 1 ≤ j0) (h2 : j0 + 1 < x.length)
    {P : Matrix (Fin 1) (Fin 1) ℂ} (hP : P.PosDef) (σ : ℝ) (ops : List (EstOp (WithTop ℝ) (List (Fin a.size → ℂ)))) :
    ∃ S, steering a.toArrayDesign (.ff1 src) wl false "all" = .ok S ∧
      ∃ o st', minNormEstimate eigh cfg (cfg.run ops).1 (covModel (S.A j) P σ) 1 {} = (.ok o, st') ∧
        ∃ sp, o.observe st' = (true, some (some ([[src.loc 0]], u)), sp) := by
  have : NeZero wl := ⟨hwl.ne'⟩
  have hsx : src.loc 0 ∈ x := List.mem_of_getElem? hj
  obtain ⟨hka, S, hS, -, hident⟩ := run_identified h hel hp hδ hwl hrun j hu hx hxd hamb src hsu (fun _ => j0)
    (fun c => by fin_cases c; exact hj) (fun c e h => absurd h (fin_one_lt c e)) (by norm_num)
  obtain ⟨hkn, hus⟩ := linear_usable h hp
  have hsz : a.size = l.length := h.1.2.2
  have hcol : (S.A j).col 0 = response a.toArrayDesign j wl u "all" (src.loc 0) := by
    funext i
    rw [Matrix.col_apply, steering_columns hel j wl "all" src hS, hsu]
  have hnorm : ∀ v ∈ x, ∀ i, ‖response a.toArrayDesign j wl u "all" v i‖ = 1 := fun v hv i => by
    rw [sparse_response h hel hp wl j hu (hx v hv) i (by rw [← hsz]; exact i.2), norm_zpow, phaseFactor_norm', _root_.one_zpow]
  have hpw : ∀ v ∈ x, power (response a.toArrayDesign j wl u "all" v) = a.size := by
    intro v hv
    simp [power, hnorm v hv]
  have hnz : ∀ i, response a.toArrayDesign j wl u "all" (src.loc 0) i ≠ 0 := fun i =>
    norm_ne_zero_iff.1 (by rw [hnorm _ hsx]; exact one_ne_zero)
  refine ⟨S, hS, C102_one_dimensional eigh hel hkn hus j wl cfg hg hu hx hpf hsort hcomp src hsu j0 hj h1 h2 hS
    (fun v hv => by rw [hpw v hv, hpw _ hsx]) (fun v hv => by rw [hnorm v hv, hnorm _ hsx]) (hnz _)
    ⟨⟨1, hka⟩, fun h => absurd (congrArg Fin.val h) (by simp), hnz _⟩ (fun q v hv hq z hz => hq ?_) hP σ ops⟩
  obtain ⟨c, hc⟩ := hident q v hv ⟨fun _ => z, by rw [mulVec_one, hcol]; exact hz⟩
  exact hc

/-- The hypotheses hold for `CoPrimeArray(3, 5)` and a source at `sin θ = -0.4`. -/
example (eigh : Eigh) : ∃ (a : GridArray) (_ : NeZero a.toArrayDesign.size) (S : Steering a.element.outputSize a.size 1)
    (i : Fin a.element.outputSize) (cfg : EstCfg (WithTop ℝ) (List (Fin a.size → ℂ))) (o : _) (st' : _),
    coprime 3 5 (.scalar (1 / 2)) "2m" none {} = .ok a ∧
    steering a.toArrayDesign (.ff1 ⟨![-0.4], "sin"⟩) 1 false "all" = .ok S ∧
    minNormEstimate eigh cfg cfg.init (covModel (S.A i) 1 1) 1 {} = (.ok o, st') ∧
    ∃ sp, o.observe st' = (true, some (some ([[-0.4]], "sin")), sp) := by
  obtain ⟨a, ha⟩ : ∃ a, coprime 3 5 (.scalar (1 / 2)) "2m" none {} = .ok a :=
    (C03_coprime_raises_iff 3 5 _ "2m" none).2.2 ⟨by decide, by right; decide +kernel⟩
  obtain ⟨l, h1, h2, h3, h4⟩ := C101_coprime 3 5 (by norm_num) (by norm_num) _ _ _ a ha
  have hla : 0 < a.element.outputSize := by rw [h2]; decide
  have hsz : a.size = l.length := h1.1.2.2
  have hpos : 0 < l.length := by
    obtain ⟨t, ht⟩ := h4
    exact List.length_pos_of_mem (ht 0 (by norm_num))
  have hne : NeZero a.toArrayDesign.size := ⟨by omega⟩
  have hrg : ∀ y ∈ ([-0.8, -0.4, 0, 0.5, 0.8] : List ℝ), -0.8 ≤ y ∧ y ≤ 0.8 := by
    intro y hy
    simp only [List.mem_cons, List.not_mem_nil, or_false] at hy
    rcases hy with rfl | rfl | rfl | rfl | rfl <;> norm_num
  have hsin : ∀ y ∈ ([-0.8, -0.4, 0, 0.5, 0.8] : List ℝ), Real.sin (angleOf "sin" y) = y := by
    intro y hy
    have := hrg y hy
    simp only [angleOf, String.reduceEq, if_true, if_false]
    exact Real.sin_arcsin (by linarith) (by linarith)
  obtain ⟨S, hS, o, st', ho, sp, hsp⟩ := C102_linear eigh h1 h2 h3 (by norm_num) one_pos h4 ⟨0, hla⟩
    ⟨⟨.ff1, [⟨[-0.8, -0.4, 0, 0.5, 0.8], false⟩], [], ["sin"]⟩, atomColumns1D a.toArrayDesign ⟨0, hla⟩ 1 "sin", findPeaksSimple,
      stableArgsort, true, false⟩ rfl (Or.inr (Or.inr rfl))
    (by
      intro v hv
      have := hrg v hv
      exact Or.inr (Or.inr ⟨rfl, by linarith, by linarith⟩))
    (by norm_num)
    (by
      intro v hv w hw
      rw [hsin v hv, hsin w hw]
      have := hrg v hv
      have := hrg w hw
      have : |v - w| ≤ 1.6 := abs_le.2 ⟨by linarith, by linarith⟩
      linarith)
    rfl stableArgsort_isArgsort rfl
    ⟨![-0.4], "sin"⟩ rfl 1 rfl le_rfl (by decide) PosDef.one 1 []
  exact ⟨a, hne, S, ⟨0, hla⟩, _, o, st', ha, hS, ho, sp, hsp⟩

end Doa.Props
