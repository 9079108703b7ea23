import Verif.Props.CoarrayDetection
import Verif.Props.CoherentNear

/-!
# C108: counting coherent sources

With coherent (multipath) sources the source covariance is singular. `mdl` applied to the sample covariance matrix then counts its rank; applied to
the spatially smoothed matrix it counts the sources.
-/

namespace Doa.Props

open Doa Matrix Doa.Spec Filter Topology MeasureTheory ProbabilityTheory
open scoped ComplexOrder

variable {m k : ℕ}

/-- A positive semidefinite matrix is `B Bᴴ` with as many linearly independent columns as its rank. -/
theorem rank_factor {P : Matrix (Fin k) (Fin k) ℂ} (hP : P.PosSemidef) {r : ℕ} (hr : P.rank = r) :
    ∃ B : Matrix (Fin k) (Fin r) ℂ, P = B * Bᴴ ∧ Function.Injective B.mulVec := by
  obtain ⟨w, E, hw⟩ := exists_isEigh P hP.1
  have hPE : P = E * diagonal (fun j => (w j : ℂ)) * Eᴴ := by
    rw [← hw.eig, Matrix.mul_assoc, hw.orth', Matrix.mul_one]
  have hD : Eᴴ * P * E = diagonal (fun j => (w j : ℂ)) := by
    rw [Matrix.mul_assoc, hw.eig, ← Matrix.mul_assoc, hw.orth, Matrix.one_mul]
  have hw0 : ∀ j, 0 ≤ w j := by
    intro j
    have h1 : (diagonal (fun j => (w j : ℂ))).PosSemidef := by
      rw [← hD]
      exact hP.conjTranspose_mul_mul_same E
    have := h1.diag_nonneg (i := j)
    rw [diagonal_apply_eq] at this
    exact_mod_cast this
  have hcard : Fintype.card {j // w j ≠ 0} = r := by
    have h1 : (diagonal (fun j => (w j : ℂ))).rank = P.rank := by
      have hE : IsUnit E.det := (Matrix.isUnit_iff_isUnit_det E).1 (IsUnit.of_mul_eq_one _ hw.orth')
      have hE' : IsUnit Eᴴ.det := (Matrix.isUnit_iff_isUnit_det Eᴴ).1 (IsUnit.of_mul_eq_one _ hw.orth)
      rw [hPE, Matrix.rank_mul_eq_left_of_isUnit_det _ _ hE', Matrix.rank_mul_eq_right_of_isUnit_det _ _ hE]
    rw [Matrix.rank_diagonal, hr] at h1
    rw [← h1]
    exact Fintype.card_congr (Equiv.subtypeEquivRight fun j => by simp)
  let e : Fin r ≃ {j // w j ≠ 0} := (Fintype.equivFinOfCardEq hcard).symm
  let B : Matrix (Fin k) (Fin r) ℂ := Matrix.of fun i j => E i (e j) * ((Real.sqrt (w (e j)) : ℝ) : ℂ)
  have hsq : ∀ j, ((Real.sqrt (w j) : ℝ) : ℂ) * ((Real.sqrt (w j) : ℝ) : ℂ) = (w j : ℂ) := by
    intro j
    rw [← Complex.ofReal_mul, Real.mul_self_sqrt (hw0 j)]
  refine ⟨B, ?_, ?_⟩
  · ext i i'
    have hL : P i i' = ∑ j, E i j * (w j : ℂ) * star (E i' j) := by
      rw [hPE, Matrix.mul_apply]
      refine Finset.sum_congr rfl fun j _ => ?_
      rw [Matrix.mul_diagonal, conjTranspose_apply]
    have hR : (B * Bᴴ) i i' = ∑ j : Fin r, E i (e j) * (w (e j) : ℂ) * star (E i' (e j)) := by
      rw [Matrix.mul_apply]
      refine Finset.sum_congr rfl fun j _ => ?_
      rw [conjTranspose_apply, ← hsq]
      simp only [B, Matrix.of_apply, star_mul', RCLike.star_def, Complex.conj_ofReal]
      ring
    rw [hL, hR, Equiv.sum_comp e (fun j => E i j * (w j : ℂ) * star (E i' j)),
      ← Finset.sum_subtype (Finset.univ.filter fun j => w j ≠ 0) (by simp) (fun j => E i j * (w j : ℂ) * star (E i' j))]
    refine (Finset.sum_filter_of_ne fun j _ hj => ?_).symm
    intro h0
    rw [h0] at hj
    simp at hj
  · refine (injective_iff_map_eq_zero (Matrix.mulVecLin B)).2 fun x hx => ?_
    have hx' : B *ᵥ x = 0 := hx
    have h1 : ∀ j, (Eᴴ * B) j = fun q => if j = (e q : Fin k) then ((Real.sqrt (w (e q)) : ℝ) : ℂ) else 0 := by
      intro j
      funext q
      have h2 : (Eᴴ * B) j q = (Eᴴ * E) j (e q) * ((Real.sqrt (w (e q)) : ℝ) : ℂ) := by
        rw [Matrix.mul_apply, Matrix.mul_apply, Finset.sum_mul]
        refine Finset.sum_congr rfl fun i _ => ?_
        simp only [B, Matrix.of_apply]
        ring
      rw [h2, hw.orth, Matrix.one_apply]
      split <;> simp
    funext q
    have h3 : (Eᴴ *ᵥ (B *ᵥ x)) (e q) = 0 := by rw [hx']; simp
    rw [Matrix.mulVec_mulVec] at h3
    simp only [Matrix.mulVec, dotProduct, h1] at h3
    rw [Finset.sum_eq_single q] at h3
    · rw [if_pos rfl] at h3
      have hpos : Real.sqrt (w (e q)) ≠ 0 := (Real.sqrt_pos.2 (lt_of_le_of_ne (hw0 _) (Ne.symm (e q).2))).ne'
      exact (mul_eq_zero.1 h3).resolve_left (by exact_mod_cast hpos)
    · intro q' _ hq
      rw [if_neg, zero_mul]
      intro h4
      exact hq (e.injective (Subtype.ext h4)).symm
    · simp

/-- **C108** (undercounting). Sources with linearly independent steering vectors and any (possibly singular) covariance `P` in white noise. The
probability that `mdl`, given the sample covariance matrix of `n` snapshots and `n`, does not report the rank of `P` is at most `C / log n`:
coherent sources are not counted separately, however many snapshots there are. -/
theorem C108_rank {sqrtm : Sqrtm} (hs : IsSqrtm sqrtm) (a : ArrayDesign) (src : Sources k) (wl : ℝ) (out)
    (hA : steering a src wl false "all" = .ok out) (hone : a.element.outputSize = 1) {C1 C2 : CovArg} {g1 : StoGen k} {g2 : StoGen a.size}
    (hg1 : stoInit sqrtm k C1 = .ok g1) (hg2 : stoInit sqrtm a.size C2 = .ok g2) {P} (hPd : Denotes k C1 P) (hP : P.PosSemidef)
    {σ : ℝ} (hσ : 0 < σ) (hQd : Denotes a.size C2 ((σ : ℂ) • (1 : Matrix (Fin a.size) (Fin a.size) ℂ)))
    {ν : Measure ℝ} [IsProbabilityMeasure ν] (hν : UnitLaw ν) (h4 : MemLp id 4 ν) (l : Fin a.element.outputSize)
    (hinj : Function.Injective (out.A l).mulVec) (hk : P.rank < a.size) :
    ∃ C : ℝ, 0 ≤ C ∧ ∀ n : ℕ, 2 ≤ n → (Measure.pi fun _ : Fin n => Measure.pi fun _ => ν)
      {d : Fin n → SnapshotDraw k a.size | ¬ ∃ Y R, experiment a src wl g1 g2 n d = .ok ⟨n, Y, R⟩ ∧
        ∀ f : EigvalshFn, f.Spec → mdl f (.mat a.size (R l)) n = .ok P.rank} ≤ ENNReal.ofReal (C / Real.log n) := by
  obtain ⟨B, hB, hBi⟩ := rank_factor hP rfl
  have hAB : Function.Injective (out.A l * B).mulVec := by
    have : (out.A l * B).mulVec = (out.A l).mulVec ∘ B.mulVec := by
      funext x
      simp [Matrix.mulVec_mulVec]
    rw [this]
    exact hinj.comp hBi
  have hcov : covModel (out.A l * B) (1 : Matrix (Fin P.rank) (Fin P.rank) ℂ) σ =
      out.A l * P * (out.A l)ᴴ + (σ : ℂ) • (1 : Matrix (Fin a.size) (Fin a.size) ℂ) := by
    rw [covModel, Matrix.mul_one, conjTranspose_mul]
    congr 1
    conv_rhs => rw [hB]
    simp only [Matrix.mul_assoc]
  obtain ⟨δ, hδ, c, hc, N₀, hmdl⟩ := C89_mdl hAB PosDef.one hσ hk
  rw [hcov] at hmdl
  obtain ⟨C, hC, hrate⟩ := C88_rate hs a src wl out hA hone hg1 hg2 hPd hQd hP (scaled_one_posSemidef hσ.le) hν h4 l
  refine log_rate (fun n => Measure.pi fun _ : Fin n => Measure.pi fun _ => ν) _
    (fun n r => {d : Fin n → SnapshotDraw k a.size | ¬ ∃ Y R, experiment a src wl g1 g2 n d = .ok ⟨n, Y, R⟩ ∧
      (R l).IsHermitian ∧ ∀ i j, ‖R l i j - (out.A l * P * (out.A l)ᴴ +
        (σ : ℂ) • (1 : Matrix (Fin a.size) (Fin a.size) ℂ)) i j‖ < r})
    (C := C) (δ := δ) (c := c) hδ hc N₀ hrate ?_
  intro n hn _ r hr0 hrδ hrn d hd hc'
  obtain ⟨Y, R, e1, e2, e3⟩ := hc'
  exact hd ⟨Y, R, e1, fun f hf => hmdl (R l) e2 (fun i j => (e3 i j).trans hrδ) r (fun i j => (e3 i j).le) n hn hrn f hf⟩

/-- Smoothing near the exact covariance of possibly coherent sources, with the size of the deviation. -/
theorem smoothing_lipschitz {N : ℕ} (hN : N = m) {z : Fin k → ℂ} (hz : Function.Injective z) (hz1 : ∀ c, ‖z c‖ = 1)
    {P : Matrix (Fin k) (Fin k) ℂ} (hP : P.PosSemidef) (hpow : ∀ c, P c c ≠ 0) (σ : ℝ)
    (l : ℕ) (hl : 1 ≤ l) (hlm : l ≤ m) (hkl : k ≤ l) (fb cplx : Bool) (hfb : fb = true → cplx = true) :
    ∃ Q : Matrix (Fin k) (Fin k) ℂ, Q.PosDef ∧ ∀ r : ℝ, ∀ (h : MatHeap) (R : MatView), ViewOk h R → R.shape = (m, m) →
      (viewMat h R N).IsHermitian → (∀ i j, ‖viewMat h R N i j - covModel (ulaMat N z) P σ i j‖ < r) →
        ∃ h' v, spatialSmooth h R l fb cplx = .ok (h', v) ∧ v.shape = (m - l + 1, m - l + 1) ∧ (viewMat h' v (m - l + 1)).IsHermitian ∧
          ∀ i j, ‖viewMat h' v (m - l + 1) i j - covModel (ulaMat (m - l + 1) z) Q σ i j‖ ≤ r := by
  subst hN
  set M := covModel (ulaMat N z) P σ with hM
  obtain ⟨h2', v2, e1, e2, Q, hQ, e3⟩ := smoothing_input (heapOf M) ⟨0, (0, 0), (N, N)⟩ (by simp [ViewOk, heapOf]) rfl hz hz1 hP hpow σ
    (heapOf_view M) l hl hlm hkl fb cplx hfb
  refine ⟨Q, hQ, fun r h R hok hsh hH hn => ?_⟩
  obtain ⟨h', v, g', v', a1, a2, a3, a4, a5⟩ := C99_nonexpansive h R hok (heapOf M) ⟨0, (0, 0), (N, N)⟩ (by simp [ViewOk, heapOf]) hsh rfl l hl hlm
    fb cplx (δ := r) (fun i j hi hj => by
      have := (hn ⟨i, hi⟩ ⟨j, hj⟩).le
      rw [← heapOf_view M] at this
      exact this)
  rw [e1] at a2
  obtain ⟨rfl, rfl⟩ := Prod.mk.inj (Except.ok.inj a2)
  refine ⟨h', v, a1, a3, ?_, fun i j => ?_⟩
  · obtain ⟨h3, v3, c1, c2, -⟩ := C49_structure h R hok N hsh l hl hlm fb true (by simp)
    have : spatialSmooth h R l fb true = .ok (h', v) := by
      cases fb with
      | false => rw [← a1]; exact spatialSmooth_forward _ _ _ _ _
      | true => rw [← a1, hfb rfl]
    rw [this] at c1
    obtain ⟨rfl, rfl⟩ := Prod.mk.inj (Except.ok.inj c1)
    exact c2 hH
  · rw [← e3]
    exact a5 i.1 j.1 i.2 j.2

/-- **C108** (counting after smoothing). A ULA of `m` elements, `k` sources with nonzero powers at distinct unambiguous directions, coherent or not, in
white noise. `spatial_smooth` with at least `k` subarrays of more than `k` elements, then `mdl` with the smoothed sample covariance matrix and
the number `n` of snapshots: the probability that the number reported is not `k` is at most `C / log n`. -/
theorem C108_smoothed {sqrtm : Sqrtm} (hs : IsSqrtm sqrtm) {d wl : ℝ} (hd : 0 < d) (hwl : 0 < wl) {name : Option String} {a : GridArray}
    (ha : ula m (.scalar d) name {} = .ok a) (i : Fin a.element.outputSize)
    (src : FF1D k) (hsrc : Valid1D src) (hinj : Function.Injective src.loc)
    (hamb : ∀ c e, d * |Real.sin (angleOf src.unit (src.loc c)) - Real.sin (angleOf src.unit (src.loc e))| < wl)
    (l : ℕ) (hl : 1 ≤ l) (hlm : l ≤ m) (hkl : k ≤ l) (hkn : k < m - l + 1) (fb cplx : Bool) (hfb : fb = true → cplx = true)
    {C1 C2 : CovArg} {g1 : StoGen k} {g2 : StoGen a.size}
    (hg1 : stoInit sqrtm k C1 = .ok g1) (hg2 : stoInit sqrtm a.size C2 = .ok g2)
    {P : Matrix (Fin k) (Fin k) ℂ} (hPd : Denotes k C1 P) (hP : P.PosSemidef) (hpow : ∀ c, P c c ≠ 0) {σ : ℝ} (hσ : 0 < σ)
    (hQd : Denotes a.size C2 ((σ : ℂ) • (1 : Matrix (Fin a.size) (Fin a.size) ℂ)))
    {ν : Measure ℝ} [IsProbabilityMeasure ν] (hν : UnitLaw ν) (h4 : MemLp id 4 ν) :
    ∃ C : ℝ, 0 ≤ C ∧ ∀ n : ℕ, 2 ≤ n → (Measure.pi fun _ : Fin n => Measure.pi fun _ => ν)
      {w : Fin n → SnapshotDraw k a.size | ¬ ∃ Y R0, experiment a.toArrayDesign (.ff1 src) wl g1 g2 n w = .ok ⟨n, Y, R0⟩ ∧
        ∀ (h : MatHeap) (R : MatView), ViewOk h R → R.shape = (m, m) → viewMat h R a.size = R0 i →
          ∃ h' v, spatialSmooth h R l fb cplx = .ok (h', v) ∧ v.shape = (m - l + 1, m - l + 1) ∧
            ∀ f : EigvalshFn, f.Spec → mdl f (.mat (m - l + 1) (viewMat h' v (m - l + 1))) n = .ok k} ≤ ENNReal.ofReal (C / Real.log n) := by
  have : NeZero wl := ⟨hwl.ne'⟩
  have hz : Function.Injective fun c => phaseFactor d wl src.unit (src.loc c) := fun c e hce =>
    hinj (phaseFactor_inj hd hwl (hsrc.2 c) (hsrc.2 e) (hamb c e) hce)
  obtain ⟨S, hS, hSv⟩ := ula_steering ha src hsrc wl "all" (by simp)
  have hSm : S.A i = ulaMat a.size fun c => phaseFactor d wl src.unit (src.loc c) := by
    funext r c
    exact hSv _ r c
  obtain ⟨Q, hQ, key⟩ := smoothing_lipschitz (m := m) (N := a.size) (C01_ula_geometry m d name {} a ha).1 hz
    (fun c => phaseFactor_norm _ _ _ _) hP hpow σ l hl hlm hkl fb cplx hfb
  obtain ⟨η, hη, c, hc, N₀, hmdl⟩ := C89_mdl (m := m - l + 1) (ulaMat_injective hz hkn.le) hQ hσ hkn
  obtain ⟨C, hC, hrate⟩ := C88_rate hs a.toArrayDesign (.ff1 src) wl S hS (grid_scalar ha) hg1 hg2 hPd hQd hP
    (scaled_one_posSemidef hσ.le) hν h4 i
  refine log_rate (fun n => Measure.pi fun _ : Fin n => Measure.pi fun _ => ν) _
    (fun n r => {w : Fin n → SnapshotDraw k a.size | ¬ ∃ Y R, experiment a.toArrayDesign (.ff1 src) wl g1 g2 n w = .ok ⟨n, Y, R⟩ ∧
      (R i).IsHermitian ∧ ∀ p q, ‖R i p q - (S.A i * P * (S.A i)ᴴ +
        (σ : ℂ) • (1 : Matrix (Fin a.size) (Fin a.size) ℂ)) p q‖ < r})
    (C := C) (δ := η) (c := c) hη hc N₀ hrate ?_
  intro n hn _ r hr0 hrδ hrn w hw hc'
  obtain ⟨Y, R0, e1, e2, e3⟩ := hc'
  refine hw ⟨Y, R0, e1, fun h R hok hsh hv => ?_⟩
  have e3' : ∀ p q, ‖viewMat h R a.size p q - covModel (ulaMat a.size fun c => phaseFactor d wl src.unit (src.loc c)) P σ p q‖ < r := by
    intro p q
    rw [hv, ← hSm]
    exact e3 p q
  obtain ⟨h', v, b1, b2, b3, b4⟩ := key r h R hok hsh (by rw [hv]; exact e2) e3'
  exact ⟨h', v, b1, b2, fun f hf => hmdl _ b3 (fun p q => (b4 p q).trans_lt hrδ) r b4 n hn hrn f hf⟩

/-- **C108** (counting and locating coherent sources). The program that smooths the sample covariance matrix, asks `mdl` for the number of sources and
passes both to ESPRIT returns `k` and `k` directions, each within `ε` of a true one, except with probability at most `C / log n`. -/
theorem C108_locates {sqrtm : Sqrtm} (hs : IsSqrtm sqrtm) {d wl : ℝ} (hd : 0 < d) (hwl : 0 < wl) {name : Option String} {a : GridArray}
    (ha : ula m (.scalar d) name {} = .ok a) (i : Fin a.element.outputSize)
    (src : FF1D k) (hsrc : Valid1D src) (hinj : Function.Injective src.loc) (hstrict : ∀ c, |Real.sin (angleOf src.unit (src.loc c))| < 1)
    (disp : ℕ) (hdisp : 1 ≤ disp)
    (hamb : ∀ c, |2 * Real.pi * (d * disp) / wl * Real.sin (angleOf src.unit (src.loc c))| < Real.pi)
    (l : ℕ) (hl : 1 ≤ l) (hlm : l ≤ m) (hkl : k ≤ l) (hkn : k + disp ≤ m - l + 1) (fb cplx : Bool) (hfb : fb = true → cplx = true)
    (d0 : Option ℝ) (hd0 : d0 = some d ∨ d0 = none ∧ d = wl / 2) (form : String) (hform : form = "ls" ∨ form = "tls")
    (unit : String) (hunit : Unit1D unit)
    {C1 C2 : CovArg} {g1 : StoGen k} {g2 : StoGen a.size}
    (hg1 : stoInit sqrtm k C1 = .ok g1) (hg2 : stoInit sqrtm a.size C2 = .ok g2)
    {P : Matrix (Fin k) (Fin k) ℂ} (hPd : Denotes k C1 P) (hP : P.PosSemidef) (hpow : ∀ c, P c c ≠ 0) {σ : ℝ} (hσ : 0 < σ)
    (hQd : Denotes a.size C2 ((σ : ℂ) • (1 : Matrix (Fin a.size) (Fin a.size) ℂ)))
    {ν : Measure ℝ} [IsProbabilityMeasure ν] (hν : UnitLaw ν) (h4 : MemLp id 4 ν) {ε : ℝ} (hε : 0 < ε) :
    ∃ C : ℝ, 0 ≤ C ∧ ∀ n : ℕ, 2 ≤ n → (Measure.pi fun _ : Fin n => Measure.pi fun _ => ν)
      {w : Fin n → SnapshotDraw k a.size | ¬ ∃ Y R0, experiment a.toArrayDesign (.ff1 src) wl g1 g2 n w = .ok ⟨n, Y, R0⟩ ∧
        ∀ (h : MatHeap) (R : MatView), ViewOk h R → R.shape = (m, m) → viewMat h R a.size = R0 i →
          ∃ h' v, spatialSmooth h R l fb cplx = .ok (h', v) ∧ v.shape = (m - l + 1, m - l + 1) ∧
            ∀ (f : EigvalshFn) (eigh : Eigh) (ev : NpEigvals), f.Spec →
              ∃ s : FF1D k, detectThen f (viewMat h' v (m - l + 1)) n
                  (fun r => espritEstimate eigh ev wl (viewMat h' v (m - l + 1)) r d0 disp form (.str "none") unit) = .ok ⟨k, s⟩ ∧
                s.unit = unit ∧ Monotone s.loc ∧
                ∃ π : Equiv.Perm (Fin k), ∀ c, |s.loc c - reprIn unit (angleOf src.unit (src.loc (π c)))| < ε} ≤
      ENNReal.ofReal (C / Real.log n) := by
  obtain ⟨C, hC, h1⟩ := C108_smoothed hs hd hwl ha i src hsrc hinj
    (fun c e => unambiguous_of_phase hd hwl hdisp (hamb c) (hamb e)) l hl hlm hkl (by omega) fb cplx hfb hg1 hg2 hPd hP hpow hσ hQd hν h4
  obtain ⟨S, hS, hn⟩ := C99_esprit hd hwl ha i src hsrc hinj hstrict disp hdisp hamb hP hpow σ l hl hlm hkl hkn fb cplx hfb d0 hd0 form hform
    unit hunit
  obtain ⟨C', hC', h2⟩ := C88_property hs a.toArrayDesign (.ff1 src) wl S hS (grid_scalar ha) hg1 hg2 hPd hQd hP
    (scaled_one_posSemidef hσ.le) hν h4 i _ (hn ε hε)
  refine ⟨C + C', by positivity, fun n hn => ?_⟩
  have hlog : 0 < Real.log n := Real.log_pos (by exact_mod_cast (by omega : 1 < n))
  have hln : Real.log n ≤ n := (Real.log_le_self (Nat.cast_nonneg n))
  rw [add_div, ENNReal.ofReal_add (by positivity) (by positivity)]
  refine le_trans (measure_mono ?_) ((experiment_both a.toArrayDesign (.ff1 src) wl g1 g2 n
    (fun R0 => ∀ (h : MatHeap) (R : MatView), ViewOk h R → R.shape = (m, m) → viewMat h R a.size = R0 →
      ∃ h' v, spatialSmooth h R l fb cplx = .ok (h', v) ∧ v.shape = (m - l + 1, m - l + 1) ∧
        ∀ f : EigvalshFn, f.Spec → mdl f (.mat (m - l + 1) (viewMat h' v (m - l + 1))) n = .ok k)
    (fun R0 => ∀ (h : MatHeap) (R : MatView), ViewOk h R → R.shape = (m, m) → viewMat h R a.size = R0 →
      ∃ h' v, spatialSmooth h R l fb cplx = .ok (h', v) ∧ v.shape = (m - l + 1, m - l + 1) ∧
        ∀ (eigh : Eigh) (ev : NpEigvals),
          ∃ s, espritEstimate eigh ev wl (viewMat h' v (m - l + 1)) k d0 disp form (.str "none") unit = .ok s ∧
            s.unit = unit ∧ Monotone s.loc ∧
            ∃ π : Equiv.Perm (Fin k), ∀ c, |s.loc c - reprIn unit (angleOf src.unit (src.loc (π c)))| < ε) i (h1 n hn) (h2 n (by omega))).trans
    (add_le_add le_rfl (ENNReal.ofReal_le_ofReal (div_le_div_of_nonneg_left hC' hlog hln))))
  intro w hw hc
  obtain ⟨Y, R0, e1, e2, e3⟩ := hc
  refine hw ⟨Y, R0, e1, fun h R hok hsh hv => ?_⟩
  obtain ⟨h', v, b1, b2, b3⟩ := e2 h R hok hsh hv
  obtain ⟨h3, v3, d1, -, d3⟩ := e3 h R hok hsh hv
  rw [b1] at d1
  obtain ⟨rfl, rfl⟩ := Prod.mk.inj (Except.ok.inj d1)
  refine ⟨h', v, b1, b2, fun f eigh ev hf => ?_⟩
  obtain ⟨s, hs1, hs2⟩ := d3 eigh ev
  exact ⟨s, by rw [detectThen, b3 f hf]; simp [Except.bind, hs1], hs2⟩

/-- The covariance of two fully coherent sources has rank one. -/
theorem coherent_rank : (Matrix.of fun _ _ : Fin 2 => (1 : ℂ)).rank = 1 := by
  have h1 : (Matrix.of fun _ _ : Fin 2 => (1 : ℂ)) = vecMulVec (fun _ => 1) (fun _ => 1) := by
    ext i j
    simp [vecMulVec_apply]
  refine le_antisymm (by rw [h1]; exact rank_vecMulVec_le _ _) ?_
  rw [Nat.one_le_iff_ne_zero, Ne]
  intro h0
  have hb := Submodule.finrank_eq_zero.mp h0
  have hm := LinearMap.mem_range_self (Matrix.of fun _ _ : Fin 2 => (1 : ℂ)).mulVecLin ![1, 0]
  rw [hb, Submodule.mem_bot] at hm
  have := congrFun hm 0
  simp [Matrix.mulVec, dotProduct, Fin.sum_univ_two] at this

/-- Non-vacuity: two fully coherent sources at `sin θ = ±0.5`, four sensors, normally distributed draws. As the number of snapshots grows, `mdl`
reports one source for the sample covariance matrix, and two after forward-backward smoothing. -/
example : ∃ (a : GridArray) (i : Fin a.element.outputSize) (g1 : StoGen 2) (g2 : StoGen a.size) (C C' : ℝ),
    ula 4 (.scalar (1 / 2)) none {} = .ok a ∧ stoInit someSqrtm 2 (.matrix ⟨2, 2, Matrix.of fun _ _ => 1⟩) = .ok g1 ∧
    ∀ n : ℕ, 2 ≤ n →
      (Measure.pi fun _ : Fin n => Measure.pi fun _ => gaussianReal 0 1)
        {d : Fin n → SnapshotDraw 2 a.size | ¬ ∃ Y R, experiment a.toArrayDesign (.ff1 ⟨![-0.5, 0.5], "sin"⟩) 1 g1 g2 n d = .ok ⟨n, Y, R⟩ ∧
          ∀ f : EigvalshFn, f.Spec → mdl f (.mat a.size (R i)) n = .ok 1} ≤ ENNReal.ofReal (C / Real.log n) ∧
      (Measure.pi fun _ : Fin n => Measure.pi fun _ => gaussianReal 0 1)
        {d : Fin n → SnapshotDraw 2 a.size | ¬ ∃ Y R0, experiment a.toArrayDesign (.ff1 ⟨![-0.5, 0.5], "sin"⟩) 1 g1 g2 n d = .ok ⟨n, Y, R0⟩ ∧
          ∀ (h : MatHeap) (R : MatView), ViewOk h R → R.shape = (4, 4) → viewMat h R a.size = R0 i →
            ∃ h' v, spatialSmooth h R (2 : ℕ) true true = .ok (h', v) ∧ v.shape = (4 - 2 + 1, 4 - 2 + 1) ∧
              ∀ (f : EigvalshFn) (eigh : Eigh) (ev : NpEigvals), f.Spec →
                ∃ s : FF1D 2, detectThen f (viewMat h' v (4 - 2 + 1)) n
                    (fun r => espritEstimate eigh ev 1 (viewMat h' v (4 - 2 + 1)) r none 1 "tls" (.str "none") "deg") = .ok ⟨2, s⟩ ∧
                  s.unit = "deg" ∧ Monotone s.loc ∧
                  ∃ π : Equiv.Perm (Fin 2), ∀ c, |s.loc c - reprIn "deg" (angleOf "sin" ((![-0.5, 0.5] : Fin 2 → ℝ) (π c)))| < 0.001} ≤
        ENNReal.ofReal (C' / Real.log n) := by
  obtain ⟨a, ha⟩ := ula_ok 4 (1 / 2) none
  have hsize : a.size = 4 := (C01_ula_geometry 4 _ none {} a ha).1
  have hla : 0 < a.element.outputSize := by rw [(gridInit_spec ha).2.2.1]; decide
  have hpi := Real.pi_pos
  have hrg : ∀ c, -0.5 ≤ (![-0.5, 0.5] : Fin 2 → ℝ) c ∧ (![-0.5, 0.5] : Fin 2 → ℝ) c ≤ 0.5 := by
    intro c
    fin_cases c
    · show (-0.5 : ℝ) ≤ -0.5 ∧ (-0.5 : ℝ) ≤ 0.5
      norm_num
    · show (-0.5 : ℝ) ≤ 0.5 ∧ (0.5 : ℝ) ≤ 0.5
      norm_num
  have hsin : ∀ c, Real.sin (angleOf "sin" ((![-0.5, 0.5] : Fin 2 → ℝ) c)) = (![-0.5, 0.5] : Fin 2 → ℝ) c := by
    intro c
    have := hrg c
    simp only [angleOf, String.reduceEq, if_false, if_true]
    exact Real.sin_arcsin (by linarith [this.1]) (by linarith [this.2])
  have hinj : StrictMono (![-0.5, 0.5] : Fin 2 → ℝ) := by
    rw [Fin.strictMono_iff_lt_succ]
    intro i
    fin_cases i
    show (-0.5 : ℝ) < 0.5
    norm_num
  have hv : Valid1D (⟨![-0.5, 0.5], "sin"⟩ : FF1D 2) :=
    ⟨Or.inr (Or.inr rfl), fun c => Or.inr (Or.inr ⟨rfl, by linarith [(hrg c).1], by linarith [(hrg c).2]⟩)⟩
  have hP : Denotes 2 (.matrix ⟨2, 2, Matrix.of fun _ _ => 1⟩) (Matrix.of fun _ _ : Fin 2 => (1 : ℂ)) := rfl
  have hQ : Denotes a.size (.scalar 1) (((1 : ℝ) : ℂ) • (1 : Matrix (Fin a.size) (Fin a.size) ℂ)) := by
    show _ = _
    ext i j
    simp [Matrix.one_apply]
  obtain ⟨g1, hg1⟩ := ((C56_accepts someSqrtm 2 (.matrix ⟨2, 2, Matrix.of fun _ _ => 1⟩)).1).2 ⟨_, hP⟩
  obtain ⟨g2, hg2⟩ := ((C56_accepts someSqrtm a.size (.scalar 1)).1).2 ⟨_, hQ⟩
  have hamb : ∀ c, |2 * Real.pi * (1 / 2 * (1 : ℕ)) / 1 * Real.sin (angleOf "sin" ((![-0.5, 0.5] : Fin 2 → ℝ) c))| < Real.pi := by
    intro c
    have h1 := hrg c
    rw [hsin c, abs_lt]
    push_cast
    constructor <;> nlinarith [h1.1, h1.2]
  obtain ⟨S, hS, -⟩ := ula_steering ha ⟨![-0.5, 0.5], "sin"⟩ hv 1 "all" (by simp)
  have hA := uniform_injective (by norm_num) one_pos ha ⟨![-0.5, 0.5], "sin"⟩ hv hinj.injective (by norm_num)
    (fun c e => unambiguous_of_phase (by norm_num) one_pos le_rfl (hamb c) (hamb e)) hS ⟨0, hla⟩
  obtain ⟨C, -, k1⟩ := C108_rank someSqrtm_spec a.toArrayDesign (.ff1 ⟨![-0.5, 0.5], "sin"⟩) 1 S hS (grid_scalar ha) hg1 hg2 hP
    coherent_posSemidef one_pos hQ unitLaw_gaussian (memLp_id_gaussianReal 4) ⟨0, hla⟩ hA
    (by rw [coherent_rank]; show 1 < a.size; omega)
  rw [coherent_rank] at k1
  obtain ⟨C', -, k2⟩ := C108_locates (k := 2) (m := 4) someSqrtm_spec (by norm_num) one_pos ha ⟨0, hla⟩ ⟨![-0.5, 0.5], "sin"⟩ hv hinj.injective
    (by
      intro c
      rw [hsin c, abs_lt]
      constructor <;> linarith [(hrg c).1, (hrg c).2])
    1 le_rfl hamb 2 (by norm_num) (by norm_num) le_rfl (by norm_num) true true (fun _ => rfl) none (Or.inr ⟨rfl, rfl⟩) "tls" (Or.inr rfl)
    "deg" (Or.inr (Or.inl rfl)) hg1 hg2 hP coherent_posSemidef (by simp) one_pos hQ unitLaw_gaussian (memLp_id_gaussianReal 4)
    (ε := 0.001) (by norm_num)
  exact ⟨a, ⟨0, hla⟩, g1, g2, C, C', ha, hg1, fun n hn => ⟨k1 n hn, k2 n hn⟩⟩

end Doa.Props
