import Verif.Props.EspritNear
import Verif.Props.CoarrayEstimation

/-!
# C86: coarray estimation is stable and consistent

The coarray transforms are continuous, so what C70 says about the exact covariance matrix carries over to covariance matrices close to it
and to simulated experiments.
-/

namespace Doa.Props

open Doa Matrix Doa.Spec Filter Topology MeasureTheory
open scoped ComplexOrder

variable {m k : ℕ}

/-- The coarray transforms are continuous and keep Hermitian matrices Hermitian. -/
theorem acm_near {a : GridArray} {l : List ℤ} (h : Is1DGrid a l) {w0 w : WeightFunction}
    (hw0 : WeightFunction.init a = .ok w0) (hr : WReach w0 w) {n : ℕ} (hn : n = l.length) (R0 : Matrix (Fin n) (Fin n) ℂ)
    (method : String) (hm : method = "da" ∨ method = "ss") {v : ℕ} {T0 : Matrix (Fin v) (Fin v) ℂ}
    (h0 : (acmTransform w R0 method).1 = .ok ⟨v, T0⟩) {good : Matrix (Fin v) (Fin v) ℂ → Prop}
    (hgood : ∀ᶠ T in 𝓝 T0, T.IsHermitian → good T) :
    ∀ᶠ R in 𝓝 R0, R.IsHermitian → ∃ T, (acmTransform w R method).1 = .ok ⟨v, T⟩ ∧ good T := by
  subst hn
  have hne : l ≠ [] := by
    rintro rfl
    rw [C28_empty h hw0 hr] at h0
    cases h0
  obtain ⟨v', -, -, hv', -⟩ := C28_acm h hw0 hr hne R0
  let g : Matrix (Fin l.length) (Fin l.length) ℂ → Matrix (Fin v') (Fin v') ℂ := fun R =>
    Matrix.of fun r c => pairAverage l R ((r.1 : ℤ) - c.1)
  let G : Matrix (Fin l.length) (Fin l.length) ℂ → Matrix (Fin v') (Fin v') ℂ := fun R =>
    if method = "da" then g R else (1 / (v' : ℂ)) • (g R * (g R)ᴴ)
  have hG : ∀ R : Matrix (Fin l.length) (Fin l.length) ℂ, (acmTransform w R method).1 = .ok ⟨v', G R⟩ ∧ (R.IsHermitian → (G R).IsHermitian) := by
    intro R
    obtain ⟨v1, T, S, hv1, hT, hS, hTe, hTh, hSe, hSp, -⟩ := C28_acm h hw0 hr hne R
    obtain rfl := hv1.unique hv'
    have hTg : T = g R := by
      ext r c
      exact hTe r c
    rcases hm with rfl | rfl
    · simp only [G, if_true]
      rw [← hTg]
      exact ⟨hT, hTh⟩
    · simp only [G, String.reduceEq, if_false]
      rw [← hTg, ← hSe]
      exact ⟨hS, fun _ => hSp.1⟩
  have hgc : Tendsto g (𝓝 R0) (𝓝 (g R0)) := by
    refine tendsto_pi_nhds.2 fun r => tendsto_pi_nhds.2 fun c => ?_
    simp only [g, Matrix.of_apply, pairAverage]
    refine Tendsto.div_const (tendsto_finsetSum _ fun q _ => ?_) _
    exact (continuous_id.matrix_elem q.1 q.2).tendsto R0
  have hGc : Tendsto G (𝓝 R0) (𝓝 (G R0)) := by
    rcases hm with rfl | rfl
    · simpa only [G, if_true] using hgc
    · simp only [G, String.reduceEq, if_false]
      have h1 := tendsto_matMul hgc (tendsto_conjTranspose hgc)
      refine tendsto_pi_nhds.2 fun r => tendsto_pi_nhds.2 fun c => ?_
      exact ((tendsto_pi_nhds.1 ((tendsto_pi_nhds.1 h1) r)) c).const_mul _
  have e := (hG R0).1
  rw [h0, Except.ok.injEq, SqMat.mk.injEq] at e
  obtain ⟨rfl, e2⟩ := e
  have e3 : T0 = G R0 := eq_of_heq e2
  rw [e3] at hgood
  filter_upwards [hGc.eventually hgood] with R hR hH
  exact ⟨G R, (hG R).1, hR ((hG R).2 hH)⟩

/-- Entries close to those of a matrix: from the `δ` form to neighbourhoods. -/
theorem eventually_of_near {R0 : Matrix (Fin m) (Fin m) ℂ} {p : Matrix (Fin m) (Fin m) ℂ → Prop} {δ : ℝ} (hδ : 0 < δ)
    (h : ∀ R, R.IsHermitian → (∀ i j, ‖R i j - R0 i j‖ < δ) → p R) : ∀ᶠ R in 𝓝 R0, R.IsHermitian → p R := by
  have h1 : ∀ᶠ R in 𝓝 R0, ∀ i j, ‖R i j - R0 i j‖ < δ := by
    rw [eventually_all]
    intro i
    rw [eventually_all]
    intro j
    have h2 : Tendsto (fun R : Matrix (Fin m) (Fin m) ℂ => ‖R i j - R0 i j‖) (𝓝 R0) (𝓝 ‖R0 i j - R0 i j‖) :=
      ((((continuous_id.matrix_elem i j).sub continuous_const).norm).tendsto R0)
    rw [sub_self, norm_zero] at h2
    exact h2.eventually_lt_const hδ
  filter_upwards [h1] with R hR hH using h R hH hR

/-- **C86** (ESPRIT). Unperturbed linear grid array of isotropic elements at the distinct positions `l[i] * δ`, uncorrelated sources, at most
`v - displacement` of them with `v` the size of the hole-free central segment of the difference coarray.  For every `ε > 0` there is an
`η > 0` such that from every Hermitian matrix whose entries are closer than `η` to those of the exact covariance matrix coarray ESPRIT
(either transform, either formulation) returns one direction within `ε` of each true one, sorted and in the requested unit. -/
theorem C86_esprit {a : GridArray} {l : List ℤ} {δ : ℝ} (h : LinearGrid a l δ) (hδ : a.d0 = [δ])
    (hδ0 : 0 < δ) (hnd : l.Nodup) (hel : a.element = .isotropicScalar) (hpert : a.perts = [])
    {w0 w : WeightFunction} (hw0 : WeightFunction.init a = .ok w0) (hr : WReach w0 w) {wl : ℝ} (hwl : 0 < wl)
    (src : FF1D k) (hsrc : Valid1D src) (hinj : Function.Injective src.loc)
    (hstrict : ∀ c, |Real.sin (angleOf src.unit (src.loc c))| < 1) (disp : ℕ) (hdisp : 1 ≤ disp)
    (hamb : ∀ c, |2 * Real.pi * (δ * disp) / wl * Real.sin (angleOf src.unit (src.loc c))| < Real.pi)
    {v : ℕ} (hv : IsCentralSize l v) (hkv : k + disp ≤ v)
    (d0 : Option ℝ) (hd0 : d0 = some δ ∨ d0 = none ∧ δ = wl / 2) (form : String) (hform : form = "ls" ∨ form = "tls")
    {p : Fin k → ℝ} (hp : ∀ c, 0 < p c) {σ : ℝ} (method : String) (hm : method = "da" ∨ method = "ss" ∧ 0 ≤ σ)
    (unit : String) (hunit : Unit1D unit) :
    ∃ S : Steering a.element.outputSize a.size k, steering a.toArrayDesign (.ff1 src) wl false "all" = .ok S ∧
      ∀ i, ∀ ε > 0, ∃ η > 0, ∀ R : Matrix (Fin a.size) (Fin a.size) ℂ, R.IsHermitian →
        (∀ r c, ‖R r c - modelCov (S.A i) p σ r c‖ < η) →
        ∃ T : Matrix (Fin v) (Fin v) ℂ, (acmTransform w R method).1 = .ok ⟨v, T⟩ ∧ ∀ (eigh : Eigh) (ev : NpEigvals),
          ∃ s, espritEstimate eigh ev wl T k d0 disp form (.str "none") unit = .ok s ∧ s.unit = unit ∧ Monotone s.loc ∧
            ∃ π : Equiv.Perm (Fin k), ∀ c, |s.loc c - reprIn unit (angleOf src.unit (src.loc (π c)))| < ε := by
  have : NeZero wl := ⟨hwl.ne'⟩
  have hz := inj_of_sin hsrc hinj hδ0 hwl hdisp hamb
  obtain ⟨b, S, hb, hbv, g3, hbp, hbdim, hbloc, hS, hQ⟩ :=
    coarray_input h hδ hnd hel hpert (some "x") (Or.inl (by simp)) hw0 hr src hsrc wl hp method hm hv (by omega) hz
  refine ⟨S, hS, fun i ε hε => ?_⟩
  obtain ⟨Q, τ, hQp, hR⟩ := hQ i
  rw [hbv] at hR
  have h1 := esprit_near (m := v) (t := fun c => angleOf src.unit (src.loc c)) hδ0 hwl
    (z := fun c => phaseFactor δ wl src.unit (src.loc c)) (fun c => rfl) hz
    (fun c => Or.inl ⟨rfl, inRange1D_angle (hsrc.2 c)⟩) hstrict disp hdisp hkv hamb d0 hd0 form hform (.str "none")
    (Or.inl rfl) hQp τ unit hunit hε
  obtain ⟨η, hη, h2⟩ := near_entries (acm_near h.1 hw0 hr h.1.2.2 _ method (hm.imp id And.left) hR h1)
  exact ⟨η, hη, fun R hH hn => h2 R hn hH⟩

/-- **C86** (MUSIC). The same for coarray MUSIC on a one-dimensional grid without grating lobes: from every Hermitian matrix close enough to the
exact covariance matrix exactly the sources are returned; as in C70 there can be more sources than sensors. -/
theorem C86_music {a : GridArray} {l : List ℤ} {δ : ℝ} (h : LinearGrid a l δ) (hδ : a.d0 = [δ])
    (hδ0 : 0 < δ) (hnd : l.Nodup) (hel : a.element = .isotropicScalar) (hpert : a.perts = []) (name : Option String)
    (hname : name ≠ none ∨ a.name ≠ none) {w0 w : WeightFunction} (hw0 : WeightFunction.init a = .ok w0) (hr : WReach w0 w)
    {wl : ℝ} (hwl : 0 < wl) {x : List ℝ} {u : String} (hu : Unit1D u) (hx : ∀ y ∈ x, InRange1D u y) (hxd : x.Nodup)
    (hamb : ∀ y ∈ x, ∀ z ∈ x, δ * |Real.sin (angleOf u y) - Real.sin (angleOf u z)| < wl)
    (src : FF1D k) (hsu : src.unit = u) (idx : Fin k → ℕ) (hidx : ∀ c, x[idx c]? = some (src.loc c))
    (hsep : ∀ c e, c < e → idx c + 1 < idx e) (h1 : ∀ c, 1 ≤ idx c) (h2 : ∀ c, idx c + 1 < x.length)
    {v : ℕ} (hv : IsCentralSize l v) (hk : 1 ≤ k) (hkv : k < v)
    {p : Fin k → ℝ} (hp : ∀ c, 0 < p c) {σ : ℝ} (method : String) (hm : method = "da" ∨ method = "ss" ∧ 0 ≤ σ) :
    ∃ (b : GridArray) (S : Steering a.element.outputSize a.size k), virtualUla a w name = .ok b ∧
      steering a.toArrayDesign (.ff1 src) wl false "all" = .ok S ∧
      ∀ (i : Fin a.element.outputSize) (j : Fin b.element.outputSize) (cfg : EstCfg (WithTop ℝ) (List (Fin b.size → ℂ)))
        (names : List String), cfg.grid = ⟨.ff1, [⟨x, false⟩], names, [u]⟩ → cfg.peakFinder = findPeaksSimple →
        IsArgsort cfg.argsort → cfg.compute = atomColumns1D b.toArrayDesign j wl u →
        ∃ η > 0, ∀ R : Matrix (Fin a.size) (Fin a.size) ℂ, R.IsHermitian →
          (∀ r c, ‖R r c - modelCov (S.A i) p σ r c‖ < η) →
          ∃ T : Matrix (Fin b.size) (Fin b.size) ℂ, (acmTransform w R method).1 = .ok ⟨b.size, T⟩ ∧
          ∀ (eigh : Eigh) (ops : List (EstOp (WithTop ℝ) (List (Fin b.size → ℂ)))),
            ∃ o st', musicEstimate eigh cfg (cfg.run ops).1 T k {} = (.ok o, st') ∧
              ∃ sp, o.observe st' = (true, some (some (List.ofFn fun c => [src.loc c], u)), sp) := by
  have : NeZero wl := ⟨hwl.ne'⟩
  have hsx : ∀ c, src.loc c ∈ x := fun c => List.mem_of_getElem? (hidx c)
  have hs : Valid1D src := ⟨hsu ▸ hu, fun c => hsu ▸ hx _ (hsx c)⟩
  have hinj : Function.Injective src.loc := by
    intro c e hce
    obtain ⟨hc1, hc2⟩ := List.getElem?_eq_some_iff.1 (hidx c)
    obtain ⟨he1, he2⟩ := List.getElem?_eq_some_iff.1 (hidx e)
    have h3 : idx c = idx e := (List.Nodup.getElem_inj_iff hxd).1 (by rw [hc2, he2, hce])
    rcases lt_trichotomy c e with h' | h' | h'
    · have := hsep c e h'; omega
    · exact h'
    · have := hsep e c h'; omega
  have hz : Function.Injective fun c => phaseFactor δ wl src.unit (src.loc c) := by
    intro c e hce
    simp only [hsu] at hce
    exact hinj (phaseFactor_inj hδ0 hwl (hx _ (hsx c)) (hx _ (hsx e)) (hamb _ (hsx c) _ (hsx e)) hce)
  obtain ⟨b, S, hb, hbv, g3, hbp, hbdim, hbloc, hS, hQ⟩ :=
    coarray_input h hδ hnd hel hpert name hname hw0 hr src hs wl hp method hm hv hkv hz
  refine ⟨b, S, hb, hS, fun i j cfg names hg hpf hsort hcomp => ?_⟩
  obtain ⟨Q, τ, hQp, hR⟩ := hQ i
  have hpl : b.toArrayDesign.perturbations = [] := by
    have : b.toArrayDesign.perts = [] := hbp
    simp [ArrayDesign.perturbations, this, PyDict.values]
  have hus : Usable b.toArrayDesign "all" b.toArrayDesign.perturbations := by
    have : b.toArrayDesign.perts = [] := hbp
    refine ⟨by simp [ArrayDesign.filterPerturbations, ArrayDesign.perturbations], by rw [hpl]; rfl, ?_, by simp [hpl]⟩
    have : b.locations.ncols = 1 := hbdim
    simp only [hpl, List.foldl_nil]
    omega
  obtain ⟨B, hB, δ', hδ', key⟩ := C83_music_ula (a := b.toArrayDesign) g3 (by simp [hpl]) hus (by simp [hpl]) (by simp [hpl])
    (by rw [hpl]; exact isUnit_one) hδ0 hwl hbdim hbloc j cfg hg hu hx hxd hamb hpf hsort hcomp src hsu idx hidx hsep h1 h2 hk
    (by have : b.toArrayDesign.size = v := hbv; omega) hQp τ
  obtain ⟨B', hB', hBA⟩ := virtual_steering g3 hbp hbdim hbloc src hs wl
  obtain rfl : B = B' := by rw [hB, Except.ok.injEq] at hB'; exact hB'
  rw [hBA] at key
  obtain ⟨η, hη, h3⟩ := near_entries (acm_near h.1 hw0 hr h.1.2.2 _ method (hm.imp id And.left) hR (eventually_of_near hδ' key))
  exact ⟨η, hη, fun R hH hn => h3 R hn hH⟩

/-- **C86** (consistency of ESPRIT). In a simulated experiment the probability that coarray ESPRIT does not return every source to within `ε`
tends to 0 as the number of snapshots grows. -/
theorem C86_esprit_consistent {sqrtm : Sqrtm} (hs : IsSqrtm sqrtm) {a : GridArray} {l : List ℤ} {δ : ℝ} (h : LinearGrid a l δ)
    (hδ : a.d0 = [δ])
    (hδ0 : 0 < δ) (hnd : l.Nodup) (hel : a.element = .isotropicScalar) (hpert : a.perts = [])
    {w0 w : WeightFunction} (hw0 : WeightFunction.init a = .ok w0) (hr : WReach w0 w) {wl : ℝ} (hwl : 0 < wl)
    (src : FF1D k) (hsrc : Valid1D src) (hinj : Function.Injective src.loc)
    (hstrict : ∀ c, |Real.sin (angleOf src.unit (src.loc c))| < 1) (disp : ℕ) (hdisp : 1 ≤ disp)
    (hamb : ∀ c, |2 * Real.pi * (δ * disp) / wl * Real.sin (angleOf src.unit (src.loc c))| < Real.pi)
    {v : ℕ} (hv : IsCentralSize l v) (hkv : k + disp ≤ v)
    (d0 : Option ℝ) (hd0 : d0 = some δ ∨ d0 = none ∧ δ = wl / 2) (form : String) (hform : form = "ls" ∨ form = "tls")
    (method : String) (hm : method = "da" ∨ method = "ss") (unit : String) (hunit : Unit1D unit) (i : Fin a.element.outputSize)
    {C1 C2 : CovArg} {g1 : StoGen k} {g2 : StoGen a.size}
    (hg1 : stoInit sqrtm k C1 = .ok g1) (hg2 : stoInit sqrtm a.size C2 = .ok g2)
    {p : Fin k → ℝ} (hPd : Denotes k C1 (diagonal fun c => (p c : ℂ))) (hp : ∀ c, 0 < p c) {σ : ℝ} (hσ : 0 ≤ σ)
    (hQd : Denotes a.size C2 ((σ : ℂ) • (1 : Matrix (Fin a.size) (Fin a.size) ℂ)))
    {ν : Measure ℝ} [IsProbabilityMeasure ν] (hν : UnitLaw ν) {ε : ℝ} (hε : 0 < ε) :
    Tendsto (fun n => (Measure.pi fun _ : Fin n => Measure.pi fun _ => ν)
      {d : Fin n → SnapshotDraw k a.size | ¬ ∃ Y R, experiment a.toArrayDesign (.ff1 src) wl g1 g2 n d = .ok ⟨n, Y, R⟩ ∧
        ∃ T : Matrix (Fin v) (Fin v) ℂ, (acmTransform w (R i) method).1 = .ok ⟨v, T⟩ ∧ ∀ (eigh : Eigh) (ev : NpEigvals),
          ∃ s, espritEstimate eigh ev wl T k d0 disp form (.str "none") unit = .ok s ∧ s.unit = unit ∧ Monotone s.loc ∧
            ∃ π : Equiv.Perm (Fin k), ∀ c, |s.loc c - reprIn unit (angleOf src.unit (src.loc (π c)))| < ε}) atTop (𝓝 0) := by
  obtain ⟨S, hS, hn⟩ := C86_esprit h hδ hδ0 hnd hel hpert hw0 hr hwl src hsrc hinj hstrict disp hdisp hamb hv hkv d0 hd0 form hform hp
    method (hm.imp id fun e => ⟨e, hσ⟩) unit hunit
  exact C84_probability hs a.toArrayDesign (.ff1 src) wl S hS (by rw [hel]; rfl) hg1 hg2 hPd hQd (diag_posDef hp).posSemidef (scaled_one_posSemidef hσ) hν i _
    (hn i ε hε)

/-- **C86** (consistency of MUSIC). In a simulated experiment the probability that coarray MUSIC does not return exactly the sources tends to
0 as the number of snapshots grows. -/
theorem C86_music_consistent {sqrtm : Sqrtm} (hsq : IsSqrtm sqrtm) {a : GridArray} {l : List ℤ} {δ : ℝ} (h : LinearGrid a l δ)
    (hδ : a.d0 = [δ])
    (hδ0 : 0 < δ) (hnd : l.Nodup) (hel : a.element = .isotropicScalar) (hpert : a.perts = []) (name : Option String)
    (hname : name ≠ none ∨ a.name ≠ none) {w0 w : WeightFunction} (hw0 : WeightFunction.init a = .ok w0) (hr : WReach w0 w)
    {wl : ℝ} (hwl : 0 < wl) {x : List ℝ} {u : String} (hu : Unit1D u) (hx : ∀ y ∈ x, InRange1D u y) (hxd : x.Nodup)
    (hamb : ∀ y ∈ x, ∀ z ∈ x, δ * |Real.sin (angleOf u y) - Real.sin (angleOf u z)| < wl)
    (src : FF1D k) (hsu : src.unit = u) (idx : Fin k → ℕ) (hidx : ∀ c, x[idx c]? = some (src.loc c))
    (hsep : ∀ c e, c < e → idx c + 1 < idx e) (h1 : ∀ c, 1 ≤ idx c) (h2 : ∀ c, idx c + 1 < x.length)
    {v : ℕ} (hv : IsCentralSize l v) (hk : 1 ≤ k) (hkv : k < v) (method : String) (hm : method = "da" ∨ method = "ss")
    {C1 C2 : CovArg} {g1 : StoGen k} {g2 : StoGen a.size}
    (hg1 : stoInit sqrtm k C1 = .ok g1) (hg2 : stoInit sqrtm a.size C2 = .ok g2)
    {p : Fin k → ℝ} (hPd : Denotes k C1 (diagonal fun c => (p c : ℂ))) (hp : ∀ c, 0 < p c) {σ : ℝ} (hσ : 0 ≤ σ)
    (hQd : Denotes a.size C2 ((σ : ℂ) • (1 : Matrix (Fin a.size) (Fin a.size) ℂ)))
    {ν : Measure ℝ} [IsProbabilityMeasure ν] (hν : UnitLaw ν) :
    ∃ b : GridArray, virtualUla a w name = .ok b ∧
      ∀ (i : Fin a.element.outputSize) (j : Fin b.element.outputSize) (cfg : EstCfg (WithTop ℝ) (List (Fin b.size → ℂ)))
        (names : List String), cfg.grid = ⟨.ff1, [⟨x, false⟩], names, [u]⟩ → cfg.peakFinder = findPeaksSimple →
        IsArgsort cfg.argsort → cfg.compute = atomColumns1D b.toArrayDesign j wl u →
        Tendsto (fun n => (Measure.pi fun _ : Fin n => Measure.pi fun _ => ν)
          {d : Fin n → SnapshotDraw k a.size | ¬ ∃ Y R, experiment a.toArrayDesign (.ff1 src) wl g1 g2 n d = .ok ⟨n, Y, R⟩ ∧
            ∃ T : Matrix (Fin b.size) (Fin b.size) ℂ, (acmTransform w (R i) method).1 = .ok ⟨b.size, T⟩ ∧
            ∀ (eigh : Eigh) (ops : List (EstOp (WithTop ℝ) (List (Fin b.size → ℂ)))),
              ∃ o st', musicEstimate eigh cfg (cfg.run ops).1 T k {} = (.ok o, st') ∧
                ∃ sp, o.observe st' = (true, some (some (List.ofFn fun c => [src.loc c], u)), sp)}) atTop (𝓝 0) := by
  obtain ⟨b, S, hb, hS, hn⟩ := C86_music h hδ hδ0 hnd hel hpert name hname hw0 hr hwl hu hx hxd hamb src hsu idx hidx hsep h1 h2 hv hk hkv
    hp method (hm.imp id fun e => ⟨e, hσ⟩)
  refine ⟨b, hb, fun i j cfg names hg hpf hsort hcomp => ?_⟩
  exact C84_probability hsq a.toArrayDesign (.ff1 src) wl S hS (by rw [hel]; rfl) hg1 hg2 hPd hQd (diag_posDef hp).posSemidef (scaled_one_posSemidef hσ) hν i _
    (hn i j cfg names hg hpf hsort hcomp)

/-- Non-vacuity: three sources of powers 1, 2 and 3 seen by three sensors at 0, 1 and 3 half wavelengths, normally distributed draws, spatial
smoothing: the probabilities that coarray ESPRIT is off by a thousandth of a degree and that coarray MUSIC does not return exactly the
sources tend to zero. -/
example : ∃ (a b : GridArray) (w : WeightFunction) (i : Fin a.element.outputSize) (g1 : StoGen 3) (g2 : StoGen a.size)
    (cfg : EstCfg (WithTop ℝ) (List (Fin b.size → ℂ))), a.size = 3 ∧ virtualUla a w none = .ok b ∧
    Tendsto (fun n => (Measure.pi fun _ : Fin n => Measure.pi fun _ => ProbabilityTheory.gaussianReal 0 1)
      {d : Fin n → SnapshotDraw 3 a.size | ¬ ∃ Y R, experiment a.toArrayDesign (.ff1 ⟨![-0.5, 0, 0.5], "sin"⟩) 1 g1 g2 n d = .ok ⟨n, Y, R⟩ ∧
        ∃ T : Matrix (Fin 4) (Fin 4) ℂ, (acmTransform w (R i) "ss").1 = .ok ⟨4, T⟩ ∧ ∀ (eigh : Eigh) (ev : NpEigvals),
          ∃ s, espritEstimate eigh ev 1 T 3 none 1 "ls" (.str "none") "deg" = .ok s ∧ s.unit = "deg" ∧ Monotone s.loc ∧
            ∃ π : Equiv.Perm (Fin 3), ∀ c, |s.loc c - reprIn "deg" (angleOf "sin" ((![-0.5, 0, 0.5] : Fin 3 → ℝ) (π c)))| < 0.001})
      atTop (𝓝 0) ∧
    Tendsto (fun n => (Measure.pi fun _ : Fin n => Measure.pi fun _ => ProbabilityTheory.gaussianReal 0 1)
      {d : Fin n → SnapshotDraw 3 a.size | ¬ ∃ Y R, experiment a.toArrayDesign (.ff1 ⟨![-0.5, 0, 0.5], "sin"⟩) 1 g1 g2 n d = .ok ⟨n, Y, R⟩ ∧
        ∃ T : Matrix (Fin b.size) (Fin b.size) ℂ, (acmTransform w (R i) "ss").1 = .ok ⟨b.size, T⟩ ∧
          ∀ (eigh : Eigh) (ops : List (EstOp (WithTop ℝ) (List (Fin b.size → ℂ)))),
            ∃ o st', musicEstimate eigh cfg (cfg.run ops).1 T 3 {} = (.ok o, st') ∧
              ∃ sp, o.observe st' = (true, some (some (List.ofFn fun c => [(![-0.5, 0, 0.5] : Fin 3 → ℝ) c], "sin")), sp)})
      atTop (𝓝 0) := by
  obtain ⟨a, ha⟩ := gridInit_ok_of (idx := Mat.col [0, 1, 3]) (spec := .d0 (.scalar (1 / 2)))
    (name := some "x") (kw := {}) (d := []) (by simp [GridArgsMatch]) rfl
  obtain ⟨hlg, hd0⟩ := linearGrid_of_init ha
  obtain ⟨_, g2, g3, g4, _⟩ := gridInit_spec ha
  have hsize : a.size = 3 := hlg.1.2.2
  have hw0 := weightFunction_init hlg.1
  have hrg : ∀ y ∈ ([-0.8, -0.5, -0.2, 0, 0.2, 0.5, 0.8] : List ℝ), -0.8 ≤ y ∧ y ≤ 0.8 := by
    intro y hy
    simp only [List.mem_cons, List.not_mem_nil, or_false] at hy
    rcases hy with rfl | rfl | rfl | rfl | rfl | rfl | rfl <;> norm_num
  have hsin : ∀ y ∈ ([-0.8, -0.5, -0.2, 0, 0.2, 0.5, 0.8] : List ℝ), Real.sin (angleOf "sin" y) = y := by
    intro y hy
    have := hrg y hy
    simp only [angleOf, String.reduceEq, if_false, if_true]
    exact Real.sin_arcsin (by linarith [this.1]) (by linarith [this.2])
  have hmem : ∀ c, (![-0.5, 0, 0.5] : Fin 3 → ℝ) c ∈ ([-0.8, -0.5, -0.2, 0, 0.2, 0.5, 0.8] : List ℝ) := by
    intro c
    fin_cases c <;> simp
  have hrg' : ∀ c, -0.5 ≤ (![-0.5, 0, 0.5] : Fin 3 → ℝ) c ∧ (![-0.5, 0, 0.5] : Fin 3 → ℝ) c ≤ 0.5 := by
    intro c
    fin_cases c
    · show (-0.5 : ℝ) ≤ -0.5 ∧ (-0.5 : ℝ) ≤ 0.5
      norm_num
    · show (-0.5 : ℝ) ≤ 0 ∧ (0 : ℝ) ≤ 0.5
      norm_num
    · show (-0.5 : ℝ) ≤ 0.5 ∧ (0.5 : ℝ) ≤ 0.5
      norm_num
  have hinj : StrictMono (![-0.5, 0, 0.5] : Fin 3 → ℝ) := by
    rw [Fin.strictMono_iff_lt_succ]
    intro i
    fin_cases i
    · show (-0.5 : ℝ) < 0
      norm_num
    · show (0 : ℝ) < 0.5
      norm_num
  have hl : 0 < a.element.outputSize := by rw [g3]; decide
  have hP : Denotes 3 (.vector [1, 2, 3]) (diagonal fun c : Fin 3 => (((c : ℝ) + 1 : ℝ) : ℂ)) := by
    refine ⟨rfl, ?_⟩
    ext i j
    fin_cases i <;> fin_cases j <;> simp <;> norm_num
  have hQ : Denotes a.size (.scalar 1) (((1 : ℝ) : ℂ) • (1 : Matrix (Fin a.size) (Fin a.size) ℂ)) := by
    show _ = _
    ext i j
    simp [Matrix.one_apply]
  obtain ⟨gen1, hg1⟩ := ((C56_accepts someSqrtm 3 (.vector [1, 2, 3])).1).2 ⟨_, hP⟩
  obtain ⟨gen2, hg2⟩ := ((C56_accepts someSqrtm a.size (.scalar 1)).1).2 ⟨_, hQ⟩
  have hp : ∀ c : Fin 3, (0 : ℝ) < (c : ℝ) + 1 := fun c => by positivity
  have k1 := C86_esprit_consistent (k := 3) someSqrtm_spec hlg hd0 (by norm_num) (by decide) g3 (Except.ok.inj g4).symm
    hw0 .refl (wl := 1) (by norm_num) ⟨![-0.5, 0, 0.5], "sin"⟩
    ⟨Or.inr (Or.inr rfl), fun c => Or.inr (Or.inr ⟨rfl, by linarith [(hrg' c).1], by linarith [(hrg' c).2]⟩)⟩ hinj.injective
    (by
      intro c
      rw [hsin _ (hmem c), abs_lt]
      constructor <;> linarith [(hrg' c).1, (hrg' c).2])
    1 le_rfl
    (by
      intro c
      have h1 := hrg' c
      have hpi := Real.pi_pos
      rw [hsin _ (hmem c), abs_lt]
      push_cast
      constructor <;> nlinarith [h1.1, h1.2])
    three_sensors_central (by norm_num) none (Or.inr ⟨rfl, rfl⟩) "ls" (Or.inl rfl) "ss" (Or.inr rfl) "deg" (Or.inr (Or.inl rfl)) ⟨0, hl⟩
    hg1 hg2 hP hp zero_le_one hQ unitLaw_gaussian (ε := 0.001) (by norm_num)
  obtain ⟨b, hb, k2⟩ := C86_music_consistent (k := 3) someSqrtm_spec hlg hd0 (by norm_num) (by decide) g3 (Except.ok.inj g4).symm none
    (Or.inr (by rw [g2]; simp)) hw0 .refl (wl := 1) (by norm_num) (x := [-0.8, -0.5, -0.2, 0, 0.2, 0.5, 0.8]) (u := "sin")
    (Or.inr (Or.inr rfl))
    (fun y hy => Or.inr (Or.inr ⟨rfl, by linarith [(hrg y hy).1], by linarith [(hrg y hy).2]⟩)) (by norm_num)
    (by
      intro y hy z hz
      rw [hsin y hy, hsin z hz]
      have h1 := hrg y hy
      have h2 := hrg z hz
      have : |y - z| ≤ 1.6 := by rw [abs_le]; constructor <;> linarith [h1.1, h1.2, h2.1, h2.2]
      linarith)
    ⟨![-0.5, 0, 0.5], "sin"⟩ rfl ![1, 3, 5] (by intro c; fin_cases c <;> rfl) (by decide) (by decide) (by decide)
    three_sensors_central (by norm_num) (by norm_num) "ss" (Or.inr rfl) hg1 hg2 hP hp zero_le_one hQ unitLaw_gaussian
  obtain ⟨b', hb', _, q3, _⟩ := virtualUla_spec hlg.1 hd0 none (Or.inr (by rw [g2]; simp)) hw0 .refl
  obtain rfl : b = b' := by rw [hb, Except.ok.injEq] at hb'; exact hb'
  have hlb : 0 < b.element.outputSize := by rw [q3]; decide
  let cfg : EstCfg (WithTop ℝ) (List (Fin b.size → ℂ)) := ⟨⟨.ff1, [⟨[-0.8, -0.5, -0.2, 0, 0.2, 0.5, 0.8], false⟩], [], ["sin"]⟩,
      atomColumns1D b.toArrayDesign ⟨0, hlb⟩ 1 "sin", findPeaksSimple, stableArgsort, true, false⟩
  exact ⟨a, b, _, ⟨0, hl⟩, gen1, gen2, cfg, hsize, hb, k1, k2 ⟨0, hl⟩ ⟨0, hlb⟩ cfg [] rfl rfl stableArgsort_isArgsort rfl⟩

end Doa.Props
