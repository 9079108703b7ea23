import Verif.Props.DetectorsNear
import Verif.Props.RootMusicNear

/-!
# C106: the whole processing chain with an unknown number of sources

A user who does not know the number of sources passes the sample covariance matrix to `mdl` and the number `mdl` reports to an estimator.
-/

namespace Doa.Props

open Doa Matrix Doa.Spec Filter Topology MeasureTheory ProbabilityTheory
open scoped ComplexOrder

variable {m k : ℕ}

/-- The user's program: `k = mdl(R, n)` followed by `est(k)`; the result is the reported number together with what the estimator returns.
[client of estimation/source_number.py:47-67 and the estimators] -/
noncomputable def detectThen {β : ℕ → Type} (f : EigvalshFn) (R : Matrix (Fin m) (Fin m) ℂ) (n : ℕ) (est : (r : ℕ) → Res (β r)) :
    Res ((r : ℕ) × β r) :=
  (mdl f (.mat m R) n).bind fun r => (est r).bind fun s => .ok ⟨r, s⟩

/-- The same program with MUSIC, whose result refers to the grid stored in the estimator.
[client of estimation/source_number.py:47-67 and estimation/music.py:41-96] -/
noncomputable def detectMusic (f : EigvalshFn) (eigh : Eigh) (cfg : EstCfg (WithTop ℝ) (List (Fin m → ℂ)))
    (st : EstState (List (Fin m → ℂ))) (R : Matrix (Fin m) (Fin m) ℂ) (n : ℕ) : Res (EstOut (WithTop ℝ)) × EstState (List (Fin m → ℂ)) :=
  match mdl f (.mat m R) n with
  | .error e => (.error e, st)
  | .ok r => musicEstimate eigh cfg st R r {}

/-- Two properties of the outcome of one experiment, each missing with a small probability, are rarely missing together. -/
theorem experiment_both (a : ArrayDesign) (src : Sources k) (wl : ℝ) (g1 : StoGen k) (g2 : StoGen a.size) (n : ℕ)
    {ρ : Measure (Fin n → SnapshotDraw k a.size)} (p q : Matrix (Fin a.size) (Fin a.size) ℂ → Prop) (l : Fin a.element.outputSize)
    {x y : ENNReal}
    (hp : ρ {d | ¬ ∃ Y R, experiment a src wl g1 g2 n d = .ok ⟨n, Y, R⟩ ∧ p (R l)} ≤ x)
    (hq : ρ {d | ¬ ∃ Y R, experiment a src wl g1 g2 n d = .ok ⟨n, Y, R⟩ ∧ q (R l)} ≤ y) :
    ρ {d | ¬ ∃ Y R, experiment a src wl g1 g2 n d = .ok ⟨n, Y, R⟩ ∧ p (R l) ∧ q (R l)} ≤ x + y := by
  refine le_trans ?_ ((measure_union_le _ _).trans (add_le_add hp hq))
  refine measure_mono fun d hd => ?_
  by_contra hc
  simp only [Set.mem_union, Set.mem_ofPred_eq, not_or, not_not] at hc
  obtain ⟨⟨Y, R, e1, h1⟩, Y', R', e2, h2⟩ := hc
  rw [e1] at e2
  obtain ⟨-, -, rfl⟩ : n = n ∧ Y = Y' ∧ R = R' := by simpa using e2
  exact hd ⟨Y, R, e1, h1, h2⟩

/-- **C106** (the chain). All numbers of an experiment with `n` snapshots of `k` sources with linearly independent steering vectors in white
noise are drawn independently from one distribution with mean zero, variance one and a fourth moment. Whatever an estimator that is told
the number of sources achieves for all Hermitian matrices close to the covariance matrix of the model, it achieves with the number reported by
`mdl`: the probability that `mdl` reports a wrong number or the estimator fails is at most `C / log n`. -/
theorem C106_chain {sqrtm : Sqrtm} (hs : IsSqrtm sqrtm) (a : ArrayDesign) (src : Sources k) (wl : ℝ) (out)
    (hA : steering a src wl false "all" = .ok out) (hone : a.element.outputSize = 1) {C1 C2 : CovArg} {g1 : StoGen k} {g2 : StoGen a.size}
    (hg1 : stoInit sqrtm k C1 = .ok g1) (hg2 : stoInit sqrtm a.size C2 = .ok g2) {P} (hPd : Denotes k C1 P) (hP : P.PosDef)
    {σ : ℝ} (hσ : 0 < σ) (hQd : Denotes a.size C2 ((σ : ℂ) • (1 : Matrix (Fin a.size) (Fin a.size) ℂ)))
    {ν : Measure ℝ} [IsProbabilityMeasure ν] (hν : UnitLaw ν) (h4 : MemLp id 4 ν) (l : Fin a.element.outputSize)
    (hinj : Function.Injective (out.A l).mulVec) (hk : k < a.size) (good : Matrix (Fin a.size) (Fin a.size) ℂ → Prop)
    (hgood : ∃ δ > 0, ∀ R : Matrix (Fin a.size) (Fin a.size) ℂ, R.IsHermitian →
      (∀ i j, ‖R i j - covModel (out.A l) P σ i j‖ < δ) → good R) :
    ∃ C : ℝ, 0 ≤ C ∧ ∀ n : ℕ, 2 ≤ n → (Measure.pi fun _ : Fin n => Measure.pi fun _ => ν)
      {d : Fin n → SnapshotDraw k a.size | ¬ ∃ Y R, experiment a src wl g1 g2 n d = .ok ⟨n, Y, R⟩ ∧
        (∀ f : EigvalshFn, f.Spec → mdl f (.mat a.size (R l)) n = .ok k) ∧ good (R l)} ≤ ENNReal.ofReal (C / Real.log n) := by
  obtain ⟨⟨C, hC, h1⟩, -⟩ := C89_mdl_consistent hs a src wl out hA hone hg1 hg2 hPd hP hσ hQd hν h4 l hinj hk
  obtain ⟨C', hC', h2⟩ := C88_property hs a src wl out hA hone hg1 hg2 hPd hQd hP.posSemidef (scaled_one_posSemidef hσ.le) hν h4 l good hgood
  refine ⟨C + C', by positivity, fun n hn => ?_⟩
  refine (experiment_both a src wl g1 g2 n (fun R => ∀ f : EigvalshFn, f.Spec → mdl f (.mat a.size R) n = .ok k) good l (h1 n hn)
    (h2 n (by omega))).trans ?_
  have hlog : 0 < Real.log n := Real.log_pos (by exact_mod_cast (by omega : 1 < n))
  have hln : Real.log n ≤ n := (Real.log_le_self (Nat.cast_nonneg n))
  rw [add_div, ENNReal.ofReal_add (by positivity) (by positivity)]
  exact add_le_add le_rfl (ENNReal.ofReal_le_ofReal (div_le_div_of_nonneg_left hC' hlog hln))

/-- The hypotheses of `C106_chain` on the scene are met by a ULA and distinct unambiguous directions. -/
theorem uniform_injective {n : ℕ} {d wl : ℝ} (hd : 0 < d) (hwl : 0 < wl) {name : Option String} {a : GridArray}
    (ha : ula n (.scalar d) name {} = .ok a) (src : FF1D k) (hsrc : Valid1D src) (hinj : Function.Injective src.loc) (hk : k ≤ n)
    (hamb : ∀ c e, d * |Real.sin (angleOf src.unit (src.loc c)) - Real.sin (angleOf src.unit (src.loc e))| < wl) {S}
    (hS : steering a.toArrayDesign (.ff1 src) wl false "all" = .ok S) (l : Fin a.element.outputSize) :
    Function.Injective (S.A l).mulVec := by
  have : NeZero wl := ⟨hwl.ne'⟩
  have hsz : a.toArrayDesign.size = n := (C01_ula_geometry n d name {} a ha).1
  obtain ⟨S', hS', hSv⟩ := ula_steering ha src hsrc wl "all" (by simp)
  obtain rfl : S = S' := by
    rw [hS] at hS'
    simpa using hS'
  have hz : Function.Injective fun c => phaseFactor d wl src.unit (src.loc c) := fun c e hce =>
    hinj (phaseFactor_inj hd hwl (hsrc.2 c) (hsrc.2 e) (hamb c e) hce)
  have e : S.A l = ulaMat a.toArrayDesign.size fun c => phaseFactor d wl src.unit (src.loc c) := by
    ext i c
    rw [hSv]
    rfl
  rw [e]
  exact ulaMat_injective hz (by rw [hsz]; exact hk)

/-- Directions with a phase below half a turn between neighbouring sensors are unambiguous. -/
theorem unambiguous_of_phase {d wl s t : ℝ} (hd : 0 < d) (hwl : 0 < wl) {disp : ℕ} (hdisp : 1 ≤ disp)
    (hs : |2 * Real.pi * (d * disp) / wl * s| < Real.pi) (ht : |2 * Real.pi * (d * disp) / wl * t| < Real.pi) : d * |s - t| < wl := by
  have hpi := Real.pi_pos
  have hdp : (1 : ℝ) ≤ disp := by exact_mod_cast hdisp
  have h1 : 2 * Real.pi * (d * disp) / wl * |s - t| < 2 * Real.pi := by
    have hc : 0 < 2 * Real.pi * (d * disp) / wl := by positivity
    calc 2 * Real.pi * (d * disp) / wl * |s - t| = |2 * Real.pi * (d * disp) / wl * s - 2 * Real.pi * (d * disp) / wl * t| := by
          rw [← mul_sub, abs_mul, abs_of_pos hc]
      _ ≤ |2 * Real.pi * (d * disp) / wl * s| + |2 * Real.pi * (d * disp) / wl * t| := abs_sub _ _
      _ < 2 * Real.pi := by linarith
  have h2 : d * disp * |s - t| < wl := by
    have : 2 * Real.pi * (d * disp) / wl * |s - t| = 2 * Real.pi * (d * disp * |s - t| / wl) := by ring
    rw [this] at h1
    have h3 : d * disp * |s - t| / wl < 1 := by
      by_contra hc
      have := mul_le_mul_of_nonneg_left (not_lt.1 hc) (by positivity : (0 : ℝ) ≤ 2 * Real.pi)
      linarith
    exact (div_lt_one hwl).1 h3
  have h4 : d * |s - t| ≤ d * disp * |s - t| := by
    apply mul_le_mul_of_nonneg_right _ (abs_nonneg _)
    nlinarith
  linarith

/-- **C106** (ESPRIT). A ULA, `k` distinct unambiguous directions and an experiment with `n` snapshots as in `C106_chain`. The program that
passes the sample covariance matrix and the number of sources reported by `mdl` to ESPRIT returns `k` and `k` directions, each within `ε`
of a true one, except with probability at most `C / log n`. -/
theorem C106_esprit {sqrtm : Sqrtm} (hs : IsSqrtm sqrtm) {n : ℕ} {d wl : ℝ} (hd : 0 < d) (hwl : 0 < wl)
    {name : Option String} {a : GridArray} (ha : ula n (.scalar d) name {} = .ok a)
    (l : Fin a.element.outputSize) (src : FF1D k) (hsrc : Valid1D src)
    (hinj : Function.Injective src.loc) (hstrict : ∀ c, |Real.sin (angleOf src.unit (src.loc c))| < 1)
    (disp : ℕ) (hdisp : 1 ≤ disp) (hk : k + disp ≤ n)
    (hamb : ∀ c, |2 * Real.pi * (d * disp) / wl * Real.sin (angleOf src.unit (src.loc c))| < Real.pi)
    (d0 : Option ℝ) (hd0 : d0 = some d ∨ d0 = none ∧ d = wl / 2)
    (form : String) (hform : form = "ls" ∨ form = "tls") (rw : RowWeights)
    (hrw : rw = .str "none" ∨ n ≤ 2 * disp ∧
      (rw = .str "default" ∨ ∃ w, rw = .vec w ∧ w.length = n - disp ∧ ∀ x ∈ w, x ≠ 0))
    (unit : String) (hunit : Unit1D unit)
    {C1 C2 : CovArg} {g1 : StoGen k} {g2 : StoGen a.size}
    (hg1 : stoInit sqrtm k C1 = .ok g1) (hg2 : stoInit sqrtm a.size C2 = .ok g2)
    {P : Matrix (Fin k) (Fin k) ℂ} (hPd : Denotes k C1 P) (hP : P.PosDef) {σ : ℝ} (hσ : 0 < σ)
    (hQd : Denotes a.size C2 ((σ : ℂ) • (1 : Matrix (Fin a.size) (Fin a.size) ℂ)))
    {ν : Measure ℝ} [IsProbabilityMeasure ν] (hν : UnitLaw ν) (h4 : MemLp id 4 ν) {ε : ℝ} (hε : 0 < ε) :
    ∃ C : ℝ, 0 ≤ C ∧ ∀ N : ℕ, 2 ≤ N → (Measure.pi fun _ : Fin N => Measure.pi fun _ => ν)
      {d : Fin N → SnapshotDraw k a.size | ¬ ∃ Y R, experiment a.toArrayDesign (.ff1 src) wl g1 g2 N d = .ok ⟨N, Y, R⟩ ∧
        ∀ (f : EigvalshFn) (eigh : Eigh) (ev : NpEigvals), f.Spec →
          ∃ s : FF1D k, detectThen f (R l) N (fun r => espritEstimate eigh ev wl (R l) r d0 disp form rw unit) = .ok ⟨k, s⟩ ∧
            s.unit = unit ∧ Monotone s.loc ∧
            ∃ π : Equiv.Perm (Fin k), ∀ i, |s.loc i - reprIn unit (angleOf src.unit (src.loc (π i)))| < ε} ≤
      ENNReal.ofReal (C / Real.log N) := by
  obtain ⟨S, hS, hn⟩ := C85_esprit hd hwl ha l src hsrc hinj hstrict disp hdisp hk hamb d0 hd0 form hform rw hrw hP σ unit hunit
  have hsize : a.size = n := (C01_ula_geometry n d name {} a ha).1
  have hA := uniform_injective hd hwl ha src hsrc hinj (by omega) (fun c e => unambiguous_of_phase hd hwl hdisp (hamb c) (hamb e)) hS l
  obtain ⟨C, hC, h⟩ := C106_chain hs a.toArrayDesign (.ff1 src) wl S hS (grid_scalar ha) hg1 hg2 hPd hP hσ hQd hν h4 l hA
    (show k < a.size by omega) _ (hn ε hε)
  refine ⟨C, hC, fun N hN => (measure_mono ?_).trans (h N hN)⟩
  intro d' hd' hc
  obtain ⟨Y, R, e1, e2, e3⟩ := hc
  refine hd' ⟨Y, R, e1, fun f eigh ev hf => ?_⟩
  obtain ⟨s, hs1, hs2⟩ := e3 eigh ev
  exact ⟨s, by rw [detectThen, e2 f hf]; simp [Except.bind, hs1], hs2⟩

/-- **C106** (root-MUSIC). The same with root-MUSIC, for all outcomes in which the root polynomial has no zero on the unit circle. -/
theorem C106_root_music {sqrtm : Sqrtm} (hs : IsSqrtm sqrtm) {n : ℕ} {d wl : ℝ} (hd : 0 < d) (hwl : 0 < wl)
    {name : Option String} {a : GridArray} (ha : ula n (.scalar d) name {} = .ok a)
    (l : Fin a.element.outputSize) (src : FF1D k) (hsrc : Valid1D src)
    (hinj : Function.Injective src.loc) (hstrict : ∀ c, |Real.sin (angleOf src.unit (src.loc c))| < 1)
    (hk : 1 ≤ k) (hkn : k < n) (hamb : ∀ c, |2 * Real.pi * d / wl * Real.sin (angleOf src.unit (src.loc c))| < Real.pi)
    (d0 : Option ℝ) (hd0 : d0 = some d ∨ d0 = none ∧ d = wl / 2) (unit : String) (hunit : Unit1D unit)
    {C1 C2 : CovArg} {g1 : StoGen k} {g2 : StoGen a.size}
    (hg1 : stoInit sqrtm k C1 = .ok g1) (hg2 : stoInit sqrtm a.size C2 = .ok g2)
    {P : Matrix (Fin k) (Fin k) ℂ} (hPd : Denotes k C1 P) (hP : P.PosDef) {σ : ℝ} (hσ : 0 < σ)
    (hQd : Denotes a.size C2 ((σ : ℂ) • (1 : Matrix (Fin a.size) (Fin a.size) ℂ)))
    {ν : Measure ℝ} [IsProbabilityMeasure ν] (hν : UnitLaw ν) (h4 : MemLp id 4 ν) {ε : ℝ} (hε : 0 < ε) :
    ∃ C : ℝ, 0 ≤ C ∧ ∀ N : ℕ, 2 ≤ N → (Measure.pi fun _ : Fin N => Measure.pi fun _ => ν)
      {d : Fin N → SnapshotDraw k a.size | ¬ ∃ Y R, experiment a.toArrayDesign (.ff1 src) wl g1 g2 N d = .ok ⟨N, Y, R⟩ ∧
        ∀ (f : EigvalshFn) (eigh : Eigh) (roots : NpRoots) (argsort : List ℝ → List ℕ), f.Spec → IsArgsort argsort →
          (∀ ζ : ℂ, ‖ζ‖ = 1 → (getNoiseSubspace eigh (R l) k)ᴴ *ᵥ ulaVec a.size ζ ≠ 0) →
          ∃ s : FF1D k, detectThen f (R l) N (fun r => rootMusicEstimate eigh roots argsort wl (R l) r d0 unit) = .ok ⟨k, some s⟩ ∧
            s.unit = unit ∧ Monotone s.loc ∧
            ∃ π : Equiv.Perm (Fin k), ∀ i, |s.loc i - reprIn unit (angleOf src.unit (src.loc (π i)))| < ε} ≤
      ENNReal.ofReal (C / Real.log N) := by
  obtain ⟨S, hS, hn⟩ := C87_root_music hd hwl ha l src hsrc hinj hstrict hk hkn hamb d0 hd0 hP σ unit hunit
  have hsize : a.size = n := (C01_ula_geometry n d name {} a ha).1
  have hamb' : ∀ c, |2 * Real.pi * (d * (1 : ℕ)) / wl * Real.sin (angleOf src.unit (src.loc c))| < Real.pi := by
    simpa using hamb
  have hA := uniform_injective hd hwl ha src hsrc hinj hkn.le (fun c e => unambiguous_of_phase hd hwl le_rfl (hamb' c) (hamb' e)) hS l
  obtain ⟨C, hC, h⟩ := C106_chain hs a.toArrayDesign (.ff1 src) wl S hS (grid_scalar ha) hg1 hg2 hPd hP hσ hQd hν h4 l hA
    (show k < a.size by omega) _ (hn ε hε)
  refine ⟨C, hC, fun N hN => (measure_mono ?_).trans (h N hN)⟩
  intro d' hd' hc
  obtain ⟨Y, R, e1, e2, e3⟩ := hc
  refine hd' ⟨Y, R, e1, fun f eigh roots argsort hf hsort hz => ?_⟩
  obtain ⟨s, hs1, hs2⟩ := e3 eigh roots argsort hsort hz
  exact ⟨s, by rw [detectThen, e2 f hf]; simp [Except.bind, hs1], hs2⟩

/-- **C106** (MUSIC). A uniform linear array, known perturbations allowed, and `k` sources at grid points that are not neighbours. The
program that passes the sample covariance matrix and the number of sources reported by `mdl` to MUSIC, whatever the estimator has been
used for before, resolves the sources and returns exactly their grid points, except with probability at most `C / log n`. -/
theorem C106_music {sqrtm : Sqrtm} (hs : IsSqrtm sqrtm) {a : ArrayDesign} (hel : a.element = .isotropicScalar)
    (hknown : ∀ p ∈ a.perturbations, p.isKnown = true) (hps : Usable a "all" a.perturbations)
    (hkd : (a.perturbations.map Perturbation.kind).Nodup)
    (hno : ∀ err kn, Perturbation.location err kn ∉ a.perturbations) (hinv : IsUnit (totalFactor a.size a.perturbations))
    {d wl : ℝ} (hd : 0 < d) (hwl : 0 < wl) (hnd : a.ndim = 1) (hloc : ∀ i, i < a.size → a.locations.at0 i 0 = (i : ℝ) * d)
    (l : Fin a.element.outputSize) (cfg : EstCfg (WithTop ℝ) (List (Fin a.size → ℂ)))
    {x : List ℝ} {names : List String} {u : String}
    (hg : cfg.grid = ⟨.ff1, [⟨x, false⟩], names, [u]⟩) (hu : Unit1D u) (hx : ∀ v ∈ x, InRange1D u v) (hxd : x.Nodup)
    (hamb : ∀ v ∈ x, ∀ w ∈ x, d * |Real.sin (angleOf u v) - Real.sin (angleOf u w)| < wl)
    (hpf : cfg.peakFinder = findPeaksSimple) (hsort : IsArgsort cfg.argsort)
    (hcomp : cfg.compute = atomColumns1D a l wl u)
    (src : FF1D k) (hsu : src.unit = u) (idx : Fin k → ℕ) (hidx : ∀ c, x[idx c]? = some (src.loc c))
    (hsep : ∀ c e, c < e → idx c + 1 < idx e) (h1 : ∀ c, 1 ≤ idx c)
    (h2 : ∀ c, idx c + 1 < x.length) (hk : 1 ≤ k) (hka : k < a.size)
    {C1 C2 : CovArg} {g1 : StoGen k} {g2 : StoGen a.size}
    (hg1 : stoInit sqrtm k C1 = .ok g1) (hg2 : stoInit sqrtm a.size C2 = .ok g2)
    {P : Matrix (Fin k) (Fin k) ℂ} (hPd : Denotes k C1 P) (hP : P.PosDef) {σ : ℝ} (hσ : 0 < σ)
    (hQd : Denotes a.size C2 ((σ : ℂ) • (1 : Matrix (Fin a.size) (Fin a.size) ℂ)))
    {ν : Measure ℝ} [IsProbabilityMeasure ν] (hν : UnitLaw ν) (h4 : MemLp id 4 ν) :
    ∃ C : ℝ, 0 ≤ C ∧ ∀ n : ℕ, 2 ≤ n → (Measure.pi fun _ : Fin n => Measure.pi fun _ => ν)
      {d : Fin n → SnapshotDraw k a.size | ¬ ∃ Y R, experiment a (.ff1 src) wl g1 g2 n d = .ok ⟨n, Y, R⟩ ∧
        ∀ (f : EigvalshFn) (eigh : Eigh) (ops : List (EstOp (WithTop ℝ) (List (Fin a.size → ℂ)))), f.Spec →
          ∃ o st', detectMusic f eigh cfg (cfg.run ops).1 (R l) n = (.ok o, st') ∧
            ∃ sp, o.observe st' = (true, some (some (List.ofFn fun c => [src.loc c], u)), sp)} ≤ ENNReal.ofReal (C / Real.log n) := by
  obtain ⟨S, hS, hA⟩ : ∃ S, steering a (.ff1 src) wl false "all" = .ok S ∧ Function.Injective (S.A l).mulVec := by
    obtain ⟨S, hS, -, hA, -⟩ := uniform_identified hel hps hkd hno hinv hd hwl hnd hloc l hu hx hxd hamb src hsu idx hidx hsep hka
    exact ⟨S, hS, hA⟩
  obtain ⟨S', hS', hn⟩ := C83_music_ula hel hknown hps hkd hno hinv hd hwl hnd hloc l cfg hg hu hx hxd hamb hpf hsort hcomp src hsu idx
    hidx hsep h1 h2 hk hka hP σ
  obtain rfl : S = S' := by
    rw [hS] at hS'
    simpa using hS'
  obtain ⟨C, hC, h⟩ := C106_chain hs a (.ff1 src) wl S hS (by rw [hel]; rfl) hg1 hg2 hPd hP hσ hQd hν h4 l hA hka _ hn
  refine ⟨C, hC, fun n hn => (measure_mono ?_).trans (h n hn)⟩
  intro d' hd' hc
  obtain ⟨Y, R, e1, e2, e3⟩ := hc
  refine hd' ⟨Y, R, e1, fun f eigh ops hf => ?_⟩
  rw [detectMusic, e2 f hf]
  exact e3 eigh ops

/-- Non-vacuity of `C106_esprit`: five sensors, two sources at `sin θ = -0.4, 0.7`, unequal powers, normally distributed numbers. -/
example : ∃ (a : GridArray) (l : Fin a.element.outputSize) (g1 : StoGen 2) (g2 : StoGen a.size) (C : ℝ),
    ula 5 (.scalar (1 / 2)) none {} = .ok a ∧ stoInit someSqrtm 2 (.vector [4, 1]) = .ok g1 ∧
    ∀ N : ℕ, 2 ≤ N → (Measure.pi fun _ : Fin N => Measure.pi fun _ => gaussianReal 0 1)
      {d : Fin N → SnapshotDraw 2 a.size | ¬ ∃ Y R,
        experiment a.toArrayDesign (.ff1 ⟨![0.7, -0.4], "sin"⟩) 1 g1 g2 N d = .ok ⟨N, Y, R⟩ ∧
        ∀ (f : EigvalshFn) (eigh : Eigh) (ev : NpEigvals), f.Spec →
          ∃ s : FF1D 2, detectThen f (R l) N (fun r => espritEstimate eigh ev 1 (R l) r none 1 "tls" (.str "none") "deg") = .ok ⟨2, s⟩ ∧
            s.unit = "deg" ∧ Monotone s.loc ∧
            ∃ π : Equiv.Perm (Fin 2), ∀ i, |s.loc i - reprIn "deg" (angleOf "sin" ((![0.7, -0.4] : Fin 2 → ℝ) (π i)))| < 0.001} ≤
      ENNReal.ofReal (C / Real.log N) := by
  obtain ⟨a, ha⟩ := ula_ok 5 (1 / 2) none
  have hel : a.element = .isotropicScalar := (gridInit_spec ha).2.2.1
  have hl : 0 < a.element.outputSize := by rw [hel]; decide
  have hpi := Real.pi_pos
  have hP : Denotes 2 (.vector [4, 1]) (Matrix.diagonal (![4, 1] : Fin 2 → ℂ)) := by
    refine ⟨rfl, ?_⟩
    ext i j
    fin_cases i <;> fin_cases j <;> simp
  have hQ : Denotes a.size (.scalar 1) (((1 : ℝ) : ℂ) • (1 : Matrix (Fin a.size) (Fin a.size) ℂ)) := by
    show _ = _
    ext i j
    simp [Matrix.one_apply]
  obtain ⟨g1, hg1⟩ := ((C56_accepts someSqrtm 2 (.vector [4, 1])).1).2 ⟨_, hP⟩
  obtain ⟨g2, hg2⟩ := ((C56_accepts someSqrtm a.size (.scalar 1)).1).2 ⟨_, hQ⟩
  obtain ⟨C, -, key⟩ := C106_esprit someSqrtm_spec (d := 1 / 2) (wl := 1) (by norm_num) (by norm_num) ha ⟨0, hl⟩ (k := 2) ⟨![0.7, -0.4], "sin"⟩
    ⟨Or.inr (Or.inr rfl), fun c => Or.inr (Or.inr ⟨rfl, by fin_cases c <;> norm_num⟩)⟩
    (by intro c e h; fin_cases c <;> fin_cases e <;> first | rfl | (norm_num at h))
    (by intro c; rw [ex_sin, abs_lt]; fin_cases c <;> norm_num) 1 le_rfl (by norm_num)
    (by
      intro c
      rw [ex_sin, abs_lt]
      fin_cases c
      · constructor <;> simp <;> nlinarith
      · constructor <;> simp <;> nlinarith)
    none (Or.inr ⟨rfl, rfl⟩) "tls" (Or.inr rfl) (.str "none") (Or.inl rfl) "deg" (Or.inr (Or.inl rfl)) hg1 hg2 hP
    (PosDef.diagonal (by intro i; fin_cases i <;> simp)) one_pos hQ unitLaw_gaussian (memLp_id_gaussianReal 4) (ε := 0.001) (by norm_num)
  exact ⟨a, ⟨0, hl⟩, g1, g2, C, ha, hg1, key⟩

/-- Non-vacuity of `C106_music`: three sensors with known gain and coupling errors, sources of power 1 and 2, normally distributed
numbers. -/
example : ∃ (cfg : EstCfg (WithTop ℝ) (List (Fin calibratedArray.size → ℂ))) (g1 : StoGen 2) (g2 : StoGen calibratedArray.size)
    (l : Fin calibratedArray.element.outputSize) (C : ℝ),
    ∀ n : ℕ, 2 ≤ n → (Measure.pi fun _ : Fin n => Measure.pi fun _ => gaussianReal 0 1)
      {d : Fin n → SnapshotDraw 2 calibratedArray.size | ¬ ∃ Y R,
        experiment calibratedArray (.ff1 ⟨![-0.5, 0.5], "sin"⟩) 1 g1 g2 n d = .ok ⟨n, Y, R⟩ ∧
        ∀ (f : EigvalshFn) (eigh : Eigh) (ops : List (EstOp (WithTop ℝ) (List (Fin calibratedArray.size → ℂ)))), f.Spec →
          ∃ o st', detectMusic f eigh cfg (cfg.run ops).1 (R l) n = (.ok o, st') ∧
            ∃ sp, o.observe st' = (true, some (some (List.ofFn fun c => [(![-0.5, 0.5] : Fin 2 → ℝ) c], "sin")), sp)} ≤
      ENNReal.ofReal (C / Real.log n) := by
  have hP : Denotes 2 (.vector [1, 2]) (Matrix.diagonal (![1, 2] : Fin 2 → ℂ)) := by
    refine ⟨rfl, ?_⟩
    ext i j
    fin_cases i <;> fin_cases j <;> simp
  have hQ : Denotes calibratedArray.size (.scalar 1) (((1 : ℝ) : ℂ) • (1 : Matrix (Fin calibratedArray.size) (Fin calibratedArray.size) ℂ)) := by
    show _ = _
    ext i j
    simp [Matrix.one_apply]
  obtain ⟨g1, hg1⟩ := ((C56_accepts someSqrtm 2 (.vector [1, 2])).1).2 ⟨_, hP⟩
  obtain ⟨g2, hg2⟩ := ((C56_accepts someSqrtm calibratedArray.size (.scalar 1)).1).2 ⟨_, hQ⟩
  obtain ⟨h1, h2, h3, h4, h5, h6, h7⟩ := calibratedArray_ok
  obtain ⟨C, -, key⟩ := C106_music (k := 2) someSqrtm_spec (a := calibratedArray) rfl h2 h1 h3 h4 h5 (d := 1 / 2) (wl := 1)
    (by norm_num) one_pos h6 h7 ⟨0, by decide⟩
    ⟨⟨.ff1, [⟨exGrid, false⟩], [], ["sin"]⟩, atomColumns1D calibratedArray ⟨0, by decide⟩ 1 "sin", findPeaksSimple, stableArgsort, true, false⟩
    rfl (Or.inr (Or.inr rfl)) exGrid_inRange (by norm_num [exGrid]) exGrid_unambiguous rfl stableArgsort_isArgsort rfl ⟨![-0.5, 0.5], "sin"⟩ rfl ![1, 3]
    (by intro c; fin_cases c <;> rfl) (by decide) (by decide) (by decide) (by norm_num) (by decide) hg1 hg2 hP
    (PosDef.diagonal (by intro i; fin_cases i <;> simp)) one_pos hQ unitLaw_gaussian (memLp_id_gaussianReal 4)
  exact ⟨_, g1, g2, ⟨0, by decide⟩, C, key⟩

/-- `C106_chain` and `C106_root_music`: three sensors, one source at broadside. -/
example : ∃ (a : GridArray) (l : Fin a.element.outputSize) (g1 : StoGen 1) (g2 : StoGen a.size) (C : ℝ),
    ula 3 (.scalar (1 / 2)) none {} = .ok a ∧
    ∀ N : ℕ, 2 ≤ N → (Measure.pi fun _ : Fin N => Measure.pi fun _ => gaussianReal 0 1)
      {d : Fin N → SnapshotDraw 1 a.size | ¬ ∃ Y R,
        experiment a.toArrayDesign (.ff1 ⟨fun _ => 0, "sin"⟩) 1 g1 g2 N d = .ok ⟨N, Y, R⟩ ∧
        ∀ (f : EigvalshFn) (eigh : Eigh) (roots : NpRoots) (argsort : List ℝ → List ℕ), f.Spec → IsArgsort argsort →
          (∀ ζ : ℂ, ‖ζ‖ = 1 → (getNoiseSubspace eigh (R l) 1)ᴴ *ᵥ ulaVec a.size ζ ≠ 0) →
          ∃ s : FF1D 1, detectThen f (R l) N (fun r => rootMusicEstimate eigh roots argsort 1 (R l) r none "sin") = .ok ⟨1, some s⟩ ∧
            s.unit = "sin" ∧ Monotone s.loc ∧
            ∃ π : Equiv.Perm (Fin 1), ∀ i, |s.loc i - reprIn "sin" (angleOf "sin" ((fun _ => 0 : Fin 1 → ℝ) (π i)))| < 0.01} ≤
      ENNReal.ofReal (C / Real.log N) := by
  obtain ⟨a, ha⟩ := ula_ok 3 (1 / 2) none
  have hel : a.element = .isotropicScalar := (gridInit_spec ha).2.2.1
  have hl : 0 < a.element.outputSize := by rw [hel]; decide
  have hv : Valid1D (⟨fun _ => 0, "sin"⟩ : FF1D 1) := ⟨by simp [Unit1D], fun i => by simp [InRange1D]⟩
  have h0 : Real.sin (angleOf "sin" 0) = 0 := by simp [angleOf]
  have hP : Denotes 1 (.scalar 1) (1 : Matrix (Fin 1) (Fin 1) ℂ) := by
    show _ = _
    ext i j
    simp [Matrix.one_apply]
  have hQ : Denotes a.size (.scalar 1) (((1 : ℝ) : ℂ) • (1 : Matrix (Fin a.size) (Fin a.size) ℂ)) := by
    show _ = _
    ext i j
    simp [Matrix.one_apply]
  obtain ⟨g1, hg1⟩ := ((C56_accepts someSqrtm 1 (.scalar 1)).1).2 ⟨_, hP⟩
  obtain ⟨g2, hg2⟩ := ((C56_accepts someSqrtm a.size (.scalar 1)).1).2 ⟨_, hQ⟩
  obtain ⟨C, -, key⟩ := C106_root_music (k := 1) someSqrtm_spec (d := 1 / 2) (wl := 1) (by norm_num) one_pos ha ⟨0, hl⟩ ⟨fun _ => 0, "sin"⟩ hv
    (fun i j _ => Subsingleton.elim i j) (fun c => by simp [h0]) le_rfl (by norm_num) (fun c => by simp [h0, Real.pi_pos]) none
    (Or.inr ⟨rfl, by norm_num⟩) "sin" (by simp [Unit1D]) hg1 hg2 hP PosDef.one one_pos hQ unitLaw_gaussian (memLp_id_gaussianReal 4)
    (ε := 0.01) (by norm_num)
  exact ⟨a, ⟨0, hl⟩, g1, g2, C, ha, key⟩

end Doa.Props
