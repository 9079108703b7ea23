import Verif.Props.Calibrated
import Verif.Props.Esprit
import Verif.Props.VirtualUla

/-!
# C70: estimation on the difference coarray (direct augmentation / spatial smoothing), end to end
-/

namespace Doa.Props

open Doa Doa.Spec Complex Matrix
open scoped ComplexOrder

variable {m k : ℕ}

theorem modelCov_eq_covModel (A : Matrix (Fin m) (Fin k) ℂ) (p : Fin k → ℝ) (σ : ℝ) :
    modelCov A p σ = covModel A (diagonal fun c => (p c : ℂ)) σ := rfl

theorem diag_posDef {p : Fin k → ℝ} (hp : ∀ c, 0 < p c) : (diagonal fun c => (p c : ℂ)).PosDef :=
  PosDef.diagonal fun c => by exact_mod_cast hp c

/-- The scaled square of a covariance of the model form has the model form with the same steering matrix. -/
theorem square_covModel (A : Matrix (Fin m) (Fin k) ℂ) {P : Matrix (Fin k) (Fin k) ℂ} (hP : P.PosDef) {σ : ℝ} (hσ : 0 ≤ σ) {r : ℝ} (hr : 0 < r)
    (h : 0 < σ ∨ Function.Injective A.mulVec) :
    ∃ Q : Matrix (Fin k) (Fin k) ℂ, Q.PosDef ∧
      ((1 / (r : ℂ)) • (covModel A P σ * covModel A P σ)) = covModel A Q (σ ^ 2 / r) := by
  refine ⟨((1 / r : ℝ) : ℂ) • (P * (Aᴴ * A) * P + ((2 * σ : ℝ) : ℂ) • P), ?_, ?_⟩
  · have hG : (P * (Aᴴ * A) * P).PosSemidef := by
      have := (posSemidef_conjTranspose_mul_self A).mul_mul_conjTranspose_same P
      rwa [hP.isHermitian.eq] at this
    have hs : (P * (Aᴴ * A) * P + ((2 * σ : ℝ) : ℂ) • P).PosDef := by
      rcases h with h | h
      · exact PosDef.posSemidef_add hG (hP.smul (by exact_mod_cast (by linarith : (0 : ℝ) < 2 * σ)))
      · have hGd : (P * (Aᴴ * A) * P).PosDef := by
          have h1 : (Aᴴ * A).PosDef := PosDef.conjTranspose_mul_self A h
          have h2 := h1.mul_mul_conjTranspose_same (B := P) (by
            have := hP.isUnit
            exact vecMul_injective_of_isUnit this)
          rwa [hP.isHermitian.eq] at h2
        exact hGd.add_posSemidef (hP.posSemidef.smul (by exact_mod_cast (by linarith : (0 : ℝ) ≤ 2 * σ)))
    exact hs.smul (by exact_mod_cast (by positivity : (0 : ℝ) < 1 / r))
  · have hr' : (r : ℂ) ≠ 0 := by exact_mod_cast hr.ne'
    unfold covModel
    push_cast
    simp only [Matrix.mul_add, Matrix.add_mul, Matrix.mul_smul, Matrix.smul_mul, Matrix.mul_one, Matrix.one_mul, smul_add, smul_smul,
      Matrix.mul_assoc]
    rw [add_assoc, add_assoc]
    congr 1
    rw [← add_assoc, ← add_smul]
    congr 1
    · congr 1; ring
    · congr 1; field_simp

/-- The virtual ULA sees the sources through powers of the phase factors. -/
theorem virtual_steering {b : GridArray} {δ : ℝ} (hel : b.element = .isotropicScalar) (hp : b.perts = []) (hdim : b.ndim = 1)
    (hloc : ∀ i, i < b.size → b.locations.at0 i 0 = (i : ℝ) * δ) (src : FF1D k) (hs : Valid1D src) (wl : ℝ) [NeZero wl] :
    ∃ S, steering b.toArrayDesign (.ff1 src) wl false "all" = .ok S ∧
      ∀ l, S.A l = ulaMat b.size fun c => phaseFactor δ wl src.unit (src.loc c) := by
  have hpl : b.toArrayDesign.perturbations = [] := by
    have : b.toArrayDesign.perts = [] := hp
    simp [ArrayDesign.perturbations, this, PyDict.values]
  have hus : Usable b.toArrayDesign "all" [] := by
    have : b.toArrayDesign.perts = [] := hp
    refine ⟨by simp [ArrayDesign.filterPerturbations, this, PyDict.values], rfl, ?_, by simp⟩
    have : b.locations.ncols = 1 := hdim
    simp only [List.foldl_nil]
    omega
  obtain ⟨S, hS, hSA⟩ := uniform_steering hel hus (by simp) hdim hloc src hs wl (by simp)
  refine ⟨S, hS, fun l => ?_⟩
  rw [hSA l]
  simp [totalFactor]

/-- What the coarray transforms hand to an estimator. Let `a` be an unperturbed linear grid array of isotropic elements at the
distinct positions `l[i] * δ`, and `R = A diag(p) Aᴴ + σ I` the exact covariance of uncorrelated sources.  Both transforms return a
covariance of model form for the virtual ULA: the steering matrix of the virtual ULA, a positive definite source covariance and
white noise, which is positive if the noise of the sensors is. -/
theorem coarray_input_noise {a : GridArray} {l : List ℤ} {δ : ℝ} (h : LinearGrid a l δ) (hδ : a.d0 = [δ]) (hnd : l.Nodup)
    (hel : a.element = .isotropicScalar) (hpert : a.perts = []) (name : Option String) (hname : name ≠ none ∨ a.name ≠ none)
    {w0 w : WeightFunction} (hw0 : WeightFunction.init a = .ok w0) (hr : WReach w0 w) (src : FF1D k) (hs : Valid1D src) (wl : ℝ) [NeZero wl]
    {p : Fin k → ℝ} (hp : ∀ c, 0 < p c) {σ : ℝ} (method : String) (hm : method = "da" ∨ method = "ss" ∧ 0 ≤ σ)
    {v : ℕ} (hv : IsCentralSize l v) (hkv : k < v)
    (hz : Function.Injective fun c => phaseFactor δ wl src.unit (src.loc c)) :
    ∃ (b : GridArray) (S : Steering a.element.outputSize a.size k), virtualUla a w name = .ok b ∧ b.size = v ∧
      b.element = .isotropicScalar ∧ b.perts = [] ∧ b.ndim = 1 ∧ (∀ i, i < b.size → b.locations.at0 i 0 = (i : ℝ) * δ) ∧
      steering a.toArrayDesign (.ff1 src) wl false "all" = .ok S ∧
      ∀ i, ∃ (Q : Matrix (Fin k) (Fin k) ℂ) (τ : ℝ), Q.PosDef ∧ (0 < σ → 0 < τ) ∧
        (acmTransform w (modelCov (S.A i) p σ) method).1 =
          .ok ⟨b.size, covModel (ulaMat b.size fun c => phaseFactor δ wl src.unit (src.loc c)) Q τ⟩ := by
  obtain ⟨b, A, B, hb, hA, hB, hbv, hab⟩ := C29_virtual_ula_partial h hδ hnd (by rintro rfl; have := hv.empty; omega) hel hpert name hname hw0 hr (.ff1 src) rfl wl p σ
  obtain ⟨b', hb', _, g3, hbp, hbdim, hbloc, _⟩ := virtualUla_spec h.1 hδ name hname hw0 hr
  obtain rfl : b = b' := by rw [hb, Except.ok.injEq] at hb'; exact hb'
  obtain ⟨B', hB', hBA⟩ := virtual_steering g3 hbp hbdim hbloc src hs wl
  obtain rfl : B = B' := by rw [hB, Except.ok.injEq] at hB'; exact hB'
  have hsz : b.size = v := hbv.unique hv
  refine ⟨b, A, hb, hsz, g3, hbp, hbdim, hbloc, hA, fun i => ?_⟩
  have hl0 : 0 < b.element.outputSize := by rw [g3]; decide
  obtain ⟨q1, q2⟩ := hab i ⟨0, hl0⟩
  rw [hBA, modelCov_eq_covModel] at q1 q2
  rcases hm with rfl | ⟨rfl, hσ⟩
  · exact ⟨_, _, diag_posDef hp, id, q1⟩
  · have hb0 : 0 < b.size := by omega
    obtain ⟨Q, hQ, hsq⟩ := square_covModel (ulaMat b.size fun c => phaseFactor δ wl src.unit (src.loc c)) (diag_posDef hp) hσ
      (r := (b.size : ℝ)) (by exact_mod_cast hb0) (Or.inr (ulaMat_injective hz (by omega)))
    refine ⟨Q, σ ^ 2 / (b.size : ℝ), hQ, fun h => div_pos (pow_pos h 2) (by exact_mod_cast hb0), ?_⟩
    rw [← hsq]
    refine Eq.trans q2 ?_
    push_cast
    rfl

/-- `coarray_input_noise` without the noise. -/
theorem coarray_input {a : GridArray} {l : List ℤ} {δ : ℝ} (h : LinearGrid a l δ) (hδ : a.d0 = [δ]) (hnd : l.Nodup)
    (hel : a.element = .isotropicScalar) (hpert : a.perts = []) (name : Option String) (hname : name ≠ none ∨ a.name ≠ none)
    {w0 w : WeightFunction} (hw0 : WeightFunction.init a = .ok w0) (hr : WReach w0 w) (src : FF1D k) (hs : Valid1D src) (wl : ℝ) [NeZero wl]
    {p : Fin k → ℝ} (hp : ∀ c, 0 < p c) {σ : ℝ} (method : String) (hm : method = "da" ∨ method = "ss" ∧ 0 ≤ σ)
    {v : ℕ} (hv : IsCentralSize l v) (hkv : k < v)
    (hz : Function.Injective fun c => phaseFactor δ wl src.unit (src.loc c)) :
    ∃ (b : GridArray) (S : Steering a.element.outputSize a.size k), virtualUla a w name = .ok b ∧ b.size = v ∧
      b.element = .isotropicScalar ∧ b.perts = [] ∧ b.ndim = 1 ∧ (∀ i, i < b.size → b.locations.at0 i 0 = (i : ℝ) * δ) ∧
      steering a.toArrayDesign (.ff1 src) wl false "all" = .ok S ∧
      ∀ i, ∃ (Q : Matrix (Fin k) (Fin k) ℂ) (τ : ℝ), Q.PosDef ∧
        (acmTransform w (modelCov (S.A i) p σ) method).1 =
          .ok ⟨b.size, covModel (ulaMat b.size fun c => phaseFactor δ wl src.unit (src.loc c)) Q τ⟩ := by
  obtain ⟨b, S, h1, h2, h3, h4, h5, h6, h7, h8⟩ := coarray_input_noise h hδ hnd hel hpert name hname hw0 hr src hs wl hp method hm hv hkv hz
  refine ⟨b, S, h1, h2, h3, h4, h5, h6, h7, fun i => ?_⟩
  obtain ⟨Q, τ, hQ, -, hT⟩ := h8 i
  exact ⟨Q, τ, hQ, hT⟩

/-- **C70** (MUSIC). Coarray MUSIC: build the virtual ULA of a linear grid array, transform the exact covariance of `k` uncorrelated
sources by direct augmentation or spatial smoothing, and run MUSIC for the virtual ULA on a 1-D grid.  For every `k` smaller than the
size `v` of the largest hole-free central segment of the difference coarray, in particular for more sources than the array has
sensors, exactly the sources are returned: for every array, every history of the weight function and of the estimator and every
choice of eigenvectors.  The sources sit on interior, non-adjacent points of a grid without grating lobes. -/
theorem C70_coarray_music (eigh : Eigh) {a : GridArray} {l : List ℤ} {δ : ℝ} (h : LinearGrid a l δ) (hδ : a.d0 = [δ])
    (hδ0 : 0 < δ) (hnd : l.Nodup) (hel : a.element = .isotropicScalar) (hpert : a.perts = []) (name : Option String)
    (hname : name ≠ none ∨ a.name ≠ none) {w0 w : WeightFunction} (hw0 : WeightFunction.init a = .ok w0) (hr : WReach w0 w)
    {wl : ℝ} (hwl : 0 < wl) {x : List ℝ} {u : String} (hu : Unit1D u) (hx : ∀ y ∈ x, InRange1D u y) (hxd : x.Nodup)
    (hamb : ∀ y ∈ x, ∀ z ∈ x, δ * |Real.sin (angleOf u y) - Real.sin (angleOf u z)| < wl)
    (src : FF1D k) (hsu : src.unit = u) (idx : Fin k → ℕ) (hidx : ∀ c, x[idx c]? = some (src.loc c))
    (hsep : ∀ c e, c < e → idx c + 1 < idx e) (h1 : ∀ c, 1 ≤ idx c) (h2 : ∀ c, idx c + 1 < x.length)
    {v : ℕ} (hv : IsCentralSize l v) (hk : 1 ≤ k) (hkv : k < v)
    {p : Fin k → ℝ} (hp : ∀ c, 0 < p c) {σ : ℝ} (method : String) (hm : method = "da" ∨ method = "ss" ∧ 0 ≤ σ) :
    ∃ (b : GridArray) (S : Steering a.element.outputSize a.size k), virtualUla a w name = .ok b ∧
      steering a.toArrayDesign (.ff1 src) wl false "all" = .ok S ∧
      ∀ i, ∃ R : Matrix (Fin b.size) (Fin b.size) ℂ,
        (acmTransform w (modelCov (S.A i) p σ) method).1 = .ok ⟨b.size, R⟩ ∧
        ∀ (j : Fin b.element.outputSize) (cfg : EstCfg (WithTop ℝ) (List (Fin b.size → ℂ))) (names : List String)
          (ops : List (EstOp (WithTop ℝ) (List (Fin b.size → ℂ)))),
          cfg.grid = ⟨.ff1, [⟨x, false⟩], names, [u]⟩ → cfg.peakFinder = findPeaksSimple → IsArgsort cfg.argsort →
          cfg.compute = atomColumns1D b.toArrayDesign j wl u →
          ∃ o st', musicEstimate eigh cfg (cfg.run ops).1 R k {} = (.ok o, st') ∧
            ∃ sp, o.observe st' = (true, some (some (List.ofFn fun c => [src.loc c], u)), sp) := by
  have : NeZero wl := ⟨hwl.ne'⟩
  have hsx : ∀ c, src.loc c ∈ x := fun c => List.mem_of_getElem? (hidx c)
  have hs : Valid1D src := ⟨hsu ▸ hu, fun c => hsu ▸ hx _ (hsx c)⟩
  have hinj : Function.Injective src.loc := by
    intro c e hce
    obtain ⟨hc1, hc2⟩ := List.getElem?_eq_some_iff.1 (hidx c)
    obtain ⟨he1, he2⟩ := List.getElem?_eq_some_iff.1 (hidx e)
    have h3 : idx c = idx e := (List.Nodup.getElem_inj_iff hxd).1 (by rw [hc2, he2, hce])
    rcases lt_trichotomy c e with h' | h' | h'
    · have := hsep c e h'; omega
    · exact h'
    · have := hsep e c h'; omega
  have hz : Function.Injective fun c => phaseFactor δ wl src.unit (src.loc c) := by
    intro c e hce
    simp only [hsu] at hce
    exact hinj (phaseFactor_inj hδ0 hwl (hx _ (hsx c)) (hx _ (hsx e)) (hamb _ (hsx c) _ (hsx e)) hce)
  obtain ⟨b, S, hb, hbv, g3, hbp, hbdim, hbloc, hS, hQ⟩ :=
    coarray_input h hδ hnd hel hpert name hname hw0 hr src hs wl hp method hm hv hkv hz
  refine ⟨b, S, hb, hS, fun i => ?_⟩
  obtain ⟨Q, τ, hQp, hR⟩ := hQ i
  refine ⟨_, hR, fun j cfg names ops hg hpf hsort hcomp => ?_⟩
  have hpl : b.toArrayDesign.perturbations = [] := by
    have : b.toArrayDesign.perts = [] := hbp
    simp [ArrayDesign.perturbations, this, PyDict.values]
  have hus : Usable b.toArrayDesign "all" b.toArrayDesign.perturbations := by
    have : b.toArrayDesign.perts = [] := hbp
    refine ⟨by simp [ArrayDesign.filterPerturbations, ArrayDesign.perturbations], by rw [hpl]; rfl, ?_, by simp [hpl]⟩
    have : b.locations.ncols = 1 := hbdim
    simp only [hpl, List.foldl_nil]
    omega
  obtain ⟨B, hB, hBA, key⟩ := C43_calibrated_ula eigh (a := b.toArrayDesign) g3 (by simp [hpl]) hus (by simp [hpl]) (by simp [hpl])
    (by rw [hpl]; exact isUnit_one) hδ0 hwl hbdim hbloc j cfg hg hu hx hxd hamb hpf hsort hcomp src hsu idx hidx hsep h1 h2 hk
    (by have : b.toArrayDesign.size = v := hbv; omega) hQp τ ops
  rw [hBA, hpl, show (totalFactor b.toArrayDesign.size [] : Matrix _ _ ℂ) = 1 from rfl, Matrix.one_mul] at key
  rw [hsu]
  exact key

/-- Three sources seen by three sensors at `0, 1, 3`: all four lags `0, ..., 3` occur. -/
theorem three_sensors_central : IsCentralSize [0, 1, 3] 4 := by
  constructor
  · intro d hd
    have : d = -3 ∨ d = -2 ∨ d = -1 ∨ d = 0 ∨ d = 1 ∨ d = 2 ∨ d = 3 := by
      have := abs_lt.1 hd
      push_cast at this
      omega
    rcases this with rfl | rfl | rfl | rfl | rfl | rfl | rfl
    · exact ⟨0, 2, rfl⟩
    · exact ⟨1, 2, rfl⟩
    · exact ⟨0, 1, rfl⟩
    · exact ⟨0, 0, rfl⟩
    · exact ⟨1, 0, rfl⟩
    · exact ⟨2, 1, rfl⟩
    · exact ⟨2, 0, rfl⟩
  · intro hh
    obtain ⟨i, j, hij⟩ := hh 4 (by norm_num)
    revert i j
    decide

/-- The hypotheses hold for three sources and three sensors: as many sources as sensors are recovered. -/
example (eigh : Eigh) (method : String) (hm : method = "da" ∨ method = "ss") : ∃ (a b : GridArray) (w : WeightFunction)
    (S : Steering a.element.outputSize a.size 3) (i : _) (R : Matrix (Fin b.size) (Fin b.size) ℂ)
    (cfg : EstCfg (WithTop ℝ) (List (Fin b.size → ℂ))) (o : _) (st' : _),
    a.size = 3 ∧ virtualUla a w none = .ok b ∧ steering a.toArrayDesign (.ff1 ⟨![-0.5, 0, 0.5], "sin"⟩) 1 false "all" = .ok S ∧
    (acmTransform w (modelCov (S.A i) (fun c => c + 1) 1) method).1 = .ok ⟨b.size, R⟩ ∧
    musicEstimate eigh cfg cfg.init R 3 {} = (.ok o, st') ∧
    ∃ sp, o.observe st' = (true, some (some ([[-0.5], [0], [0.5]], "sin")), sp) := by
  obtain ⟨a, ha⟩ := gridInit_ok_of (idx := Mat.col [0, 1, 3]) (spec := .d0 (.scalar (1 / 2)))
    (name := some "x") (kw := {}) (d := []) (by simp [GridArgsMatch]) rfl
  obtain ⟨hlg, hd0⟩ := linearGrid_of_init ha
  obtain ⟨_, g2, g3, g4, _⟩ := gridInit_spec ha
  have hsize : a.size = 3 := hlg.1.2.2
  have hw0 := weightFunction_init hlg.1
  have hrg : ∀ y ∈ ([-0.8, -0.5, -0.2, 0, 0.2, 0.5, 0.8] : List ℝ), -0.8 ≤ y ∧ y ≤ 0.8 := by
    intro y hy
    simp only [List.mem_cons, List.not_mem_nil, or_false] at hy
    rcases hy with rfl | rfl | rfl | rfl | rfl | rfl | rfl <;> norm_num
  have hsin : ∀ y ∈ ([-0.8, -0.5, -0.2, 0, 0.2, 0.5, 0.8] : List ℝ), Real.sin (angleOf "sin" y) = y := by
    intro y hy
    have := hrg y hy
    simp only [angleOf, String.reduceEq, if_false, if_true]
    exact Real.sin_arcsin (by linarith [this.1]) (by linarith [this.2])
  obtain ⟨b, S, hb, hS, hR⟩ := C70_coarray_music (k := 3) eigh hlg hd0 (by norm_num) (by decide) g3 (Except.ok.inj g4).symm none
    (Or.inr (by rw [g2]; simp)) hw0 .refl (wl := 1) (by norm_num) (x := [-0.8, -0.5, -0.2, 0, 0.2, 0.5, 0.8]) (u := "sin")
    (Or.inr (Or.inr rfl))
    (fun y hy => Or.inr (Or.inr ⟨rfl, by linarith [(hrg y hy).1], by linarith [(hrg y hy).2]⟩)) (by norm_num)
    (by
      intro y hy z hz
      rw [hsin y hy, hsin z hz]
      have h1 := hrg y hy
      have h2 := hrg z hz
      have : |y - z| ≤ 1.6 := by rw [abs_le]; constructor <;> linarith [h1.1, h1.2, h2.1, h2.2]
      linarith)
    ⟨![-0.5, 0, 0.5], "sin"⟩ rfl ![1, 3, 5] (by intro c; fin_cases c <;> rfl)
    (by decide)
    (by decide) (by decide) three_sensors_central (by norm_num) (by norm_num)
    (p := fun c => (c : ℝ) + 1) (fun c => by positivity) (σ := 1) method (hm.imp id fun h => ⟨h, by norm_num⟩)
  have hl : 0 < a.element.outputSize := by rw [g3]; decide
  obtain ⟨R, hR1, hR2⟩ := hR ⟨0, hl⟩
  obtain ⟨b', hb', _, q3, _⟩ := virtualUla_spec hlg.1 hd0 none (Or.inr (by rw [g2]; simp)) hw0 .refl
  obtain rfl : b = b' := by rw [hb, Except.ok.injEq] at hb'; exact hb'
  have hlb : 0 < b.element.outputSize := by rw [q3]; decide
  obtain ⟨o, st', ho, sp, hsp⟩ := hR2 ⟨0, hlb⟩ ⟨⟨.ff1, [⟨[-0.8, -0.5, -0.2, 0, 0.2, 0.5, 0.8], false⟩], [], ["sin"]⟩,
      atomColumns1D b.toArrayDesign ⟨0, hlb⟩ 1 "sin", findPeaksSimple, stableArgsort, true, false⟩ [] [] rfl rfl stableArgsort_isArgsort rfl
  exact ⟨a, b, _, S, _, R, _, o, st', hsize, hb, hS, hR1, ho, sp, hsp⟩

/-- ESPRIT on a covariance of ULA model form. -/
theorem esprit_ulaMat (eigh : Eigh) (ev : NpEigvals) {n : ℕ} {d wl : ℝ} (hd : 0 < d) (hwl : 0 < wl) (src : FF1D k) (hsrc : Valid1D src)
    (hinj : Function.Injective src.loc) (disp : ℕ) (hdisp : 1 ≤ disp) (hk : k + disp ≤ n)
    (hamb : ∀ c, |2 * Real.pi * (d * disp) / wl * Real.sin (angleOf src.unit (src.loc c))| < Real.pi)
    (d0 : Option ℝ) (hd0 : d0 = some d ∨ d0 = none ∧ d = wl / 2) (form : String) (hform : form = "ls" ∨ form = "tls")
    {P : Matrix (Fin k) (Fin k) ℂ} (hP : P.PosDef) (σ : ℝ) (unit : String) (hunit : Unit1D unit) :
    ∃ s, espritEstimate eigh ev wl (covModel (ulaMat n fun c => phaseFactor d wl src.unit (src.loc c)) P σ) k d0 disp form
        (.str "none") unit = .ok s ∧
      s.unit = unit ∧ Monotone s.loc ∧ ∃ π : Equiv.Perm (Fin k), ∀ i, s.loc i = reprIn unit (angleOf src.unit (src.loc (π i))) := by
  have : NeZero wl := ⟨hwl.ne'⟩
  obtain ⟨a, ha⟩ := ula_ok n d none
  have hel : a.element = .isotropicScalar := (gridInit_spec ha).2.2.1
  have hl : 0 < a.element.outputSize := by rw [hel]; decide
  have hsize : a.size = n := (C01_ula_geometry n d none {} a ha).1
  obtain ⟨S, hS, key⟩ := C47_esprit_partial eigh ev hd hwl ha ⟨0, hl⟩ src hsrc hinj disp hdisp hk hamb d0 hd0 form hform
    (.str "none") (Or.inl rfl) hP σ unit hunit
  obtain ⟨S', hS', hSv⟩ := ula_steering ha src hsrc wl "all" (by simp)
  obtain rfl : S = S' := by rw [hS, Except.ok.injEq] at hS'; exact hS'
  have hSm : S.A ⟨0, hl⟩ = ulaMat a.size fun c => phaseFactor d wl src.unit (src.loc c) := by
    funext i c
    exact hSv _ i c
  rw [hSm] at key
  have tr : ∀ N, N = n → (∃ s, espritEstimate eigh ev wl (covModel (ulaMat N fun c => phaseFactor d wl src.unit (src.loc c)) P σ) k d0
      disp form (.str "none") unit = .ok s ∧ s.unit = unit ∧ Monotone s.loc ∧
      ∃ π : Equiv.Perm (Fin k), ∀ i, s.loc i = reprIn unit (angleOf src.unit (src.loc (π i)))) →
      ∃ s, espritEstimate eigh ev wl (covModel (ulaMat n fun c => phaseFactor d wl src.unit (src.loc c)) P σ) k d0
      disp form (.str "none") unit = .ok s ∧ s.unit = unit ∧ Monotone s.loc ∧
      ∃ π : Equiv.Perm (Fin k), ∀ i, s.loc i = reprIn unit (angleOf src.unit (src.loc (π i))) := by
    rintro N rfl hN
    exact hN
  exact tr _ hsize key

/-- **C70** (ESPRIT). Coarray ESPRIT: the same transforms followed by `Esprit1D.estimate` with the spacing of the array, least squares or
total least squares and no row weights, recover every set of fewer than `v` uncorrelated sources without ambiguity, sorted and in
the requested unit. -/
theorem C70_coarray_esprit (eigh : Eigh) (ev : NpEigvals) {a : GridArray} {l : List ℤ} {δ : ℝ} (h : LinearGrid a l δ) (hδ : a.d0 = [δ])
    (hδ0 : 0 < δ) (hnd : l.Nodup) (hel : a.element = .isotropicScalar) (hpert : a.perts = [])
    {w0 w : WeightFunction} (hw0 : WeightFunction.init a = .ok w0) (hr : WReach w0 w) {wl : ℝ} (hwl : 0 < wl)
    (src : FF1D k) (hsrc : Valid1D src) (hinj : Function.Injective src.loc) (disp : ℕ) (hdisp : 1 ≤ disp)
    (hamb : ∀ c, |2 * Real.pi * (δ * disp) / wl * Real.sin (angleOf src.unit (src.loc c))| < Real.pi)
    {v : ℕ} (hv : IsCentralSize l v) (hkv : k + disp ≤ v)
    (d0 : Option ℝ) (hd0 : d0 = some δ ∨ d0 = none ∧ δ = wl / 2) (form : String) (hform : form = "ls" ∨ form = "tls")
    {p : Fin k → ℝ} (hp : ∀ c, 0 < p c) {σ : ℝ} (method : String) (hm : method = "da" ∨ method = "ss" ∧ 0 ≤ σ)
    (unit : String) (hunit : Unit1D unit) :
    ∃ S : Steering a.element.outputSize a.size k, steering a.toArrayDesign (.ff1 src) wl false "all" = .ok S ∧
      ∀ i, ∃ (R : Matrix (Fin v) (Fin v) ℂ) (s : FF1D k),
        (acmTransform w (modelCov (S.A i) p σ) method).1 = .ok ⟨v, R⟩ ∧
        espritEstimate eigh ev wl R k d0 disp form (.str "none") unit = .ok s ∧ s.unit = unit ∧ Monotone s.loc ∧
        ∃ π : Equiv.Perm (Fin k), ∀ i, s.loc i = reprIn unit (angleOf src.unit (src.loc (π i))) := by
  have : NeZero wl := ⟨hwl.ne'⟩
  have hz := inj_of_sin hsrc hinj hδ0 hwl hdisp hamb
  obtain ⟨b, S, hb, hbv, g3, hbp, hbdim, hbloc, hS, hQ⟩ :=
    coarray_input h hδ hnd hel hpert (some "x") (Or.inl (by simp)) hw0 hr src hsrc wl hp method hm hv (by omega) hz
  refine ⟨S, hS, fun i => ?_⟩
  obtain ⟨Q, τ, hQp, hR⟩ := hQ i
  rw [hbv] at hR
  obtain ⟨s, hs⟩ := esprit_ulaMat eigh ev hδ0 hwl src hsrc hinj disp hdisp hkv hamb d0 hd0 form hform hQp τ unit hunit
  exact ⟨_, s, hR, hs⟩

/-- Non-vacuity: three sources, three sensors at 0, 1 and 3 half wavelengths, estimated by coarray ESPRIT in degrees. -/
example (eigh : Eigh) (ev : NpEigvals) (form : String) (hform : form = "ls" ∨ form = "tls") :
    ∃ (a : GridArray) (w : WeightFunction) (S : Steering a.element.outputSize a.size 3) (i : Fin a.element.outputSize)
      (R : Matrix (Fin 4) (Fin 4) ℂ) (s : FF1D 3), a.size = 3 ∧
      steering a.toArrayDesign (.ff1 ⟨![-0.5, 0, 0.5], "sin"⟩) 1 false "all" = .ok S ∧
      (acmTransform w (modelCov (S.A i) (fun c => c + 1) 1) "ss").1 = .ok ⟨4, R⟩ ∧
      espritEstimate eigh ev 1 R 3 none 1 form (.str "none") "deg" = .ok s ∧ s.unit = "deg" ∧ Monotone s.loc ∧
      ∃ π : Equiv.Perm (Fin 3), ∀ i, s.loc i = reprIn "deg" (angleOf "sin" ((![-0.5, 0, 0.5] : Fin 3 → ℝ) (π i))) := by
  obtain ⟨a, ha⟩ := gridInit_ok_of (idx := Mat.col [0, 1, 3]) (spec := .d0 (.scalar (1 / 2)))
    (name := some "x") (kw := {}) (d := []) (by simp [GridArgsMatch]) rfl
  obtain ⟨hlg, hd0⟩ := linearGrid_of_init ha
  obtain ⟨_, g2, g3, g4, _⟩ := gridInit_spec ha
  have hw0 := weightFunction_init hlg.1
  have hmem : ∀ c, (![-0.5, 0, 0.5] : Fin 3 → ℝ) c = -0.5 ∨ (![-0.5, 0, 0.5] : Fin 3 → ℝ) c = 0 ∨ (![-0.5, 0, 0.5] : Fin 3 → ℝ) c = 0.5 := by
    intro c
    fin_cases c
    · exact Or.inl rfl
    · exact Or.inr (Or.inl rfl)
    · exact Or.inr (Or.inr rfl)
  have hrg : ∀ c, -0.5 ≤ (![-0.5, 0, 0.5] : Fin 3 → ℝ) c ∧ (![-0.5, 0, 0.5] : Fin 3 → ℝ) c ≤ 0.5 := by
    intro c
    rcases hmem c with h | h | h <;> rw [h] <;> norm_num
  have hsin : ∀ c, Real.sin (angleOf "sin" ((![-0.5, 0, 0.5] : Fin 3 → ℝ) c)) = (![-0.5, 0, 0.5] : Fin 3 → ℝ) c := by
    intro c
    have := hrg c
    simp only [angleOf, String.reduceEq, if_false, if_true]
    exact Real.sin_arcsin (by linarith [this.1]) (by linarith [this.2])
  have hinj : StrictMono (![-0.5, 0, 0.5] : Fin 3 → ℝ) := by
    rw [Fin.strictMono_iff_lt_succ]
    intro i
    fin_cases i
    · show (-0.5 : ℝ) < 0
      norm_num
    · show (0 : ℝ) < 0.5
      norm_num
  have hl : 0 < a.element.outputSize := by rw [g3]; decide
  obtain ⟨S, hS, key⟩ := C70_coarray_esprit (k := 3) eigh ev hlg hd0 (by norm_num) (by decide) g3 (Except.ok.inj g4).symm
    hw0 .refl (wl := 1) (by norm_num) ⟨![-0.5, 0, 0.5], "sin"⟩
    ⟨Or.inr (Or.inr rfl), fun c => Or.inr (Or.inr ⟨rfl, by linarith [(hrg c).1], by linarith [(hrg c).2]⟩)⟩ hinj.injective 1 le_rfl
    (by
      intro c
      have h1 := hrg c
      have hpi := Real.pi_pos
      rw [hsin c, abs_lt]
      push_cast
      constructor <;> nlinarith [h1.1, h1.2])
    three_sensors_central (by norm_num) none (Or.inr ⟨rfl, rfl⟩) form hform
    (p := fun c => (c : ℝ) + 1) (fun c => by positivity) (σ := 1) "ss" (Or.inr ⟨rfl, by norm_num⟩) "deg" (Or.inr (Or.inl rfl))
  obtain ⟨R, s, h1, h2, h3, h4, h5⟩ := key ⟨0, hl⟩
  exact ⟨a, _, S, _, R, s, hlg.1.2.2, hS, h1, h2, h3, h4, h5⟩

end Doa.Props
