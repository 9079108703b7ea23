import Verif.Props.CoarrayEstimation
import Verif.Props.Preprocessing

/-!
# C76: spatial smoothing makes coherent sources resolvable, end to end
-/

namespace Doa.Props

open Doa Doa.Spec Complex Matrix
open scoped ComplexOrder

variable {m k : ℕ}

/-- The backward covariance `J conj(R) J` of a ULA has the model form with the same steering matrix. -/
theorem backward_covModel {n : ℕ} {z : Fin k → ℂ} (hz1 : ∀ c, ‖z c‖ = 1) {P : Matrix (Fin k) (Fin k) ℂ} (hP : P.PosDef) (σ : ℝ) :
    ∃ Q : Matrix (Fin k) (Fin k) ℂ, Q.PosDef ∧
      (Matrix.of fun i j : Fin n => star (covModel (ulaMat n z) P σ i.rev j.rev)) = covModel (ulaMat n z) Q σ := by
  have hzz : ∀ c, star (z c) * z c = 1 := fun c => by
    rw [mul_comm, Complex.star_def, Complex.mul_conj, Complex.normSq_eq_norm_sq, hz1]; simp
  set D : Matrix (Fin k) (Fin k) ℂ := diagonal fun c => star (z c) ^ (n - 1) with hD
  refine ⟨D * Pᵀ * Dᴴ, ?_, ?_⟩
  · refine hP.transpose.mul_mul_conjTranspose_same (B := D) ?_
    apply vecMul_injective_of_isUnit
    rw [hD, isUnit_diagonal, Pi.isUnit_iff]
    intro c
    refine IsUnit.pow _ (isUnit_iff_ne_zero.2 ?_)
    intro h0
    have := hzz c
    rw [h0] at this
    simp at this
  · have hrev : ∀ (i : Fin n) (c : Fin k), star (ulaMat n z i.rev c) = (ulaMat n z * D) i c := by
      intro i c
      rw [hD, mul_diagonal]
      show star (z c ^ (i.rev).1) = z c ^ i.1 * star (z c) ^ (n - 1)
      have hi : n - 1 = i.1 + i.rev.1 := by rw [Fin.val_rev]; omega
      rw [star_pow, hi, pow_add, ← mul_assoc, ← mul_pow, mul_comm (z c), hzz, one_pow, one_mul]
    have hB : ulaMat n z * (D * Pᵀ * Dᴴ) * (ulaMat n z)ᴴ = (ulaMat n z * D) * Pᵀ * (ulaMat n z * D)ᴴ := by
      rw [conjTranspose_mul]
      simp only [Matrix.mul_assoc]
    rw [covModel, covModel, hB]
    generalize hG : ulaMat n z * D = B at hrev
    generalize ulaMat n z = A at hrev
    ext i j
    simp only [Matrix.of_apply, Matrix.add_apply, Matrix.smul_apply, Matrix.mul_apply, conjTranspose_apply, star_add, star_sum,
      star_mul', transpose_apply, smul_eq_mul, hrev, Matrix.one_apply, Fin.rev_inj]
    congr 1
    · rw [Finset.sum_congr rfl fun c _ => Finset.sum_mul _ _ _, Finset.sum_comm]
      rw [Finset.sum_congr rfl fun c _ => Finset.sum_mul _ _ _, Finset.sum_comm]
      refine Finset.sum_congr rfl fun c _ => Finset.sum_congr rfl fun e _ => ?_
      have h1 : star (P e c) = P c e := by
        have := congrFun (congrFun hP.isHermitian.eq c) e
        rwa [conjTranspose_apply] at this
      rw [h1]
    · by_cases hij : i = j <;> simp [hij]

/-- What spatial smoothing hands to an estimator: for the exact covariance of a ULA and an arbitrary, possibly singular, positive
semidefinite source covariance with nonzero powers, smoothing with `l ≥ k` subarrays (forward, or forward-backward for a complex
matrix) gives a covariance of model form for the ULA of `m - l + 1` elements with a positive definite source covariance. -/
theorem smoothing_input (h : MatHeap) (R : MatView) (hR : ViewOk h R) (hsh : R.shape = (m, m))
    {z : Fin k → ℂ} (hz : Function.Injective z) (hz1 : ∀ c, ‖z c‖ = 1)
    {P : Matrix (Fin k) (Fin k) ℂ} (hP : P.PosSemidef) (hpow : ∀ c, P c c ≠ 0) (σ : ℝ)
    (hcov : viewMat h R m = covModel (ulaMat m z) P σ)
    (l : ℕ) (hl : 1 ≤ l) (hlm : l ≤ m) (hkl : k ≤ l) (fb cplx : Bool) (hfb : fb = true → cplx = true) :
    ∃ h' v, spatialSmooth h R l fb cplx = .ok (h', v) ∧ v.shape = (m - l + 1, m - l + 1) ∧
      ∃ Q : Matrix (Fin k) (Fin k) ℂ, Q.PosDef ∧ viewMat h' v (m - l + 1) = covModel (ulaMat (m - l + 1) z) Q σ := by
  obtain ⟨h0, v0, e1, e2, e3⟩ := C49_decorrelates h R hR m hsh hz hP hpow σ hcov l hl hlm hkl cplx
  obtain ⟨h1, v1, f1, _, _, _, f5, f6⟩ := spatialSmooth_spec h R hR m hsh l hl hlm false cplx
  rw [f1, Except.ok.injEq, Prod.mk.injEq] at e1
  obtain ⟨rfl, rfl⟩ := e1
  simp only [Bool.false_eq_true, if_false] at f6
  cases fb with
  | false => exact ⟨_, _, f1, f5, _, e3, e2⟩
  | true =>
    obtain rfl := hfb rfl
    obtain ⟨h2, v2, g1, _, _, _, g5, g6⟩ := spatialSmooth_spec h R hR m hsh l hl hlm true true
    simp only [if_true] at g6
    rw [← f6, e2] at g6
    obtain ⟨Q, hQ, hb⟩ := backward_covModel (n := m - l + 1) hz1 e3 σ
    rw [hb] at g6
    refine ⟨h2, v2, g1, g5, (1 / 2 : ℂ) • (smoothedSourceCov l z P + Q), ?_, ?_⟩
    · have h12 : (0 : ℂ) < 1 / 2 := by
        rw [show (1 / 2 : ℂ) = ((1 / 2 : ℝ) : ℂ) by push_cast; rfl, Complex.zero_lt_real]; norm_num
      exact (e3.add hQ).smul h12
    · rw [g6]
      simp only [covModel, Matrix.mul_smul, Matrix.smul_mul, Matrix.mul_add, Matrix.add_mul, smul_add, smul_smul]
      rw [show (1 / 2 : ℂ) * (σ : ℂ) = (σ : ℂ) / 2 by ring]
      rw [show ((σ : ℂ) • (1 : Matrix (Fin (m - l + 1)) (Fin (m - l + 1)) ℂ)) = ((σ : ℂ) / 2) • 1 + ((σ : ℂ) / 2) • 1 by
        rw [← add_smul, add_halves]]
      abel

theorem phaseFactor_norm (d wl : ℝ) (u : String) (x : ℝ) : ‖phaseFactor d wl u x‖ = 1 := by
  simp only [phaseFactor]
  rw [mul_comm, Complex.norm_exp_ofReal_mul_I]

/-- **C76** (MUSIC). Coherent sources on a ULA: let `R` be the exact covariance of `k` sources whose source covariance is only positive
semidefinite (any of them may be copies of each other), `S` the steering matrix of the `m` element ULA.  Run `spatial_smooth(R, l, fb)`
with at least `k` subarrays that have more than `k` elements each, and then MUSIC for the ULA of `m - l + 1` elements: exactly the
sources are returned, for every history of the estimator and every choice of eigenvectors, with forward and with forward-backward
smoothing. -/
theorem C76_music (eigh : Eigh) {d wl : ℝ} (hd : 0 < d) (hwl : 0 < wl) {name nameb : Option String} {a b : GridArray}
    (ha : ula m (.scalar d) name {} = .ok a) (i : Fin a.element.outputSize)
    {x : List ℝ} {names : List String} {u : String} (hu : Unit1D u) (hx : ∀ v ∈ x, InRange1D u v) (hxd : x.Nodup)
    (hamb : ∀ v ∈ x, ∀ w ∈ x, d * |Real.sin (angleOf u v) - Real.sin (angleOf u w)| < wl)
    (src : FF1D k) (hsu : src.unit = u) (idx : Fin k → ℕ) (hidx : ∀ c, x[idx c]? = some (src.loc c))
    (hsep : ∀ c e, c < e → idx c + 1 < idx e) (h1 : ∀ c, 1 ≤ idx c) (h2 : ∀ c, idx c + 1 < x.length)
    {S : Steering a.element.outputSize a.size k} (hS : steering a.toArrayDesign (.ff1 src) wl false "all" = .ok S)
    {P : Matrix (Fin k) (Fin k) ℂ} (hP : P.PosSemidef) (hpow : ∀ c, P c c ≠ 0) (σ : ℝ)
    (h : MatHeap) (R : MatView) (hR : ViewOk h R) (hsh : R.shape = (m, m))
    (hcov : viewMat h R a.size = covModel (S.A i) P σ)
    (l : ℕ) (hlm : l ≤ m) (hk : 1 ≤ k) (hkl : k ≤ l) (hkn : k < m - l + 1) (fb cplx : Bool) (hfb : fb = true → cplx = true)
    (hb : ula (m - l + 1) (.scalar d) nameb {} = .ok b) (j : Fin b.element.outputSize)
    (cfg : EstCfg (WithTop ℝ) (List (Fin b.size → ℂ))) (hg : cfg.grid = ⟨.ff1, [⟨x, false⟩], names, [u]⟩)
    (hpf : cfg.peakFinder = findPeaksSimple) (hsort : IsArgsort cfg.argsort)
    (hcomp : cfg.compute = atomColumns1D b.toArrayDesign j wl u)
    (ops : List (EstOp (WithTop ℝ) (List (Fin b.size → ℂ)))) :
    ∃ h' v, spatialSmooth h R l fb cplx = .ok (h', v) ∧ v.shape = (b.size, b.size) ∧
      ∃ o st', musicEstimate eigh cfg (cfg.run ops).1 (viewMat h' v b.size) k {} = (.ok o, st') ∧
        ∃ sp, o.observe st' = (true, some (some (List.ofFn fun c => [src.loc c], u)), sp) := by
  have : NeZero wl := ⟨hwl.ne'⟩
  have hsx : ∀ c, src.loc c ∈ x := fun c => List.mem_of_getElem? (hidx c)
  have hs : Valid1D src := ⟨hsu ▸ hu, fun c => hsu ▸ hx _ (hsx c)⟩
  have hinj : Function.Injective src.loc := by
    intro c e hce
    obtain ⟨hc1, hc2⟩ := List.getElem?_eq_some_iff.1 (hidx c)
    obtain ⟨he1, he2⟩ := List.getElem?_eq_some_iff.1 (hidx e)
    have h3 : idx c = idx e := (List.Nodup.getElem_inj_iff hxd).1 (by rw [hc2, he2, hce])
    rcases lt_trichotomy c e with h' | h' | h'
    · have := hsep c e h'; omega
    · exact h'
    · have := hsep e c h'; omega
  have hz : Function.Injective fun c => phaseFactor d wl src.unit (src.loc c) := by
    intro c e hce
    simp only [hsu] at hce
    exact hinj (phaseFactor_inj hd hwl (hx _ (hsx c)) (hx _ (hsx e)) (hamb _ (hsx c) _ (hsx e)) hce)
  have hsa : a.size = m := (C01_ula_geometry m d name {} a ha).1
  have hsb : b.size = m - l + 1 := (C01_ula_geometry _ d nameb {} b hb).1
  obtain ⟨S0, hS0, hSv⟩ := ula_steering ha src hs wl "all" (by simp)
  obtain rfl : S = S0 := by rw [hS, Except.ok.injEq] at hS0; exact hS0
  have hSm : S.A i = ulaMat a.size fun c => phaseFactor d wl src.unit (src.loc c) := by
    funext r c
    exact hSv _ r c
  rw [hSm] at hcov
  have hcov' : viewMat h R m = covModel (ulaMat m fun c => phaseFactor d wl src.unit (src.loc c)) P σ := by
    have tr : ∀ N, N = m → viewMat h R N = covModel (ulaMat N fun c => phaseFactor d wl src.unit (src.loc c)) P σ →
        viewMat h R m = covModel (ulaMat m fun c => phaseFactor d wl src.unit (src.loc c)) P σ := by
      rintro N rfl hN; exact hN
    exact tr _ hsa hcov
  obtain ⟨h', v, e1, e2, Q, hQ, e3⟩ := smoothing_input h R hR hsh hz (fun c => phaseFactor_norm _ _ _ _) hP hpow σ hcov' l
    (by omega) hlm hkl fb cplx hfb
  have e3' : viewMat h' v b.size = covModel (ulaMat b.size fun c => phaseFactor d wl src.unit (src.loc c)) Q σ := by
    have tr : ∀ N, N = m - l + 1 → viewMat h' v N = covModel (ulaMat N fun c => phaseFactor d wl src.unit (src.loc c)) Q σ := by
      rintro N rfl; exact e3
    exact tr _ hsb
  obtain ⟨B, hB, key⟩ := C43_music_ula eigh hd hwl hb j cfg hg hu hx hxd hamb hpf hsort hcomp src hsu idx hidx hsep h1 h2 hk hkn
    hQ σ ops
  obtain ⟨B0, hB0, hBv⟩ := ula_steering hb src hs wl "all" (by simp)
  obtain rfl : B = B0 := by rw [hB, Except.ok.injEq] at hB0; exact hB0
  have hBm : B.A j = ulaMat b.size fun c => phaseFactor d wl src.unit (src.loc c) := by
    funext r c
    exact hBv _ r c
  rw [hBm] at key
  refine ⟨h', v, e1, by rw [hsb]; exact e2, ?_⟩
  rw [e3']
  exact key

/-- **C76** (ESPRIT). The same with `Esprit1D.estimate` on the smoothed covariance. -/
theorem C76_esprit (eigh : Eigh) (ev : NpEigvals) {d wl : ℝ} (hd : 0 < d) (hwl : 0 < wl) {name : Option String} {a : GridArray}
    (ha : ula m (.scalar d) name {} = .ok a) (i : Fin a.element.outputSize)
    (src : FF1D k) (hsrc : Valid1D src) (hinj : Function.Injective src.loc) (disp : ℕ) (hdisp : 1 ≤ disp)
    (hamb : ∀ c, |2 * Real.pi * (d * disp) / wl * Real.sin (angleOf src.unit (src.loc c))| < Real.pi)
    {S : Steering a.element.outputSize a.size k} (hS : steering a.toArrayDesign (.ff1 src) wl false "all" = .ok S)
    {P : Matrix (Fin k) (Fin k) ℂ} (hP : P.PosSemidef) (hpow : ∀ c, P c c ≠ 0) (σ : ℝ)
    (h : MatHeap) (R : MatView) (hR : ViewOk h R) (hsh : R.shape = (m, m))
    (hcov : viewMat h R a.size = covModel (S.A i) P σ)
    (l : ℕ) (hl : 1 ≤ l) (hlm : l ≤ m) (hkl : k ≤ l) (hkn : k + disp ≤ m - l + 1) (fb cplx : Bool) (hfb : fb = true → cplx = true)
    (d0 : Option ℝ) (hd0 : d0 = some d ∨ d0 = none ∧ d = wl / 2) (form : String) (hform : form = "ls" ∨ form = "tls")
    (unit : String) (hunit : Unit1D unit) :
    ∃ h' v, spatialSmooth h R l fb cplx = .ok (h', v) ∧ v.shape = (m - l + 1, m - l + 1) ∧
      ∃ s, espritEstimate eigh ev wl (viewMat h' v (m - l + 1)) k d0 disp form (.str "none") unit = .ok s ∧
        s.unit = unit ∧ Monotone s.loc ∧ ∃ π : Equiv.Perm (Fin k), ∀ i, s.loc i = reprIn unit (angleOf src.unit (src.loc (π i))) := by
  have : NeZero wl := ⟨hwl.ne'⟩
  have hz := inj_of_sin hsrc hinj hd hwl hdisp hamb
  have hsa : a.size = m := (C01_ula_geometry m d name {} a ha).1
  obtain ⟨S0, hS0, hSv⟩ := ula_steering ha src hsrc wl "all" (by simp)
  obtain rfl : S = S0 := by rw [hS, Except.ok.injEq] at hS0; exact hS0
  have hSm : S.A i = ulaMat a.size fun c => phaseFactor d wl src.unit (src.loc c) := by
    funext r c
    exact hSv _ r c
  rw [hSm] at hcov
  have hcov' : viewMat h R m = covModel (ulaMat m fun c => phaseFactor d wl src.unit (src.loc c)) P σ := by
    have tr : ∀ N, N = m → viewMat h R N = covModel (ulaMat N fun c => phaseFactor d wl src.unit (src.loc c)) P σ →
        viewMat h R m = covModel (ulaMat m fun c => phaseFactor d wl src.unit (src.loc c)) P σ := by
      rintro N rfl hN; exact hN
    exact tr _ hsa hcov
  obtain ⟨h', v, e1, e2, Q, hQ, e3⟩ := smoothing_input h R hR hsh hz (fun c => phaseFactor_norm _ _ _ _) hP hpow σ hcov' l
    hl hlm hkl fb cplx hfb
  refine ⟨h', v, e1, e2, ?_⟩
  rw [e3]
  exact esprit_ulaMat eigh ev hd hwl src hsrc hinj disp hdisp hkn hamb d0 hd0 form hform hQ σ unit hunit

/-- The all-ones source covariance: two copies of one signal. -/
theorem coherent_posSemidef : (Matrix.of fun _ _ : Fin 2 => (1 : ℂ)).PosSemidef := by
  have : (Matrix.of fun _ _ : Fin 2 => (1 : ℂ)) =
      (Matrix.of fun _ _ => 1 : Matrix (Fin 1) (Fin 2) ℂ)ᴴ * (Matrix.of fun _ _ => 1 : Matrix (Fin 1) (Fin 2) ℂ) := by
    ext i j; simp [Matrix.mul_apply]
  rw [this]
  exact posSemidef_conjTranspose_mul_self _

/-- The hypotheses hold for two fully coherent sources at `sin θ = ±0.5`, four sensors at half wavelength spacing and two subarrays. -/
example (eigh : Eigh) (fb : Bool) : ∃ (a b : GridArray) (S : Steering a.element.outputSize a.size 2) (i : Fin a.element.outputSize)
    (h h' : MatHeap) (R v : MatView) (cfg : EstCfg (WithTop ℝ) (List (Fin b.size → ℂ))) (o : _) (st' : _),
    steering a.toArrayDesign (.ff1 ⟨![-0.5, 0.5], "sin"⟩) 1 false "all" = .ok S ∧
    viewMat h R a.size = covModel (S.A i) (Matrix.of fun _ _ => 1) 1 ∧ spatialSmooth h R 2 fb true = .ok (h', v) ∧
    musicEstimate eigh cfg cfg.init (viewMat h' v b.size) 2 {} = (.ok o, st') ∧
    ∃ sp, o.observe st' = (true, some (some ([[-0.5], [0.5]], "sin")), sp) := by
  obtain ⟨a, ha⟩ := ula_ok 4 (1 / 2) none
  obtain ⟨b, hb⟩ := ula_ok 3 (1 / 2) none
  have hla : 0 < a.element.outputSize := by rw [(gridInit_spec ha).2.2.1]; decide
  have hlb : 0 < b.element.outputSize := by rw [(gridInit_spec hb).2.2.1]; decide
  have hrg : ∀ y ∈ ([-0.8, -0.5, 0, 0.5, 0.8] : List ℝ), -0.8 ≤ y ∧ y ≤ 0.8 := by
    intro y hy
    simp only [List.mem_cons, List.not_mem_nil, or_false] at hy
    rcases hy with rfl | rfl | rfl | rfl | rfl <;> norm_num
  have hsin : ∀ y ∈ ([-0.8, -0.5, 0, 0.5, 0.8] : List ℝ), Real.sin (angleOf "sin" y) = y := by
    intro y hy
    have := hrg y hy
    simp only [angleOf, String.reduceEq, if_false, if_true]
    exact Real.sin_arcsin (by linarith [this.1]) (by linarith [this.2])
  have hx : ∀ y ∈ ([-0.8, -0.5, 0, 0.5, 0.8] : List ℝ), InRange1D "sin" y := fun y hy =>
    Or.inr (Or.inr ⟨rfl, by linarith [(hrg y hy).1], by linarith [(hrg y hy).2]⟩)
  have hs : Valid1D (⟨![-0.5, 0.5], "sin"⟩ : FF1D 2) := by
    refine ⟨Or.inr (Or.inr rfl), fun c => hx _ ?_⟩
    fin_cases c
    · show (-0.5 : ℝ) ∈ _
      simp
    · show (0.5 : ℝ) ∈ _
      simp
  obtain ⟨S, hS, _⟩ := ula_steering ha ⟨![-0.5, 0.5], "sin"⟩ hs 1 "all" (by simp)
  have hsa : a.size = 4 := (C01_ula_geometry 4 _ _ _ a ha).1
  set M := covModel (S.A ⟨0, hla⟩) (Matrix.of fun _ _ : Fin 2 => (1 : ℂ)) 1 with hM
  set h : MatHeap := ⟨1, fun _ r c => if hr : r < a.size ∧ c < a.size then M ⟨r, hr.1⟩ ⟨c, hr.2⟩ else 0⟩ with hh
  have hv : viewMat h ⟨0, (0, 0), (4, 4)⟩ a.size = M := by
    ext i j
    simp [viewMat, MatHeap.read, hh]
  obtain ⟨h', v, e1, _, o, st', ho, sp, hsp⟩ := C76_music (k := 2) (m := 4) eigh (by norm_num) (by norm_num) ha ⟨0, hla⟩
    (x := [-0.8, -0.5, 0, 0.5, 0.8]) (names := []) (u := "sin") (Or.inr (Or.inr rfl)) hx (by norm_num)
    (by
      intro y hy z hz
      rw [hsin y hy, hsin z hz]
      have h1 := hrg y hy
      have h2 := hrg z hz
      have : |y - z| ≤ 1.6 := by rw [abs_le]; constructor <;> linarith [h1.1, h1.2, h2.1, h2.2]
      linarith)
    ⟨![-0.5, 0.5], "sin"⟩ rfl ![1, 3] (by intro c; fin_cases c <;> rfl) (by decide) (by decide) (by decide) hS
    coherent_posSemidef (by simp) 1 h ⟨0, (0, 0), (4, 4)⟩ (by simp [ViewOk, hh]) rfl hv 2 (by norm_num) (by norm_num) (by norm_num)
    (by norm_num) fb true (fun _ => rfl) hb ⟨0, hlb⟩
    ⟨⟨.ff1, [⟨[-0.8, -0.5, 0, 0.5, 0.8], false⟩], [], ["sin"]⟩, atomColumns1D b.toArrayDesign ⟨0, hlb⟩ 1 "sin", findPeaksSimple,
      stableArgsort, true, false⟩ rfl rfl stableArgsort_isArgsort rfl []
  exact ⟨a, b, S, _, h, h', _, v, _, o, st', hS, hv, e1, ho, sp, hsp⟩

end Doa.Props
