import Verif.Props.Coherent
import Verif.Props.RootMusicNear

/-!
# C99: spatial smoothing of estimated covariance matrices
-/

namespace Doa.Props

open Doa Doa.Spec Matrix Filter Topology MeasureTheory
open scoped ComplexOrder

variable {m k : ℕ}

theorem blockMean_close {l n : ℕ} (hl : 1 ≤ l) (hn : n + l = m + 1) {f g : ℕ → ℕ → ℂ} {δ : ℝ}
    (h : ∀ i j, i < m → j < m → ‖f i j - g i j‖ ≤ δ) (i j : Fin n) : ‖blockMean l n f i j - blockMean l n g i j‖ ≤ δ := by
  have hl0 : (0 : ℝ) < l := by exact_mod_cast hl
  rw [blockMean, blockMean, ← sub_div, ← Finset.sum_sub_distrib, norm_div, Complex.norm_natCast, div_le_iff₀ hl0]
  refine (norm_sum_le _ _).trans ?_
  refine (Finset.sum_le_sum fun s hs => h _ _ ?_ ?_).trans ?_
  · have := Finset.mem_range.1 hs; omega
  · have := Finset.mem_range.1 hs; omega
  · rw [Finset.sum_const, Finset.card_range, nsmul_eq_mul, mul_comm]

/-- **C99** (errors are not amplified). If two matrices differ by at most `δ` in every entry, so do the results of `spatial_smooth` with the same
arguments: smoothing never amplifies the estimation error of a covariance matrix. -/
theorem C99_nonexpansive (h : MatHeap) (R : MatView) (hR : ViewOk h R) (h2 : MatHeap) (R2 : MatView) (hR2 : ViewOk h2 R2)
    (hsh : R.shape = (m, m)) (hsh2 : R2.shape = (m, m)) (l : ℕ) (hl : 1 ≤ l) (hlm : l ≤ m) (fb cplx : Bool) {δ : ℝ}
    (hd : ∀ i j, i < m → j < m → ‖h.read R i j - h2.read R2 i j‖ ≤ δ) :
    ∃ h' v h2' v2, spatialSmooth h R l fb cplx = .ok (h', v) ∧ spatialSmooth h2 R2 l fb cplx = .ok (h2', v2) ∧
      v.shape = (m - l + 1, m - l + 1) ∧ v2.shape = (m - l + 1, m - l + 1) ∧
      ∀ i j, i < m - l + 1 → j < m - l + 1 → ‖h'.read v i j - h2'.read v2 i j‖ ≤ δ := by
  obtain ⟨h', v, e1, -, -, -, e2, e3⟩ := spatialSmooth_spec h R hR m hsh l hl hlm fb cplx
  obtain ⟨h2', v2, f1, -, -, -, f2, f3⟩ := spatialSmooth_spec h2 R2 hR2 m hsh2 l hl hlm fb cplx
  refine ⟨h', v, h2', v2, e1, f1, e2, f2, fun i j hi hj => ?_⟩
  have e4 : h'.read v i j = viewMat h' v (m - l + 1) ⟨i, hi⟩ ⟨j, hj⟩ := rfl
  have f4 : h2'.read v2 i j = viewMat h2' v2 (m - l + 1) ⟨i, hi⟩ ⟨j, hj⟩ := rfl
  rw [e4, f4, e3, f3]
  have hb := blockMean_close (m := m) (n := m - l + 1) hl (by omega) hd
  cases fb with
  | false => exact hb _ _
  | true =>
    simp only [if_true, Matrix.smul_apply, Matrix.add_apply, Matrix.of_apply, smul_eq_mul]
    rw [← mul_sub, add_sub_add_comm, norm_mul]
    have h12 : ‖(1 / 2 : ℂ)‖ = 1 / 2 := by norm_num
    have hs : ‖(if cplx then star else id) (blockMean l (m - l + 1) (h.read R) (Fin.rev ⟨i, hi⟩) (Fin.rev ⟨j, hj⟩)) -
        (if cplx then star else id) (blockMean l (m - l + 1) (h2.read R2) (Fin.rev ⟨i, hi⟩) (Fin.rev ⟨j, hj⟩))‖ ≤ δ := by
      cases cplx with
      | true =>
        simp only [if_true]
        rw [← star_sub, norm_star]
        exact hb _ _
      | false => exact hb _ _
    have := norm_add_le (blockMean l (m - l + 1) (h.read R) ⟨i, hi⟩ ⟨j, hj⟩ - blockMean l (m - l + 1) (h2.read R2) ⟨i, hi⟩ ⟨j, hj⟩)
      ((if cplx then star else id) (blockMean l (m - l + 1) (h.read R) (Fin.rev ⟨i, hi⟩) (Fin.rev ⟨j, hj⟩)) -
        (if cplx then star else id) (blockMean l (m - l + 1) (h2.read R2) (Fin.rev ⟨i, hi⟩) (Fin.rev ⟨j, hj⟩)))
    rw [h12]
    linarith [hb ⟨i, hi⟩ ⟨j, hj⟩]

/-- Without `fb` the dtype does not matter. -/
theorem spatialSmooth_forward (h : MatHeap) (R : MatView) (l : ℤ) (c c' : Bool) : spatialSmooth h R l false c = spatialSmooth h R l false c' := by
  simp [spatialSmooth]

/-- A heap holding one matrix. -/
noncomputable def heapOf (M : Matrix (Fin m) (Fin m) ℂ) : MatHeap :=
  ⟨1, fun _ r c => if hr : r < m ∧ c < m then M ⟨r, hr.1⟩ ⟨c, hr.2⟩ else 0⟩

theorem heapOf_view (M : Matrix (Fin m) (Fin m) ℂ) : viewMat (heapOf M) ⟨0, (0, 0), (m, m)⟩ m = M := by
  ext i j
  simp [viewMat, MatHeap.read, heapOf]

/-- What spatial smoothing hands to an estimator, for matrices near the exact covariance of possibly coherent sources. -/
theorem smoothing_near {z : Fin k → ℂ} (hz : Function.Injective z) (hz1 : ∀ c, ‖z c‖ = 1)
    {P : Matrix (Fin k) (Fin k) ℂ} (hP : P.PosSemidef) (hpow : ∀ c, P c c ≠ 0) (σ : ℝ)
    (l : ℕ) (hl : 1 ≤ l) (hlm : l ≤ m) (hkl : k ≤ l) (fb cplx : Bool) (hfb : fb = true → cplx = true) :
    ∃ Q : Matrix (Fin k) (Fin k) ℂ, Q.PosDef ∧ ∀ (good : Matrix (Fin (m - l + 1)) (Fin (m - l + 1)) ℂ → Prop),
      (∃ δ > 0, ∀ T : Matrix (Fin (m - l + 1)) (Fin (m - l + 1)) ℂ, T.IsHermitian →
        (∀ i j, ‖T i j - covModel (ulaMat (m - l + 1) z) Q σ i j‖ < δ) → good T) →
      ∃ δ > 0, ∀ (h : MatHeap) (R : MatView), ViewOk h R → R.shape = (m, m) → (viewMat h R m).IsHermitian →
        (∀ i j, ‖viewMat h R m i j - covModel (ulaMat m z) P σ i j‖ < δ) →
        ∃ h' v, spatialSmooth h R l fb cplx = .ok (h', v) ∧ v.shape = (m - l + 1, m - l + 1) ∧ good (viewMat h' v (m - l + 1)) := by
  set M := covModel (ulaMat m z) P σ with hM
  obtain ⟨h2', v2, e1, e2, Q, hQ, e3⟩ := smoothing_input (heapOf M) ⟨0, (0, 0), (m, m)⟩ (by simp [ViewOk, heapOf]) rfl hz hz1 hP hpow σ
    (heapOf_view M) l hl hlm hkl fb cplx hfb
  refine ⟨Q, hQ, fun good hgood => ?_⟩
  obtain ⟨δ, hδ, hgood⟩ := hgood
  refine ⟨δ / 2, by positivity, fun h R hok hsh hH hn => ?_⟩
  obtain ⟨h', v, g', v', a1, a2, a3, a4, a5⟩ := C99_nonexpansive h R hok (heapOf M) ⟨0, (0, 0), (m, m)⟩ (by simp [ViewOk, heapOf]) hsh rfl l hl hlm
    fb cplx (δ := δ / 2) (fun i j hi hj => by
      have := (hn ⟨i, hi⟩ ⟨j, hj⟩).le
      rw [← heapOf_view M] at this
      exact this)
  rw [e1] at a2
  obtain ⟨rfl, rfl⟩ := Prod.mk.inj (Except.ok.inj a2)
  refine ⟨h', v, a1, a3, hgood _ ?_ fun i j => ?_⟩
  · obtain ⟨h3, v3, c1, c2, -⟩ := C49_structure h R hok m hsh l hl hlm fb true (by simp)
    have : spatialSmooth h R l fb true = .ok (h', v) := by
      cases fb with
      | false => rw [← a1]; exact spatialSmooth_forward _ _ _ _ _
      | true => rw [← a1, hfb rfl]
    rw [this] at c1
    obtain ⟨rfl, rfl⟩ := Prod.mk.inj (Except.ok.inj c1)
    exact c2 hH
  · rw [← e3]
    exact lt_of_le_of_lt (a5 i.1 j.1 i.2 j.2) (by linarith)

/-- The plain uniform linear array satisfies the conditions of the MUSIC theorem. -/
theorem music_plain_near {n : ℕ} {d wl : ℝ} (hd : 0 < d) (hwl : 0 < wl) {name : Option String} {b : GridArray}
    (hb : ula n (.scalar d) name {} = .ok b) (j : Fin b.element.outputSize)
    {x : List ℝ} {names : List String} {u : String} (hu : Unit1D u) (hx : ∀ v ∈ x, InRange1D u v) (hxd : x.Nodup)
    (hamb : ∀ v ∈ x, ∀ w ∈ x, d * |Real.sin (angleOf u v) - Real.sin (angleOf u w)| < wl)
    (src : FF1D k) (hsu : src.unit = u) (idx : Fin k → ℕ) (hidx : ∀ c, x[idx c]? = some (src.loc c))
    (hsep : ∀ c e, c < e → idx c + 1 < idx e) (h1 : ∀ c, 1 ≤ idx c) (h2 : ∀ c, idx c + 1 < x.length) (hk : 1 ≤ k) (hkn : k < n)
    (cfg : EstCfg (WithTop ℝ) (List (Fin b.size → ℂ))) (hg : cfg.grid = ⟨.ff1, [⟨x, false⟩], names, [u]⟩)
    (hpf : cfg.peakFinder = findPeaksSimple) (hsort : IsArgsort cfg.argsort)
    (hcomp : cfg.compute = atomColumns1D b.toArrayDesign j wl u) {Q : Matrix (Fin k) (Fin k) ℂ} (hQ : Q.PosDef) (σ : ℝ) :
    ∃ δ > 0, ∀ T : Matrix (Fin b.size) (Fin b.size) ℂ, T.IsHermitian →
      (∀ i j, ‖T i j - covModel (ulaMat b.size fun c => phaseFactor d wl src.unit (src.loc c)) Q σ i j‖ < δ) →
      ∀ (eigh : Eigh) (ops : List (EstOp (WithTop ℝ) (List (Fin b.size → ℂ)))),
        ∃ o st', musicEstimate eigh cfg (cfg.run ops).1 T k {} = (.ok o, st') ∧
          ∃ sp, o.observe st' = (true, some (some (List.ofFn fun c => [src.loc c], u)), sp) := by
  have : NeZero wl := ⟨hwl.ne'⟩
  have hs : Valid1D src := ⟨hsu ▸ hu, fun c => hsu ▸ hx _ (List.mem_of_getElem? (hidx c))⟩
  obtain ⟨g1, g2, g3⟩ := C01_ula_geometry n d name {} b hb
  obtain ⟨-, -, hel, g4, -⟩ := gridInit_spec hb
  have hbp : b.perts = [] := (Except.ok.inj g4).symm
  have hpl : b.toArrayDesign.perturbations = [] := by
    have : b.toArrayDesign.perts = [] := hbp
    simp [ArrayDesign.perturbations, this, PyDict.values]
  have hus : Usable b.toArrayDesign "all" b.toArrayDesign.perturbations := by
    have : b.toArrayDesign.perts = [] := hbp
    refine ⟨by simp [ArrayDesign.filterPerturbations, ArrayDesign.perturbations], by rw [hpl]; rfl, ?_, by simp [hpl]⟩
    have : b.locations.ncols = 1 := g2
    simp only [hpl, List.foldl_nil]
    omega
  have hloc : ∀ i, i < b.toArrayDesign.size → b.toArrayDesign.locations.at0 i 0 = (i : ℝ) * d := by
    intro i hi
    have := g3 i (by have : b.toArrayDesign.size = n := g1; omega)
    simpa [Mat.at0] using congrArg (Option.getD · 0) this
  obtain ⟨B, hB, δ', hδ', key⟩ := C83_music_ula (a := b.toArrayDesign) hel (by simp [hpl]) hus (by simp [hpl]) (by simp [hpl])
    (by rw [hpl]; exact isUnit_one) hd hwl g2 hloc j cfg hg hu hx hxd hamb hpf hsort hcomp src hsu idx hidx hsep h1 h2 hk
    (by have : b.toArrayDesign.size = n := g1; omega) hQ σ
  obtain ⟨B', hB', hBv⟩ := ula_steering hb src hs wl "all" (by simp)
  obtain rfl : B = B' := by rw [hB, Except.ok.injEq] at hB'; exact hB'
  have hBm : B.A j = ulaMat b.size fun c => phaseFactor d wl src.unit (src.loc c) := by
    funext r c
    exact hBv _ r c
  rw [hBm] at key
  exact ⟨δ', hδ', key⟩

/-- `smoothing_near` with the sizes as stated by the arrays. -/
theorem smoothing_near' {N n : ℕ} (hN : N = m) (l : ℕ) (hn : n = m - l + 1) {z : Fin k → ℂ} (hz : Function.Injective z) (hz1 : ∀ c, ‖z c‖ = 1)
    {P : Matrix (Fin k) (Fin k) ℂ} (hP : P.PosSemidef) (hpow : ∀ c, P c c ≠ 0) (σ : ℝ)
    (hl : 1 ≤ l) (hlm : l ≤ m) (hkl : k ≤ l) (fb cplx : Bool) (hfb : fb = true → cplx = true) :
    ∃ Q : Matrix (Fin k) (Fin k) ℂ, Q.PosDef ∧ ∀ (good : Matrix (Fin n) (Fin n) ℂ → Prop),
      (∃ δ > 0, ∀ T : Matrix (Fin n) (Fin n) ℂ, T.IsHermitian → (∀ i j, ‖T i j - covModel (ulaMat n z) Q σ i j‖ < δ) → good T) →
      ∃ δ > 0, ∀ (h : MatHeap) (R : MatView), ViewOk h R → R.shape = (m, m) → (viewMat h R N).IsHermitian →
        (∀ i j, ‖viewMat h R N i j - covModel (ulaMat N z) P σ i j‖ < δ) →
        ∃ h' v, spatialSmooth h R l fb cplx = .ok (h', v) ∧ v.shape = (n, n) ∧ good (viewMat h' v n) := by
  subst hN
  subst hn
  exact smoothing_near hz hz1 hP hpow σ l hl hlm hkl fb cplx hfb

/-- **C99** (MUSIC). Coherent sources on a ULA of `m` elements: let `S` be its steering matrix and the source covariance only positive
semidefinite (with nonzero powers). There is a `δ > 0` such that for every Hermitian matrix whose entries are closer than `δ` to those of
the exact covariance, `spatial_smooth(R, l, fb)` with at least `k` subarrays of more than `k` elements followed by MUSIC for the ULA of
`m - l + 1` elements returns exactly the sources, for every history of the estimator and every choice of eigenvectors. -/
theorem C99_music {d wl : ℝ} (hd : 0 < d) (hwl : 0 < wl) {name nameb : Option String} {a b : GridArray}
    (ha : ula m (.scalar d) name {} = .ok a) (i : Fin a.element.outputSize)
    {x : List ℝ} {names : List String} {u : String} (hu : Unit1D u) (hx : ∀ v ∈ x, InRange1D u v) (hxd : x.Nodup)
    (hamb : ∀ v ∈ x, ∀ w ∈ x, d * |Real.sin (angleOf u v) - Real.sin (angleOf u w)| < wl)
    (src : FF1D k) (hsu : src.unit = u) (idx : Fin k → ℕ) (hidx : ∀ c, x[idx c]? = some (src.loc c))
    (hsep : ∀ c e, c < e → idx c + 1 < idx e) (h1 : ∀ c, 1 ≤ idx c) (h2 : ∀ c, idx c + 1 < x.length)
    {P : Matrix (Fin k) (Fin k) ℂ} (hP : P.PosSemidef) (hpow : ∀ c, P c c ≠ 0) (σ : ℝ)
    (l : ℕ) (hlm : l ≤ m) (hk : 1 ≤ k) (hkl : k ≤ l) (hkn : k < m - l + 1) (fb cplx : Bool) (hfb : fb = true → cplx = true)
    (hb : ula (m - l + 1) (.scalar d) nameb {} = .ok b) (j : Fin b.element.outputSize)
    (cfg : EstCfg (WithTop ℝ) (List (Fin b.size → ℂ))) (hg : cfg.grid = ⟨.ff1, [⟨x, false⟩], names, [u]⟩)
    (hpf : cfg.peakFinder = findPeaksSimple) (hsort : IsArgsort cfg.argsort)
    (hcomp : cfg.compute = atomColumns1D b.toArrayDesign j wl u) :
    ∃ S, steering a.toArrayDesign (.ff1 src) wl false "all" = .ok S ∧
      ∃ δ > 0, ∀ R0 : Matrix (Fin a.size) (Fin a.size) ℂ, R0.IsHermitian → (∀ p q, ‖R0 p q - covModel (S.A i) P σ p q‖ < δ) →
        ∀ (h : MatHeap) (R : MatView), ViewOk h R → R.shape = (m, m) → viewMat h R a.size = R0 →
          ∃ h' v, spatialSmooth h R l fb cplx = .ok (h', v) ∧ v.shape = (b.size, b.size) ∧
            ∀ (eigh : Eigh) (ops : List (EstOp (WithTop ℝ) (List (Fin b.size → ℂ)))),
              ∃ o st', musicEstimate eigh cfg (cfg.run ops).1 (viewMat h' v b.size) k {} = (.ok o, st') ∧
                ∃ sp, o.observe st' = (true, some (some (List.ofFn fun c => [src.loc c], u)), sp) := by
  have : NeZero wl := ⟨hwl.ne'⟩
  have hsx : ∀ c, src.loc c ∈ x := fun c => List.mem_of_getElem? (hidx c)
  have hs : Valid1D src := ⟨hsu ▸ hu, fun c => hsu ▸ hx _ (hsx c)⟩
  have hinj : Function.Injective src.loc := by
    intro c e hce
    obtain ⟨hc1, hc2⟩ := List.getElem?_eq_some_iff.1 (hidx c)
    obtain ⟨he1, he2⟩ := List.getElem?_eq_some_iff.1 (hidx e)
    have h3 : idx c = idx e := (List.Nodup.getElem_inj_iff hxd).1 (by rw [hc2, he2, hce])
    rcases lt_trichotomy c e with h' | h' | h'
    · have := hsep c e h'; omega
    · exact h'
    · have := hsep e c h'; omega
  have hz : Function.Injective fun c => phaseFactor d wl src.unit (src.loc c) := by
    intro c e hce
    simp only [hsu] at hce
    exact hinj (phaseFactor_inj hd hwl (hx _ (hsx c)) (hx _ (hsx e)) (hamb _ (hsx c) _ (hsx e)) hce)
  obtain ⟨S, hS, hSv⟩ := ula_steering ha src hs wl "all" (by simp)
  have hSm : S.A i = ulaMat a.size fun c => phaseFactor d wl src.unit (src.loc c) := by
    funext r c
    exact hSv _ r c
  obtain ⟨Q, hQ, key⟩ := smoothing_near' (m := m) (C01_ula_geometry m d name {} a ha).1 l (C01_ula_geometry _ d nameb {} b hb).1 hz
    (fun c => phaseFactor_norm _ _ _ _) hP hpow σ (by omega) hlm hkl fb cplx hfb
  obtain ⟨δ, hδ, hn⟩ := key _ (music_plain_near hd hwl hb j hu hx hxd hamb src hsu idx hidx hsep h1 h2 hk hkn cfg hg hpf hsort hcomp hQ σ)
  refine ⟨S, hS, δ, hδ, fun R0 hH hc h R hok hsh hv => ?_⟩
  subst hv
  rw [hSm] at hc
  exact hn h R hok hsh hH hc

/-- **C99** (ESPRIT). The same with ESPRIT (least squares or total least squares, unweighted) on the smoothed matrix: the sources are
returned to within any prescribed `ε`. -/
theorem C99_esprit {d wl : ℝ} (hd : 0 < d) (hwl : 0 < wl) {name : Option String} {a : GridArray}
    (ha : ula m (.scalar d) name {} = .ok a) (i : Fin a.element.outputSize)
    (src : FF1D k) (hsrc : Valid1D src) (hinj : Function.Injective src.loc) (hstrict : ∀ c, |Real.sin (angleOf src.unit (src.loc c))| < 1)
    (disp : ℕ) (hdisp : 1 ≤ disp)
    (hamb : ∀ c, |2 * Real.pi * (d * disp) / wl * Real.sin (angleOf src.unit (src.loc c))| < Real.pi)
    {P : Matrix (Fin k) (Fin k) ℂ} (hP : P.PosSemidef) (hpow : ∀ c, P c c ≠ 0) (σ : ℝ)
    (l : ℕ) (hl : 1 ≤ l) (hlm : l ≤ m) (hkl : k ≤ l) (hkn : k + disp ≤ m - l + 1) (fb cplx : Bool) (hfb : fb = true → cplx = true)
    (d0 : Option ℝ) (hd0 : d0 = some d ∨ d0 = none ∧ d = wl / 2) (form : String) (hform : form = "ls" ∨ form = "tls")
    (unit : String) (hunit : Unit1D unit) :
    ∃ S, steering a.toArrayDesign (.ff1 src) wl false "all" = .ok S ∧
      ∀ ε > 0, ∃ δ > 0, ∀ R0 : Matrix (Fin a.size) (Fin a.size) ℂ, R0.IsHermitian → (∀ p q, ‖R0 p q - covModel (S.A i) P σ p q‖ < δ) →
        ∀ (h : MatHeap) (R : MatView), ViewOk h R → R.shape = (m, m) → viewMat h R a.size = R0 →
          ∃ h' v, spatialSmooth h R l fb cplx = .ok (h', v) ∧ v.shape = (m - l + 1, m - l + 1) ∧
            ∀ (eigh : Eigh) (ev : NpEigvals),
              ∃ s, espritEstimate eigh ev wl (viewMat h' v (m - l + 1)) k d0 disp form (.str "none") unit = .ok s ∧
                s.unit = unit ∧ Monotone s.loc ∧
                ∃ π : Equiv.Perm (Fin k), ∀ i, |s.loc i - reprIn unit (angleOf src.unit (src.loc (π i)))| < ε := by
  have : NeZero wl := ⟨hwl.ne'⟩
  have hz := inj_of_sin hsrc hinj hd hwl hdisp hamb
  obtain ⟨S, hS, hSv⟩ := ula_steering ha src hsrc wl "all" (by simp)
  have hSm : S.A i = ulaMat a.size fun c => phaseFactor d wl src.unit (src.loc c) := by
    funext r c
    exact hSv _ r c
  refine ⟨S, hS, fun ε hε => ?_⟩
  obtain ⟨Q, hQ, key⟩ := smoothing_near' (m := m) (C01_ula_geometry m d name {} a ha).1 l rfl hz
    (fun c => phaseFactor_norm _ _ _ _) hP hpow σ hl hlm hkl fb cplx hfb
  have h1 := esprit_near (m := m - l + 1) (t := fun c => angleOf src.unit (src.loc c)) hd hwl
    (z := fun c => phaseFactor d wl src.unit (src.loc c)) (fun c => rfl) hz
    (fun c => Or.inl ⟨rfl, inRange1D_angle (hsrc.2 c)⟩) hstrict disp hdisp hkn hamb d0 hd0 form hform (.str "none") (Or.inl rfl)
    hQ σ unit hunit hε
  obtain ⟨δ1, hδ1, h2⟩ := near_entries h1
  obtain ⟨δ, hδ, hn⟩ := key _ ⟨δ1, hδ1, fun T hT hc => h2 T hc hT⟩
  refine ⟨δ, hδ, fun R0 hH hc h R hok hsh hv => ?_⟩
  subst hv
  rw [hSm] at hc
  exact hn h R hok hsh hH hc

/-- **C99** (consistency). In a simulated experiment with coherent sources and independent draws of mean zero and variance one, the probability
that smoothing the sample covariance and then running MUSIC does not return exactly the sources (ESPRIT: the sources to within `ε`) tends
to 0 as the number of snapshots grows. -/
theorem C99_consistent {sqrtm : Sqrtm} (hsq : IsSqrtm sqrtm) {d wl : ℝ} (hd : 0 < d) (hwl : 0 < wl) {name nameb : Option String} {a b : GridArray}
    (ha : ula m (.scalar d) name {} = .ok a) (i : Fin a.element.outputSize)
    {x : List ℝ} {names : List String} {u : String} (hu : Unit1D u) (hx : ∀ v ∈ x, InRange1D u v) (hxd : x.Nodup)
    (hamb : ∀ v ∈ x, ∀ w ∈ x, d * |Real.sin (angleOf u v) - Real.sin (angleOf u w)| < wl)
    (src : FF1D k) (hsu : src.unit = u) (idx : Fin k → ℕ) (hidx : ∀ c, x[idx c]? = some (src.loc c))
    (hsep : ∀ c e, c < e → idx c + 1 < idx e) (h1 : ∀ c, 1 ≤ idx c) (h2 : ∀ c, idx c + 1 < x.length)
    (l : ℕ) (hlm : l ≤ m) (hk : 1 ≤ k) (hkl : k ≤ l) (hkn : k < m - l + 1) (fb cplx : Bool) (hfb : fb = true → cplx = true)
    (hb : ula (m - l + 1) (.scalar d) nameb {} = .ok b) (j : Fin b.element.outputSize)
    (cfg : EstCfg (WithTop ℝ) (List (Fin b.size → ℂ))) (hg : cfg.grid = ⟨.ff1, [⟨x, false⟩], names, [u]⟩)
    (hpf : cfg.peakFinder = findPeaksSimple) (hsort : IsArgsort cfg.argsort)
    (hcomp : cfg.compute = atomColumns1D b.toArrayDesign j wl u)
    {C1 C2 : CovArg} {g1 : StoGen k} {g2 : StoGen a.size}
    (hg1 : stoInit sqrtm k C1 = .ok g1) (hg2 : stoInit sqrtm a.size C2 = .ok g2)
    {P : Matrix (Fin k) (Fin k) ℂ} (hPd : Denotes k C1 P) (hP : P.PosSemidef) (hpow : ∀ c, P c c ≠ 0) {σ : ℝ} (hσ : 0 ≤ σ)
    (hQd : Denotes a.size C2 ((σ : ℂ) • (1 : Matrix (Fin a.size) (Fin a.size) ℂ)))
    {ν : Measure ℝ} [IsProbabilityMeasure ν] (hν : UnitLaw ν) :
    Tendsto (fun n => (Measure.pi fun _ : Fin n => Measure.pi fun _ => ν)
      {d : Fin n → SnapshotDraw k a.size | ¬ ∃ Y R0, experiment a.toArrayDesign (.ff1 src) wl g1 g2 n d = .ok ⟨n, Y, R0⟩ ∧
        ∀ (h : MatHeap) (R : MatView), ViewOk h R → R.shape = (m, m) → viewMat h R a.size = R0 i →
          ∃ h' v, spatialSmooth h R l fb cplx = .ok (h', v) ∧ v.shape = (b.size, b.size) ∧
            ∀ (eigh : Eigh) (ops : List (EstOp (WithTop ℝ) (List (Fin b.size → ℂ)))),
              ∃ o st', musicEstimate eigh cfg (cfg.run ops).1 (viewMat h' v b.size) k {} = (.ok o, st') ∧
                ∃ sp, o.observe st' = (true, some (some (List.ofFn fun c => [src.loc c], u)), sp)}) atTop (𝓝 0) ∧
    ((∀ c, |Real.sin (angleOf src.unit (src.loc c))| < 1) → ∀ (disp : ℕ), 1 ≤ disp →
      (∀ c, |2 * Real.pi * (d * disp) / wl * Real.sin (angleOf src.unit (src.loc c))| < Real.pi) → k + disp ≤ m - l + 1 →
      ∀ (form : String), form = "ls" ∨ form = "tls" → ∀ (unit : String), Unit1D unit → ∀ ε > 0,
      Tendsto (fun n => (Measure.pi fun _ : Fin n => Measure.pi fun _ => ν)
        {w : Fin n → SnapshotDraw k a.size | ¬ ∃ Y R0, experiment a.toArrayDesign (.ff1 src) wl g1 g2 n w = .ok ⟨n, Y, R0⟩ ∧
          ∀ (h : MatHeap) (R : MatView), ViewOk h R → R.shape = (m, m) → viewMat h R a.size = R0 i →
            ∃ h' v, spatialSmooth h R l fb cplx = .ok (h', v) ∧ v.shape = (m - l + 1, m - l + 1) ∧
              ∀ (eigh : Eigh) (ev : NpEigvals),
                ∃ s, espritEstimate eigh ev wl (viewMat h' v (m - l + 1)) k (some d) disp form (.str "none") unit = .ok s ∧
                  s.unit = unit ∧ Monotone s.loc ∧
                  ∃ π : Equiv.Perm (Fin k), ∀ i, |s.loc i - reprIn unit (angleOf src.unit (src.loc (π i)))| < ε}) atTop (𝓝 0)) := by
  constructor
  · obtain ⟨S, hS, hn⟩ := C99_music hd hwl ha i hu hx hxd hamb src hsu idx hidx hsep h1 h2 hP hpow σ l hlm hk hkl hkn fb cplx hfb hb j cfg hg
      hpf hsort hcomp
    exact C84_probability hsq a.toArrayDesign (.ff1 src) wl S hS (grid_scalar ha) hg1 hg2 hPd hQd hP (scaled_one_posSemidef hσ) hν i _ hn
  · intro hstrict disp hdisp hambd hkd form hform unit hunit ε hε
    have hsx : ∀ c, src.loc c ∈ x := fun c => List.mem_of_getElem? (hidx c)
    have hinj : Function.Injective src.loc := by
      intro c e hce
      obtain ⟨hc1, hc2⟩ := List.getElem?_eq_some_iff.1 (hidx c)
      obtain ⟨he1, he2⟩ := List.getElem?_eq_some_iff.1 (hidx e)
      have h3 : idx c = idx e := (List.Nodup.getElem_inj_iff hxd).1 (by rw [hc2, he2, hce])
      rcases lt_trichotomy c e with h' | h' | h'
      · have := hsep c e h'; omega
      · exact h'
      · have := hsep e c h'; omega
    obtain ⟨S, hS, hn⟩ := C99_esprit hd hwl ha i src ⟨hsu ▸ hu, fun c => hsu ▸ hx _ (hsx c)⟩ hinj hstrict disp hdisp hambd hP hpow σ l (by omega)
      hlm hkl hkd fb cplx hfb (some d) (Or.inl rfl) form hform unit hunit
    exact C84_probability hsq a.toArrayDesign (.ff1 src) wl S hS (grid_scalar ha) hg1 hg2 hPd hQd hP (scaled_one_posSemidef hσ) hν i _ (hn ε hε)

/-- The hypotheses hold for two fully coherent sources at `sin θ = ±0.5`, four sensors at half wavelength spacing, two subarrays with
forward-backward smoothing, noise of power 1 and normally distributed draws. -/
example : ∃ (a b : GridArray) (i : Fin a.element.outputSize) (g1 : StoGen 2) (g2 : StoGen a.size)
    (cfg : EstCfg (WithTop ℝ) (List (Fin b.size → ℂ))),
    ula 4 (.scalar (1 / 2)) none {} = .ok a ∧ stoInit someSqrtm 2 (.matrix ⟨2, 2, Matrix.of fun _ _ => 1⟩) = .ok g1 ∧
    Tendsto (fun n => (Measure.pi fun _ : Fin n => Measure.pi fun _ => ProbabilityTheory.gaussianReal 0 1)
      {d : Fin n → SnapshotDraw 2 a.size | ¬ ∃ Y R0, experiment a.toArrayDesign (.ff1 ⟨![-0.5, 0.5], "sin"⟩) 1 g1 g2 n d = .ok ⟨n, Y, R0⟩ ∧
        ∀ (h : MatHeap) (R : MatView), ViewOk h R → R.shape = (4, 4) → viewMat h R a.size = R0 i →
          ∃ h' v, spatialSmooth h R 2 true true = .ok (h', v) ∧ v.shape = (b.size, b.size) ∧
            ∀ (eigh : Eigh) (ops : List (EstOp (WithTop ℝ) (List (Fin b.size → ℂ)))),
              ∃ o st', musicEstimate eigh cfg (cfg.run ops).1 (viewMat h' v b.size) 2 {} = (.ok o, st') ∧
                ∃ sp, o.observe st' = (true, some (some (List.ofFn fun c => [(![-0.5, 0.5] : Fin 2 → ℝ) c], "sin")), sp)}) atTop (𝓝 0) := by
  obtain ⟨a, ha⟩ := ula_ok 4 (1 / 2) none
  obtain ⟨b, hb⟩ := ula_ok 3 (1 / 2) none
  have hla : 0 < a.element.outputSize := by rw [(gridInit_spec ha).2.2.1]; decide
  have hlb : 0 < b.element.outputSize := by rw [(gridInit_spec hb).2.2.1]; decide
  have hrg : ∀ y ∈ ([-0.8, -0.5, 0, 0.5, 0.8] : List ℝ), -0.8 ≤ y ∧ y ≤ 0.8 := by
    intro y hy
    simp only [List.mem_cons, List.not_mem_nil, or_false] at hy
    rcases hy with rfl | rfl | rfl | rfl | rfl <;> norm_num
  have hsin : ∀ y ∈ ([-0.8, -0.5, 0, 0.5, 0.8] : List ℝ), Real.sin (angleOf "sin" y) = y := by
    intro y hy
    have := hrg y hy
    simp only [angleOf, String.reduceEq, if_false, if_true]
    exact Real.sin_arcsin (by linarith [this.1]) (by linarith [this.2])
  have hx : ∀ y ∈ ([-0.8, -0.5, 0, 0.5, 0.8] : List ℝ), InRange1D "sin" y := fun y hy =>
    Or.inr (Or.inr ⟨rfl, by linarith [(hrg y hy).1], by linarith [(hrg y hy).2]⟩)
  have hP : Denotes 2 (.matrix ⟨2, 2, Matrix.of fun _ _ => 1⟩) (Matrix.of fun _ _ : Fin 2 => (1 : ℂ)) := rfl
  have hQ : Denotes a.size (.scalar 1) (((1 : ℝ) : ℂ) • (1 : Matrix (Fin a.size) (Fin a.size) ℂ)) := by
    show _ = _
    ext i j
    simp [Matrix.one_apply]
  obtain ⟨g1, hg1⟩ := ((C56_accepts someSqrtm 2 (.matrix ⟨2, 2, Matrix.of fun _ _ => 1⟩)).1).2 ⟨_, hP⟩
  obtain ⟨g2, hg2⟩ := ((C56_accepts someSqrtm a.size (.scalar 1)).1).2 ⟨_, hQ⟩
  have key := C99_consistent (k := 2) (m := 4) someSqrtm_spec (by norm_num) one_pos ha ⟨0, hla⟩
    (x := [-0.8, -0.5, 0, 0.5, 0.8]) (names := []) (u := "sin") (Or.inr (Or.inr rfl)) hx (by norm_num)
    (by
      intro y hy z hz
      rw [hsin y hy, hsin z hz]
      have h1 := hrg y hy
      have h2 := hrg z hz
      have : |y - z| ≤ 1.6 := by rw [abs_le]; constructor <;> linarith [h1.1, h1.2, h2.1, h2.2]
      linarith)
    ⟨![-0.5, 0.5], "sin"⟩ rfl ![1, 3] (by intro c; fin_cases c <;> rfl) (by decide) (by decide) (by decide)
    2 (by norm_num) (by norm_num) (by norm_num) (by norm_num) true true (fun _ => rfl) hb ⟨0, hlb⟩
    ⟨⟨.ff1, [⟨[-0.8, -0.5, 0, 0.5, 0.8], false⟩], [], ["sin"]⟩, atomColumns1D b.toArrayDesign ⟨0, hlb⟩ 1 "sin", findPeaksSimple,
      stableArgsort, true, false⟩ rfl rfl stableArgsort_isArgsort rfl hg1 hg2 hP coherent_posSemidef (by simp) zero_le_one hQ unitLaw_gaussian
  exact ⟨a, b, ⟨0, hla⟩, g1, g2, _, ha, hg1, key.1⟩

end Doa.Props
