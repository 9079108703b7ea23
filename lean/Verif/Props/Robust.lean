import Mathlib.Topology.Instances.Matrix
import Mathlib.Analysis.SpecificLimits.Basic
import Verif.Lemmas.DavisKahan
import Verif.Props.DataScale
import Verif.Props.Search2D
import Verif.Props.SingleSource
import Verif.Props.MinNorm
import Verif.Props.Ura

/-!
# C83: a covariance matrix that is close to the exact one gives the exact estimates

The noise projector, and with it the subspace spectra, depends continuously on the covariance matrix
(with an explicit bound). Sources on grid points are therefore found exactly not only from the exact
covariance matrix, but from every Hermitian matrix that is close enough to it.
-/

namespace Doa.Props

open Doa Doa.Spec Complex Matrix Filter
open scoped ComplexOrder Topology

variable {k m : ℕ}

/-! ### The noise projector -/

theorem noise_hermitian_split (eigh : Eigh) {R : Matrix (Fin m) (Fin m) ℂ} (k : ℕ) :
    getNoiseSubspace eigh R k * (getNoiseSubspace eigh R k)ᴴ = lowProj (eigh.run R).2 (noiseDim m k) := by
  unfold getNoiseSubspace
  exact noiseProj_eq _ k

/-- **C83** (noise subspace). If the eigenvalues of `R` have a gap of at least `g` between noise and signal, then for every
Hermitian matrix `R'` the projector onto the noise subspace that the estimators compute from `R'` differs from the one computed from
`R` by at most `2 ‖R' - R‖ / g` in Frobenius norm, whatever eigenvectors `eigh` returns; and the denominators of the MUSIC
spectra differ by at most this times the power of the response. -/
theorem C83_noise_subspace (eigh eigh' : Eigh) {R R' : Matrix (Fin m) (Fin m) ℂ} (hR : R.IsHermitian) (hR' : R'.IsHermitian)
    (hk : 1 ≤ k) {g : ℝ} (hg : 0 < g) {w : Fin m → ℝ} {E : Matrix (Fin m) (Fin m) ℂ} (hE : IsEigh R w E)
    (hgap : ∀ i j : Fin m, i.1 < m - k → m - k ≤ j.1 → w i + g ≤ w j) :
    frobSq (getNoiseSubspace eigh' R' k * (getNoiseSubspace eigh' R' k)ᴴ - getNoiseSubspace eigh R k * (getNoiseSubspace eigh R k)ᴴ) ≤
      4 * frobSq (R' - R) / g ^ 2 ∧
    ∀ a : Fin m → ℂ, (musicDenom (getNoiseSubspace eigh' R' k) a - musicDenom (getNoiseSubspace eigh R k) a) ^ 2 ≤
      4 * frobSq (R' - R) / g ^ 2 * (∑ i, ‖a i‖ ^ 2) ^ 2 := by
  have key : frobSq (getNoiseSubspace eigh' R' k * (getNoiseSubspace eigh' R' k)ᴴ - getNoiseSubspace eigh R k * (getNoiseSubspace eigh R k)ᴴ) ≤
      4 * frobSq (R' - R) / g ^ 2 := by
    rw [noise_hermitian_split, noise_hermitian_split, noiseDim_eq hk, le_div_iff₀ (by positivity), mul_comm]
    have hw := hE.eigenvalues_unique (eigh.spec R hR)
    exact davis_kahan (eigh.spec R hR) (eigh'.spec R' hR') hg.le (by rw [← hw]; exact hgap)
  refine ⟨key, fun a => ?_⟩
  rw [musicDenom_proj, musicDenom_proj, ← Complex.sub_re, ← dotProduct_sub, ← sub_mulVec]
  refine le_trans ?_ (mul_le_mul_of_nonneg_right key (by positivity))
  refine le_trans ?_ (form_sq_le _ a)
  rw [← sq_abs]
  exact pow_le_pow_left₀ (abs_nonneg _) (Complex.abs_re_le_norm _) 2

/-- The noise projector converges. -/
theorem projector_near {R : Matrix (Fin m) (Fin m) ℂ} (hR : R.IsHermitian) (hk : 1 ≤ k) (hgap : HasGap R (m - k)) (eigh : Eigh)
    {p : Matrix (Fin m) (Fin m) ℂ → Prop} (hp : ∀ᶠ N in 𝓝 (getNoiseSubspace eigh R k * (getNoiseSubspace eigh R k)ᴴ), p N) :
    ∃ δ > 0, ∀ R' : Matrix (Fin m) (Fin m) ℂ, R'.IsHermitian → (∀ i j, ‖R' i j - R i j‖ < δ) →
      ∀ eigh' : Eigh, p (getNoiseSubspace eigh' R' k * (getNoiseSubspace eigh' R' k)ᴴ) := by
  set N0 := getNoiseSubspace eigh R k * (getNoiseSubspace eigh R k)ᴴ with hN0
  obtain ⟨g, hg, hgs⟩ := hgap.size (eigh.spec R hR)
  obtain ⟨ε, hε, hp'⟩ := (Metric.eventually_nhds_iff (α := Fin m → Fin m → ℂ)).1 hp
  -- entries closer than `δ`
  set δ : ℝ := ε * g / (4 * (m + 1)) with hδ
  have hδ0 : 0 < δ := by positivity
  refine ⟨δ, hδ0, fun R' hR' hn eigh' => hp' ?_⟩
  refine (dist_pi_lt_iff hε).2 fun i => (dist_pi_lt_iff hε).2 fun j => ?_
  obtain ⟨h1, -⟩ := C83_noise_subspace eigh eigh' hR hR' hk hg (eigh.spec R hR) hgs
  rw [← hN0] at h1
  set N' := getNoiseSubspace eigh' R' k * (getNoiseSubspace eigh' R' k)ᴴ
  rw [dist_eq_norm]
  change ‖(N' - N0) i j‖ < ε
  have hent : ‖(N' - N0) i j‖ ^ 2 ≤ frobSq (N' - N0) := by
    unfold frobSq
    exact (Finset.single_le_sum (f := fun j => ‖(N' - N0) i j‖ ^ 2) (fun j _ => by positivity) (Finset.mem_univ j)).trans
      (Finset.single_le_sum (f := fun i => ∑ j, ‖(N' - N0) i j‖ ^ 2) (fun i _ => Finset.sum_nonneg fun j _ => by positivity) (Finset.mem_univ i))
  have hfr : frobSq (R' - R) ≤ (m * δ) ^ 2 := by
    unfold frobSq
    calc ∑ i, ∑ j, ‖(R' - R) i j‖ ^ 2 ≤ ∑ _i : Fin m, ∑ _j : Fin m, δ ^ 2 :=
          Finset.sum_le_sum fun i _ => Finset.sum_le_sum fun j _ => pow_le_pow_left₀ (norm_nonneg _) (hn i j).le 2
      _ = (m * δ) ^ 2 := by simp; ring
  have hfin : ‖(N' - N0) i j‖ ^ 2 < ε ^ 2 := by
    refine lt_of_le_of_lt (hent.trans (h1.trans (div_le_div_of_nonneg_right (mul_le_mul_of_nonneg_left hfr (by norm_num)) (by positivity)))) ?_
    rw [div_lt_iff₀ (by positivity)]
    have hm : (m : ℝ) * δ * (4 * (m + 1)) = m * (ε * g) := by rw [hδ]; field_simp
    have hm0 : (0 : ℝ) ≤ m := by positivity
    have h2 : 2 * ((m : ℝ) * δ) < ε * g := by
      have heg : 0 < ε * g := by positivity
      have : 2 * ((m : ℝ) * δ) * (2 * (m + 1)) < ε * g * (2 * (m + 1)) := by nlinarith
      exact lt_of_mul_lt_mul_right this (by positivity)
    have h3 : (2 * ((m : ℝ) * δ)) ^ 2 < (ε * g) ^ 2 := pow_lt_pow_left₀ h2 (by positivity) (by norm_num)
    nlinarith
  exact lt_of_pow_lt_pow_left₀ 2 hε.le hfin

/-! ### Spectra that are reciprocals -/

/-- A spectrum of reciprocals whose dominant points are separated strictly keeps them under small changes. -/
theorem reciprocal_dominant {X : Type} [TopologicalSpace X] (den : X → (Fin m → ℂ) → ℝ) (N0 : X) (L : List (Fin m → ℂ))
    (h0 : ∀ᶠ N in 𝓝 N0, ∀ a ∈ L, 0 ≤ den N a)
    (hc : ∀ a ∈ L, ContinuousAt (fun N => den N a) N0) (I : Fin k → ℕ)
    (hlt : ∀ (c : Fin k) (j : ℕ) (b a : Fin m → ℂ), L[I c]? = some b → L[j]? = some a → (∀ e, j ≠ I e) → den N0 b < den N0 a) :
    ∀ᶠ N in 𝓝 N0, Dominant (L.map fun a => npRecip (den N a)) I := by
  have hall : ∀ᶠ N in 𝓝 N0, ∀ c : Fin k, ∀ j ∈ Finset.range L.length, ∀ (b a : Fin m → ℂ), L[I c]? = some b → L[j]? = some a →
      (∀ e, j ≠ I e) → den N b < den N a := by
    rw [eventually_all]
    intro c
    rw [Filter.eventually_all_finset]
    intro j hj
    rcases hb : L[I c]? with _ | b
    · exact Eventually.of_forall fun N b a hb' => by cases hb'
    rcases ha : L[j]? with _ | a
    · exact Eventually.of_forall fun N b a _ ha' => by cases ha'
    by_cases hne : ∀ e, j ≠ I e
    · have hev := (hc b (List.mem_of_getElem? hb)).eventually_lt (hc a (List.mem_of_getElem? ha)) (hlt c j b a hb ha hne)
      filter_upwards [hev] with N hN b' a' hb' ha' _
      rw [Option.some.injEq] at hb' ha'
      rwa [← hb', ← ha']
    · exact Eventually.of_forall fun N b a _ _ h => absurd h hne
  filter_upwards [hall, h0] with N hN h0 c j v w hj hv hw
  rw [List.getElem?_map, Option.map_eq_some_iff] at hv hw
  obtain ⟨a, ha, rfl⟩ := hv
  obtain ⟨b, hb, rfl⟩ := hw
  have h := hN c j (Finset.mem_range.2 (List.getElem?_eq_some_iff.1 ha).1) b a hb ha hj
  have hb0 := h0 b (List.mem_of_getElem? hb)
  have ha0 : den N a ≠ 0 := (lt_of_le_of_lt hb0 h).ne'
  rw [npRecip, if_neg ha0]
  by_cases hz : den N b = 0
  · rw [npRecip, if_pos hz]; exact WithTop.coe_lt_top _
  · rw [npRecip, if_neg hz]
    exact WithTop.coe_lt_coe.2 (one_div_lt_one_div_of_lt (lt_of_le_of_ne hb0 (Ne.symm hz)) h)

/-- The MUSIC spectrum of every matrix close to the exact covariance matrix has its highest points at the sources. -/
theorem music_near (hk : 1 ≤ k) {A : Matrix (Fin m) (Fin k) ℂ} (hA : Function.Injective A.mulVec)
    {P : Matrix (Fin k) (Fin k) ℂ} (hP : P.PosDef) (σ : ℝ) (L : List (Fin m → ℂ)) (I : Fin k → ℕ)
    (hcol : ∀ c, L[I c]? = some (A.col c))
    (hident : ∀ (j : ℕ) (v : Fin m → ℂ), L[j]? = some v → (∃ y, v = A *ᵥ y) → ∃ c, j = I c) :
    ∃ δ > 0, ∀ R' : Matrix (Fin m) (Fin m) ℂ, R'.IsHermitian → (∀ i j, ‖R' i j - covModel A P σ i j‖ < δ) →
      ∀ eigh : Eigh, Dominant (fMusic (getNoiseSubspace eigh R' k) L) I := by
  have hR := covModel_isHermitian A hP.1 σ
  obtain ⟨_, _, h⟩ := C43_noise_subspace someEigh (σ := σ) hk hA hP
  have hz : ∀ a, musicDenom (getNoiseSubspace someEigh (covModel A P σ) k) a = 0 ↔ ∃ x, a = A *ᵥ x := fun a => by
    rw [(musicDenom_eq_zero _ a).2, h a]
  have hev := reciprocal_dominant (fun (N : Matrix (Fin m) (Fin m) ℂ) a => |(star a ⬝ᵥ N *ᵥ a).re|)
    (getNoiseSubspace someEigh (covModel A P σ) k * (getNoiseSubspace someEigh (covModel A P σ) k)ᴴ) L
    (Eventually.of_forall fun _ _ _ => abs_nonneg _)
    (fun a _ => by
      have : Continuous fun N : Matrix (Fin m) (Fin m) ℂ => |(star a ⬝ᵥ N *ᵥ a).re| :=
        (Complex.continuous_re.comp (Continuous.dotProduct continuous_const (Continuous.matrix_mulVec continuous_id continuous_const))).abs
      exact this.continuousAt) I
    (by
      intro c j b a hb ha hj
      simp only [← musicDenom_proj]
      rw [hcol c, Option.some.injEq] at hb
      have h1 := (hz b).2 ⟨Pi.single c 1, by rw [mulVec_single_one, hb]⟩
      have h2 : musicDenom (getNoiseSubspace someEigh (covModel A P σ) k) a ≠ 0 := fun h0 => by
        obtain ⟨e, he⟩ := hident j a ha ((hz a).1 h0)
        exact hj e he
      rw [h1, abs_zero]
      exact abs_pos.2 h2)
  obtain ⟨δ, hδ, hn⟩ := projector_near hR hk (hasGap_covModel hA hP σ) someEigh hev
  refine ⟨δ, hδ, fun R' hR' hnear eigh => ?_⟩
  have := hn R' hR' hnear eigh
  have e : fMusic (getNoiseSubspace eigh R' k) L =
      L.map fun a => npRecip |(star a ⬝ᵥ (getNoiseSubspace eigh R' k * (getNoiseSubspace eigh R' k)ᴴ) *ᵥ a).re| := by
    unfold fMusic
    refine List.map_congr_left fun a _ => ?_
    rw [← musicDenom_proj, abs_of_nonneg (musicDenom_eq_zero _ a).1]
  rw [e]
  exact this

/-! ### Grid searches -/

/-- A one-dimensional grid search returns the dominant points, if they are neither at the border nor next to each other. -/
theorem recovers_sep {β Atom : Type} [LinearOrder β] (cfg : EstCfg β Atom) {x : List ℝ} {names : List String} {u : String}
    (hg : cfg.grid = ⟨.ff1, [⟨x, false⟩], names, [u]⟩) (hu : Unit1D u) (hx : ∀ v ∈ x, InRange1D u v)
    (hpf : cfg.peakFinder = findPeaksSimple) (hsort : IsArgsort cfg.argsort)
    (ops : List (EstOp β Atom)) (args : EstArgs β Atom) (hk : 1 ≤ args.k) (hr : args.refine = false)
    (hlen : (args.fsp (cfg.compute (x.map fun v => [v]))).length = x.length)
    (idx : Fin args.k → ℕ) (hsep : ∀ c e, c < e → idx c + 1 < idx e) (h1 : ∀ c, 1 ≤ idx c) (h2 : ∀ c, idx c + 1 < x.length)
    (loc : Fin args.k → ℝ) (hidx : ∀ c, x[idx c]? = some (loc c))
    (hdom : Dominant (args.fsp (cfg.compute (x.map fun v => [v]))) idx) :
    ∃ o st', cfg.estimate (cfg.run ops).1 args = (.ok o, st') ∧
      o.observe st' = (true, some (some (List.ofFn fun c => [loc c], u)), args.fsp (cfg.compute (x.map fun v => [v]))) := by
  have hsh : cfg.grid.shape = [x.length] := by rw [hg]; rfl
  have hpr : cfg.grid.shape.prod = x.length := by rw [hsh]; simp
  have hobs := recovers_dominant cfg (Or.inl ⟨x, names, u, hg, hu, hx⟩) hpf hsort ops args hk hr (rows_1d hg hu hx) (by rw [hpr]; exact hlen)
    idx (fun c e h => by have := hsep c e h; omega) (fun c => by have := h2 c; rw [hpr]; omega)
    (by
      intro c
      rw [hsh]
      exact dominant_peak_1d hlen hdom hsep h1 h2 c) hdom
  have hpt : ∀ c, gridPoint cfg.grid (unravelIdx cfg.grid.shape (idx c)) = [loc c] := by
    intro c
    rw [hsh, hg]
    simp [gridPoint, unravelIdx, hidx c]
  have hun : (cfg.grid.units[0]?).getD "" = u := by rw [hg]; rfl
  simp only [hpt, hun] at hobs
  unfold EstCfg.observe at hobs
  cases hest : cfg.estimate (cfg.run ops).1 args with
  | mk r st' =>
    rw [hest] at hobs
    cases r with
    | error e => cases hobs
    | ok o => exact ⟨o, st', rfl, Except.ok.inj hobs⟩

/-- The atoms the estimators use when all perturbations are known. -/
theorem atoms_known {a : ArrayDesign} (hel : a.element = .isotropicScalar)
    (hknown : ∀ p ∈ a.perturbations, p.isKnown = true) {ps : List Perturbation} (hps : Usable a "all" ps)
    (l : Fin a.element.outputSize) (wl : ℝ) [NeZero wl] (u : String) (x : List ℝ) :
    atomColumns1D a l wl u (x.map fun v => [v]) = x.map fun v => response a l wl u "all" v := by
  have hfk : a.filterPerturbations "known" = a.filterPerturbations "all" := by
    have hv : ∀ p ∈ a.perts.values, p.isKnown = true := hknown
    simp only [ArrayDesign.filterPerturbations, String.reduceEq, if_true, if_false]
    rw [List.filter_eq_self.2 hv]
  have hresp : ∀ v, response a l wl u "known" v = response a l wl u "all" v := fun v => by
    unfold response steering
    rw [hfk]
  rw [atoms_eq hel l wl u _ (hfk.trans hps.selected) hps.rows hps.dim hps.shape]
  simp only [hresp, List.map_map]
  rfl

/-- **C83** (MUSIC). Under the conditions under which MUSIC finds the sources from the exact covariance matrix `A P Aᴴ + σ I`
(C43), there is a distance `δ > 0` such that it returns exactly the sources from *every* Hermitian matrix whose
entries are closer than `δ` to those of the exact one, whatever eigenvectors `eigh` returns and after every history of calls. -/
theorem C83_music {a : ArrayDesign} (hel : a.element = .isotropicScalar)
    (hknown : ∀ p ∈ a.perturbations, p.isKnown = true) {ps : List Perturbation} (hps : Usable a "all" ps)
    (l : Fin a.element.outputSize) (wl : ℝ) (cfg : EstCfg (WithTop ℝ) (List (Fin a.size → ℂ)))
    {x : List ℝ} {names : List String} {u : String}
    (hg : cfg.grid = ⟨.ff1, [⟨x, false⟩], names, [u]⟩) (hu : Unit1D u) (hx : ∀ v ∈ x, InRange1D u v)
    (hpf : cfg.peakFinder = findPeaksSimple) (hsort : IsArgsort cfg.argsort)
    (hcomp : cfg.compute = atomColumns1D a l wl u)
    (src : FF1D k) (hsu : src.unit = u) (idx : Fin k → ℕ) (hidx : ∀ c, x[idx c]? = some (src.loc c))
    (hsep : ∀ c e, c < e → idx c + 1 < idx e) (h1 : ∀ c, 1 ≤ idx c)
    (h2 : ∀ c, idx c + 1 < x.length) (hk : 1 ≤ k) (hka : k < a.size)
    {S : Steering a.element.outputSize a.size k} (hS : steering a (.ff1 src) wl false "all" = .ok S)
    (hA : Function.Injective (S.A l).mulVec)
    (hident : ∀ j v, x[j]? = some v → (∃ y, response a l wl u "all" v = S.A l *ᵥ y) → ∃ c, j = idx c)
    {P : Matrix (Fin k) (Fin k) ℂ} (hP : P.PosDef) (σ : ℝ) :
    ∃ δ > 0, ∀ R : Matrix (Fin a.size) (Fin a.size) ℂ, R.IsHermitian → (∀ i j, ‖R i j - covModel (S.A l) P σ i j‖ < δ) →
      ∀ (eigh : Eigh) (ops : List (EstOp (WithTop ℝ) (List (Fin a.size → ℂ)))),
        ∃ o st', musicEstimate eigh cfg (cfg.run ops).1 R k {} = (.ok o, st') ∧
          ∃ sp, o.observe st' = (true, some (some (List.ofFn fun c => [src.loc c], u)), sp) := by
  have : NeZero wl := steering_wl hS
  have hat := atoms_known hel hknown hps l wl u x
  obtain ⟨δ, hδ, hn⟩ := music_near hk hA hP σ (x.map fun v => response a l wl u "all" v) idx
    (by
      intro c
      rw [List.getElem?_map, hidx c, Option.map_some, Option.some.injEq]
      funext i
      rw [Matrix.col_apply, steering_columns hel l wl "all" src hS, hsu])
    (by
      intro j v hv hy
      rw [List.getElem?_map, Option.map_eq_some_iff] at hv
      obtain ⟨t, ht, rfl⟩ := hv
      exact hident j t ht hy)
  refine ⟨δ, hδ, fun R hR hnear eigh ops => ?_⟩
  have hdom := hn R hR hnear eigh
  obtain ⟨o, st', h3, h4⟩ := recovers_sep cfg hg hu hx hpf hsort ops ⟨fMusic (getNoiseSubspace eigh R k), k, false, 10, 3⟩ hk rfl
    (by simp [hcomp, hat, fMusic]) idx hsep h1 h2 src.loc hidx (by simp only [hcomp, hat]; exact hdom)
  refine ⟨o, st', ?_, _, h4⟩
  unfold musicEstimate
  rw [subspaceArgs_ok eigh (fun En => fMusic En) R k {} hka]
  exact h3

/-- Dominant points of a grid with several dimensions that are pairwise not adjacent are peaks. -/
theorem dominant_peak_sep {β : Type} [LinearOrder β] {shape : List ℕ} (hs : shape.length ≠ 1) {sp : List β}
    {I : Fin k → ℕ} (hdom : Dominant sp I) (hlt : ∀ c, I c < shape.prod)
    (hsep : ∀ c e, c ≠ e → ¬ Adjacent (unravelIdx shape (I c)) (unravelIdx shape (I e))) (c : Fin k) :
    unravelIdx shape (I c) ∈ findPeaksSimple shape sp := by
  classical
  simp only [findPeaksSimple, hs, if_false, findPeaksND, List.mem_filter, decide_eq_true_eq]
  refine ⟨List.mem_map.2 ⟨_, List.mem_range.2 (hlt c), rfl⟩, ?_⟩
  intro d hd hadj v w hv hw
  obtain ⟨j, hj, rfl⟩ := List.mem_map.1 hd
  rw [ravel_unravel (List.mem_range.1 hj)] at hv
  rw [ravel_unravel (hlt c)] at hw
  by_cases h : ∃ e, j = I e
  · obtain ⟨e, rfl⟩ := h
    by_cases hce : c = e
    · subst hce
      rw [hw] at hv
      exact (Option.some.inj hv).ge
    · exact absurd hadj (hsep c e hce)
  · push Not at h
    exact (hdom c _ v w h hv hw).le

/-- A two-dimensional grid search returns the dominant points, if no two of them are adjacent. -/
theorem recovers_sep_2d {β Atom : Type} [LinearOrder β] (cfg : EstCfg β Atom) {ga gb : List ℝ} {names : List String} {u : String}
    (hg : cfg.grid = ⟨.ff2, [⟨ga, false⟩, ⟨gb, false⟩], names, [u, u]⟩) (hu : Unit2D u)
    (hx : ∀ v ∈ ga, ∀ w ∈ gb, InRange2D u (v, w))
    (hpf : cfg.peakFinder = findPeaksSimple) (hsort : IsArgsort cfg.argsort)
    (ops : List (EstOp β Atom)) (args : EstArgs β Atom) (hk : 1 ≤ args.k) (hr : args.refine = false)
    {rows : List (List ℝ)} (hrows : cfg.grid.placementRows = .ok rows)
    (hlen : (args.fsp (cfg.compute rows)).length = ga.length * gb.length)
    (src : FF2D args.k) (ia ib : Fin args.k → ℕ) (ha : ∀ c, ga[ia c]? = some (src.loc c).1) (hb : ∀ c, gb[ib c]? = some (src.loc c).2)
    (hord : ∀ c e, c < e → ia c < ia e ∨ ia c = ia e ∧ ib c < ib e)
    (hsep : ∀ c e, c ≠ e → ia c + 1 < ia e ∨ ia e + 1 < ia c ∨ ib c + 1 < ib e ∨ ib e + 1 < ib c)
    (hdom : Dominant (args.fsp (cfg.compute rows)) fun c => ia c * gb.length + ib c) :
    ∃ o st', cfg.estimate (cfg.run ops).1 args = (.ok o, st') ∧
      o.observe st' = (true, some (some (List.ofFn fun c => [(src.loc c).1, (src.loc c).2], u)), args.fsp (cfg.compute rows)) := by
  have hsh : cfg.grid.shape = [ga.length, gb.length] := by rw [hg]; rfl
  have hpr : cfg.grid.shape.prod = ga.length * gb.length := by rw [hsh]; simp
  have hal : ∀ c, ia c < ga.length := fun c => (List.getElem?_eq_some_iff.1 (ha c)).1
  have hbl : ∀ c, ib c < gb.length := fun c => (List.getElem?_eq_some_iff.1 (hb c)).1
  have hlt : ∀ c, ia c * gb.length + ib c < cfg.grid.shape.prod := by
    intro c
    rw [hpr]
    have h1 := hal c
    have h2 := hbl c
    nlinarith
  have hobs := recovers_dominant cfg (Or.inr ⟨ga, gb, names, u, hg, hu, hx⟩) hpf hsort ops args hk hr hrows (by rw [hlen, hpr])
    (fun c => ia c * gb.length + ib c)
    (by
      intro c e h
      have h2 := hbl c
      rcases hord c e h with h1 | ⟨h1, h3⟩
      · show ia c * gb.length + ib c < ia e * gb.length + ib e
        nlinarith
      · show ia c * gb.length + ib c < ia e * gb.length + ib e
        rw [h1]; omega)
    hlt (dominant_peak_sep (by rw [hsh]; simp) hdom hlt (by
      intro c e hce hadj
      rw [hsh, unravel_2d (hal c) (hbl c), unravel_2d (hal e) (hbl e)] at hadj
      have := hsep c e hce
      simp only [Adjacent, List.forall₂_cons, List.forall₂_nil_right_iff, and_true] at hadj
      omega)) hdom
  have hpt : ∀ c, gridPoint cfg.grid (unravelIdx cfg.grid.shape (ia c * gb.length + ib c)) = [(src.loc c).1, (src.loc c).2] := by
    intro c
    rw [hsh, unravel_2d (hal c) (hbl c), hg]
    simp [gridPoint, ha c, hb c]
  have hun : (cfg.grid.units[0]?).getD "" = u := by rw [hg]; rfl
  simp only [hpt, hun] at hobs
  unfold EstCfg.observe at hobs
  cases hest : cfg.estimate (cfg.run ops).1 args with
  | mk r st' =>
    rw [hest] at hobs
    cases r with
    | error e => cases hobs
    | ok o => exact ⟨o, st', rfl, Except.ok.inj hobs⟩

/-- **C83** (MUSIC, two-dimensional grids). The same on azimuth-elevation grids, for sources at grid points of which no two are
adjacent (from the exact covariance matrix adjacent sources are found, too: their spectrum values are equal). -/
theorem C83_music_2d {a : ArrayDesign} (hel : a.element = .isotropicScalar)
    (hknown : ∀ p ∈ a.perturbations, p.isKnown = true) {ps : List Perturbation} (hps : Usable a "all" ps)
    (l : Fin a.element.outputSize) (wl : ℝ) (cfg : EstCfg (WithTop ℝ) (List (Fin a.size → ℂ)))
    {ga gb : List ℝ} {names : List String} {u : String}
    (hg : cfg.grid = ⟨.ff2, [⟨ga, false⟩, ⟨gb, false⟩], names, [u, u]⟩) (hu : Unit2D u)
    (hx : ∀ v ∈ ga, ∀ w ∈ gb, InRange2D u (v, w))
    (hpf : cfg.peakFinder = findPeaksSimple) (hsort : IsArgsort cfg.argsort)
    (hcomp : cfg.compute = atomColumns2D a l wl u)
    (src : FF2D k) (hsu : src.unit = u) (ia ib : Fin k → ℕ) (ha : ∀ c, ga[ia c]? = some (src.loc c).1)
    (hb : ∀ c, gb[ib c]? = some (src.loc c).2) (hord : ∀ c e, c < e → ia c < ia e ∨ ia c = ia e ∧ ib c < ib e)
    (hsep : ∀ c e, c ≠ e → ia c + 1 < ia e ∨ ia e + 1 < ia c ∨ ib c + 1 < ib e ∨ ib e + 1 < ib c)
    (hk : 1 ≤ k) (hka : k < a.size)
    {S : Steering a.element.outputSize a.size k} (hS : steering a (.ff2 src) wl false "all" = .ok S)
    (hA : Function.Injective (S.A l).mulVec)
    (hident : ∀ i j v w, ga[i]? = some v → gb[j]? = some w →
      (∃ y, response2 a l wl u "all" (v, w) = S.A l *ᵥ y) → ∃ c, i = ia c ∧ j = ib c)
    {P : Matrix (Fin k) (Fin k) ℂ} (hP : P.PosDef) (σ : ℝ) :
    ∃ δ > 0, ∀ R : Matrix (Fin a.size) (Fin a.size) ℂ, R.IsHermitian → (∀ i j, ‖R i j - covModel (S.A l) P σ i j‖ < δ) →
      ∀ (eigh : Eigh) (ops : List (EstOp (WithTop ℝ) (List (Fin a.size → ℂ)))),
        ∃ o st', musicEstimate eigh cfg (cfg.run ops).1 R k {} = (.ok o, st') ∧
          ∃ sp, o.observe st' = (true, some (some (List.ofFn fun c => [(src.loc c).1, (src.loc c).2], u)), sp) := by
  have : NeZero wl := steering_wl hS
  have hfk : a.filterPerturbations "known" = a.filterPerturbations "all" := by
    have hv : ∀ p ∈ a.perts.values, p.isKnown = true := hknown
    simp only [ArrayDesign.filterPerturbations, String.reduceEq, if_true, if_false]
    rw [List.filter_eq_self.2 hv]
  have hresp : ∀ v, response2 a l wl u "known" v = response2 a l wl u "all" v := fun v => by
    unfold response2 steering
    rw [hfk]
  obtain ⟨rows, hr1, hr2, hr3⟩ := rows_2d hg hu hx
  have hcr : cfg.compute rows = rows.map fun r => response2 a l wl u "all" (azEl r) := by
    rw [hcomp, atoms_eq2 hel l wl u rows ⟨hfk.trans hps.selected, hps.rows, hps.dim, hps.shape⟩]
    simp only [hresp]
  have hL : ∀ i j v w, ga[i]? = some v → gb[j]? = some w →
      (cfg.compute rows)[i * gb.length + j]? = some (response2 a l wl u "all" (v, w)) := by
    intro i j v w hv hw
    rw [hcr, List.getElem?_map, hr3 i j v w hv hw]
    rfl
  obtain ⟨δ, hδ, hn⟩ := music_near hk hA hP σ (cfg.compute rows) (fun c => ia c * gb.length + ib c)
    (by
      intro c
      rw [hL _ _ _ _ (ha c) (hb c)]
      congr 1
      funext i
      rw [Matrix.col_apply, steering_columns2 hel l wl "all" src hS, hsu])
    (by
      intro j v hv hy
      have hj : j < ga.length * gb.length := by
        have := (List.getElem?_eq_some_iff.1 hv).1
        rw [hcr, List.length_map, hr2] at this
        exact this
      obtain ⟨p, q, v', w', rfl, h1, h2⟩ := flat_2d hj
      rw [hL _ _ _ _ h1 h2, Option.some.injEq] at hv
      rw [← hv] at hy
      obtain ⟨c, rfl, rfl⟩ := hident p q v' w' h1 h2 hy
      exact ⟨c, rfl⟩)
  refine ⟨δ, hδ, fun R hR hnear eigh ops => ?_⟩
  obtain ⟨o, st', e1, e2⟩ := recovers_sep_2d cfg hg hu hx hpf hsort ops
    ⟨fMusic (getNoiseSubspace eigh R k), k, false, 10, 3⟩ hk rfl hr1
    (by simp only [fMusic, List.length_map, hcr, hr2]) src ia ib ha hb hord hsep (hn R hR hnear eigh)
  refine ⟨o, st', ?_, _, e2⟩
  unfold musicEstimate
  rw [subspaceArgs_ok eigh (fun En => fMusic En) R k {} hka]
  exact e1

/-! ### Min-Norm -/

/-- The Min-Norm denominator as a function of the noise projector. -/
noncomputable def minNormOf [NeZero m] (N : Matrix (Fin m) (Fin m) ℂ) (a : Fin m → ℂ) : ℝ :=
  ‖(star fun i => N i 0 / N 0 0) ⬝ᵥ a‖ ^ 2

theorem minNormDenom_of [NeZero m] {d : ℕ} (En : Matrix (Fin m) (Fin d) ℂ) (a : Fin m → ℂ) :
    minNormDenom En a = minNormOf (En * Enᴴ) a := by
  unfold minNormDenom minNormOf
  congr 4
  funext i
  exact minNormVec_proj En i

theorem minNormOf_continuousAt [NeZero m] {N : Matrix (Fin m) (Fin m) ℂ} (h : N 0 0 ≠ 0) (a : Fin m → ℂ) :
    ContinuousAt (fun N => minNormOf N a) N := by
  unfold minNormOf
  have he : ∀ i j : Fin m, Continuous fun N : Matrix (Fin m) (Fin m) ℂ => N i j := fun i j => continuous_id.matrix_elem i j
  refine ContinuousAt.pow (ContinuousAt.norm ?_) 2
  simp only [dotProduct, Pi.star_apply]
  refine tendsto_finsetSum _ fun i _ => ?_
  exact ContinuousAt.mul (((he i 0).continuousAt.div (he 0 0).continuousAt h).star) continuousAt_const

/-- **C83** (Min-Norm). On a uniform linear array, Min-Norm returns exactly the sources from every Hermitian matrix close enough to the
exact covariance matrix. -/
theorem C83_min_norm_ula {n : ℕ} {d wl : ℝ} (hd : 0 < d) (hwl : 0 < wl)
    {name : Option String} {a : GridArray} (ha : ula n (.scalar d) name {} = .ok a) [NeZero a.size]
    (l : Fin a.element.outputSize) (cfg : EstCfg (WithTop ℝ) (List (Fin a.size → ℂ)))
    {x : List ℝ} {names : List String} {u : String}
    (hg : cfg.grid = ⟨.ff1, [⟨x, false⟩], names, [u]⟩) (hu : Unit1D u) (hx : ∀ v ∈ x, InRange1D u v)
    (hnd : x.Nodup)
    (hamb : ∀ v ∈ x, ∀ w ∈ x, d * |Real.sin (angleOf u v) - Real.sin (angleOf u w)| < wl)
    (hpf : cfg.peakFinder = findPeaksSimple) (hsort : IsArgsort cfg.argsort)
    (hcomp : cfg.compute = atomColumns1D a.toArrayDesign l wl u)
    (src : FF1D k) (hsu : src.unit = u) (idx : Fin k → ℕ)
    (hidx : ∀ c, x[idx c]? = some (src.loc c))
    (hsep : ∀ c e, c < e → idx c + 1 < idx e) (h1 : ∀ c, 1 ≤ idx c)
    (h2 : ∀ c, idx c + 1 < x.length) (hk : 1 ≤ k) (hkn : k < n)
    {P : Matrix (Fin k) (Fin k) ℂ} (hP : P.PosDef) (σ : ℝ) :
    ∃ S, steering a.toArrayDesign (.ff1 src) wl false "all" = .ok S ∧
      ∃ δ > 0, ∀ R : Matrix (Fin a.size) (Fin a.size) ℂ, R.IsHermitian → (∀ i j, ‖R i j - covModel (S.A l) P σ i j‖ < δ) →
        ∀ (eigh : Eigh) (ops : List (EstOp (WithTop ℝ) (List (Fin a.size → ℂ)))),
        ∃ o st', minNormEstimate eigh cfg (cfg.run ops).1 R k {} = (.ok o, st') ∧
          ∃ sp, o.observe st' = (true, some (some (List.ofFn fun c => [src.loc c], u)), sp) := by
  have : NeZero wl := ⟨hwl.ne'⟩
  have hsize := (C01_ula_geometry n d name {} a ha).1
  have hsx : ∀ c, src.loc c ∈ x := fun c => List.mem_of_getElem? (hidx c)
  obtain ⟨S, hS, hSv⟩ := ula_steering ha src ⟨hsu ▸ hu, fun c => hsu ▸ hx _ (hsx c)⟩ wl "all" (by simp)
  refine ⟨S, hS, ?_⟩
  have hSm : S.A l = ulaMat a.size fun c => phaseFactor d wl u (src.loc c) := by
    funext i c
    rw [hSv, hsu]; rfl
  have hloc : Function.Injective src.loc := by
    intro c e h
    have h3 : idx c = idx e := by
      obtain ⟨hc1, hc2⟩ := List.getElem?_eq_some_iff.1 (hidx c)
      obtain ⟨he1, he2⟩ := List.getElem?_eq_some_iff.1 (hidx e)
      exact (List.Nodup.getElem_inj_iff hnd).1 (by rw [hc2, he2, h])
    rcases lt_trichotomy c e with h' | h' | h'
    · have := hsep c e h'; omega
    · exact h'
    · have := hsep e c h'; omega
  have hz : Function.Injective fun c => phaseFactor d wl u (src.loc c) := by
    intro c e h
    exact hloc (phaseFactor_inj hd hwl (hx _ (hsx c)) (hx _ (hsx e)) (hamb _ (hsx c) _ (hsx e)) h)
  have hn1 : ∀ y, ‖phaseFactor d wl u y‖ = 1 := fun y => by
    simp only [phaseFactor]
    rw [mul_comm, Complex.norm_exp_ofReal_mul_I]
  have hz0 : ∀ c, phaseFactor d wl u (src.loc c) ≠ 0 := fun c h0 => by
    have := hn1 (src.loc c)
    rw [h0, norm_zero] at this
    exact one_ne_zero this.symm
  have hka : k < a.size := by
    have : a.size = n := hsize
    omega
  rw [hSm]
  set z : Fin k → ℂ := fun c => phaseFactor d wl u (src.loc c) with hzdef
  set L := x.map fun v => ulaVec a.size (phaseFactor d wl u v) with hLdef
  have hinj := ulaMat_injective hz hka.le
  have hat : atomColumns1D a.toArrayDesign l wl u (x.map fun v => [v]) = L := by
    rw [ula_atoms ha l wl u hu (x.map fun v => [v]) (by
      intro r hr
      obtain ⟨v, hv, rfl⟩ := List.mem_map.1 hr
      exact hx v hv), List.map_map]
    rfl
  obtain ⟨hsp0, -⟩ := C44_no_spurious someEigh hz hz0 (σ := σ) hk hka hP
  obtain ⟨-, h1o, h2o⟩ := C43_noise_subspace someEigh (σ := σ) hk hinj hP
  have hrow := C44_first_row_ula someEigh hz hz0 (σ := σ) hk hka hP
  obtain ⟨-, g2, -, g4⟩ := C44_min_norm_vector _ h1o hrow
  have hN00 : (getNoiseSubspace someEigh (covModel (ulaMat a.size z) P σ) k *
      (getNoiseSubspace someEigh (covModel (ulaMat a.size z) P σ) k)ᴴ) 0 0 ≠ 0 := by
    intro h0
    have := minNormVec_proj (getNoiseSubspace someEigh (covModel (ulaMat a.size z) P σ) k) 0
    rw [g2, h0, div_zero] at this
    exact one_ne_zero this
  have hev := reciprocal_dominant minNormOf
    (getNoiseSubspace someEigh (covModel (ulaMat a.size z) P σ) k * (getNoiseSubspace someEigh (covModel (ulaMat a.size z) P σ) k)ᴴ) L
    (Eventually.of_forall fun _ _ _ => by unfold minNormOf; positivity) (fun a _ => minNormOf_continuousAt hN00 a) idx
    (by
      intro c j b v hb hv hj
      rw [hLdef, List.getElem?_map, Option.map_eq_some_iff] at hb hv
      obtain ⟨y, hy, rfl⟩ := hb
      obtain ⟨t, ht, rfl⟩ := hv
      rw [hidx c, Option.some.injEq] at hy
      subst hy
      simp only [← minNormDenom_of]
      have e0 : minNormDenom (getNoiseSubspace someEigh (covModel (ulaMat a.size z) P σ) k) (ulaVec a.size (phaseFactor d wl u (src.loc c))) = 0 := by
        apply g4
        rw [h2o]
        exact ⟨Pi.single c 1, by rw [mulVec_single_one]; rfl⟩
      rw [e0]
      refine lt_of_le_of_ne (by unfold minNormDenom; positivity) fun h0 => ?_
      rcases hsp0 _ h0.symm with ⟨e, he⟩ | he
      · have : t = src.loc e := phaseFactor_inj hd hwl (hx _ (List.mem_of_getElem? ht)) (hx _ (hsx e)) (hamb _ (List.mem_of_getElem? ht) _ (hsx e)) he
        subst this
        obtain ⟨hc1, hc2⟩ := List.getElem?_eq_some_iff.1 ht
        obtain ⟨he1, he2⟩ := List.getElem?_eq_some_iff.1 (hidx e)
        exact hj e ((List.Nodup.getElem_inj_iff hnd).1 (by rw [hc2, he2]))
      · rw [hn1] at he
        exact lt_irrefl _ he)
  obtain ⟨δ, hδ, hn⟩ := projector_near (covModel_isHermitian _ hP.1 σ) hk (hasGap_covModel hinj hP σ) someEigh hev
  refine ⟨δ, hδ, fun R hR hnear eigh ops => ?_⟩
  have hdom := hn R hR hnear eigh
  simp only [← minNormDenom_of] at hdom
  obtain ⟨o, st', h3, h4⟩ := recovers_sep cfg hg hu hx hpf hsort ops ⟨fMinNorm (getNoiseSubspace eigh R k), k, false, 10, 3⟩ hk rfl
    (by simp only [hcomp, hat, fMinNorm, hLdef, List.length_map]) idx hsep h1 h2 src.loc hidx (by simp only [hcomp, hat]; exact hdom)
  refine ⟨o, st', ?_, _, h4⟩
  unfold minNormEstimate
  rw [subspaceArgs_ok eigh (fun En => fMinNorm En) R k {} hka]
  exact h3

/-! ### Beamformers -/

/-- A spectrum of real numbers that depend continuously on a parameter keeps its dominant points. -/
theorem real_dominant {X : Type} [TopologicalSpace X] (f : X → (Fin m → ℂ) → ℝ) (N0 : X) (L : List (Fin m → ℂ))
    (hc : ∀ a ∈ L, ContinuousAt (fun N => f N a) N0) (I : Fin k → ℕ) (hdom : Dominant (L.map (f N0)) I) :
    ∀ᶠ N in 𝓝 N0, Dominant (L.map (f N)) I := by
  have hall : ∀ᶠ N in 𝓝 N0, ∀ c : Fin k, ∀ j ∈ Finset.range L.length, ∀ (b a : Fin m → ℂ), L[I c]? = some b → L[j]? = some a →
      (∀ e, j ≠ I e) → f N a < f N b := by
    rw [eventually_all]
    intro c
    rw [Filter.eventually_all_finset]
    intro j hj
    rcases hb : L[I c]? with _ | b
    · exact Eventually.of_forall fun N b a hb' => by cases hb'
    rcases ha : L[j]? with _ | a
    · exact Eventually.of_forall fun N b a _ ha' => by cases ha'
    by_cases hne : ∀ e, j ≠ I e
    · have hlt := hdom c j (f N0 a) (f N0 b) hne (by simp [ha]) (by simp [hb])
      have hev := (hc a (List.mem_of_getElem? ha)).eventually_lt (hc b (List.mem_of_getElem? hb)) hlt
      filter_upwards [hev] with N hN b' a' hb' ha' _
      rw [Option.some.injEq] at hb' ha'
      rwa [← hb', ← ha']
    · exact Eventually.of_forall fun N b a _ _ h => absurd h hne
  filter_upwards [hall] with N hN c j v w hj hv hw
  rw [List.getElem?_map, Option.map_eq_some_iff] at hv hw
  obtain ⟨a, ha, rfl⟩ := hv
  obtain ⟨b, hb, rfl⟩ := hw
  exact hN c j (Finset.mem_range.2 (List.getElem?_eq_some_iff.1 ha).1) b a hb ha hj

theorem bartlett_near (R : Matrix (Fin m) (Fin m) ℂ) (L : List (Fin m → ℂ)) (I : Fin k → ℕ) (hdom : Dominant (fBartlett R L) I) :
    ∀ᶠ R' in 𝓝 R, Dominant (fBartlett R' L) I := by
  refine real_dominant (fun R a => (bartlettRaw R a).re) R L (fun a _ => ?_) I hdom
  have : Continuous fun R : Matrix (Fin m) (Fin m) ℂ => (star a ⬝ᵥ R *ᵥ a).re :=
    Complex.continuous_re.comp (Continuous.dotProduct continuous_const (Continuous.matrix_mulVec continuous_id continuous_const))
  exact this.continuousAt

theorem mvdr_near {R : Matrix (Fin m) (Fin m) ℂ} (hR : R.PosDef) (L : List (Fin m → ℂ)) (hL : ∀ a ∈ L, a ≠ 0) (I : Fin k → ℕ)
    (hdom : Dominant (fMvdr R L) I) : ∀ᶠ R' in 𝓝 R, Dominant (fMvdr R' L) I := by
  have hdet : R.det ≠ 0 := (isUnit_iff_ne_zero).1 ((isUnit_iff_isUnit_det _).1 hR.isUnit)
  have hcd : Continuous fun R : Matrix (Fin m) (Fin m) ℂ => R.det := continuous_id.matrix_det
  have hinv : ContinuousAt (fun R : Matrix (Fin m) (Fin m) ℂ => R.det⁻¹ • R.adjugate) R :=
    (hcd.continuousAt.inv₀ hdet).smul continuous_id.matrix_adjugate.continuousAt
  let den : Matrix (Fin m) (Fin m) ℂ → (Fin m → ℂ) → ℝ := fun R a => (star a ⬝ᵥ (R.det⁻¹ • R.adjugate) *ᵥ a).re
  have hev : ∀ᶠ R' in 𝓝 R, R'.det ≠ 0 := hcd.continuousAt.eventually_ne hdet
  have heq : ∀ R' : Matrix (Fin m) (Fin m) ℂ, R'.det ≠ 0 → ∀ a, (mvdrRaw R' a).re = den R' a := by
    intro R' h a
    unfold mvdrRaw
    rw [npPinv_inv (isUnit_iff_ne_zero.2 h), Matrix.inv_def, Ring.inverse_eq_inv']
    rfl
  have hcont : ∀ a, ContinuousAt (fun R' => den R' a) R := fun a => by
    have : Continuous fun M : Matrix (Fin m) (Fin m) ℂ => (star a ⬝ᵥ M *ᵥ a).re :=
      Complex.continuous_re.comp (Continuous.dotProduct continuous_const (Continuous.matrix_mulVec continuous_id continuous_const))
    exact ContinuousAt.comp (f := fun R : Matrix (Fin m) (Fin m) ℂ => R.det⁻¹ • R.adjugate) this.continuousAt hinv
  have hpos : ∀ a ∈ L, 0 < den R a := by
    intro a ha
    rw [← heq R hdet, mvdrRaw_eq hR]
    exact (Complex.lt_def.1 (hR.inv.dotProduct_mulVec_pos (hL a ha))).1
  have hposev : ∀ᶠ R' in 𝓝 R, ∀ a ∈ L, 0 ≤ den R' a := by
    have : ∀ᶠ R' in 𝓝 R, ∀ j ∈ Finset.range L.length, ∀ a, L[j]? = some a → 0 ≤ den R' a := by
      rw [Filter.eventually_all_finset]
      intro j _
      rcases ha : L[j]? with _ | a
      · exact Eventually.of_forall fun _ a h => by cases h
      · filter_upwards [(hcont a).eventually_const_lt (hpos a (List.mem_of_getElem? ha))] with R' h a' ha'
        rw [Option.some.injEq] at ha'
        subst ha'
        exact h.le
    filter_upwards [this] with R' h a ha
    obtain ⟨j, hj⟩ := List.mem_iff_getElem?.1 ha
    exact h j (Finset.mem_range.2 (List.getElem?_eq_some_iff.1 hj).1) a hj
  have key := reciprocal_dominant den R L hposev (fun a _ => hcont a) I (by
    intro c j b a hb ha hj
    have := hdom c j (npRecip (mvdrRaw R a).re) (npRecip (mvdrRaw R b).re) hj (by simp [fMvdr, ha]) (by simp [fMvdr, hb])
    rw [heq R hdet, heq R hdet, npRecip, npRecip, if_neg (hpos a (List.mem_of_getElem? ha)).ne', if_neg (hpos b (List.mem_of_getElem? hb)).ne',
      WithTop.coe_lt_coe] at this
    exact (one_div_lt_one_div (hpos a (List.mem_of_getElem? ha)) (hpos b (List.mem_of_getElem? hb))).1 this)
  filter_upwards [key, hev] with R' h hd
  have e : fMvdr R' L = L.map fun a => npRecip (den R' a) := by
    unfold fMvdr
    exact List.map_congr_left fun a _ => by rw [heq R' hd]
  rw [e]
  exact h

/-- Entrywise distance. -/
theorem near_entries {R : Matrix (Fin m) (Fin m) ℂ} {p : Matrix (Fin m) (Fin m) ℂ → Prop} (h : ∀ᶠ R' in 𝓝 R, p R') :
    ∃ δ > 0, ∀ R' : Matrix (Fin m) (Fin m) ℂ, (∀ i j, ‖R' i j - R i j‖ < δ) → p R' := by
  obtain ⟨ε, hε, hp'⟩ := (Metric.eventually_nhds_iff (α := Fin m → Fin m → ℂ)).1 h
  refine ⟨ε, hε, fun R' hn => hp' ?_⟩
  refine (dist_pi_lt_iff hε).2 fun i => (dist_pi_lt_iff hε).2 fun j => ?_
  rw [dist_eq_norm]
  exact hn i j

/-- **C83** (beamformers). If the Bartlett (MVDR) spectrum of a (positive definite) matrix `R` is strictly higher at `k` interior, pairwise
non-adjacent points of a one-dimensional grid than at all others, then there is a `δ > 0` such that from every matrix whose entries are
closer than `δ` to those of `R` the beamformer returns exactly these `k` points. (For one source C77 establishes the
hypothesis.) -/
theorem C83_beamformers (cfg : EstCfg ℝ (List (Fin m → ℂ))) (cfg' : EstCfg (WithTop ℝ) (List (Fin m → ℂ)))
    {x : List ℝ} {names : List String} {u : String}
    (hg : cfg.grid = ⟨.ff1, [⟨x, false⟩], names, [u]⟩) (hg' : cfg'.grid = cfg.grid) (hu : Unit1D u) (hx : ∀ v ∈ x, InRange1D u v)
    (hpf : cfg.peakFinder = findPeaksSimple) (hpf' : cfg'.peakFinder = findPeaksSimple)
    (hsort : IsArgsort cfg.argsort) (hsort' : IsArgsort cfg'.argsort)
    {L : List (Fin m → ℂ)} (hlen : L.length = x.length) (hL : ∀ a ∈ L, a ≠ 0)
    (hcomp : cfg.compute (x.map fun v => [v]) = L) (hcomp' : cfg'.compute (x.map fun v => [v]) = L)
    (idx : Fin k → ℕ) (hk : 1 ≤ k) (hsep : ∀ c e, c < e → idx c + 1 < idx e) (h1 : ∀ c, 1 ≤ idx c) (h2 : ∀ c, idx c + 1 < x.length)
    (loc : Fin k → ℝ) (hidx : ∀ c, x[idx c]? = some (loc c)) (R : Matrix (Fin m) (Fin m) ℂ) :
    (Dominant (fBartlett R L) idx → ∃ δ > 0, ∀ R' : Matrix (Fin m) (Fin m) ℂ, (∀ i j, ‖R' i j - R i j‖ < δ) →
      ∀ ops : List (EstOp ℝ (List (Fin m → ℂ))),
      ∃ o st', bartlettEstimate cfg (cfg.run ops).1 R' k {} = (.ok o, st') ∧
        ∃ sp, o.observe st' = (true, some (some (List.ofFn fun c => [loc c], u)), sp)) ∧
    (R.PosDef → Dominant (fMvdr R L) idx → ∃ δ > 0, ∀ R' : Matrix (Fin m) (Fin m) ℂ, (∀ i j, ‖R' i j - R i j‖ < δ) →
      ∀ ops : List (EstOp (WithTop ℝ) (List (Fin m → ℂ))),
      ∃ o st', mvdrEstimate cfg' (cfg'.run ops).1 R' k {} = (.ok o, st') ∧
        ∃ sp, o.observe st' = (true, some (some (List.ofFn fun c => [loc c], u)), sp)) := by
  constructor
  · intro hdom
    obtain ⟨δ, hδ, hn⟩ := near_entries (bartlett_near R L idx hdom)
    refine ⟨δ, hδ, fun R' hnear ops => ?_⟩
    obtain ⟨o, st', h3, h4⟩ := recovers_sep cfg hg hu hx hpf hsort ops ⟨fBartlett R', k, false, 10, 3⟩ hk rfl
      (by simp only [hcomp, fBartlett, List.length_map, hlen]) idx hsep h1 h2 loc hidx (by simp only [hcomp]; exact hn R' hnear)
    refine ⟨o, st', ?_, _, h4⟩
    unfold bartlettEstimate
    rw [beamArgs_ok]
    exact h3
  · intro hR hdom
    obtain ⟨δ, hδ, hn⟩ := near_entries (mvdr_near hR L hL idx hdom)
    refine ⟨δ, hδ, fun R' hnear ops => ?_⟩
    obtain ⟨o, st', h3, h4⟩ := recovers_sep cfg' (hg'.trans hg) hu hx hpf' hsort' ops ⟨fMvdr R', k, false, 10, 3⟩ hk rfl
      (by simp only [hcomp', fMvdr, List.length_map, hlen]) idx hsep h1 h2 loc hidx (by simp only [hcomp']; exact hn R' hnear)
    refine ⟨o, st', ?_, _, h4⟩
    unfold mvdrEstimate
    rw [beamArgs_ok]
    exact h3

/-- **C83** (beamformers, one source). Under the conditions under which the beamformers find a single source from the exact covariance matrix
(C77), they return exactly this source from every matrix close enough to it. -/
theorem C83_beamformers_one {a : ArrayDesign} (hel : a.element = .isotropicScalar)
    (hknown : ∀ p ∈ a.perturbations, p.isKnown = true) {ps : List Perturbation} (hps : Usable a "all" ps)
    (l : Fin a.element.outputSize) (wl : ℝ) (cfg : EstCfg ℝ (List (Fin a.size → ℂ))) (cfg' : EstCfg (WithTop ℝ) (List (Fin a.size → ℂ)))
    {x : List ℝ} {names : List String} {u : String}
    (hg : cfg.grid = ⟨.ff1, [⟨x, false⟩], names, [u]⟩) (hg' : cfg'.grid = cfg.grid) (hu : Unit1D u) (hx : ∀ v ∈ x, InRange1D u v)
    (hpf : cfg.peakFinder = findPeaksSimple) (hpf' : cfg'.peakFinder = findPeaksSimple)
    (hsort : IsArgsort cfg.argsort) (hsort' : IsArgsort cfg'.argsort)
    (hcomp : cfg.compute = atomColumns1D a l wl u) (hcomp' : cfg'.compute = atomColumns1D a l wl u)
    (src : FF1D 1) (hsu : src.unit = u) (j0 : ℕ) (hj : x[j0]? = some (src.loc 0)) (h1 : 1 ≤ j0) (h2 : j0 + 1 < x.length)
    {S : Steering a.element.outputSize a.size 1} (hS : steering a (.ff1 src) wl false "all" = .ok S)
    (hne : response a l wl u "all" (src.loc 0) ≠ 0)
    (hpow : ∀ v ∈ x, power (response a l wl u "all" v) = power (response a l wl u "all" (src.loc 0)))
    (hdiff : ∀ j v, x[j]? = some v → j ≠ j0 → ∀ z : ℂ, response a l wl u "all" v ≠ z • response a l wl u "all" (src.loc 0))
    {P : Matrix (Fin 1) (Fin 1) ℂ} (hP : P.PosDef) :
    (∀ σ : ℝ, ∃ δ > 0, ∀ R : Matrix (Fin a.size) (Fin a.size) ℂ, (∀ i j, ‖R i j - covModel (S.A l) P σ i j‖ < δ) →
      ∀ ops : List (EstOp ℝ (List (Fin a.size → ℂ))), ∃ o st', bartlettEstimate cfg (cfg.run ops).1 R 1 {} = (.ok o, st') ∧
        ∃ sp, o.observe st' = (true, some (some ([[src.loc 0]], u)), sp)) ∧
    ∀ σ : ℝ, 0 < σ → ∃ δ > 0, ∀ R : Matrix (Fin a.size) (Fin a.size) ℂ, (∀ i j, ‖R i j - covModel (S.A l) P σ i j‖ < δ) →
      ∀ ops : List (EstOp (WithTop ℝ) (List (Fin a.size → ℂ))), ∃ o st', mvdrEstimate cfg' (cfg'.run ops).1 R 1 {} = (.ok o, st') ∧
        ∃ sp, o.observe st' = (true, some (some ([[src.loc 0]], u)), sp) := by
  obtain ⟨hlen, hun⟩ := single_unambiguous hel hknown hps l wl src hsu j0 hj hS hne hpow hdiff
  have hL : ∀ v ∈ atomColumns1D a l wl u (x.map fun v => [v]), v ≠ 0 := by
    intro v hv h0
    have h3 := hun.equal_power v hv
    have h4 := power_pos hun.nonzero
    rw [← h3, h0] at h4
    simp [power] at h4
  have hb := fun R => C83_beamformers cfg cfg' hg hg' hu hx hpf hpf' hsort hsort' hlen hL (by rw [hcomp]) (by rw [hcomp']) (fun _ : Fin 1 => j0)
    le_rfl (fun c e hce => absurd hce (fin_one_lt c e)) (fun _ => h1) (fun _ => h2) src.loc (fun c => by fin_cases c; exact hj) R
  exact ⟨fun σ => (hb _).1 (bartlett_dominant hun hP σ), fun σ hσ => (hb _).2 (covModel_one_posDef _ hP hσ) (mvdr_dominant hun hP hσ)⟩

/-! ### Arrays -/

/-- **C83** (beamformers, uniform linear arrays). -/
theorem C83_beamformers_ula {n : ℕ} (hn : 2 ≤ n) {d wl : ℝ} (hd : 0 < d) (hwl : 0 < wl) {name : Option String} {a : GridArray}
    (ha : ula n (.scalar d) name {} = .ok a) (l : Fin a.element.outputSize)
    (cfg : EstCfg ℝ (List (Fin a.size → ℂ))) (cfg' : EstCfg (WithTop ℝ) (List (Fin a.size → ℂ)))
    {x : List ℝ} {names : List String} {u : String}
    (hg : cfg.grid = ⟨.ff1, [⟨x, false⟩], names, [u]⟩) (hg' : cfg'.grid = cfg.grid) (hu : Unit1D u) (hx : ∀ v ∈ x, InRange1D u v)
    (hxd : x.Nodup) (hamb : ∀ v ∈ x, ∀ w ∈ x, d * |Real.sin (angleOf u v) - Real.sin (angleOf u w)| < wl)
    (hpf : cfg.peakFinder = findPeaksSimple) (hpf' : cfg'.peakFinder = findPeaksSimple)
    (hsort : IsArgsort cfg.argsort) (hsort' : IsArgsort cfg'.argsort)
    (hcomp : cfg.compute = atomColumns1D a.toArrayDesign l wl u) (hcomp' : cfg'.compute = atomColumns1D a.toArrayDesign l wl u)
    (src : FF1D 1) (hsu : src.unit = u) (j0 : ℕ) (hj : x[j0]? = some (src.loc 0)) (h1 : 1 ≤ j0) (h2 : j0 + 1 < x.length)
    {P : Matrix (Fin 1) (Fin 1) ℂ} (hP : P.PosDef) :
    ∃ S, steering a.toArrayDesign (.ff1 src) wl false "all" = .ok S ∧
    (∀ σ : ℝ, ∃ δ > 0, ∀ R : Matrix (Fin a.size) (Fin a.size) ℂ, (∀ i j, ‖R i j - covModel (S.A l) P σ i j‖ < δ) →
      ∀ ops : List (EstOp ℝ (List (Fin a.size → ℂ))), ∃ o st', bartlettEstimate cfg (cfg.run ops).1 R 1 {} = (.ok o, st') ∧
        ∃ sp, o.observe st' = (true, some (some ([[src.loc 0]], u)), sp)) ∧
    ∀ σ : ℝ, 0 < σ → ∃ δ > 0, ∀ R : Matrix (Fin a.size) (Fin a.size) ℂ, (∀ i j, ‖R i j - covModel (S.A l) P σ i j‖ < δ) →
      ∀ ops : List (EstOp (WithTop ℝ) (List (Fin a.size → ℂ))), ∃ o st', mvdrEstimate cfg' (cfg'.run ops).1 R 1 {} = (.ok o, st') ∧
        ∃ sp, o.observe st' = (true, some (some ([[src.loc 0]], u)), sp) := by
  obtain ⟨S, hS, hel, hkn, hus, hne, hpow, hdiff⟩ := ula_single hn hd hwl ha l hu hx hxd hamb src hsu j0 hj
  exact ⟨S, hS, C83_beamformers_one hel hkn hus l wl cfg cfg' hg hg' hu hx hpf hpf' hsort hsort' hcomp hcomp' src hsu j0 hj h1 h2 hS hne hpow
    hdiff hP⟩

/-- **C83** (uniform linear arrays). The conditions hold for a uniform linear array with known gain, phase and coupling errors and sources on an
unambiguous grid. -/
theorem C83_music_ula {a : ArrayDesign} (hel : a.element = .isotropicScalar)
    (hknown : ∀ p ∈ a.perturbations, p.isKnown = true) (hps : Usable a "all" a.perturbations)
    (hkd : (a.perturbations.map Perturbation.kind).Nodup)
    (hno : ∀ err kn, Perturbation.location err kn ∉ a.perturbations) (hinv : IsUnit (totalFactor a.size a.perturbations))
    {d wl : ℝ} (hd : 0 < d) (hwl : 0 < wl) (hnd : a.ndim = 1) (hloc : ∀ i, i < a.size → a.locations.at0 i 0 = (i : ℝ) * d)
    (l : Fin a.element.outputSize) (cfg : EstCfg (WithTop ℝ) (List (Fin a.size → ℂ)))
    {x : List ℝ} {names : List String} {u : String}
    (hg : cfg.grid = ⟨.ff1, [⟨x, false⟩], names, [u]⟩) (hu : Unit1D u) (hx : ∀ v ∈ x, InRange1D u v) (hxd : x.Nodup)
    (hamb : ∀ v ∈ x, ∀ w ∈ x, d * |Real.sin (angleOf u v) - Real.sin (angleOf u w)| < wl)
    (hpf : cfg.peakFinder = findPeaksSimple) (hsort : IsArgsort cfg.argsort)
    (hcomp : cfg.compute = atomColumns1D a l wl u)
    (src : FF1D k) (hsu : src.unit = u) (idx : Fin k → ℕ) (hidx : ∀ c, x[idx c]? = some (src.loc c))
    (hsep : ∀ c e, c < e → idx c + 1 < idx e) (h1 : ∀ c, 1 ≤ idx c)
    (h2 : ∀ c, idx c + 1 < x.length) (hk : 1 ≤ k) (hka : k < a.size)
    {P : Matrix (Fin k) (Fin k) ℂ} (hP : P.PosDef) (σ : ℝ) :
    ∃ S, steering a (.ff1 src) wl false "all" = .ok S ∧
      ∃ δ > 0, ∀ R : Matrix (Fin a.size) (Fin a.size) ℂ, R.IsHermitian → (∀ i j, ‖R i j - covModel (S.A l) P σ i j‖ < δ) →
        ∀ (eigh : Eigh) (ops : List (EstOp (WithTop ℝ) (List (Fin a.size → ℂ)))),
          ∃ o st', musicEstimate eigh cfg (cfg.run ops).1 R k {} = (.ok o, st') ∧
            ∃ sp, o.observe st' = (true, some (some (List.ofFn fun c => [src.loc c], u)), sp) := by
  obtain ⟨S, hS, -, hA, hident⟩ := uniform_identified hel hps hkd hno hinv hd hwl hnd hloc l hu hx hxd hamb src hsu idx hidx hsep hka
  exact ⟨S, hS, C83_music hel hknown hps l wl cfg hg hu hx hpf hsort hcomp src hsu idx hidx hsep h1 h2 hk hka hS hA hident hP σ⟩

/-- **C83** (rectangular arrays). The conditions hold for a rectangular array and sources on an unambiguous azimuth-elevation grid. -/
theorem C83_music_ura {n1 n2 : ℕ} {d0 : D0Arg} {dx dy wl : ℝ} (hd : uraSpacing d0 = some (dx, dy)) (hdx : 0 < dx) (hdy : 0 < dy)
    (hwl : 0 < wl) {name : Option String} {a : GridArray} (haa : ura n1 n2 d0 name {} = .ok a)
    (l : Fin a.element.outputSize) (cfg : EstCfg (WithTop ℝ) (List (Fin a.size → ℂ)))
    {ga gb : List ℝ} {names : List String} {u : String}
    (hg : cfg.grid = ⟨.ff2, [⟨ga, false⟩, ⟨gb, false⟩], names, [u, u]⟩) (hu : Unit2D u)
    (hx : ∀ v ∈ ga, ∀ w ∈ gb, InRange2D u (v, w))
    (hdist : ∀ (i i' j j' : ℕ) (v v' w w' : ℝ), ga[i]? = some v → ga[i']? = some v' → gb[j]? = some w → gb[j']? = some w' →
      dirCos u (v, w) = dirCos u (v', w') → i = i' ∧ j = j')
    (hamb : ∀ v ∈ ga, ∀ v' ∈ ga, ∀ w ∈ gb, ∀ w' ∈ gb, dx * |(dirCos u (v, w)).1 - (dirCos u (v', w')).1| < wl ∧
      dy * |(dirCos u (v, w)).2 - (dirCos u (v', w')).2| < wl)
    (hpf : cfg.peakFinder = findPeaksSimple) (hsort : IsArgsort cfg.argsort)
    (hcomp : cfg.compute = atomColumns2D a.toArrayDesign l wl u)
    (src : FF2D k) (hsu : src.unit = u) (ia ib : Fin k → ℕ) (ha : ∀ c, ga[ia c]? = some (src.loc c).1)
    (hb : ∀ c, gb[ib c]? = some (src.loc c).2) (hord : ∀ c e, c < e → ia c < ia e ∨ ia c = ia e ∧ ib c < ib e)
    (hsep : ∀ c e, c ≠ e → ia c + 1 < ia e ∨ ia e + 1 < ia c ∨ ib c + 1 < ib e ∨ ib e + 1 < ib c)
    (hk : 1 ≤ k) (hk1 : k < n1) (hk2 : k < n2)
    {P : Matrix (Fin k) (Fin k) ℂ} (hP : P.PosDef) (σ : ℝ) :
    ∃ S, steering a.toArrayDesign (.ff2 src) wl false "all" = .ok S ∧
      ∃ δ > 0, ∀ R : Matrix (Fin a.size) (Fin a.size) ℂ, R.IsHermitian → (∀ i j, ‖R i j - covModel (S.A l) P σ i j‖ < δ) →
        ∀ (eigh : Eigh) (ops : List (EstOp (WithTop ℝ) (List (Fin a.size → ℂ)))),
          ∃ o st', musicEstimate eigh cfg (cfg.run ops).1 R k {} = (.ok o, st') ∧
            ∃ sp, o.observe st' = (true, some (some (List.ofFn fun c => [(src.loc c).1, (src.loc c).2], u)), sp) := by
  obtain ⟨hel, hkn, hus, hka, S, hS, hA, hident⟩ := ura_identified hd hdx hdy hwl haa l hu hdist hamb src hsu ia ib ha hb hord hk1 hk2
  exact ⟨S, hS, C83_music_2d hel hkn hus l wl cfg hg hu hx hpf hsort hcomp src hsu ia ib ha hb hord hsep hk hka hS hA hident hP σ⟩

/-- The grid of the examples. -/
noncomputable def exGrid : List ℝ := [-0.8, -0.5, 0, 0.5, 0.8]

theorem exGrid_range : ∀ y ∈ exGrid, -0.8 ≤ y ∧ y ≤ 0.8 := by
  intro y hy
  simp only [exGrid, List.mem_cons, List.not_mem_nil, or_false] at hy
  rcases hy with rfl | rfl | rfl | rfl | rfl <;> norm_num

theorem exGrid_inRange : ∀ y ∈ exGrid, InRange1D "sin" y := fun y hy =>
  Or.inr (Or.inr ⟨rfl, by linarith [(exGrid_range y hy).1], by linarith [(exGrid_range y hy).2]⟩)

theorem exGrid_unambiguous : ∀ v ∈ exGrid, ∀ w ∈ exGrid, (1 / 2 : ℝ) * |Real.sin (angleOf "sin" v) - Real.sin (angleOf "sin" w)| < 1 := by
  have hsin : ∀ y ∈ exGrid, Real.sin (angleOf "sin" y) = y := by
    intro y hy
    have := exGrid_range y hy
    simp only [angleOf, String.reduceEq, if_false, if_true]
    exact Real.sin_arcsin (by linarith [this.1]) (by linarith [this.2])
  intro y hy z hz
  rw [hsin y hy, hsin z hz]
  have h1 := exGrid_range y hy
  have h2 := exGrid_range z hz
  have : |y - z| ≤ 1.6 := by rw [abs_le]; constructor <;> linarith [h1.1, h1.2, h2.1, h2.2]
  linarith

/-- The hypotheses of `C83_music_ula` hold for two sources and an array of three sensors with gain and coupling errors. -/
example : ∃ (S : Steering calibratedArray.element.outputSize calibratedArray.size 2) (i : Fin calibratedArray.element.outputSize)
    (cfg : EstCfg (WithTop ℝ) (List (Fin calibratedArray.size → ℂ))),
    steering calibratedArray (.ff1 ⟨![-0.5, 0.5], "sin"⟩) 1 false "all" = .ok S ∧
    ∃ δ > 0, ∀ R : Matrix (Fin calibratedArray.size) (Fin calibratedArray.size) ℂ, R.IsHermitian →
      (∀ p q, ‖R p q - covModel (S.A i) 1 1 p q‖ < δ) → ∀ eigh : Eigh,
      ∃ o st', musicEstimate eigh cfg cfg.init R 2 {} = (.ok o, st') ∧
        ∃ sp, o.observe st' = (true, some (some ([[-0.5], [0.5]], "sin")), sp) := by
  obtain ⟨h1, h2, h3, h4, h5, h6, h7⟩ := calibratedArray_ok
  let cfg : EstCfg (WithTop ℝ) (List (Fin calibratedArray.size → ℂ)) :=
    ⟨⟨.ff1, [⟨exGrid, false⟩], [], ["sin"]⟩, atomColumns1D calibratedArray ⟨0, by decide⟩ 1 "sin", findPeaksSimple, stableArgsort, true, false⟩
  obtain ⟨S, hS, δ, hδ, hn⟩ := C83_music_ula (k := 2) (a := calibratedArray) rfl h2 h1 h3 h4 h5 (d := 1 / 2) (wl := 1) (by norm_num) one_pos h6 h7
    ⟨0, by decide⟩ cfg
    rfl (Or.inr (Or.inr rfl)) exGrid_inRange (by norm_num [exGrid]) exGrid_unambiguous rfl stableArgsort_isArgsort rfl ⟨![-0.5, 0.5], "sin"⟩ rfl ![1, 3]
    (by intro c; fin_cases c <;> rfl) (by decide) (by decide) (by decide) (by norm_num) (by decide) (P := 1) PosDef.one 1
  refine ⟨S, ⟨0, by decide⟩, cfg, hS, δ, hδ, fun R hR hnear eigh => ?_⟩
  obtain ⟨o, st', ho, sp, hsp⟩ := hn R hR hnear eigh []
  refine ⟨o, st', ho, sp, ?_⟩
  rw [hsp]
  simp [List.ofFn_succ]

/-- The hypotheses of `C83_music_ura` hold for two sources and a 3 × 3 array. -/
example : ∃ (a : GridArray) (S : Steering a.element.outputSize a.size 2) (i : Fin a.element.outputSize)
    (cfg : EstCfg (WithTop ℝ) (List (Fin a.size → ℂ))),
    steering a.toArrayDesign (.ff2 ⟨![(0, 0), (1, 1)], "rad"⟩) 1 false "all" = .ok S ∧
    ∃ δ > 0, ∀ R : Matrix (Fin a.size) (Fin a.size) ℂ, R.IsHermitian → (∀ p q, ‖R p q - covModel (S.A i) 1 1 p q‖ < δ) → ∀ eigh : Eigh,
      ∃ o st', musicEstimate eigh cfg cfg.init R 2 {} = (.ok o, st') ∧
        ∃ sp, o.observe st' = (true, some (some ([[0, 0], [1, 1]], "rad")), sp) := by
  obtain ⟨a, ha⟩ : ∃ a, ura 3 3 (.scalar (1 / 4)) none {} = .ok a :=
    gridInit_ok_of (d := []) (by simp [GridArgsMatch, uraIndices]) rfl
  have hla : 0 < a.element.outputSize := by rw [(gridInit_spec ha).2.2.1]; decide
  have hpi := Real.pi_gt_three
  have hm : ∀ y ∈ ([0, 1 / 2, 1] : List ℝ), 0 ≤ y ∧ y ≤ 1 := by
    intro y hy
    simp only [List.mem_cons, List.not_mem_nil, or_false] at hy
    rcases hy with rfl | rfl | rfl <;> norm_num
  have hrad : ∀ y, angleOf "rad" y = y := fun y => by simp [angleOf]
  have hcs : ∀ v, |(dirCos "rad" v).1| ≤ 1 ∧ |(dirCos "rad" v).2| ≤ 1 := by
    intro v
    simp only [dirCos, abs_mul]
    exact ⟨mul_le_one₀ (Real.abs_cos_le_one _) (abs_nonneg _) (Real.abs_cos_le_one _),
      mul_le_one₀ (Real.abs_cos_le_one _) (abs_nonneg _) (Real.abs_sin_le_one _)⟩
  have hdiff : ∀ s t : ℝ, |s| ≤ 1 → |t| ≤ 1 → (1 / 4 : ℝ) * |s - t| < 1 := by
    intro s t hs ht
    have := abs_sub s t
    linarith
  let cfg : EstCfg (WithTop ℝ) (List (Fin a.size → ℂ)) :=
    ⟨⟨.ff2, [⟨[0, 1 / 2, 1], false⟩, ⟨[0, 1 / 2, 1], false⟩], [], ["rad", "rad"]⟩, atomColumns2D a.toArrayDesign ⟨0, hla⟩ 1 "rad",
      findPeaksSimple, stableArgsort, true, false⟩
  obtain ⟨S, hS, δ, hδ, hn⟩ := C83_music_ura (k := 2) (dx := 1 / 4) (dy := 1 / 4) rfl (by norm_num) (by norm_num) one_pos ha ⟨0, hla⟩ cfg rfl (Or.inl rfl)
    (by
      intro v hv w hw
      have h1 := hm v hv
      have h2 := hm w hw
      exact Or.inl ⟨rfl, by show -Real.pi ≤ v; linarith, by show v ≤ Real.pi; linarith, by show -(Real.pi / 2) ≤ w; linarith, by show w ≤ Real.pi / 2; linarith⟩)
    (by
      intro i i' j j' v v' w w' h1 h2 h3 h4 h
      have m1 := hm v (List.mem_of_getElem? h1)
      have m2 := hm v' (List.mem_of_getElem? h2)
      have m3 := hm w (List.mem_of_getElem? h3)
      have m4 := hm w' (List.mem_of_getElem? h4)
      have he := dirCos_inj (Or.inl rfl) (v := (v, w)) (w := (v', w')) (by simp only [hrad]; constructor <;> linarith)
        (by simp only [hrad]; constructor <;> linarith) (by simp only [hrad]; constructor <;> linarith)
        (by simp only [hrad]; constructor <;> linarith) h
      have hnd : ([0, 1 / 2, 1] : List ℝ).Nodup := by norm_num
      have key : ∀ (p q : ℕ) (y : ℝ), ([0, 1 / 2, 1] : List ℝ)[p]? = some y → ([0, 1 / 2, 1] : List ℝ)[q]? = some y → p = q := by
        intro p q y hp hq
        obtain ⟨hp1, hp2⟩ := List.getElem?_eq_some_iff.1 hp
        obtain ⟨hq1, hq2⟩ := List.getElem?_eq_some_iff.1 hq
        exact (List.Nodup.getElem_inj_iff hnd).1 (by rw [hp2, hq2])
      have e1 : v = v' := congrArg Prod.fst he
      have e2 : w = w' := congrArg Prod.snd he
      subst e1
      subst e2
      exact ⟨key _ _ _ h1 h2, key _ _ _ h3 h4⟩)
    (fun v _ v' _ w _ w' _ => ⟨hdiff _ _ (hcs _).1 (hcs _).1, hdiff _ _ (hcs _).2 (hcs _).2⟩)
    rfl stableArgsort_isArgsort rfl
    ⟨![(0, 0), (1, 1)], "rad"⟩ rfl ![0, 2] ![0, 2] (by intro c; fin_cases c <;> rfl) (by intro c; fin_cases c <;> rfl) (by decide) (by decide)
    (by norm_num) (by norm_num) (by norm_num) (P := 1) PosDef.one 1
  refine ⟨a, S, ⟨0, hla⟩, cfg, hS, δ, hδ, fun R hR hnear eigh => ?_⟩
  obtain ⟨o, st', ho, sp, hsp⟩ := hn R hR hnear eigh []
  refine ⟨o, st', ho, sp, ?_⟩
  rw [hsp]
  simp [List.ofFn_succ]

/-- The hypotheses of `C83_beamformers_ula` hold for one source and a ULA of two sensors. -/
example : ∃ (a : GridArray) (S : Steering a.element.outputSize a.size 1) (i : Fin a.element.outputSize)
    (cfg : EstCfg ℝ (List (Fin a.size → ℂ))),
    steering a.toArrayDesign (.ff1 ⟨![0.5], "sin"⟩) 1 false "all" = .ok S ∧
    ∃ δ > 0, ∀ R : Matrix (Fin a.size) (Fin a.size) ℂ, (∀ p q, ‖R p q - covModel (S.A i) 1 1 p q‖ < δ) →
      ∃ o st', bartlettEstimate cfg cfg.init R 1 {} = (.ok o, st') ∧ ∃ sp, o.observe st' = (true, some (some ([[0.5]], "sin")), sp) := by
  obtain ⟨a, ha⟩ := ula_ok 2 (1 / 2) none
  have hla : 0 < a.element.outputSize := by rw [(gridInit_spec ha).2.2.1]; decide
  let cfg : EstCfg ℝ (List (Fin a.size → ℂ)) :=
    ⟨⟨.ff1, [⟨exGrid, false⟩], [], ["sin"]⟩, atomColumns1D a.toArrayDesign ⟨0, hla⟩ 1 "sin", findPeaksSimple, stableArgsort, true, false⟩
  obtain ⟨S, hS, hb, -⟩ := C83_beamformers_ula (n := 2) le_rfl (by norm_num : (0 : ℝ) < 1 / 2) one_pos ha ⟨0, hla⟩ cfg
    ⟨⟨.ff1, [⟨exGrid, false⟩], [], ["sin"]⟩, atomColumns1D a.toArrayDesign ⟨0, hla⟩ 1 "sin", findPeaksSimple, stableArgsort, true, false⟩
    rfl rfl (Or.inr (Or.inr rfl)) exGrid_inRange (by norm_num [exGrid]) exGrid_unambiguous rfl rfl stableArgsort_isArgsort stableArgsort_isArgsort
    rfl rfl ⟨![0.5], "sin"⟩ rfl 3 rfl (by norm_num) (by simp [exGrid]) (P := 1) PosDef.one
  obtain ⟨δ, hδ, hn⟩ := hb 1
  exact ⟨a, S, ⟨0, hla⟩, cfg, hS, δ, hδ, fun R hR => hn R hR []⟩

/-- The hypotheses of `C83_noise_subspace` hold for the diagonal matrix with entries 1, 1, 3. -/
example (eigh : Eigh) {R' : Matrix (Fin 3) (Fin 3) ℂ} (hR' : R'.IsHermitian) :
    frobSq (getNoiseSubspace eigh R' 1 * (getNoiseSubspace eigh R' 1)ᴴ -
      getNoiseSubspace eigh (Matrix.diagonal ![1, 1, 3]) 1 * (getNoiseSubspace eigh (Matrix.diagonal ![1, 1, 3]) 1)ᴴ) ≤
      4 * frobSq (R' - Matrix.diagonal ![1, 1, 3]) / 2 ^ 2 :=
  (C83_noise_subspace eigh eigh (isHermitian_diagonal_of_self_adjoint _ (by ext i; fin_cases i <;> simp)) hR' le_rfl two_pos
    (w := ![1, 1, 3]) (E := 1) ⟨by intro i j hij; fin_cases i <;> fin_cases j <;> first | simp_all | (simp_all; norm_num), by simp, by
      ext i j; fin_cases i <;> fin_cases j <;> simp [Matrix.diagonal]⟩
    (by intro i j; fin_cases i <;> fin_cases j <;> simp <;> norm_num)).1

end Doa.Props
