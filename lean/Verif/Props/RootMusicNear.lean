import Verif.Lemmas.RootLimit
import Verif.Props.CoarrayNear

/-!
# C87: root-MUSIC near the exact covariance matrix

With the exact covariance matrix root-MUSIC fails (C46): the roots that belong to the sources lie on the unit circle and are discarded.
With estimated covariance matrices there are almost never roots on the circle, and the estimator works.
-/

namespace Doa.Props

open Doa Matrix Doa.Spec Filter Topology MeasureTheory Polynomial
open scoped ComplexOrder

variable {m k : ℕ}

/-- The values of the polynomial depend continuously on the noise subspace. -/
theorem rootPoly_tendsto {ι : Type*} {f : Filter ι} {d : ℕ} {E : ι → Matrix (Fin m) (Fin d) ℂ} {E0 : Matrix (Fin m) (Fin d) ℂ}
    (h : Tendsto E f (𝓝 E0)) (w : ℂ) :
    Tendsto (fun i => (polyOf (rootCoeffs (noiseProjector (E i)))).eval w) f (𝓝 ((polyOf (rootCoeffs (noiseProjector E0))).eval w)) := by
  have h1 : Tendsto (fun i => noiseProjector (E i)) f (𝓝 (noiseProjector E0)) := by
    have h2 : Tendsto (fun i => (E i)ᴴ) f (𝓝 E0ᴴ) := tendsto_conjTranspose h
    exact tendsto_matMul h h2
  simp only [polyOf_rootCoeffs (noiseProjector_isHermitian _), eval_finsetSum, eval_mul, eval_C, eval_pow, eval_X]
  refine tendsto_finsetSum _ fun j _ => tendsto_finsetSum _ fun l _ => Tendsto.mul_const _ ?_
  exact (tendsto_pi_nhds.1 ((tendsto_pi_nhds.1 h1) j)) l

open Classical in
/-- What root-MUSIC selects if there are no roots on the circle: the `k` of the `m - 1` roots inside that are closest to the circle, which
together determine the polynomial. -/
theorem select_factor {m d : ℕ} (hkm : k < m) (En : Matrix (Fin m) (Fin d) ℂ) (hcirc : ∀ ζ : ℂ, ‖ζ‖ = 1 → Enᴴ *ᵥ ulaVec m ζ ≠ 0)
    (roots : NpRoots) (argsort : List ℝ → List ℕ) (hsort : IsArgsort argsort) :
    ∃ (sel : List ℂ) (c : ℂ) (y : Fin (m - 1) → ℂ),
      selectRoots argsort (roots.run (rootCoeffs (noiseProjector En))) k = .ok (some sel) ∧
      polyOf (rootCoeffs (noiseProjector En)) = C c * ∏ j, pairFactor (y j) ∧ (∀ j, ‖y j‖ ≤ 1) ∧
      (∀ j j' : Fin (m - 1), j.1 < k → k ≤ j'.1 → ‖y j'‖ ≤ ‖y j‖) ∧
      ∀ j : Fin (m - 1), j.1 < k → sel.getD j 0 = y j := by
  set p := polyOf (rootCoeffs (noiseProjector En)) with hp
  have hroot : ∀ ζ : ℂ, ‖ζ‖ = 1 → ¬ p.IsRoot ζ := fun ζ hζ h => hcirc ζ hζ ((C45_circle_roots En ζ hζ).1.1 h)
  have hp0 : p ≠ 0 := by
    intro h
    exact hroot 1 (by simp) (by rw [h]; simp)
  have hcard := inside_count (k := 0) (m := m) (by omega) En hp0 (z := Fin.elim0) (fun a => a.elim0)
    (fun ζ hζ => ⟨fun h => absurd h (hroot ζ hζ), fun ⟨a, _⟩ => a.elim0⟩) (fun a => a.elim0) (fun a => a.elim0)
  set z := roots.run (rootCoeffs (noiseProjector En)) with hz
  have hzr : (z : Multiset ℂ) = p.roots := roots.spec _
  have hmem : ∀ x ∈ z, p.IsRoot x := fun x hx => by
    have : x ∈ (z : Multiset ℂ) := hx
    rw [hzr] at this
    exact (mem_roots'.1 this).2
  have hfil : ((z.filter fun x => decide (‖x‖ < 1) : List ℂ) : Multiset ℂ) = p.roots.filter fun x => ‖x‖ < 1 := by
    rw [← hzr, Multiset.filter_coe]
  have hlen : (z.filter fun x => decide (‖x‖ < 1)).length = m - 1 := by
    rw [← hp, ← hfil, Multiset.coe_card] at hcard
    omega
  obtain ⟨sel, rest, h1, h2, h3, h4⟩ := (C46_selection_partial argsort hsort z (fun x hx hx1 => absurd (hmem x hx) (hroot x hx1)) k).2
    (by omega)
  obtain ⟨c, hc⟩ := spectral_factor (by omega) En hroot
  rw [← hp, ← hfil, ← Multiset.coe_eq_coe.2 h3] at hc
  have hl : (sel ++ rest).length = m - 1 := by rw [h3.length_eq, hlen]
  have hofn : List.ofFn (fun j : Fin (m - 1) => (sel ++ rest).getD j 0) = sel ++ rest := by
    apply List.ext_getElem
    · simp [hl]
    · intro j a b
      simp only [List.getElem_ofFn]
      rw [List.getD_eq_getElem?_getD, List.getElem?_eq_getElem b, Option.getD_some]
  have hlt : ∀ j : Fin (m - 1), (h : j.1 < (sel ++ rest).length) → (sel ++ rest).getD j 0 = (sel ++ rest)[j.1] := fun j h => by
    rw [List.getD_eq_getElem?_getD, List.getElem?_eq_getElem h, Option.getD_some]
  have hin : ∀ j : Fin (m - 1), (sel ++ rest).getD j 0 ∈ sel ++ rest := fun j => by
    rw [hlt j (by rw [hl]; exact j.2)]
    exact List.getElem_mem _
  have hselv : ∀ j : Fin (m - 1), j.1 < k → sel.getD j 0 = (sel ++ rest).getD j 0 := fun j hj => by
    rw [List.getD_eq_getElem?_getD, List.getD_eq_getElem?_getD, List.getElem?_append_left (by omega)]
  refine ⟨sel, c, fun j => (sel ++ rest).getD j 0, h1, ?_, fun j => ?_, fun j j' hj hj' => ?_, hselv⟩
  · rw [← List.prod_ofFn]
    have : List.ofFn (fun j : Fin (m - 1) => pairFactor ((sel ++ rest).getD j 0)) = (sel ++ rest).map pairFactor := by
      conv_rhs => rw [← hofn, List.map_ofFn]
      rfl
    rw [this]
    rw [hc] 
    simp only [Multiset.map_coe, Multiset.prod_coe]
  · have := h3.subset (hin j)
    simp only [List.mem_filter, decide_eq_true_eq] at this
    exact this.2.le
  · have ha : (sel ++ rest).getD j 0 ∈ sel := by
      rw [← hselv j hj, List.getD_eq_getElem?_getD, List.getElem?_eq_getElem (by omega), Option.getD_some]
      exact List.getElem_mem _
    have hb : (sel ++ rest).getD j' 0 ∈ rest := by
      have hj2 := j'.2
      have hlr : rest.length = m - 1 - k := by rw [List.length_append, h2] at hl; omega
      rw [List.getD_eq_getElem?_getD, List.getElem?_append_right (by omega), List.getElem?_eq_getElem (by omega), Option.getD_some]
      exact List.getElem_mem _
    have := h4 _ ha _ hb
    linarith

/-- root-MUSIC near the exact covariance matrix of a ULA. -/
theorem root_near {t : Fin k → ℝ} {d wl : ℝ} (hd : 0 < d) (hwl : 0 < wl) {z : Fin k → ℂ}
    (hz : ∀ c, z c = Complex.exp (Complex.I * ((2 * Real.pi * d / wl * Real.sin (t c) : ℝ) : ℂ)))
    (hzinj : Function.Injective z) (ht : ∀ c, InRange1D "rad" (t c)) (hstrict : ∀ c, |Real.sin (t c)| < 1)
    (hk : 1 ≤ k) (hkm : k < m) (hamb : ∀ c, |2 * Real.pi * d / wl * Real.sin (t c)| < Real.pi)
    (d0 : Option ℝ) (hd0 : d0 = some d ∨ d0 = none ∧ d = wl / 2)
    {P : Matrix (Fin k) (Fin k) ℂ} (hP : P.PosDef) (σ : ℝ) (unit : String) (hunit : Unit1D unit) {ε : ℝ} (hε : 0 < ε) :
    ∀ᶠ R in 𝓝 (covModel (ulaMat m z) P σ), R.IsHermitian → ∀ (eigh : Eigh) (roots : NpRoots) (argsort : List ℝ → List ℕ),
      IsArgsort argsort → (∀ ζ : ℂ, ‖ζ‖ = 1 → (getNoiseSubspace eigh R k)ᴴ *ᵥ ulaVec m ζ ≠ 0) →
      ∃ s, rootMusicEstimate eigh roots argsort wl R k d0 unit = .ok (some s) ∧ s.unit = unit ∧ Monotone s.loc ∧
        ∃ π : Equiv.Perm (Fin k), ∀ i, |s.loc i - reprIn unit (t (π i))| < ε := by
  classical
  refine Filter.mem_iff_ultrafilter.2 fun f hf => ?_
  by_contra hbad
  have hbad' := (Ultrafilter.eventually_not (f := f)).2 hbad
  let Hyp : Matrix (Fin m) (Fin m) ℂ → Eigh → NpRoots → (List ℝ → List ℕ) → Prop := fun R eigh roots argsort =>
    IsArgsort argsort ∧ ∀ ζ : ℂ, ‖ζ‖ = 1 → (getNoiseSubspace eigh R k)ᴴ *ᵥ ulaVec m ζ ≠ 0
  let Good : Matrix (Fin m) (Fin m) ℂ → Eigh → NpRoots → (List ℝ → List ℕ) → Prop := fun R eigh roots argsort =>
    ∃ s, rootMusicEstimate eigh roots argsort wl R k d0 unit = .ok (some s) ∧ s.unit = unit ∧ Monotone s.loc ∧
        ∃ π : Equiv.Perm (Fin k), ∀ i, |s.loc i - reprIn unit (t (π i))| < ε
  have hbad2 : ∀ᶠ R in (f : Filter (Matrix (Fin m) (Fin m) ℂ)), ∃ e : Eigh × NpRoots × (List ℝ → List ℕ), R.IsHermitian ∧ Hyp R e.1 e.2.1 e.2.2 ∧ ¬ Good R e.1 e.2.1 e.2.2 := by
    filter_upwards [hbad'] with R hR
    by_contra hno
    push Not at hno
    exact hR fun h1 eigh roots argsort h2 h3 => hno (eigh, roots, argsort) h1 ⟨h2, h3⟩
  obtain ⟨e, he⟩ := hbad2.choice
  have hR0 : Tendsto (fun R : Matrix (Fin m) (Fin m) ℂ => R) f (𝓝 (covModel (ulaMat m z) P σ)) := hf
  obtain ⟨w0, E0, hE0, -, hE⟩ := eigh_limit f hR0 (w := fun R => ((e R).1.run R).1) (E := fun R => ((e R).1.run R).2)
    (by filter_upwards [he] with R hR using (e R).1.spec R hR.1)
  have hN : Tendsto (fun R => getNoiseSubspace (e R).1 R k) f (𝓝 (noiseCols E0 k)) :=
    tendsto_pi_nhds.2 fun r => tendsto_pi_nhds.2 fun c => (tendsto_pi_nhds.1 ((tendsto_pi_nhds.1 hE) r)) _
  -- the limit polynomial
  have hA := ulaMat_injective (m := m) hzinj hkm.le
  have hw1 : ∀ c, ‖z c‖ = 1 := fun c => by
    rw [hz, mul_comm, Complex.norm_exp_ofReal_mul_I]
  have hEn := hE0.noise_zero_iff hk hA hP
  set En := noiseCols E0 k with hEndef
  have hzero : ∀ c, Enᴴ *ᵥ ulaVec m (z c) = 0 := fun c => (hEn _).2 ((ulaVec_mem_span hzinj hkm _).2 ⟨c, rfl⟩)
  have hder : ∀ c, (Enᴴ *ᵥ fun i : Fin m => (i.1 : ℂ) * z c ^ i.1) ≠ 0 := by
    intro c h0
    obtain ⟨x, hx⟩ := (hEn _).1 h0
    refine ulaDeriv_not_span (w := fun _ => (1 : ℂ)) hzinj (fun c h0 => by have := hw1 c; rw [h0] at this; simp at this)
      (fun _ => one_ne_zero) hkm c ⟨x, ?_⟩
    rw [← hx]
    funext i
    simp [ulaDeriv]
  have hmult := fun c => rootMultiplicity_two En (hw1 c) (hzero c) (hder c)
  have hp0 := (hmult ⟨0, hk⟩).1
  have hcirc : ∀ ζ : ℂ, ‖ζ‖ = 1 → ((polyOf (rootCoeffs (noiseProjector En))).IsRoot ζ ↔ ∃ c, ζ = z c) := fun ζ hζ => by
    rw [(C45_circle_roots En ζ hζ).1, hEn]
    exact ulaVec_mem_span hzinj hkm ζ
  -- the selected roots
  have hsel : ∀ᶠ R in (f : Filter (Matrix (Fin m) (Fin m) ℂ)), ∃ x : List ℂ × ℂ × (Fin (m - 1) → ℂ),
      selectRoots (e R).2.2 ((e R).2.1.run (rootCoeffs (noiseProjector (getNoiseSubspace (e R).1 R k)))) k = .ok (some x.1) ∧
      polyOf (rootCoeffs (noiseProjector (getNoiseSubspace (e R).1 R k))) = C x.2.1 * ∏ j, pairFactor (x.2.2 j) ∧ (∀ j, ‖x.2.2 j‖ ≤ 1) ∧
      (∀ j j' : Fin (m - 1), j.1 < k → k ≤ j'.1 → ‖x.2.2 j'‖ ≤ ‖x.2.2 j‖) ∧
      ∀ j : Fin (m - 1), j.1 < k → x.1.getD j 0 = x.2.2 j := by
    filter_upwards [he] with R hR
    obtain ⟨a, b, c, h⟩ := select_factor hkm (getNoiseSubspace (e R).1 R k) hR.2.1.2 (e R).2.1 (e R).2.2 hR.2.1.1
    exact ⟨(a, b, c), h⟩
  obtain ⟨x, hx⟩ := hsel.choice
  have hkn : k ≤ m - 1 := by omega
  obtain ⟨π, hπ⟩ := factor_limit f (n := m - 1) (k := k) (p := fun R => polyOf (rootCoeffs (noiseProjector (getNoiseSubspace (e R).1 R k))))
    (c := fun R => (x R).2.1) (y := fun R => (x R).2.2) (fun w => rootPoly_tendsto hN w)
    (by filter_upwards [hx] with R hR using hR.2.1) (by filter_upwards [hx] with R hR using hR.2.2.1)
    (by filter_upwards [hx] with R hR using hR.2.2.2.1) hkn hzinj hw1 hp0 hcirc (fun c => (hmult c).2)
  have hlim : Tendsto (fun R => fun i : Fin k => (x R).1.getD i 0) f (𝓝 fun i => ((1 : ℝ) : ℂ) * Complex.exp (Complex.I *
      ((2 * Real.pi * d / wl * Real.sin (t (π i)) : ℝ) : ℂ))) := by
    refine tendsto_pi_nhds.2 fun i => ?_
    rw [Complex.ofReal_one, one_mul, ← hz]
    refine (hπ i).congr' ?_
    filter_upwards [hx] with R hR
    exact (hR.2.2.2.2 (Fin.castLE hkn i) i.2).symm
  obtain ⟨s, ρ, hs, hs'⟩ := fromZ_limit f (t := fun i => t (π i)) (ρ := fun _ => 1) hwl
    (d0 := d) hd (fun i => ht _) (fun _ => one_pos) (fun i => hamb _) (fun i => hstrict _) hlim unit hunit
  have hdd : d0.getD (wl / 2) = d := by
    rcases hd0 with rfl | ⟨rfl, h⟩
    · rfl
    · exact h.symm
  have hclose : ∀ᶠ R in (f : Filter (Matrix (Fin m) (Fin m) ℂ)), ∀ i, |(s R).loc i - reprIn unit (t (π (ρ i)))| < ε := by
    rw [eventually_all]
    intro i
    have := Metric.tendsto_nhds.1 (hs' i) ε hε
    filter_upwards [this] with R hR
    rwa [Real.dist_eq] at hR
  obtain ⟨R, r1, r2, r3, r4⟩ := (he.and (hx.and (hs.and hclose))).exists
  refine r1.2.2 ⟨s R, ?_, r3.2.1, r3.2.2, ρ.trans π, fun i => r4 i⟩
  have hres : ensureNResolvable k ((m : ℤ) - 1) = .ok () := if_neg (by omega)
  unfold rootMusicEstimate
  rw [dif_pos rfl, hres, hdd]
  have : R.submatrix id (Fin.cast (rfl : m = m)) = R := rfl
  simp only [this, r2.1, r3.1]

/-- **C87** (stability). ULA of `n` sensors, `1 ≤ k < n` distinct sources strictly inside the field of view and without ambiguity. For
every `ε > 0` there is a `δ > 0` such that root-MUSIC, on every Hermitian matrix whose entries are closer than `δ` to those of the exact
covariance matrix and whose MUSIC spectrum has no pole on the whole circle (no steering vector is orthogonal to the noise subspace),
resolves the sources and returns, in ascending order and in the requested unit, one direction within `ε` of each true one; whatever
eigenvectors, order of the roots and order of ties the numerical routines return. (The exact covariance matrix does have poles, and
for it the claim is false: `C46_exact_covariance`, `C46_wrong_doa`.) -/
theorem C87_root_music {n : ℕ} {d wl : ℝ} (hd : 0 < d) (hwl : 0 < wl)
    {name : Option String} {a : GridArray} (ha : ula n (.scalar d) name {} = .ok a)
    (l : Fin a.element.outputSize) (src : FF1D k) (hsrc : Valid1D src)
    (hinj : Function.Injective src.loc) (hstrict : ∀ c, |Real.sin (angleOf src.unit (src.loc c))| < 1)
    (hk : 1 ≤ k) (hkn : k < n) (hamb : ∀ c, |2 * Real.pi * d / wl * Real.sin (angleOf src.unit (src.loc c))| < Real.pi)
    (d0 : Option ℝ) (hd0 : d0 = some d ∨ d0 = none ∧ d = wl / 2)
    {P : Matrix (Fin k) (Fin k) ℂ} (hP : P.PosDef) (σ : ℝ) (unit : String) (hunit : Unit1D unit) :
    ∃ S, steering a.toArrayDesign (.ff1 src) wl false "all" = .ok S ∧
      ∀ ε > 0, ∃ δ > 0, ∀ R : Matrix (Fin a.size) (Fin a.size) ℂ, R.IsHermitian →
        (∀ i j, ‖R i j - covModel (S.A l) P σ i j‖ < δ) →
        ∀ (eigh : Eigh) (roots : NpRoots) (argsort : List ℝ → List ℕ), IsArgsort argsort →
          (∀ ζ : ℂ, ‖ζ‖ = 1 → (getNoiseSubspace eigh R k)ᴴ *ᵥ ulaVec a.size ζ ≠ 0) →
          ∃ s, rootMusicEstimate eigh roots argsort wl R k d0 unit = .ok (some s) ∧ s.unit = unit ∧ Monotone s.loc ∧
            ∃ π : Equiv.Perm (Fin k), ∀ i, |s.loc i - reprIn unit (angleOf src.unit (src.loc (π i)))| < ε := by
  have : NeZero wl := ⟨hwl.ne'⟩
  have hsize : a.size = n := (C01_ula_geometry n d name {} a ha).1
  obtain ⟨S, hS, hSv⟩ := ula_steering ha src hsrc wl "all" (by simp)
  refine ⟨S, hS, fun ε hε => ?_⟩
  have hSm : S.A l = ulaMat a.size fun c => phaseFactor d wl src.unit (src.loc c) := by
    funext i c
    exact hSv l i c
  have hamb' : ∀ c, |2 * Real.pi * (d * (1 : ℕ)) / wl * Real.sin (angleOf src.unit (src.loc c))| < Real.pi := by
    simpa using hamb
  have h1 := root_near (m := a.size) (t := fun c => angleOf src.unit (src.loc c)) hd hwl
    (z := fun c => phaseFactor d wl src.unit (src.loc c)) (fun c => rfl) (inj_of_sin hsrc hinj hd hwl le_rfl hamb')
    (fun c => Or.inl ⟨rfl, inRange1D_angle (hsrc.2 c)⟩) hstrict hk (by omega) hamb d0 hd0 hP σ unit hunit hε
  obtain ⟨δ, hδ, h2⟩ := near_entries h1
  refine ⟨δ, hδ, fun R hR hn => h2 R (fun i j => ?_) hR⟩
  rw [← hSm]
  exact hn i j

/-- **C87** (consistency). In a simulated experiment with independent draws of mean zero and variance one the probability that the MUSIC
spectrum of the sample covariance matrix has no pole on the circle and yet root-MUSIC does not return every source to within `ε` tends to 0
as the number of snapshots grows. -/
theorem C87_consistent {sqrtm : Sqrtm} (hs : IsSqrtm sqrtm) {n : ℕ} {d wl : ℝ} (hd : 0 < d) (hwl : 0 < wl)
    {name : Option String} {a : GridArray} (ha : ula n (.scalar d) name {} = .ok a)
    (l : Fin a.element.outputSize) (src : FF1D k) (hsrc : Valid1D src)
    (hinj : Function.Injective src.loc) (hstrict : ∀ c, |Real.sin (angleOf src.unit (src.loc c))| < 1)
    (hk : 1 ≤ k) (hkn : k < n) (hamb : ∀ c, |2 * Real.pi * d / wl * Real.sin (angleOf src.unit (src.loc c))| < Real.pi)
    (d0 : Option ℝ) (hd0 : d0 = some d ∨ d0 = none ∧ d = wl / 2) (unit : String) (hunit : Unit1D unit)
    {C1 C2 : CovArg} {g1 : StoGen k} {g2 : StoGen a.size}
    (hg1 : stoInit sqrtm k C1 = .ok g1) (hg2 : stoInit sqrtm a.size C2 = .ok g2)
    {P : Matrix (Fin k) (Fin k) ℂ} (hPd : Denotes k C1 P) (hP : P.PosDef) {σ : ℝ} (hσ : 0 ≤ σ)
    (hQd : Denotes a.size C2 ((σ : ℂ) • (1 : Matrix (Fin a.size) (Fin a.size) ℂ)))
    {ν : Measure ℝ} [IsProbabilityMeasure ν] (hν : UnitLaw ν) {ε : ℝ} (hε : 0 < ε) :
    Tendsto (fun n => (Measure.pi fun _ : Fin n => Measure.pi fun _ => ν)
      {d : Fin n → SnapshotDraw k a.size | ¬ ∃ Y R, experiment a.toArrayDesign (.ff1 src) wl g1 g2 n d = .ok ⟨n, Y, R⟩ ∧
        ∀ (eigh : Eigh) (roots : NpRoots) (argsort : List ℝ → List ℕ), IsArgsort argsort →
          (∀ ζ : ℂ, ‖ζ‖ = 1 → (getNoiseSubspace eigh (R l) k)ᴴ *ᵥ ulaVec a.size ζ ≠ 0) →
          ∃ s, rootMusicEstimate eigh roots argsort wl (R l) k d0 unit = .ok (some s) ∧ s.unit = unit ∧ Monotone s.loc ∧
            ∃ π : Equiv.Perm (Fin k), ∀ i, |s.loc i - reprIn unit (angleOf src.unit (src.loc (π i)))| < ε}) atTop (𝓝 0) := by
  obtain ⟨S, hS, hn⟩ := C87_root_music hd hwl ha l src hsrc hinj hstrict hk hkn hamb d0 hd0 hP σ unit hunit
  exact C84_probability hs a.toArrayDesign (.ff1 src) wl S hS (grid_scalar ha) hg1 hg2 hPd hQd hP.posSemidef (scaled_one_posSemidef hσ) hν l _ (hn ε hε)

/-- **C87** (coarray root-MUSIC). Unperturbed linear grid array of isotropic elements at the distinct positions `l[i] * δ`, uncorrelated sources,
fewer than `v` of them with `v` the size of the hole-free central segment of the difference coarray. For every `ε > 0` there is an `η > 0`
such that for every Hermitian matrix whose entries are closer than `η` to those of the exact covariance matrix root-MUSIC on the augmented
covariance matrix (either transform) returns one direction within `ε` of each true one, provided the MUSIC spectrum of the augmented
matrix has no pole on the circle. -/
theorem C87_coarray {a : GridArray} {l : List ℤ} {δ : ℝ} (h : LinearGrid a l δ) (hδ : a.d0 = [δ])
    (hδ0 : 0 < δ) (hnd : l.Nodup) (hel : a.element = .isotropicScalar) (hpert : a.perts = [])
    {w0 w : WeightFunction} (hw0 : WeightFunction.init a = .ok w0) (hr : WReach w0 w) {wl : ℝ} (hwl : 0 < wl)
    (src : FF1D k) (hsrc : Valid1D src) (hinj : Function.Injective src.loc)
    (hstrict : ∀ c, |Real.sin (angleOf src.unit (src.loc c))| < 1)
    (hamb : ∀ c, |2 * Real.pi * δ / wl * Real.sin (angleOf src.unit (src.loc c))| < Real.pi)
    {v : ℕ} (hv : IsCentralSize l v) (hk : 1 ≤ k) (hkv : k < v)
    (d0 : Option ℝ) (hd0 : d0 = some δ ∨ d0 = none ∧ δ = wl / 2)
    {p : Fin k → ℝ} (hp : ∀ c, 0 < p c) {σ : ℝ} (method : String) (hm : method = "da" ∨ method = "ss" ∧ 0 ≤ σ)
    (unit : String) (hunit : Unit1D unit) :
    ∃ S : Steering a.element.outputSize a.size k, steering a.toArrayDesign (.ff1 src) wl false "all" = .ok S ∧
      ∀ i, ∀ ε > 0, ∃ η > 0, ∀ R : Matrix (Fin a.size) (Fin a.size) ℂ, R.IsHermitian →
        (∀ r c, ‖R r c - modelCov (S.A i) p σ r c‖ < η) →
        ∃ T : Matrix (Fin v) (Fin v) ℂ, (acmTransform w R method).1 = .ok ⟨v, T⟩ ∧
        ∀ (eigh : Eigh) (roots : NpRoots) (argsort : List ℝ → List ℕ), IsArgsort argsort →
          (∀ ζ : ℂ, ‖ζ‖ = 1 → (getNoiseSubspace eigh T k)ᴴ *ᵥ ulaVec v ζ ≠ 0) →
          ∃ s, rootMusicEstimate eigh roots argsort wl T k d0 unit = .ok (some s) ∧ s.unit = unit ∧ Monotone s.loc ∧
            ∃ π : Equiv.Perm (Fin k), ∀ c, |s.loc c - reprIn unit (angleOf src.unit (src.loc (π c)))| < ε := by
  have : NeZero wl := ⟨hwl.ne'⟩
  have hamb' : ∀ c, |2 * Real.pi * (δ * (1 : ℕ)) / wl * Real.sin (angleOf src.unit (src.loc c))| < Real.pi := by
    simpa using hamb
  have hz := inj_of_sin hsrc hinj hδ0 hwl le_rfl hamb'
  obtain ⟨b, S, hb, hbv, g3, hbp, hbdim, hbloc, hS, hQ⟩ :=
    coarray_input h hδ hnd hel hpert (some "x") (Or.inl (by simp)) hw0 hr src hsrc wl hp method hm hv hkv hz
  refine ⟨S, hS, fun i ε hε => ?_⟩
  obtain ⟨Q, τ, hQp, hR⟩ := hQ i
  rw [hbv] at hR
  have h1 := root_near (m := v) (t := fun c => angleOf src.unit (src.loc c)) hδ0 hwl
    (z := fun c => phaseFactor δ wl src.unit (src.loc c)) (fun c => rfl) hz
    (fun c => Or.inl ⟨rfl, inRange1D_angle (hsrc.2 c)⟩) hstrict hk hkv hamb d0 hd0 hQp τ unit hunit hε
  obtain ⟨η, hη, h2⟩ := near_entries (acm_near h.1 hw0 hr h.1.2.2 _ method (hm.imp id And.left) hR h1)
  exact ⟨η, hη, fun R hH hn => h2 R hn hH⟩

/-! ### Hypotheses -/

/-- With one source only the principal eigenvector is orthogonal to the noise subspace. -/
theorem orth_noise_eigen {R : Matrix (Fin m) (Fin m) ℂ} (eigh : Eigh) (hR : R.IsHermitian) {a : Fin m → ℂ} (hm : 1 ≤ m)
    (h : (getNoiseSubspace eigh R 1)ᴴ *ᵥ a = 0) : ∃ μ : ℝ, R *ᵥ a = (μ : ℂ) • a := by
  have he := eigh.spec R hR
  set w := (eigh.run R).1 with hw
  set E := (eigh.run R).2 with hE
  refine ⟨w ⟨m - 1, by omega⟩, ?_⟩
  have h0 : ∀ j : Fin m, j.1 < m - 1 → (Eᴴ *ᵥ a) j = 0 := fun j hj => by
    have hnd : noiseDim m 1 = m - 1 := noiseDim_eq le_rfl
    have := congrFun h ⟨j.1, by omega⟩
    exact this
  have h1 : a = E *ᵥ (Eᴴ *ᵥ a) := by
    rw [mulVec_mulVec, mul_eq_one_comm.1 he.orth, one_mulVec]
  have h2 : R *ᵥ a = E *ᵥ ((diagonal fun j => (w j : ℂ)) *ᵥ (Eᴴ *ᵥ a)) := by
    conv_lhs => rw [h1]
    rw [mulVec_mulVec, he.eig, ← mulVec_mulVec]
  rw [h2]
  conv_rhs => rw [h1]
  rw [← mulVec_smul]
  congr 1
  funext j
  rw [mulVec_diagonal, Pi.smul_apply, smul_eq_mul]
  by_cases hj : j.1 < m - 1
  · rw [h0 j hj]; simp
  · have : j = ⟨m - 1, by omega⟩ := Fin.ext (by have := j.2; simp; omega)
    rw [this]

/-- Near the covariance matrix of a source at broadside there are matrices without poles on the circle. -/
theorem perturbed_no_pole {m : ℕ} (hm : m = 3) {η : ℝ} (hη : η ≠ 0) {R : Matrix (Fin m) (Fin m) ℂ}
    (hR : ∀ i j, R i j = (if i = j then 2 else 1) + if i.1 + j.1 = 1 then (η : ℂ) else 0) (eigh : Eigh) (ζ : ℂ) (hζ : ‖ζ‖ = 1) :
    R.IsHermitian ∧ (getNoiseSubspace eigh R 1)ᴴ *ᵥ ulaVec m ζ ≠ 0 := by
  subst hm
  have hH : R.IsHermitian := by
    ext i j
    rw [conjTranspose_apply, hR, hR, star_add]
    congr 1
    · by_cases h : i = j
      · subst h; simp
      · rw [if_neg h, if_neg (fun h' => h h'.symm)]; simp
    · rw [add_comm j.1]
      split_ifs <;> simp
  refine ⟨hH, fun h => ?_⟩
  obtain ⟨μ, hμ⟩ := orth_noise_eigen eigh hH (by norm_num) h
  have hz : ζ * star ζ = 1 := by
    rw [Complex.star_def, Complex.mul_conj, Complex.normSq_eq_norm_sq, hζ]; simp
  have h0 := congrFun hμ 0
  have h2 := congrFun hμ 2
  simp only [mulVec, dotProduct, Fin.sum_univ_three, hR, Pi.smul_apply, smul_eq_mul, ulaVec] at h0 h2
  simp [Fin.ext_iff] at h0 h2
  have h2' := congrArg star h2
  simp at h2'
  have hz' : ζ * (starRingEnd ℂ) ζ = 1 := hz
  have key : (η : ℂ) * ζ = 0 := by
    have e : ζ ^ 2 * (1 + (starRingEnd ℂ) ζ + 2 * (starRingEnd ℂ) ζ ^ 2) = ζ ^ 2 * ((μ : ℂ) * (starRingEnd ℂ) ζ ^ 2) := by rw [h2']
    have e1 : ζ ^ 2 + ζ + 2 = μ := by
      linear_combination e - (ζ + 2 * ζ * (starRingEnd ℂ) ζ + 2 - μ * (ζ * (starRingEnd ℂ) ζ + 1)) * hz'
    linear_combination h0 - e1
  rcases mul_eq_zero.1 key with h3 | h3
  · exact hη (by exact_mod_cast h3)
  · rw [h3] at hz
    simp at hz

/-- Non-vacuity: a source at broadside seen by three sensors (the case in which root-MUSIC is wrong by 90 degrees for the exact covariance
matrix): arbitrarily close to the exact covariance matrix there are matrices for which the estimate is as close as desired to 0,
whatever the library routines return. -/
example : ∃ (a : GridArray) (l : Fin a.element.outputSize) (S : Steering a.element.outputSize a.size 1),
    ula 3 (.scalar (1 / 2)) none {} = .ok a ∧ steering a.toArrayDesign (.ff1 ⟨fun _ => 0, "sin"⟩) 1 false "all" = .ok S ∧
    ∀ ε > 0, ∃ R : Matrix (Fin a.size) (Fin a.size) ℂ, (∀ i j, ‖R i j - covModel (S.A l) 1 1 i j‖ < ε) ∧
      ∀ (eigh : Eigh) (roots : NpRoots) (argsort : List ℝ → List ℕ), IsArgsort argsort →
        ∃ s : FF1D 1, rootMusicEstimate eigh roots argsort 1 R 1 none "sin" = .ok (some s) ∧ |s.loc 0| < ε := by
  obtain ⟨a, ha⟩ := ula_ok 3 (1 / 2) none
  have hel : a.element = .isotropicScalar := (gridInit_spec ha).2.2.1
  have hl : 0 < a.element.outputSize := by rw [hel]; decide
  have hsize : a.size = 3 := (C01_ula_geometry 3 _ none {} a ha).1
  have hv : Valid1D (⟨fun _ => 0, "sin"⟩ : FF1D 1) := ⟨by simp [Unit1D], fun i => by simp [InRange1D]⟩
  have h0 : Real.sin (angleOf "sin" 0) = 0 := by simp [angleOf]
  obtain ⟨S, hS, hn⟩ := C87_root_music (k := 1) (d := 1 / 2) (wl := 1) (by norm_num) one_pos ha ⟨0, hl⟩ ⟨fun _ => 0, "sin"⟩ hv
    (fun i j _ => Subsingleton.elim i j) (fun c => by simp [h0]) le_rfl (by norm_num) (fun c => by simp [h0, Real.pi_pos]) none
    (Or.inr ⟨rfl, by norm_num⟩) (P := 1) PosDef.one 1 "sin" (by simp [Unit1D])
  refine ⟨a, ⟨0, hl⟩, S, ha, hS, fun ε hε => ?_⟩
  obtain ⟨S', hS', hSv⟩ := ula_steering ha ⟨fun _ => 0, "sin"⟩ hv 1 "all" (by simp)
  obtain rfl : S = S' := by rw [hS, Except.ok.injEq] at hS'; exact hS'
  obtain ⟨δ, hδ, key⟩ := hn ε hε
  set η := min δ ε / 2 with hη
  have hη0 : 0 < η := by positivity
  have hη1 : η < δ := by have := min_le_left δ ε; simp only [hη]; linarith [lt_min hδ hε]
  have hη2 : η < ε := by have := min_le_right δ ε; simp only [hη]; linarith [lt_min hδ hε]
  let R : Matrix (Fin a.size) (Fin a.size) ℂ := Matrix.of fun i j => (if i = j then 2 else 1) + if i.1 + j.1 = 1 then (η : ℂ) else 0
  have hcov : ∀ i j, covModel (S.A ⟨0, hl⟩) 1 1 i j = if i = j then 2 else 1 := by
    intro i j
    simp only [covModel, mul_one, Matrix.add_apply, Matrix.mul_apply, conjTranspose_apply, hSv, phaseFactor_broadside, Matrix.smul_apply,
      Matrix.one_apply]
    by_cases h : i = j
    · simp [h]; norm_num
    · simp [h]
  have hnear : ∀ i j, ‖R i j - covModel (S.A ⟨0, hl⟩) 1 1 i j‖ ≤ η := by
    intro i j
    rw [hcov]
    simp only [R, Matrix.of_apply, add_sub_cancel_left]
    split_ifs
    · simp [abs_of_pos hη0]
    · simpa using hη0.le
  refine ⟨R, fun i j => (hnear i j).trans_lt hη2, fun eigh roots argsort hsort => ?_⟩
  obtain ⟨s, e1, -, -, π, e2⟩ := key R (perturbed_no_pole hsize hη0.ne' (fun i j => rfl) eigh 1 (by simp)).1
    (fun i j => (hnear i j).trans_lt hη1) eigh roots argsort hsort
    (fun ζ hζ => (perturbed_no_pole hsize hη0.ne' (fun i j => rfl) eigh ζ hζ).2)
  refine ⟨s, e1, ?_⟩
  have := e2 0
  simpa [reprIn, angleOf] using this

/-- The augmented covariance matrix of three sensors at 0, 1 and 3: Toeplitz, with single pairs at the lags `1` and `-3`. -/
theorem three_sensors_acm {a : GridArray} (h : Is1DGrid a [0, 1, 3]) {w0 : WeightFunction} (hw0 : WeightFunction.init a = .ok w0)
    {n : ℕ} (hn : n = 3) (R : Matrix (Fin n) (Fin n) ℂ) {T : Matrix (Fin 4) (Fin 4) ℂ} (hT : (acmTransform w0 R "da").1 = .ok ⟨4, T⟩) :
    (∃ t : ℤ → ℂ, ∀ r c, T r c = t ((r.1 : ℤ) - c.1)) ∧ (R.IsHermitian → T.IsHermitian) ∧
      T 1 0 = R ⟨1, by omega⟩ ⟨0, by omega⟩ ∧ T 0 3 = R ⟨0, by omega⟩ ⟨2, by omega⟩ := by
  subst hn
  obtain ⟨v, T', S, hv, h1, -, h3, h4, -⟩ := C28_acm h hw0 .refl (by simp) R
  obtain rfl := hv.unique three_sensors_central
  have h1' : (acmTransform w0 R "da").1 = .ok ⟨4, T'⟩ := h1
  rw [h1'] at hT
  cases hT
  have p1 : pairs [0, 1, 3] 1 = {((1 : Fin 3), (0 : Fin 3))} := by decide
  have p3 : pairs [0, 1, 3] (-3) = {((0 : Fin 3), (2 : Fin 3))} := by decide
  refine ⟨⟨_, h3⟩, h4, ?_, ?_⟩
  · rw [h3]
    have : (((1 : Fin 4).1 : ℤ) - ((0 : Fin 4).1 : ℤ)) = 1 := by norm_num
    rw [this]
    simp [pairAverage, pairCount, p1]
  · rw [h3]
    have : (((0 : Fin 4).1 : ℤ) - ((3 : Fin 4).1 : ℤ)) = -3 := by norm_num
    rw [this]
    simp [pairAverage, pairCount, p3]

theorem toeplitz_no_pole {T : Matrix (Fin 4) (Fin 4) ℂ} {t : ℤ → ℂ} (hT : ∀ r c, T r c = t ((r.1 : ℤ) - c.1)) (hH : T.IsHermitian)
    (hne : ‖T 1 0‖ ≠ ‖T 0 3‖) (eigh : Eigh) (ζ : ℂ) (hζ : ‖ζ‖ = 1) : (getNoiseSubspace eigh T 1)ᴴ *ᵥ ulaVec 4 ζ ≠ 0 := by
  intro h
  obtain ⟨μ, hμ⟩ := orth_noise_eigen eigh hH (by norm_num) h
  have h0 := congrFun hμ 0
  have h1 := congrFun hμ 1
  simp only [mulVec, dotProduct, Fin.sum_univ_four, hT, Pi.smul_apply, smul_eq_mul, ulaVec] at h0 h1
  simp at h0 h1
  have key : t (-3) * ζ ^ 4 = t 1 := by linear_combination ζ * h0 - h1
  apply hne
  rw [hT, hT]
  have e1 : (((1 : Fin 4).1 : ℤ) - ((0 : Fin 4).1 : ℤ)) = 1 := by norm_num
  have e2 : (((0 : Fin 4).1 : ℤ) - ((3 : Fin 4).1 : ℤ)) = -3 := by norm_num
  rw [e1, e2, ← key, norm_mul, norm_pow, hζ, one_pow, mul_one]

theorem exists_norm_ne (x : ℂ) (r : ℝ) {η : ℝ} (hη : 0 < η) : ∃ s : ℝ, 0 < s ∧ s < η ∧ ‖x + s‖ ≠ r := by
  by_contra h
  push Not at h
  have hsq : ∀ s : ℝ, ‖x + s‖ ^ 2 = (x.re + s) ^ 2 + x.im ^ 2 := fun s => by
    rw [← Complex.normSq_eq_norm_sq, Complex.normSq_apply]; simp; ring
  have h1 := hsq (η / 4)
  have h2 := hsq (η / 2)
  have h3 := hsq (3 * η / 4)
  rw [h _ (by positivity) (by linarith)] at h1 h2 h3
  nlinarith [mul_pos hη hη]

/-- Non-vacuity of `C87_coarray`: three sensors at 0, 1 and 3 half wavelengths and a source at broadside; close to the exact covariance
matrix there are matrices whose augmented matrix has no poles on the circle, and for them coarray root-MUSIC returns the source. -/
example : ∃ (a : GridArray) (w : WeightFunction) (i : Fin a.element.outputSize) (S : Steering a.element.outputSize a.size 1), a.size = 3 ∧
    steering a.toArrayDesign (.ff1 ⟨fun _ => 0, "sin"⟩) 1 false "all" = .ok S ∧
    ∀ ε > 0, ∃ R : Matrix (Fin a.size) (Fin a.size) ℂ, (∀ r c, ‖R r c - modelCov (S.A i) (fun _ => 1) 1 r c‖ < ε) ∧
      ∃ T : Matrix (Fin 4) (Fin 4) ℂ, (acmTransform w R "da").1 = .ok ⟨4, T⟩ ∧
      ∀ (eigh : Eigh) (roots : NpRoots) (argsort : List ℝ → List ℕ), IsArgsort argsort →
        ∃ s : FF1D 1, rootMusicEstimate eigh roots argsort 1 T 1 none "sin" = .ok (some s) ∧ |s.loc 0| < ε := by
  obtain ⟨a, ha⟩ := gridInit_ok_of (idx := Mat.col [0, 1, 3]) (spec := .d0 (.scalar (1 / 2)))
    (name := some "x") (kw := {}) (d := []) (by simp [GridArgsMatch]) rfl
  obtain ⟨hlg, hd0⟩ := linearGrid_of_init ha
  obtain ⟨_, g2, g3, g4, _⟩ := gridInit_spec ha
  have hsize : a.size = 3 := hlg.1.2.2
  obtain ⟨w, hw0⟩ : ∃ w, WeightFunction.init a = .ok w := ⟨_, weightFunction_init hlg.1⟩
  have hl : 0 < a.element.outputSize := by rw [g3]; decide
  have hv : Valid1D (⟨fun _ => 0, "sin"⟩ : FF1D 1) := ⟨by simp [Unit1D], fun i => by simp [InRange1D]⟩
  have h0 : Real.sin (angleOf "sin" 0) = 0 := by simp [angleOf]
  obtain ⟨S, hS, hn⟩ := C87_coarray (k := 1) (δ := 1 / 2) (wl := 1) hlg hd0 (by norm_num) (by decide) g3 (Except.ok.inj g4).symm hw0 .refl one_pos
    ⟨fun _ => 0, "sin"⟩ hv (fun i j _ => Subsingleton.elim i j) (fun c => by simp [h0]) (fun c => by simp [h0, Real.pi_pos])
    three_sensors_central le_rfl (by norm_num) none (Or.inr ⟨rfl, by norm_num⟩) (p := fun _ => 1) (fun _ => one_pos) (σ := 1) "da"
    (Or.inl rfl) "sin" (by simp [Unit1D])
  refine ⟨a, w, ⟨0, hl⟩, S, hsize, hS, fun ε hε => ?_⟩
  obtain ⟨δ, hδ, key⟩ := hn ⟨0, hl⟩ ε hε
  set M := modelCov (S.A ⟨0, hl⟩) (fun _ => 1) 1 with hM
  have hMH : M.IsHermitian := by
    rw [hM, modelCov_eq_covModel]
    exact covModel_isHermitian _ (diag_posDef fun _ => one_pos).isHermitian 1
  obtain ⟨η, hη0, hη1, hη2⟩ := exists_norm_ne (M ⟨1, by omega⟩ ⟨0, by omega⟩) (‖M ⟨0, by omega⟩ ⟨2, by omega⟩‖) (lt_min hδ hε)
  let R : Matrix (Fin a.size) (Fin a.size) ℂ := Matrix.of fun i j => M i j + if i.1 + j.1 = 1 then (η : ℂ) else 0
  have hRH : R.IsHermitian := by
    ext i j
    simp only [R, conjTranspose_apply, Matrix.of_apply, star_add]
    rw [hMH.apply, add_comm j.1]
    congr 1
    split_ifs <;> simp
  have hnear : ∀ i j, ‖R i j - M i j‖ ≤ η := by
    intro i j
    simp only [R, Matrix.of_apply, add_sub_cancel_left]
    split_ifs
    · simp [abs_of_pos hη0]
    · simpa using hη0.le
  obtain ⟨T, hT, hest⟩ := key R hRH fun i j => (hnear i j).trans_lt (hη1.trans_le (min_le_left _ _))
  obtain ⟨⟨t, ht⟩, hTH, e1, e2⟩ := three_sensors_acm hlg.1 hw0 hsize R hT
  refine ⟨R, fun i j => (hnear i j).trans_lt (hη1.trans_le (min_le_right _ _)), T, hT, fun eigh roots argsort hsort => ?_⟩
  obtain ⟨s, q1, -, -, π, q2⟩ := hest eigh roots argsort hsort (toeplitz_no_pole ht (hTH hRH) (by
    rw [e1, e2]
    simpa [R] using hη2) eigh)
  refine ⟨s, q1, ?_⟩
  have := q2 0
  simpa [reprIn, angleOf] using this

end Doa.Props
