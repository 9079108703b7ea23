import Mathlib.Algebra.Polynomial.Eval.Degree
import Mathlib.Algebra.Polynomial.BigOperators
import Mathlib.Logic.Equiv.Fin.Basic
import Mathlib.Analysis.Real.Pi.Bounds
import Verif.Props.Search2D
import Verif.Props.Geometry

/-!
# C43: MUSIC with a uniform rectangular array
-/

namespace Doa.Props

open Doa Doa.Spec Complex Matrix Polynomial
open scoped ComplexOrder

variable {k : ℕ}

/-- The response of an `n1 × n2` rectangular array (row-major) with phase factors `z.1`, `z.2`. -/
def uraVec (n2 N : ℕ) (z : ℂ × ℂ) : Fin N → ℂ := fun p => z.1 ^ (p.1 / n2) * z.2 ^ (p.1 % n2)

/-- The matrix with columns `uraVec`. -/
def uraMat (n2 N : ℕ) (z : Fin k → ℂ × ℂ) : Matrix (Fin N) (Fin k) ℂ := Matrix.of fun p c => uraVec n2 N (z c) p

/-- A product polynomial that vanishes at the points `z e`, `e ∈ J`, but not at `t`. -/
theorem separate (z : Fin k → ℂ × ℂ) (t : ℂ × ℂ) (J : Finset (Fin k)) (h : ∀ e ∈ J, z e ≠ t) :
    ∃ F G : ℂ[X], F.natDegree ≤ J.card ∧ G.natDegree ≤ J.card ∧ F.eval t.1 * G.eval t.2 ≠ 0 ∧
      ∀ e ∈ J, F.eval (z e).1 * G.eval (z e).2 = 0 := by
  classical
  have hdeg : ∀ (K : Finset (Fin k)) (f : Fin k → ℂ), (∏ e ∈ K, (X - C (f e))).natDegree = K.card := by
    intro K f
    rw [natDegree_prod_of_monic _ _ fun e _ => monic_X_sub_C _]
    simp
  refine ⟨∏ e ∈ J.filter fun e => (z e).1 ≠ t.1, (X - C (z e).1), ∏ e ∈ J.filter fun e => (z e).1 = t.1, (X - C (z e).2), ?_, ?_, ?_, ?_⟩
  · rw [hdeg]; exact Finset.card_filter_le _ _
  · rw [hdeg]; exact Finset.card_filter_le _ _
  · refine mul_ne_zero ?_ ?_
    · rw [eval_prod, Finset.prod_ne_zero_iff]
      intro e he
      rw [eval_sub, eval_X, eval_C]
      exact sub_ne_zero.2 fun h' => (Finset.mem_filter.1 he).2 h'.symm
    · rw [eval_prod, Finset.prod_ne_zero_iff]
      intro e he
      rw [eval_sub, eval_X, eval_C]
      refine sub_ne_zero.2 fun h' => ?_
      exact h e (Finset.mem_filter.1 he).1 (Prod.ext (Finset.mem_filter.1 he).2 h'.symm)
  · intro e he
    by_cases h1 : (z e).1 = t.1
    · have h0 : (∏ e ∈ J.filter fun e => (z e).1 = t.1, (X - C (z e).2)).eval (z e).2 = 0 := by
        rw [eval_prod]
        exact Finset.prod_eq_zero (i := e) (Finset.mem_filter.2 ⟨he, h1⟩) (by simp)
      rw [h0, mul_zero]
    · rw [eval_prod, Finset.prod_eq_zero (i := e) (Finset.mem_filter.2 ⟨he, h1⟩) (by simp), zero_mul]

/-- A product polynomial as a functional on responses. -/
theorem functional (n1 n2 N : ℕ) (hN : N = n1 * n2) (F G : ℂ[X]) (hF : F.natDegree < n1) (hG : G.natDegree < n2) (z : ℂ × ℂ) :
    ∑ p : Fin N, F.coeff (p.1 / n2) * G.coeff (p.1 % n2) * uraVec n2 N z p = F.eval z.1 * G.eval z.2 := by
  subst hN
  rw [eval_eq_sum_range' hF, eval_eq_sum_range' hG, ← Fin.sum_univ_eq_sum_range (fun i => F.coeff i * z.1 ^ i),
    ← Fin.sum_univ_eq_sum_range (fun i => G.coeff i * z.2 ^ i), Finset.sum_mul_sum, ← Finset.sum_product',
    Finset.univ_product_univ]
  refine Fintype.sum_equiv finProdFinEquiv.symm _ _ fun p => ?_
  simp only [finProdFinEquiv_symm_apply, Fin.divNat, Fin.modNat, uraVec]
  ring

theorem functional_mulVec (n1 n2 N : ℕ) (hN : N = n1 * n2) (F G : ℂ[X]) (hF : F.natDegree < n1) (hG : G.natDegree < n2)
    (z : Fin k → ℂ × ℂ) (y : Fin k → ℂ) :
    ∑ p : Fin N, F.coeff (p.1 / n2) * G.coeff (p.1 % n2) * (uraMat n2 N z *ᵥ y) p =
      ∑ c, F.eval (z c).1 * G.eval (z c).2 * y c := by
  simp only [mulVec, dotProduct, uraMat, of_apply, Finset.mul_sum]
  rw [Finset.sum_comm]
  refine Finset.sum_congr rfl fun c _ => ?_
  rw [← functional n1 n2 N hN F G hF hG (z c), Finset.sum_mul]
  refine Finset.sum_congr rfl fun p _ => by ring

/-- Distinct phase factor pairs give independent responses, as long as there are at most `n1` and at most `n2` of them. -/
theorem uraMat_injective (n1 n2 N : ℕ) (hN : N = n1 * n2) {z : Fin k → ℂ × ℂ} (hz : Function.Injective z) (h1 : k ≤ n1) (h2 : k ≤ n2) :
    Function.Injective (uraMat n2 N z).mulVec := by
  classical
  have key : ∀ y, uraMat n2 N z *ᵥ y = 0 → y = 0 := by
    intro y hy
    funext c
    have hk : 1 ≤ k := by have := c.2; omega
    obtain ⟨F, G, hF, hG, hne, h0⟩ := separate z (z c) (Finset.univ.erase c) fun e he h => (Finset.ne_of_mem_erase he) (hz h)
    have hcard : (Finset.univ.erase c : Finset (Fin k)).card = k - 1 := by
      rw [Finset.card_erase_of_mem (Finset.mem_univ _), Finset.card_univ, Fintype.card_fin]
    have := functional_mulVec n1 n2 N hN F G (by omega) (by omega) z y
    rw [hy] at this
    simp only [Pi.zero_apply, mul_zero, Finset.sum_const_zero] at this
    rw [← Finset.add_sum_erase _ _ (Finset.mem_univ c), Finset.sum_eq_zero (s := Finset.univ.erase c) (fun e he => by rw [h0 e he, zero_mul]), add_zero] at this
    exact (mul_eq_zero.1 this.symm).resolve_left hne
  intro y y' h
  have := key (y - y') (by rw [mulVec_sub]; exact sub_eq_zero.2 h)
  exact sub_eq_zero.1 this

/-- With fewer sources than rows and columns, no other response lies in the span. -/
theorem uraVec_mem_span (n1 n2 N : ℕ) (hN : N = n1 * n2) {z : Fin k → ℂ × ℂ} (h1 : k < n1) (h2 : k < n2) {t : ℂ × ℂ}
    (h : ∃ y, uraVec n2 N t = uraMat n2 N z *ᵥ y) : ∃ c, t = z c := by
  classical
  by_contra hn
  push Not at hn
  obtain ⟨y, hy⟩ := h
  obtain ⟨F, G, hF, hG, hne, h0⟩ := separate z t Finset.univ fun e _ h => hn e h.symm
  rw [Finset.card_univ, Fintype.card_fin] at hF hG
  have e1 := functional n1 n2 N hN F G (by omega) (by omega) t
  have e2 := functional_mulVec n1 n2 N hN F G (by omega) (by omega) z y
  rw [← hy, e1, Finset.sum_eq_zero (fun e he => by rw [h0 e he, zero_mul])] at e2
  exact hne e2

/-- The direction cosines of `(azimuth, elevation)` along the x and the y axis. -/
noncomputable def dirCos (u : String) (v : ℝ × ℝ) : ℝ × ℝ :=
  (Real.cos (angleOf u v.2) * Real.cos (angleOf u v.1), Real.cos (angleOf u v.2) * Real.sin (angleOf u v.1))

/-- The phase factors of a rectangular array with spacings `dx`, `dy`. -/
noncomputable def phasePair (dx dy wl : ℝ) (u : String) (v : ℝ × ℝ) : ℂ × ℂ :=
  (Complex.exp (I * ((2 * Real.pi * dx / wl * (dirCos u v).1 : ℝ) : ℂ)), Complex.exp (I * ((2 * Real.pi * dy / wl * (dirCos u v).2 : ℝ) : ℂ)))

theorem exp_phase_inj {d wl s t : ℝ} (hd : 0 < d) (hwl : 0 < wl) (hamb : d * |s - t| < wl)
    (h : Complex.exp (I * ((2 * Real.pi * d / wl * s : ℝ) : ℂ)) = Complex.exp (I * ((2 * Real.pi * d / wl * t : ℝ) : ℂ))) : s = t := by
  have hpi := Real.pi_pos
  rw [Complex.exp_eq_exp_iff_exists_int] at h
  obtain ⟨n, hn⟩ := h
  have h1 : (2 * Real.pi * d / wl * s : ℝ) = 2 * Real.pi * d / wl * t + n * (2 * Real.pi) := by
    have h2 := congrArg Complex.im hn
    simpa [-Complex.ofReal_mul, -Complex.ofReal_div] using h2
  have h2 : d * (s - t) = n * wl := by
    field_simp at h1
    linarith
  have h3 : |(n : ℝ)| < 1 := by
    have h4 : |(n : ℝ)| * wl < wl := by
      rw [← abs_of_pos hwl, ← abs_mul, ← h2, abs_mul, abs_of_pos hd, abs_of_pos hwl]
      exact hamb
    by_contra h5
    push Not at h5
    nlinarith
  have h4 : n = 0 := by
    have : |n| < 1 := by exact_mod_cast h3
    exact Int.abs_lt_one_iff.1 this
  subst h4
  simp only [Int.cast_zero, zero_mul] at h2
  have := (mul_eq_zero.1 h2).resolve_left hd.ne'
  linarith

theorem dir_dirCos (s : FF2D k) (hu : Unit2D s.unit) (c : Fin k) :
    (s.dir c).1 = (dirCos s.unit (s.loc c)).1 ∧ (s.dir c).2.1 = (dirCos s.unit (s.loc c)).2 := by
  rcases hu with h | h <;> simp [FF2D.dir, dirCos, angleOf, h, deg2rad, mul_div_assoc]

/-- The steering matrix of a uniform rectangular array. -/
theorem ura_steering {n1 n2 : ℕ} {d0 : D0Arg} {dx dy : ℝ} (hd : uraSpacing d0 = some (dx, dy)) {name : Option String} {a : GridArray}
    (ha : ura n1 n2 d0 name {} = .ok a) (s : FF2D k) (hu : Unit2D s.unit) (wl : ℝ) [NeZero wl] :
    Usable a.toArrayDesign "all" [] ∧
    ∃ S, steering a.toArrayDesign (.ff2 s) wl false "all" = .ok S ∧
      ∀ l, S.A l = uraMat n2 a.size fun c => phasePair dx dy wl s.unit (s.loc c) := by
  obtain ⟨g1, g2, g3, g4, g5, g6, g7, g8, g9, g10⟩ := gridInit_spec ha
  obtain ⟨h1, h2, h3, -⟩ := C07_ura n1 n2 d0 dx dy hd name {} a ha
  have hp : a.toArrayDesign.perts = [] := (Except.ok.inj g4).symm
  have hps : a.toArrayDesign.filterPerturbations "all" = .ok [] := by
    simp [ArrayDesign.filterPerturbations, hp, PyDict.values]
  have hc : a.locations.ncols = 2 := h2
  have hdim : 1 ≤ a.locations.ncols ∧ a.locations.ncols ≤ 3 := by omega
  refine ⟨⟨hps, rfl, hdim, by simp⟩, ?_⟩
  have hph : (Sources.ff2 s).phaseDelay a.locations wl false = .ok _ :=
    (FF2D.phaseDelay_eq s a.locations wl).trans (if_pos hdim)
  refine ⟨_, steering_iso (ps := []) g3 hps rfl hph (by simp), fun l => ?_⟩
  ext p c
  have hp1 : p.1 < n1 * n2 := by rw [← h1]; exact p.2
  have hn2 : 0 < n2 := by
    rcases Nat.eq_zero_or_pos n2 with h | h
    · rw [h] at hp1; omega
    · exact h
  obtain ⟨e1, e2⟩ := h3 (p.1 / n2) (p.1 % n2) (Nat.div_lt_of_lt_mul (by rwa [mul_comm] at hp1)) (Nat.mod_lt _ hn2)
  have hidx : p.1 / n2 * n2 + p.1 % n2 = p.1 := by rw [mul_comm]; exact Nat.div_add_mod p.1 n2
  rw [hidx] at e1 e2
  have l0 : a.locations.at0 p.1 0 = ((p.1 / n2 : ℕ) : ℝ) * dx := by rw [Mat.at0, e1]; rfl
  have l1 : a.locations.at0 p.1 1 = ((p.1 % n2 : ℕ) : ℝ) * dy := by rw [Mat.at0, e2]; rfl
  have l2 : a.locations.at0 p.1 2 = 0 := Mat.at0_of_ge a.locations (by omega)
  obtain ⟨c1, c2⟩ := dir_dirCos s hu c
  simp only [totalFactor, List.foldl_nil, Matrix.one_mul, ideal, Fin.val_cast, uraMat, of_apply, uraVec, phasePair, l0, l1, l2, c1, c2]
  rw [← Complex.exp_nat_mul, ← Complex.exp_nat_mul, ← Complex.exp_add]
  congr 1
  push_cast
  ring

/-- The steering matrix of a rectangular array, for sources on an unambiguous azimuth/elevation grid: it has full column rank, and no
other grid point has a response in the span of the sources' responses. -/
theorem ura_identified {n1 n2 : ℕ} {d0 : D0Arg} {dx dy wl : ℝ} (hd : uraSpacing d0 = some (dx, dy)) (hdx : 0 < dx) (hdy : 0 < dy)
    (hwl : 0 < wl) {name : Option String} {a : GridArray} (haa : ura n1 n2 d0 name {} = .ok a)
    (l : Fin a.element.outputSize)
    {ga gb : List ℝ} {u : String} (hu : Unit2D u)
    (hdist : ∀ (i i' j j' : ℕ) (v v' w w' : ℝ), ga[i]? = some v → ga[i']? = some v' → gb[j]? = some w → gb[j']? = some w' →
      dirCos u (v, w) = dirCos u (v', w') → i = i' ∧ j = j')
    (hamb : ∀ v ∈ ga, ∀ v' ∈ ga, ∀ w ∈ gb, ∀ w' ∈ gb, dx * |(dirCos u (v, w)).1 - (dirCos u (v', w')).1| < wl ∧
      dy * |(dirCos u (v, w)).2 - (dirCos u (v', w')).2| < wl)
    (src : FF2D k) (hsu : src.unit = u) (ia ib : Fin k → ℕ) (ha : ∀ c, ga[ia c]? = some (src.loc c).1)
    (hb : ∀ c, gb[ib c]? = some (src.loc c).2) (hord : ∀ c e, c < e → ia c < ia e ∨ ia c = ia e ∧ ib c < ib e)
    (hk1 : k < n1) (hk2 : k < n2) :
    a.toArrayDesign.element = .isotropicScalar ∧ (∀ p ∈ a.toArrayDesign.perturbations, p.isKnown = true) ∧
    Usable a.toArrayDesign "all" [] ∧ k < a.size ∧
    ∃ S, steering a.toArrayDesign (.ff2 src) wl false "all" = .ok S ∧ Function.Injective (S.A l).mulVec ∧
      ∀ i j v w, ga[i]? = some v → gb[j]? = some w →
        (∃ y, response2 a.toArrayDesign l wl u "all" (v, w) = S.A l *ᵥ y) → ∃ c, i = ia c ∧ j = ib c := by
  have : NeZero wl := ⟨hwl.ne'⟩
  obtain ⟨hus, S, hS, hSA⟩ := ura_steering hd haa src (hsu ▸ hu) wl
  have hsize : a.size = n1 * n2 := (C07_ura n1 n2 d0 dx dy hd name {} a haa).1
  have hel : a.toArrayDesign.element = .isotropicScalar := (gridInit_spec haa).2.2.1
  have hpert : a.toArrayDesign.perts = [] := (Except.ok.inj (gridInit_spec haa).2.2.2.1).symm
  have hinj : ∀ (i i' j j' : ℕ) (v v' w w' : ℝ), ga[i]? = some v → ga[i']? = some v' → gb[j]? = some w → gb[j']? = some w' →
      phasePair dx dy wl u (v, w) = phasePair dx dy wl u (v', w') → i = i' ∧ j = j' := by
    intro i i' j j' v v' w w' h1 h2 h3 h4 h
    obtain ⟨m1, m2⟩ := hamb v (List.mem_of_getElem? h1) v' (List.mem_of_getElem? h2) w (List.mem_of_getElem? h3) w' (List.mem_of_getElem? h4)
    exact hdist i i' j j' v v' w w' h1 h2 h3 h4 (Prod.ext (exp_phase_inj hdx hwl m1 (congrArg Prod.fst h)) (exp_phase_inj hdy hwl m2 (congrArg Prod.snd h)))
  have hz : Function.Injective fun c => phasePair dx dy wl src.unit (src.loc c) := by
    intro c e h
    rw [hsu] at h
    obtain ⟨h1, h2⟩ := hinj _ _ _ _ _ _ _ _ (ha c) (ha e) (hb c) (hb e) h
    rcases lt_trichotomy c e with h' | h' | h'
    · have := hord c e h'; omega
    · exact h'
    · have := hord e c h'; omega
  have hkn : ∀ p ∈ a.toArrayDesign.perturbations, p.isKnown = true := by
    intro p hp
    have : a.toArrayDesign.perturbations = [] := by simp [ArrayDesign.perturbations, hpert, PyDict.values]
    rw [this] at hp
    cases hp
  refine ⟨hel, hkn, hus, ?_, S, hS, ?_, ?_⟩
  · show k < a.size
    rw [hsize]
    nlinarith
  · rw [hSA]
    exact uraMat_injective n1 n2 a.size hsize hz hk1.le hk2.le
  · intro i j v w hv hw hy
    obtain ⟨-, S1, hS1, hSA1⟩ := ura_steering hd haa (⟨![(v, w)], u⟩ : FF2D 1) hu wl
    have hr : response2 a.toArrayDesign l wl u "all" (v, w) = uraVec n2 a.size (phasePair dx dy wl u (v, w)) := by
      funext p
      unfold response2
      rw [hS1]
      show S1.A l p 0 = _
      rw [hSA1 l]
      rfl
    rw [hr, hSA l] at hy
    obtain ⟨c, hc⟩ := uraVec_mem_span n1 n2 a.size hsize hk1 hk2 hy
    rw [hsu] at hc
    exact ⟨c, hinj _ _ _ _ _ _ _ _ hv (ha c) hw (hb c) hc⟩

/-- **C43** (rectangular array, end to end). MUSIC with `UniformRectangularArray(n1, n2, d0)` on an azimuth/elevation grid whose points
have pairwise different direction cosines and no grating lobes: with the exact covariance of `k < min(n1, n2)` sources on grid points
(anywhere on the grid, listed in grid order), exactly the sources are returned, for every source covariance, noise variance, choice of
eigenvectors and history of the estimator. -/
theorem C43_music_ura (eigh : Eigh) {n1 n2 : ℕ} {d0 : D0Arg} {dx dy wl : ℝ} (hd : uraSpacing d0 = some (dx, dy)) (hdx : 0 < dx) (hdy : 0 < dy)
    (hwl : 0 < wl) {name : Option String} {a : GridArray} (haa : ura n1 n2 d0 name {} = .ok a)
    (l : Fin a.element.outputSize) (cfg : EstCfg (WithTop ℝ) (List (Fin a.size → ℂ)))
    {ga gb : List ℝ} {names : List String} {u : String}
    (hg : cfg.grid = ⟨.ff2, [⟨ga, false⟩, ⟨gb, false⟩], names, [u, u]⟩) (hu : Unit2D u)
    (hx : ∀ v ∈ ga, ∀ w ∈ gb, InRange2D u (v, w))
    (hdist : ∀ (i i' j j' : ℕ) (v v' w w' : ℝ), ga[i]? = some v → ga[i']? = some v' → gb[j]? = some w → gb[j']? = some w' →
      dirCos u (v, w) = dirCos u (v', w') → i = i' ∧ j = j')
    (hamb : ∀ v ∈ ga, ∀ v' ∈ ga, ∀ w ∈ gb, ∀ w' ∈ gb, dx * |(dirCos u (v, w)).1 - (dirCos u (v', w')).1| < wl ∧
      dy * |(dirCos u (v, w)).2 - (dirCos u (v', w')).2| < wl)
    (hpf : cfg.peakFinder = findPeaksSimple) (hsort : IsArgsort cfg.argsort)
    (hcomp : cfg.compute = atomColumns2D a.toArrayDesign l wl u)
    (src : FF2D k) (hsu : src.unit = u) (ia ib : Fin k → ℕ) (ha : ∀ c, ga[ia c]? = some (src.loc c).1)
    (hb : ∀ c, gb[ib c]? = some (src.loc c).2) (hord : ∀ c e, c < e → ia c < ia e ∨ ia c = ia e ∧ ib c < ib e)
    (hk : 1 ≤ k) (hk1 : k < n1) (hk2 : k < n2)
    {P : Matrix (Fin k) (Fin k) ℂ} (hP : P.PosDef) (σ : ℝ)
    (ops : List (EstOp (WithTop ℝ) (List (Fin a.size → ℂ)))) :
    ∃ S, steering a.toArrayDesign (.ff2 src) wl false "all" = .ok S ∧
      ∃ o st', musicEstimate eigh cfg (cfg.run ops).1 (covModel (S.A l) P σ) k {} = (.ok o, st') ∧
        ∃ sp, o.observe st' = (true, some (some (List.ofFn fun c => [(src.loc c).1, (src.loc c).2], u)), sp) := by
  obtain ⟨hel, hkn, hus, hka, S, hS, hA, hident⟩ := ura_identified hd hdx hdy hwl haa l hu hdist hamb src hsu ia ib ha hb hord hk1 hk2
  exact ⟨S, hS, C43_music_2d eigh hel hkn hus l wl cfg hg hu hx hpf hsort hcomp src hsu ia ib ha hb hord hk hka hS hA hident hP σ ops⟩

/-- Grid points in the open upper hemisphere (elevation in `[0, 90°)`, azimuth in `(-180°, 180°]`) have different direction cosines, as
`C43_music_ura` asks. -/
theorem dirCos_inj {u : String} (hu : Unit2D u) {v w : ℝ × ℝ} (hv1 : -Real.pi < angleOf u v.1 ∧ angleOf u v.1 ≤ Real.pi)
    (hw1 : -Real.pi < angleOf u w.1 ∧ angleOf u w.1 ≤ Real.pi) (hv2 : 0 ≤ angleOf u v.2 ∧ angleOf u v.2 < Real.pi / 2)
    (hw2 : 0 ≤ angleOf u w.2 ∧ angleOf u w.2 < Real.pi / 2) (h : dirCos u v = dirCos u w) : v = w := by
  have hpi := Real.pi_pos
  have hinj : ∀ x y, angleOf u x = angleOf u y → x = y := by
    intro x y hxy
    rcases hu with rfl | rfl
    · simpa [angleOf] using hxy
    · simp only [angleOf, if_true] at hxy
      field_simp at hxy
      linarith
  have cv : 0 < Real.cos (angleOf u v.2) := Real.cos_pos_of_mem_Ioo ⟨by linarith [hv2.1], hv2.2⟩
  have cw : 0 < Real.cos (angleOf u w.2) := Real.cos_pos_of_mem_Ioo ⟨by linarith [hw2.1], hw2.2⟩
  have h1 := congrArg Prod.fst h
  have h2 := congrArg Prod.snd h
  simp only [dirCos] at h1 h2
  have hsq : Real.cos (angleOf u v.2) ^ 2 = Real.cos (angleOf u w.2) ^ 2 := by
    have e1 : (Real.cos (angleOf u v.2) * Real.cos (angleOf u v.1)) ^ 2 + (Real.cos (angleOf u v.2) * Real.sin (angleOf u v.1)) ^ 2 =
        Real.cos (angleOf u v.2) ^ 2 := by
      have := Real.sin_sq_add_cos_sq (angleOf u v.1)
      linear_combination Real.cos (angleOf u v.2) ^ 2 * this
    have e2 : (Real.cos (angleOf u w.2) * Real.cos (angleOf u w.1)) ^ 2 + (Real.cos (angleOf u w.2) * Real.sin (angleOf u w.1)) ^ 2 =
        Real.cos (angleOf u w.2) ^ 2 := by
      have := Real.sin_sq_add_cos_sq (angleOf u w.1)
      linear_combination Real.cos (angleOf u w.2) ^ 2 * this
    rw [← e1, ← e2, h1, h2]
  have hc : Real.cos (angleOf u v.2) = Real.cos (angleOf u w.2) := by
    nlinarith [sq_nonneg (Real.cos (angleOf u v.2) - Real.cos (angleOf u w.2)), sq_nonneg (Real.cos (angleOf u v.2) + Real.cos (angleOf u w.2))]
  have hel := Real.injOn_cos ⟨hv2.1, by linarith [hv2.2]⟩ ⟨hw2.1, by linarith [hw2.2]⟩ hc
  rw [hc] at h1 h2
  have k1 := mul_left_cancel₀ cw.ne' h1
  have k2 := mul_left_cancel₀ cw.ne' h2
  have haz : angleOf u v.1 = angleOf u w.1 := by
    have a1 := Complex.arg_cos_add_sin_mul_I (θ := angleOf u v.1) hv1
    have a2 := Complex.arg_cos_add_sin_mul_I (θ := angleOf u w.1) hw1
    rw [← a1, ← a2]
    rw [← Complex.ofReal_cos, ← Complex.ofReal_sin, ← Complex.ofReal_cos, ← Complex.ofReal_sin, k1, k2]
  exact Prod.ext (hinj _ _ haz) (hinj _ _ hel)

/-- The hypotheses hold for two sources and a 3 × 3 array with spacing of a quarter wavelength. -/
example (eigh : Eigh) : ∃ (a : GridArray) (S : Steering a.element.outputSize a.size 2) (i : Fin a.element.outputSize)
    (cfg : EstCfg (WithTop ℝ) (List (Fin a.size → ℂ))) (o : _) (st' : _),
    steering a.toArrayDesign (.ff2 ⟨![(0, 0), (1, 1)], "rad"⟩) 1 false "all" = .ok S ∧
    musicEstimate eigh cfg cfg.init (covModel (S.A i) 1 1) 2 {} = (.ok o, st') ∧
    ∃ sp, o.observe st' = (true, some (some ([[0, 0], [1, 1]], "rad")), sp) := by
  obtain ⟨a, ha⟩ : ∃ a, ura 3 3 (.scalar (1 / 4)) none {} = .ok a :=
    gridInit_ok_of (d := []) (by simp [GridArgsMatch, uraIndices]) rfl
  have hla : 0 < a.element.outputSize := by rw [(gridInit_spec ha).2.2.1]; decide
  have hpi := Real.pi_gt_three
  have hm : ∀ y ∈ ([0, 1] : List ℝ), 0 ≤ y ∧ y ≤ 1 := by
    intro y hy
    simp only [List.mem_cons, List.not_mem_nil, or_false] at hy
    rcases hy with rfl | rfl <;> norm_num
  have hrad : ∀ y, angleOf "rad" y = y := fun y => by simp [angleOf]
  have hcs : ∀ v, |(dirCos "rad" v).1| ≤ 1 ∧ |(dirCos "rad" v).2| ≤ 1 := by
    intro v
    simp only [dirCos, abs_mul]
    exact ⟨mul_le_one₀ (Real.abs_cos_le_one _) (abs_nonneg _) (Real.abs_cos_le_one _),
      mul_le_one₀ (Real.abs_cos_le_one _) (abs_nonneg _) (Real.abs_sin_le_one _)⟩
  have hdiff : ∀ s t : ℝ, |s| ≤ 1 → |t| ≤ 1 → (1 / 4 : ℝ) * |s - t| < 1 := by
    intro s t hs ht
    have := abs_sub s t
    linarith
  obtain ⟨S, hS, o, st', ho, sp, hsp⟩ := C43_music_ura (k := 2) eigh (dx := 1 / 4) (dy := 1 / 4) rfl (by norm_num) (by norm_num) one_pos ha ⟨0, hla⟩
    ⟨⟨.ff2, [⟨[0, 1], false⟩, ⟨[0, 1], false⟩], [], ["rad", "rad"]⟩, atomColumns2D a.toArrayDesign ⟨0, hla⟩ 1 "rad", findPeaksSimple,
      stableArgsort, true, false⟩ rfl (Or.inl rfl)
    (by
      intro v hv w hw
      have h1 := hm v hv
      have h2 := hm w hw
      exact Or.inl ⟨rfl, by show -Real.pi ≤ v; linarith, by show v ≤ Real.pi; linarith, by show -(Real.pi / 2) ≤ w; linarith, by show w ≤ Real.pi / 2; linarith⟩)
    (by
      intro i i' j j' v v' w w' h1 h2 h3 h4 h
      have m1 := hm v (List.mem_of_getElem? h1)
      have m2 := hm v' (List.mem_of_getElem? h2)
      have m3 := hm w (List.mem_of_getElem? h3)
      have m4 := hm w' (List.mem_of_getElem? h4)
      have he := dirCos_inj (Or.inl rfl) (v := (v, w)) (w := (v', w')) (by simp only [hrad]; constructor <;> linarith)
        (by simp only [hrad]; constructor <;> linarith) (by simp only [hrad]; constructor <;> linarith)
        (by simp only [hrad]; constructor <;> linarith) h
      have hnd : ([0, 1] : List ℝ).Nodup := by norm_num
      have key : ∀ (p q : ℕ) (y : ℝ), ([0, 1] : List ℝ)[p]? = some y → ([0, 1] : List ℝ)[q]? = some y → p = q := by
        intro p q y hp hq
        obtain ⟨hp1, hp2⟩ := List.getElem?_eq_some_iff.1 hp
        obtain ⟨hq1, hq2⟩ := List.getElem?_eq_some_iff.1 hq
        exact (List.Nodup.getElem_inj_iff hnd).1 (by rw [hp2, hq2])
      have e1 : v = v' := congrArg Prod.fst he
      have e2 : w = w' := congrArg Prod.snd he
      subst e1
      subst e2
      exact ⟨key _ _ _ h1 h2, key _ _ _ h3 h4⟩)
    (fun v _ v' _ w _ w' _ => ⟨hdiff _ _ (hcs _).1 (hcs _).1, hdiff _ _ (hcs _).2 (hcs _).2⟩)
    rfl stableArgsort_isArgsort rfl
    ⟨![(0, 0), (1, 1)], "rad"⟩ rfl ![0, 1] ![0, 1] (by intro c; fin_cases c <;> rfl) (by intro c; fin_cases c <;> rfl) (by decide)
    (by norm_num) (by norm_num) (by norm_num) PosDef.one 1 []
  refine ⟨a, S, ⟨0, hla⟩, _, o, st', hS, ho, sp, ?_⟩
  rw [hsp]
  simp [List.ofFn_succ]

end Doa.Props
