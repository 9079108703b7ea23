import Verif.Props.VirtualUla
import Verif.Props.Calibrated
import Verif.Props.SingleSource
import Verif.Props.CircularArrays

/-!
# C101: sparse linear arrays used directly
-/

namespace Doa.Props

open Doa Doa.Spec Matrix Complex
open scoped ComplexOrder

variable {k : ℕ}

/-- `N` neighbouring grid positions are all occupied by sensors. -/
def HasRun (l : List ℤ) (N : ℕ) : Prop := ∃ t : ℤ, ∀ i < N, t + (i : ℤ) ∈ l

/-- The steering matrix of an unperturbed linear grid array: integer powers of the phase factors. -/
theorem sparse_steering {a : GridArray} {l : List ℤ} {δ : ℝ} (h : LinearGrid a l δ) (hel : a.element = .isotropicScalar) (hp : a.perts = [])
    (s : FF1D k) (hs : Valid1D s) (wl : ℝ) [NeZero wl] :
    ∃ S, steering a.toArrayDesign (.ff1 s) wl false "all" = .ok S ∧
      ∀ j (i : Fin a.size) (hi : i.1 < l.length) c, S.A j i c = phaseFactor δ wl s.unit (s.loc c) ^ (l[i.1]'hi) := by
  have hω : ∀ L : Mat ℝ, L.ncols = 1 →
      (Sources.ff1 s).phaseDelay L wl false = .ok ⟨fun i c => (2 * Real.pi / wl * (s.dir c).1) * L.at0 i 0, []⟩ := by
    intro L hL
    refine (FF1D.phaseDelay_eq s L wl).trans ?_
    rw [if_pos (by omega)]
    congr 2
    ext i c
    rw [Mat.at0_of_ge L (i := i) (j := 1) (by omega)]; ring
  obtain ⟨S, hS, hA⟩ := linear_steering a.toArrayDesign hel hp h.1.2.1 (.ff1 s) wl _ hω
  refine ⟨S, hS, fun j i hi c => ?_⟩
  rw [hA, LinearGrid.at0 h i.1 hi, dir_sin s hs, phaseFactor, ← Complex.exp_int_mul]
  congr 1
  push_cast
  ring

theorem phaseFactor_ne (d wl : ℝ) (u : String) (x : ℝ) : phaseFactor d wl u x ≠ 0 := Complex.exp_ne_zero _

theorem phaseFactor_norm' (d wl : ℝ) (u : String) (x : ℝ) : ‖phaseFactor d wl u x‖ = 1 := by
  unfold phaseFactor
  rw [mul_comm, Complex.norm_exp_ofReal_mul_I]

theorem linear_usable {a : GridArray} {l : List ℤ} {δ : ℝ} (h : LinearGrid a l δ) (hp : a.perts = []) :
    (∀ p ∈ a.toArrayDesign.perturbations, p.isKnown = true) ∧ Usable a.toArrayDesign "all" [] := by
  have hp' : a.toArrayDesign.perts = [] := hp
  have hnc : a.locations.ncols = 1 := h.1.2.1
  refine ⟨?_, by simp [ArrayDesign.filterPerturbations, hp', PyDict.values], rfl, ?_, by simp⟩
  · intro p hpm
    rw [show a.toArrayDesign.perturbations = [] by simp [ArrayDesign.perturbations, hp', PyDict.values]] at hpm
    cases hpm
  · simp only [List.foldl_nil]
    omega

theorem sparse_response {a : GridArray} {l : List ℤ} {δ : ℝ} (h : LinearGrid a l δ) (hel : a.element = .isotropicScalar) (hp : a.perts = [])
    (wl : ℝ) [NeZero wl] (j : Fin a.element.outputSize) {u : String} (hu : Unit1D u) {v : ℝ} (hv : InRange1D u v) (i : Fin a.size)
    (hi : i.1 < l.length) : response a.toArrayDesign j wl u "all" v i = phaseFactor δ wl u v ^ (l[i.1]'hi) := by
  obtain ⟨S1, hS1, hSA1⟩ := sparse_steering h hel hp (⟨![v], u⟩ : FF1D 1) ⟨hu, fun c => by fin_cases c; exact hv⟩ wl
  unfold response
  rw [hS1]
  exact hSA1 j i hi 0

/-- A run of `N` sensors identifies fewer than `N` sources. -/
theorem run_identified {a : GridArray} {l : List ℤ} {δ wl : ℝ} (h : LinearGrid a l δ) (hel : a.element = .isotropicScalar) (hp : a.perts = [])
    (hδ : 0 < δ) (hwl : 0 < wl) {N : ℕ} (hrun : HasRun l N) (j : Fin a.element.outputSize)
    {x : List ℝ} {u : String} (hu : Unit1D u) (hx : ∀ v ∈ x, InRange1D u v) (hxd : x.Nodup)
    (hamb : ∀ v ∈ x, ∀ w ∈ x, δ * |Real.sin (angleOf u v) - Real.sin (angleOf u w)| < wl)
    (src : FF1D k) (hsu : src.unit = u) (idx : Fin k → ℕ) (hidx : ∀ c, x[idx c]? = some (src.loc c))
    (hsep : ∀ c e, c < e → idx c + 1 < idx e) (hk : k < N) :
    k < a.size ∧ ∃ S, steering a.toArrayDesign (.ff1 src) wl false "all" = .ok S ∧ Function.Injective (S.A j).mulVec ∧
      ∀ q v, x[q]? = some v → (∃ y, response a.toArrayDesign j wl u "all" v = S.A j *ᵥ y) → ∃ c, q = idx c := by
  have : NeZero wl := ⟨hwl.ne'⟩
  have hsx : ∀ c, src.loc c ∈ x := fun c => List.mem_of_getElem? (hidx c)
  have hs : Valid1D src := ⟨hsu ▸ hu, fun c => hsu ▸ hx _ (hsx c)⟩
  obtain ⟨t, ht⟩ := hrun
  have hrow : ∀ i : Fin N, ∃ r : ℕ, ∃ hr : r < l.length, l[r] = t + (i.1 : ℤ) := by
    intro i
    obtain ⟨r, hr, e⟩ := List.getElem_of_mem (ht i.1 i.2)
    exact ⟨r, hr, e⟩
  choose ρ hρ hρl using hrow
  have hsz : a.size = l.length := h.1.2.2
  obtain ⟨S, hS, hSA⟩ := sparse_steering h hel hp src hs wl
  have hinjx : ∀ {p q : ℕ} {v w : ℝ}, x[p]? = some v → x[q]? = some w → phaseFactor δ wl u v = phaseFactor δ wl u w → p = q := by
    intro p q v w hv hw hvw
    have e := phaseFactor_inj hδ hwl (hx _ (List.mem_of_getElem? hv)) (hx _ (List.mem_of_getElem? hw))
      (hamb _ (List.mem_of_getElem? hv) _ (List.mem_of_getElem? hw)) hvw
    obtain ⟨hj1, hj2⟩ := List.getElem?_eq_some_iff.1 hv
    obtain ⟨hc1, hc2⟩ := List.getElem?_eq_some_iff.1 hw
    exact (List.Nodup.getElem_inj_iff hxd).1 (by rw [hj2, hc2, e])
  obtain ⟨z, hz⟩ : ∃ z : Fin k → ℂ, z = fun c => phaseFactor δ wl u (src.loc c) := ⟨_, rfl⟩
  have hz0 : ∀ c, z c ≠ 0 := fun c => by rw [hz]; exact phaseFactor_ne _ _ _ _
  have hzi : Function.Injective z := by
    intro c e hce
    rw [hz] at hce
    have hi := hinjx (hidx c) (hidx e) hce
    rcases lt_trichotomy c e with h' | h' | h'
    · have := hsep c e h'; omega
    · exact h'
    · have := hsep e c h'; omega
  have hrows : ∀ (i : Fin N) (y : Fin k → ℂ), (S.A j *ᵥ y) ⟨ρ i, by rw [hsz]; exact hρ i⟩ = (ulaMat N z *ᵥ fun c => z c ^ t * y c) i := by
    intro i y
    simp only [mulVec, dotProduct]
    refine Finset.sum_congr rfl fun c _ => ?_
    rw [hSA j ⟨ρ i, by rw [hsz]; exact hρ i⟩ (hρ i) c, hρl i, hsu]
    simp only [hz, ulaMat]
    rw [zpow_add₀ (phaseFactor_ne _ _ _ _), zpow_natCast]
    ring
  have hcard : N ≤ a.size := by
    have hinj : Function.Injective fun i : Fin N => (⟨ρ i, by rw [hsz]; exact hρ i⟩ : Fin a.size) := by
      intro i i' hii
      have e : ρ i = ρ i' := congrArg Fin.val hii
      have : t + (i.1 : ℤ) = t + (i'.1 : ℤ) := by rw [← hρl i, ← hρl i']; simp only [e]
      exact Fin.ext (by omega)
    simpa using Fintype.card_le_of_injective _ hinj
  refine ⟨by omega, S, hS, ?_, ?_⟩
  · intro y y' hy
    change S.A j *ᵥ y = S.A j *ᵥ y' at hy
    have : (fun c => z c ^ t * y c) = fun c => z c ^ t * y' c :=
      ulaMat_injective hzi hk.le (funext fun i => by
        show (ulaMat N z *ᵥ _) i = (ulaMat N z *ᵥ _) i
        rw [← hrows, ← hrows, hy])
    funext c
    exact mul_left_cancel₀ (zpow_ne_zero _ (hz0 c)) (congrFun this c)
  · rintro q v hv ⟨y, hy⟩
    have hvx := List.mem_of_getElem? hv
    obtain ⟨ζ, hζ⟩ : ∃ ζ, ζ = phaseFactor δ wl u v := ⟨_, rfl⟩
    have hζ0 : ζ ^ t ≠ 0 := zpow_ne_zero _ (by rw [hζ]; exact phaseFactor_ne _ _ _ _)
    have hspan : ∃ y', ulaVec N ζ = ulaMat N z *ᵥ y' := by
      refine ⟨(ζ ^ t)⁻¹ • fun c => z c ^ t * y c, ?_⟩
      rw [mulVec_smul]
      funext i
      rw [Pi.smul_apply, ← hrows, ← hy, sparse_response h hel hp wl j hu (hx v hvx) _ (hρ i), hρl i, ← hζ, smul_eq_mul,
        zpow_add₀ (by rw [hζ]; exact phaseFactor_ne _ _ _ _), zpow_natCast, ulaVec]
      field_simp
    obtain ⟨c, hc⟩ := (ulaVec_mem_span hzi hk ζ).1 hspan
    rw [hζ, hz] at hc
    exact ⟨c, hinjx hv (hidx c) hc⟩

/-- **C101** (MUSIC). A linear grid array with spacing unit `δ` that has sensors on `N` neighbouring grid positions (the other sensors may be
anywhere), a search grid without grating lobes with respect to `δ`, fewer than `N` sources at interior, pairwise non-adjacent grid points, the
exact covariance of the whole array: MUSIC returns exactly the sources. -/
theorem C101_music (eigh : Eigh) {a : GridArray} {l : List ℤ} {δ wl : ℝ} (h : LinearGrid a l δ) (hel : a.element = .isotropicScalar)
    (hp : a.perts = []) (hδ : 0 < δ) (hwl : 0 < wl) {N : ℕ} (hrun : HasRun l N) (j : Fin a.element.outputSize)
    (cfg : EstCfg (WithTop ℝ) (List (Fin a.size → ℂ))) {x : List ℝ} {names : List String} {u : String}
    (hg : cfg.grid = ⟨.ff1, [⟨x, false⟩], names, [u]⟩) (hu : Unit1D u) (hx : ∀ v ∈ x, InRange1D u v) (hxd : x.Nodup)
    (hamb : ∀ v ∈ x, ∀ w ∈ x, δ * |Real.sin (angleOf u v) - Real.sin (angleOf u w)| < wl)
    (hpf : cfg.peakFinder = findPeaksSimple) (hsort : IsArgsort cfg.argsort)
    (hcomp : cfg.compute = atomColumns1D a.toArrayDesign j wl u)
    (src : FF1D k) (hsu : src.unit = u) (idx : Fin k → ℕ) (hidx : ∀ c, x[idx c]? = some (src.loc c))
    (hsep : ∀ c e, c < e → idx c + 1 < idx e) (h1 : ∀ c, 1 ≤ idx c)
    (h2 : ∀ c, idx c + 1 < x.length) (hk1 : 1 ≤ k) (hk : k < N)
    {P : Matrix (Fin k) (Fin k) ℂ} (hP : P.PosDef) (σ : ℝ)
    (ops : List (EstOp (WithTop ℝ) (List (Fin a.size → ℂ)))) :
    ∃ S, steering a.toArrayDesign (.ff1 src) wl false "all" = .ok S ∧
      ∃ o st', musicEstimate eigh cfg (cfg.run ops).1 (covModel (S.A j) P σ) k {} = (.ok o, st') ∧
        ∃ sp, o.observe st' = (true, some (some (List.ofFn fun c => [src.loc c], u)), sp) := by
  obtain ⟨hka, S, hS, hA, hident⟩ := run_identified h hel hp hδ hwl hrun j hu hx hxd hamb src hsu idx hidx hsep hk
  obtain ⟨hkn, hus⟩ := linear_usable h hp
  exact ⟨S, hS, C43_calibrated eigh hel hkn hus j wl cfg hg hu hx hpf hsort hcomp src hsu idx hidx hsep h1 h2 hk1 hka hS hA hident hP σ ops⟩

/-- **C101** (beamformers). Two sensors one spacing unit apart suffice for the Bartlett and the MVDR beamformer to return exactly the position
of a single source. -/
theorem C101_beamformers {a : GridArray} {l : List ℤ} {δ wl : ℝ} (h : LinearGrid a l δ) (hel : a.element = .isotropicScalar)
    (hp : a.perts = []) (hδ : 0 < δ) (hwl : 0 < wl) (hrun : HasRun l 2) (j : Fin a.element.outputSize)
    (cfg : EstCfg ℝ (List (Fin a.size → ℂ))) (cfg' : EstCfg (WithTop ℝ) (List (Fin a.size → ℂ)))
    {x : List ℝ} {names : List String} {u : String}
    (hg : cfg.grid = ⟨.ff1, [⟨x, false⟩], names, [u]⟩) (hg' : cfg'.grid = cfg.grid) (hu : Unit1D u) (hx : ∀ v ∈ x, InRange1D u v)
    (hxd : x.Nodup) (hamb : ∀ v ∈ x, ∀ w ∈ x, δ * |Real.sin (angleOf u v) - Real.sin (angleOf u w)| < wl)
    (hpf : cfg.peakFinder = findPeaksSimple) (hpf' : cfg'.peakFinder = findPeaksSimple)
    (hsort : IsArgsort cfg.argsort) (hsort' : IsArgsort cfg'.argsort)
    (hcomp : cfg.compute = atomColumns1D a.toArrayDesign j wl u) (hcomp' : cfg'.compute = atomColumns1D a.toArrayDesign j wl u)
    (src : FF1D 1) (hsu : src.unit = u) (j0 : ℕ) (hj : x[j0]? = some (src.loc 0)) (h1 : 1 ≤ j0) (h2 : j0 + 1 < x.length)
    {P : Matrix (Fin 1) (Fin 1) ℂ} (hP : P.PosDef) :
    ∃ S, steering a.toArrayDesign (.ff1 src) wl false "all" = .ok S ∧
    (∀ (σ : ℝ) (ops : List (EstOp ℝ (List (Fin a.size → ℂ)))),
      ∃ o st', bartlettEstimate cfg (cfg.run ops).1 (covModel (S.A j) P σ) 1 {} = (.ok o, st') ∧
        ∃ sp, o.observe st' = (true, some (some ([[src.loc 0]], u)), sp)) ∧
    ∀ (σ : ℝ) (_ : 0 < σ) (ops : List (EstOp (WithTop ℝ) (List (Fin a.size → ℂ)))),
      ∃ o st', mvdrEstimate cfg' (cfg'.run ops).1 (covModel (S.A j) P σ) 1 {} = (.ok o, st') ∧
        ∃ sp, o.observe st' = (true, some (some ([[src.loc 0]], u)), sp) := by
  have : NeZero wl := ⟨hwl.ne'⟩
  have hsx : src.loc 0 ∈ x := List.mem_of_getElem? hj
  obtain ⟨hka, S, hS, -, hident⟩ := run_identified h hel hp hδ hwl hrun j hu hx hxd hamb src hsu (fun _ => j0)
    (fun c => by fin_cases c; exact hj) (fun c e h => absurd h (fin_one_lt c e)) (by norm_num)
  obtain ⟨hkn, hus⟩ := linear_usable h hp
  have hsz : a.size = l.length := h.1.2.2
  have hcol : (S.A j).col 0 = response a.toArrayDesign j wl u "all" (src.loc 0) := by
    funext i
    rw [Matrix.col_apply, steering_columns hel j wl "all" src hS, hsu]
  have hpw : ∀ v ∈ x, power (response a.toArrayDesign j wl u "all" v) = a.size := by
    intro v hv
    have : ∀ i, ‖response a.toArrayDesign j wl u "all" v i‖ = 1 := fun i => by
      rw [sparse_response h hel hp wl j hu (hx v hv) i (by rw [← hsz]; exact i.2), norm_zpow, phaseFactor_norm', _root_.one_zpow]
    simp [power, this]
  refine ⟨S, hS, C77_one_dimensional hel hkn hus j wl cfg cfg' hg hg' hu hx hpf hpf' hsort hsort' hcomp hcomp' src hsu j0 hj h1 h2 hS
    (ne_zero_of_power (by omega) (hpw _ hsx)) (fun v hv => by rw [hpw v hv, hpw _ hsx]) (fun q v hv hq z hz => hq ?_) hP⟩
  obtain ⟨c, hc⟩ := hident q v hv ⟨fun _ => z, by rw [mulVec_one, hcol]; exact hz⟩
  exact hc

theorem col_inj {l l' : List ℤ} (h : Mat.col l = Mat.col l') : l = l' := by
  refine List.ext_getElem? fun i => ?_
  rw [← Mat.get?_col, ← Mat.get?_col, h]

theorem run_of_lag {l : List ℤ} (h : IsLag l 1) : HasRun l 2 := by
  obtain ⟨i, j, hij⟩ := h
  refine ⟨l[j], fun q hq => ?_⟩
  interval_cases q
  · simp
  · rw [show l[j] + ((1 : ℕ) : ℤ) = l[i] by push_cast; omega]
    exact List.getElem_mem _

/-- A linear grid array built without keyword arguments. -/
theorem linear_of_init {l : List ℤ} {x : ℝ} {name : Option String} {a : GridArray}
    (h : GridArray.init (Mat.col l) (.d0 (.scalar x)) name {} = .ok a) :
    LinearGrid a l x ∧ a.element = .isotropicScalar ∧ a.perts = [] := by
  obtain ⟨h1, -, h3⟩ := gridInit_col h
  obtain ⟨-, -, hel, g4, -⟩ := gridInit_spec h
  exact ⟨⟨h1, h3⟩, hel, (Except.ok.inj g4).symm⟩

/-- **C101** (nested arrays). The first `n1 + 1` sensors of `NestedArray(n1, n2)` are neighbours, so `C101_music` applies to up to `n1` sources. -/
theorem C101_nested (n1 n2 : ℕ) (hn2 : 1 ≤ n2) (x : ℝ) (name : Option String) (a : GridArray) (h : nested n1 n2 (.scalar x) name {} = .ok a) :
    ∃ l, LinearGrid a l x ∧ a.element = .isotropicScalar ∧ a.perts = [] ∧ HasRun l (n1 + 1) := by
  obtain ⟨h1, h2, h3⟩ := linear_of_init h
  refine ⟨_, h1, h2, h3, 0, fun i hi => ?_⟩
  rw [nestedIndices, List.mem_append]
  rcases Nat.lt_succ_iff_lt_or_eq.1 hi with hi | rfl
  · exact Or.inl (List.mem_map.2 ⟨i, List.mem_range.2 hi, by simp⟩)
  · exact Or.inr (List.mem_map.2 ⟨0, List.mem_range.2 (by omega), by simp⟩)

/-- **C101** (co-prime arrays). `CoPrimeArray(m, n, mode=...)` with `2 ≤ m ≤ n` has two sensors one spacing unit apart, in both modes, so a
single source is located. -/
theorem C101_coprime (m n : ℕ) (hm : 2 ≤ m) (hmn : m ≤ n) (x : ℝ) (mode : String) (name : Option String) (a : GridArray)
    (h : coprime m n (.scalar x) mode name {} = .ok a) :
    ∃ l, LinearGrid a l x ∧ a.element = .isotropicScalar ∧ a.perts = [] ∧ HasRun l 2 := by
  have h' := h
  unfold coprime at h'
  cases hc : coprimeIndices m n mode with
  | error e => rw [hc] at h'; cases h'
  | ok l =>
    rw [hc] at h'
    obtain ⟨h1, h2, h3⟩ := linear_of_init h'
    refine ⟨l, h1, h2, h3, run_of_lag ?_⟩
    have key : ∀ l', Is1DGrid a l' → IsLag l' 1 → IsLag l 1 := by
      intro l' hg hl
      rwa [col_inj (h1.1.1.symm.trans hg.1)]
    have hmn' : (4 : ℤ) ≤ (m : ℤ) * n := by
      have : 2 * 2 ≤ m * n := Nat.mul_le_mul hm (hm.trans hmn)
      exact_mod_cast this
    obtain ⟨-, ⟨h2, -⟩ | ⟨h2, -⟩⟩ := coprime_indices h
    · obtain ⟨l', hg, hlag, -⟩ := C04_central_2m m n (by omega) hmn x mode h2 name {} a h
      exact key l' hg (hlag 1 (by simp only [abs_one]; omega))
    · obtain ⟨l', hg, hlag, -⟩ := C04_central_m m n hm hmn x mode h2 name {} a h
      exact key l' hg (hlag 1 (by simp only [abs_one]; omega))

/-- **C101** (minimum redundancy arrays). `MinimumRedundancyLinearArray(n)` with `2 ≤ n ≤ 19` has two sensors one spacing unit apart. -/
theorem C101_mrla (n : ℤ) (hn : 2 ≤ n) (hn' : n ≤ 19) (x : ℝ) (name : Option String) (a : GridArray)
    (h : mrla n (.scalar x) name {} = .ok a) :
    ∃ l, LinearGrid a l x ∧ a.element = .isotropicScalar ∧ a.perts = [] ∧ HasRun l 2 := by
  obtain ⟨a', l', ha', hg, hsz, hnd, L, hb, hlag⟩ := C05_mrla_partial n (by omega) hn' x name
  have haa : a' = a := Except.ok.inj (ha'.symm.trans h)
  subst haa
  have h' := h
  unfold mrla at h'
  cases hc : mrlaIndices n with
  | error e => rw [hc] at h'; cases h'
  | ok l =>
    rw [hc] at h'
    obtain ⟨h1, h2, h3⟩ := linear_of_init h'
    have hl : l = l' := col_inj (h1.1.1.symm.trans hg.1)
    subst hl
    refine ⟨l, h1, h2, h3, run_of_lag ((hlag 1).2 ?_)⟩
    have hlen : 2 ≤ l.length := by
      have := hg.2.2
      omega
    have e0 := hb _ (List.getElem_mem (show 0 < l.length by omega))
    have e1 := hb _ (List.getElem_mem (show 1 < l.length by omega))
    have hne : l[0] ≠ l[1] := fun he => by
      have := (hnd.getElem_inj_iff).1 he
      omega
    rw [abs_one]
    omega

/-- The hypotheses of `C101_music` hold for `NestedArray(2, 2)` and two sources. -/
example (eigh : Eigh) : ∃ (a : GridArray) (S : Steering a.element.outputSize a.size 2) (i : Fin a.element.outputSize)
    (cfg : EstCfg (WithTop ℝ) (List (Fin a.size → ℂ))) (o : _) (st' : _),
    nested 2 2 (.scalar (1 / 2)) none {} = .ok a ∧
    steering a.toArrayDesign (.ff1 ⟨![-0.4, 0.5], "sin"⟩) 1 false "all" = .ok S ∧
    musicEstimate eigh cfg cfg.init (covModel (S.A i) 1 1) 2 {} = (.ok o, st') ∧
    ∃ sp, o.observe st' = (true, some (some ([[-0.4], [0.5]], "sin")), sp) := by
  obtain ⟨a, ha⟩ : ∃ a, nested 2 2 (.scalar (1 / 2)) none {} = .ok a := gridInit_ok_of (d := []) (by simp [GridArgsMatch]) rfl
  obtain ⟨l, h1, h2, h3, h4⟩ := C101_nested 2 2 (by norm_num) _ _ a ha
  have hla : 0 < a.element.outputSize := by rw [h2]; decide
  have hrg : ∀ y ∈ ([-0.8, -0.4, 0, 0.5, 0.8] : List ℝ), -0.8 ≤ y ∧ y ≤ 0.8 := by
    intro y hy
    simp only [List.mem_cons, List.not_mem_nil, or_false] at hy
    rcases hy with rfl | rfl | rfl | rfl | rfl <;> norm_num
  have hsin : ∀ y ∈ ([-0.8, -0.4, 0, 0.5, 0.8] : List ℝ), Real.sin (angleOf "sin" y) = y := by
    intro y hy
    have := hrg y hy
    simp only [angleOf, String.reduceEq, if_true, if_false]
    exact Real.sin_arcsin (by linarith) (by linarith)
  obtain ⟨S, hS, o, st', ho, sp, hsp⟩ := C101_music (k := 2) eigh h1 h2 h3 (by norm_num) one_pos h4 ⟨0, hla⟩
    ⟨⟨.ff1, [⟨[-0.8, -0.4, 0, 0.5, 0.8], false⟩], [], ["sin"]⟩, atomColumns1D a.toArrayDesign ⟨0, hla⟩ 1 "sin", findPeaksSimple,
      stableArgsort, true, false⟩ rfl (Or.inr (Or.inr rfl))
    (by
      intro v hv
      have := hrg v hv
      exact Or.inr (Or.inr ⟨rfl, by linarith, by linarith⟩))
    (by norm_num)
    (by
      intro v hv w hw
      rw [hsin v hv, hsin w hw]
      have := hrg v hv
      have := hrg w hw
      have : |v - w| ≤ 1.6 := abs_le.2 ⟨by linarith, by linarith⟩
      linarith)
    rfl stableArgsort_isArgsort rfl
    ⟨![-0.4, 0.5], "sin"⟩ rfl ![1, 3] (by intro c; fin_cases c <;> rfl) (by decide) (by decide) (by decide) (by norm_num) (by norm_num)
    PosDef.one 1 []
  refine ⟨a, S, ⟨0, hla⟩, _, o, st', ha, hS, ho, sp, ?_⟩
  rw [hsp]
  simp [List.ofFn_succ]

/-- The arrays of `C101_coprime` and `C101_mrla` exist. -/
example : (∃ a, coprime 3 5 (.scalar (1 / 2)) "2m" none {} = .ok a) ∧ ∃ a, mrla 4 (.scalar (1 / 2)) none {} = .ok a :=
  ⟨(C03_coprime_raises_iff 3 5 _ "2m" none).2.2 ⟨by decide, by right; decide +kernel⟩,
    by obtain ⟨a, -, h, -⟩ := C05_mrla_partial 4 (by norm_num) (by norm_num) (1 / 2) none; exact ⟨a, h⟩⟩

/-- **C101** (the run is needed). With `MinimumRedundancyLinearArray(3)` (sensors at 0, 1 and 3 half wavelengths: three sensors, but only two
neighbours), two sources at `sin θ = -2/3` and `2/3` give the same covariances as two sources at `0` and `2/3`: no estimator can tell these
source configurations apart, although there are fewer sources than sensors. -/
theorem C101_run_needed (wl : ℝ) (hwl : 0 < wl) (name : Option String) (a : GridArray) (h : mrla 3 (.scalar (wl / 2)) name {} = .ok a) :
    ∃ S S', steering a.toArrayDesign (.ff1 ⟨![-2 / 3, 2 / 3], "sin"⟩ : Sources 2) wl false "all" = .ok S ∧
      steering a.toArrayDesign (.ff1 ⟨![0, 2 / 3], "sin"⟩ : Sources 2) wl false "all" = .ok S' ∧
      ∀ j (P' : Matrix (Fin 2) (Fin 2) ℂ), P'.PosDef → ∃ P : Matrix (Fin 2) (Fin 2) ℂ, P.PosDef ∧
        ∀ σ, covModel (S.A j) P σ = covModel (S'.A j) P' σ := by
  have : NeZero wl := ⟨hwl.ne'⟩
  have h' : GridArray.init (Mat.col [0, 1, 3]) (.d0 (.scalar (wl / 2))) (some (name.getD ("MRLA " ++ toString (3 : ℤ)))) {} = .ok a := h
  obtain ⟨h1, h2, h3⟩ := linear_of_init h'
  have hsz : a.size = 3 := h1.1.2.2
  have hv : ∀ f : Fin 2 → ℝ, (∀ c, -1 ≤ f c ∧ f c ≤ 1) → Valid1D (⟨f, "sin"⟩ : FF1D 2) := fun f hf =>
    ⟨Or.inr (Or.inr rfl), fun c => Or.inr (Or.inr ⟨rfl, hf c⟩)⟩
  obtain ⟨S, hS, hA⟩ := sparse_steering h1 h2 h3 (⟨![-2 / 3, 2 / 3], "sin"⟩ : FF1D 2) (hv _ (by intro c; fin_cases c <;> norm_num)) wl
  obtain ⟨S', hS', hA'⟩ := sparse_steering h1 h2 h3 (⟨![0, 2 / 3], "sin"⟩ : FF1D 2) (hv _ (by intro c; fin_cases c <;> norm_num)) wl
  refine ⟨S, S', hS, hS', fun j P' hP' => ?_⟩
  obtain ⟨w, hw⟩ : ∃ w, w = phaseFactor (wl / 2) wl "sin" (2 / 3) := ⟨_, rfl⟩
  have hsin : ∀ y : ℝ, -1 ≤ y → y ≤ 1 → Real.sin (angleOf "sin" y) = y := fun y g1 g2 => by
    simp only [angleOf, String.reduceEq, if_true, if_false]
    exact Real.sin_arcsin g1 g2
  have hw0 : w ≠ 0 := by rw [hw]; exact phaseFactor_ne _ _ _ _
  have hwm : phaseFactor (wl / 2) wl "sin" (-2 / 3) = w⁻¹ := by
    rw [hw]
    simp only [phaseFactor]
    rw [← Complex.exp_neg, hsin _ (by norm_num) (by norm_num), hsin _ (by norm_num) (by norm_num)]
    congr 1
    push_cast
    ring
  have hw1 : phaseFactor (wl / 2) wl "sin" 0 = 1 := by
    simp only [phaseFactor]
    rw [hsin _ (by norm_num) (by norm_num)]
    simp
  have hang : w = Complex.exp (((2 * Real.pi / 3 : ℝ) : ℂ) * I) := by
    rw [hw]
    simp only [phaseFactor]
    rw [hsin _ (by norm_num) (by norm_num), mul_comm]
    congr 3
    field_simp
  have hsum : w ^ 2 + w + 1 = 0 := by
    have hc : Real.cos (2 * Real.pi / 3) = -1 / 2 := by
      rw [show 2 * Real.pi / 3 = Real.pi - Real.pi / 3 by ring, Real.cos_pi_sub, Real.cos_pi_div_three]; norm_num
    have hsq : Real.sin (2 * Real.pi / 3) ^ 2 = 3 / 4 := by
      have := Real.sin_sq_add_cos_sq (2 * Real.pi / 3)
      rw [hc] at this
      linarith
    have hsC : ((Real.sin (2 * Real.pi / 3) : ℝ) : ℂ) ^ 2 = 3 / 4 := by
      rw [← Complex.ofReal_pow, hsq]
      norm_num
    rw [hang, Complex.exp_mul_I, ← Complex.ofReal_cos, ← Complex.ofReal_sin, hc, show ((-1 / 2 : ℝ) : ℂ) = -1 / 2 by norm_num]
    linear_combination ((Real.sin (2 * Real.pi / 3) : ℝ) : ℂ) ^ 2 * Complex.I_sq - hsC
  have hcube : w ^ 3 = 1 := by linear_combination (w - 1) * hsum
  have hinv : w⁻¹ = w ^ 2 := by
    field_simp
    linear_combination -hcube
  obtain ⟨T, hT⟩ : ∃ T : Matrix (Fin 2) (Fin 2) ℂ, T = !![-w ^ 2, 0; -w, 1] := ⟨_, rfl⟩
  have hdet : T.det ≠ 0 := by
    rw [hT, det_fin_two_of]
    simpa using hw0
  have hAT : S'.A j = S.A j * T := by
    ext i c
    rw [Matrix.mul_apply, Fin.sum_univ_two]
    have hi : i.1 < 3 := by rw [← hsz]; exact i.2
    have hil : i.1 < ([0, 1, 3] : List ℤ).length := hi
    rw [hA' j i hil, hA j i hil, hA j i hil]
    have e : ∀ q (hq : q < ([0, 1, 3] : List ℤ).length), q = 0 ∧ ([0, 1, 3] : List ℤ)[q] = 0 ∨ q = 1 ∧ ([0, 1, 3] : List ℤ)[q] = 1 ∨
        q = 2 ∧ ([0, 1, 3] : List ℤ)[q] = 3 := by
      intro q hq
      have : q < 3 := hq
      interval_cases q <;> simp
    have hz3 : ∀ y : ℂ, y ^ (3 : ℤ) = y ^ 3 := fun y => by exact_mod_cast zpow_natCast y 3
    have hcc : ∀ c : Fin 2, c = 0 ∨ c = 1 := by decide
    rcases e i.1 hil with ⟨-, e⟩ | ⟨-, e⟩ | ⟨-, e⟩ <;> rw [e] <;> rcases hcc c with rfl | rfl <;>
      simp only [Matrix.cons_val_zero, Matrix.cons_val_one, hw1, hwm, ← hw, hT, Matrix.of_apply, Matrix.cons_val', zpow_zero, zpow_one, hz3,
        hinv, Matrix.cons_val_fin_one]
    · linear_combination hsum
    · ring
    · linear_combination hsum + w * hcube
    · ring
    · linear_combination hsum + (w ^ 5 + w ^ 2 + w) * hcube
    · ring
  refine ⟨T * P' * Tᴴ, ?_, fun σ => ?_⟩
  · exact hP'.mul_mul_conjTranspose_same (B := T) (vecMul_injective_of_isUnit ((isUnit_iff_isUnit_det T).2 (isUnit_iff_ne_zero.2 hdet)))
  · rw [hAT]
    simp only [covModel, conjTranspose_mul, Matrix.mul_assoc]

example : ∃ a, mrla 3 (.scalar (1 / 2)) none {} = .ok a := by
  obtain ⟨a, -, h, -⟩ := C05_mrla_partial 3 (by norm_num) (by norm_num) (1 / 2) none
  exact ⟨a, h⟩

end Doa.Props
