import Verif.Props.Subspace
import Verif.Props.Steering

/-!
# C43: subspace estimators on calibrated arrays (known and unknown perturbations)
-/

namespace Doa.Props

open Doa Doa.Spec Complex Matrix
open scoped ComplexOrder

variable {k : ℕ}

/-- The response of the array to one source at location `v` (unit `u`), with the perturbations selected by `mode`. -/
noncomputable def response (a : ArrayDesign) (l : Fin a.element.outputSize) (wl : ℝ) (u : String) (mode : String) (v : ℝ) : Fin a.size → ℂ :=
  fun i => entryOf (steering a (.ff1 (⟨![v], u⟩ : FF1D 1)) wl false mode) l i 0

/-- The steering matrix of several sources has the responses to the single sources as columns. -/
theorem steering_columns {a : ArrayDesign} (hel : a.element = .isotropicScalar) (l : Fin a.element.outputSize) (wl : ℝ) (mode : String)
    (s : FF1D k) {S : Steering a.element.outputSize a.size k} (h : steering a (.ff1 s) wl false mode = .ok S) (i : Fin a.size) (c : Fin k) :
    S.A l i c = response a l wl s.unit mode (s.loc c) i := by
  obtain ⟨ps, T, hrows, hps, hT, hsh, hA, hDA⟩ := steering_iso_inv hel h
  have := steering_wl h
  have hT1 : s.phaseDelay _ wl false = .ok T := hT
  rw [FF1D.phaseDelay_eq] at hT1
  split at hT1
  · rename_i hd
    cases hT1
    have h1 : (Sources.ff1 (⟨![s.loc c], s.unit⟩ : FF1D 1)).phaseDelay _ wl false = .ok _ :=
      (FF1D.phaseDelay_eq (⟨![s.loc c], s.unit⟩ : FF1D 1) _ wl).trans (if_pos hd)
    unfold response
    rw [steering_iso hel hps hrows h1 hsh, hA]
    simp only [entryOf, mul_apply]
    rfl
  · cases hT1

theorem atoms_entry (a : ArrayDesign) (l : Fin a.element.outputSize) (wl : ℝ) (u : String) (rows : List (List ℝ)) :
    atomColumns1D a l wl u rows = List.ofFn fun c i =>
      entryOf (steering a (.ff1 (⟨fun c : Fin rows.length => (rows.get c).headD 0, u⟩ : FF1D rows.length)) wl false "known") l i c := by
  unfold atomColumns1D
  generalize steering a (.ff1 (⟨fun c : Fin rows.length => (rows.get c).headD 0, u⟩ : FF1D rows.length)) wl false "known" = r
  cases r <;> rfl

/-- The atoms of the estimators are the responses with the known perturbations. -/
theorem atoms_eq {a : ArrayDesign} (hel : a.element = .isotropicScalar) (l : Fin a.element.outputSize) (wl : ℝ) [NeZero wl] (u : String)
    (rows : List (List ℝ)) {ps : List Perturbation} (hps : a.filterPerturbations "known" = .ok ps)
    (hrows : (ps.foldl (fun l p => p.perturbSensorLocations l) a.locations).nrows = a.size)
    (hdim : 1 ≤ (ps.foldl (fun l p => p.perturbSensorLocations l) a.locations).ncols ∧
      (ps.foldl (fun l p => p.perturbSensorLocations l) a.locations).ncols ≤ 3)
    (hsh : ∀ p ∈ ps, p.ShapeOk a.size) :
    atomColumns1D a l wl u rows = rows.map fun r => response a l wl u "known" (r.headD 0) := by
  have h1 : (Sources.ff1 (⟨fun c : Fin rows.length => (rows.get c).headD 0, u⟩ : FF1D rows.length)).phaseDelay _ wl false = .ok _ :=
    (FF1D.phaseDelay_eq _ _ wl).trans (if_pos hdim)
  have hS := steering_iso hel hps hrows h1 hsh
  rw [atoms_entry, hS]
  apply List.ext_getElem
  · simp
  · intro j h2 h3
    rw [List.getElem_ofFn, List.getElem_map]
    funext i
    exact steering_columns hel l wl "known" _ hS i ⟨j, by simpa using h3⟩

/-- The array has the perturbations `ps` of the mode, all of matching shape, and its actual locations have one to three coordinates. -/
structure Usable (a : ArrayDesign) (mode : String) (ps : List Perturbation) : Prop where
  selected : a.filterPerturbations mode = .ok ps
  rows : (ps.foldl (fun l p => p.perturbSensorLocations l) a.locations).nrows = a.size
  dim : 1 ≤ (ps.foldl (fun l p => p.perturbSensorLocations l) a.locations).ncols ∧
      (ps.foldl (fun l p => p.perturbSensorLocations l) a.locations).ncols ≤ 3
  shape : ∀ p ∈ ps, p.ShapeOk a.size

/-- Every reachable array (C09) with isotropic scalar elements and at most three coordinates is usable if its coupling matrices are square. -/
theorem usable_of {a : ArrayDesign} (hw : WellPerturbed a) (hel : a.element = .isotropicScalar) (hdim : 1 ≤ a.ndim ∧ a.ndim ≤ 3)
    (hloc : ∀ err kn, Perturbation.location err kn ∈ a.perturbations → err.ncols ≤ 3)
    (hC : ∀ C kn, Perturbation.coupling C kn ∈ a.perturbations → C.ncols = a.size) {mode : String} {ps : List Perturbation}
    (hps : a.filterPerturbations mode = .ok ps) : Usable a mode ps := by
  obtain ⟨h1, h2, _⟩ := hw
  have hsub := filter_subset hps
  have hfit : ∀ p ∈ ps, Fits a.locations.nrows a.element p := fun p hp => h2 p (hsub.subset hp)
  refine ⟨hps, foldl_locations_nrows _ _ a.element hfit, ?_, ?_⟩
  · have hf := foldl_locations ps a.locations (h1.sublist (hsub.map _))
    by_cases h : ∃ err kn, Perturbation.location err kn ∈ ps
    · obtain ⟨err, kn, hm⟩ := h
      rw [hf.1 err kn hm, perturbLocations_ncols]
      have := hloc err kn (hsub.subset hm)
      have hd : 1 ≤ a.locations.ncols ∧ a.locations.ncols ≤ 3 := hdim
      omega
    · push Not at h
      rw [hf.2 h]
      exact hdim
  · intro p hp
    have h3 := h2 p (hsub.subset hp)
    cases p with
    | base kn => trivial
    | location e kn => trivial
    | gain g kn => exact h3.2
    | phase g kn => exact h3.2
    | coupling C kn => exact ⟨h3.2, hC C kn (hsub.subset hp)⟩

/-- **C43** (calibrated arrays). MUSIC on any array with isotropic scalar elements and any perturbations, all of them declared
known: with the exact covariance of sources seen through all perturbations, on interior non-adjacent grid points, and no other
grid point whose perturbed response lies in the span of the sources, exactly the sources are returned. -/
theorem C43_calibrated (eigh : Eigh) {a : ArrayDesign} (hel : a.element = .isotropicScalar)
    (hknown : ∀ p ∈ a.perturbations, p.isKnown = true) {ps : List Perturbation} (hps : Usable a "all" ps)
    (l : Fin a.element.outputSize) (wl : ℝ) (cfg : EstCfg (WithTop ℝ) (List (Fin a.size → ℂ)))
    {x : List ℝ} {names : List String} {u : String}
    (hg : cfg.grid = ⟨.ff1, [⟨x, false⟩], names, [u]⟩) (hu : Unit1D u) (hx : ∀ v ∈ x, InRange1D u v)
    (hpf : cfg.peakFinder = findPeaksSimple) (hsort : IsArgsort cfg.argsort)
    (hcomp : cfg.compute = atomColumns1D a l wl u)
    (src : FF1D k) (hsu : src.unit = u) (idx : Fin k → ℕ) (hidx : ∀ c, x[idx c]? = some (src.loc c))
    (hsep : ∀ c e, c < e → idx c + 1 < idx e) (h1 : ∀ c, 1 ≤ idx c)
    (h2 : ∀ c, idx c + 1 < x.length) (hk : 1 ≤ k) (hka : k < a.size)
    {S : Steering a.element.outputSize a.size k} (hS : steering a (.ff1 src) wl false "all" = .ok S)
    (hA : Function.Injective (S.A l).mulVec)
    (hident : ∀ j v, x[j]? = some v → (∃ y, response a l wl u "all" v = S.A l *ᵥ y) → ∃ c, j = idx c)
    {P : Matrix (Fin k) (Fin k) ℂ} (hP : P.PosDef) (σ : ℝ)
    (ops : List (EstOp (WithTop ℝ) (List (Fin a.size → ℂ)))) :
    ∃ o st', musicEstimate eigh cfg (cfg.run ops).1 (covModel (S.A l) P σ) k {} = (.ok o, st') ∧
      ∃ sp, o.observe st' = (true, some (some (List.ofFn fun c => [src.loc c], u)), sp) := by
  have : NeZero wl := steering_wl hS
  have hfk : a.filterPerturbations "known" = a.filterPerturbations "all" := by
    have hv : ∀ p ∈ a.perts.values, p.isKnown = true := hknown
    simp only [ArrayDesign.filterPerturbations, String.reduceEq, if_true, if_false]
    rw [List.filter_eq_self.2 hv]
  have hst : ∀ {k' : ℕ} (s : FF1D k'), steering a (.ff1 s) wl false "known" = steering a (.ff1 s) wl false "all" := by
    intro k' s
    unfold steering
    rw [hfk]
  have hresp : ∀ v, response a l wl u "known" v = response a l wl u "all" v := fun v => by
    unfold response; rw [hst]
  have hgd : ∀ c, x.getD (idx c) 0 = src.loc c := fun c => by
    rw [List.getD_eq_getElem?_getD, hidx c]; rfl
  have key := C43_music_recovers eigh cfg hg hu hx hpf hsort (fun v => response a l wl u "all" v)
    (by
      intro rows _
      rw [hcomp, atoms_eq hel l wl u rows (hfk.trans hps.selected) hps.rows hps.dim hps.shape]
      simp only [hresp])
    idx hsep h1 h2 hk hka (S.A l)
    (by intro i c; rw [hgd, steering_columns hel l wl "all" src hS, hsu]) hA
    (by
      intro j hj hy
      have hxj : x[j]? = some (x.getD j 0) := by
        rw [List.getD_eq_getElem?_getD, List.getElem?_eq_getElem hj]; rfl
      exact hident j _ hxj hy) hP σ ops
  simp only [hgd] at key
  exact key

/-- **C43** (unknown perturbations). The atoms the estimators use depend only on the known perturbations: they are those of the
array from which the unknown ones have been removed. -/
theorem C43_unknown_ignored (a : ArrayDesign) (l : Fin a.element.outputSize) (wl : ℝ) (u : String) (rows : List (List ℝ)) :
    atomColumns1D a l wl u rows =
      List.ofFn fun c : Fin rows.length => fun i =>
        entryOf (steering { a with perts := a.perts.filter fun e => e.2.isKnown }
          (.ff1 (⟨fun c : Fin rows.length => (rows.get c).headD 0, u⟩ : FF1D rows.length)) wl false "all") l i c := by
  rw [atoms_entry, (C11_modes a (.ff1 (⟨fun c : Fin rows.length => (rows.get c).headD 0, u⟩ : FF1D rows.length)) wl false none).2.1]
  rfl

/-- The steering matrix of a uniform linear array with gain, phase and coupling errors. -/
theorem uniform_steering {a : ArrayDesign} (hel : a.element = .isotropicScalar) {mode : String} {ps : List Perturbation}
    (hps : Usable a mode ps) (hno : ∀ err kn, Perturbation.location err kn ∉ ps) {d : ℝ} (hnd : a.ndim = 1)
    (hloc : ∀ i, i < a.size → a.locations.at0 i 0 = (i : ℝ) * d) (s : FF1D k) (hs : Valid1D s) (wl : ℝ) [NeZero wl]
    (hkd : (ps.map Perturbation.kind).Nodup) :
    ∃ S, steering a (.ff1 s) wl false mode = .ok S ∧
      ∀ l, S.A l = totalFactor a.size ps * ulaMat a.size fun c => phaseFactor d wl s.unit (s.loc c) := by
  have h1 : (Sources.ff1 s).phaseDelay _ wl false = .ok _ := (FF1D.phaseDelay_eq _ _ wl).trans (if_pos hps.dim)
  refine ⟨_, steering_iso hel hps.selected hps.rows h1 hps.shape, fun l => ?_⟩
  have hL := (foldl_locations ps a.locations hkd).2 hno
  dsimp only
  congr 1
  ext i c
  have hloc' : (ps.foldl (fun l p => p.perturbSensorLocations l) a.locations).at0 i.1 0 = (i.1 : ℝ) * d := by rw [hL]; exact hloc i.1 i.2
  have hloc1 : (ps.foldl (fun l p => p.perturbSensorLocations l) a.locations).at0 i.1 1 = 0 := by
    rw [hL]; exact Mat.at0_of_ge a.locations (by have : a.locations.ncols = 1 := hnd; omega)
  simp only [ideal, ulaMat, phaseFactor, of_apply, Fin.val_cast, hloc', hloc1]
  rw [← Complex.exp_nat_mul, ← dir_sin s hs]
  congr 1
  push_cast
  ring

/-- The steering matrix of a calibrated uniform linear array without location errors, for sources on an unambiguous grid: it has full
column rank, and no other grid point has a response in the span of the sources' responses. -/
theorem uniform_identified {a : ArrayDesign} (hel : a.element = .isotropicScalar)
    (hps : Usable a "all" a.perturbations)
    (hkd : (a.perturbations.map Perturbation.kind).Nodup)
    (hno : ∀ err kn, Perturbation.location err kn ∉ a.perturbations) (hinv : IsUnit (totalFactor a.size a.perturbations))
    {d wl : ℝ} (hd : 0 < d) (hwl : 0 < wl) (hnd : a.ndim = 1) (hloc : ∀ i, i < a.size → a.locations.at0 i 0 = (i : ℝ) * d)
    (l : Fin a.element.outputSize) {x : List ℝ} {u : String} (hu : Unit1D u) (hx : ∀ v ∈ x, InRange1D u v) (hxd : x.Nodup)
    (hamb : ∀ v ∈ x, ∀ w ∈ x, d * |Real.sin (angleOf u v) - Real.sin (angleOf u w)| < wl)
    (src : FF1D k) (hsu : src.unit = u) (idx : Fin k → ℕ) (hidx : ∀ c, x[idx c]? = some (src.loc c))
    (hsep : ∀ c e, c < e → idx c + 1 < idx e) (hka : k < a.size) :
    ∃ S, steering a (.ff1 src) wl false "all" = .ok S ∧
      (S.A l = totalFactor a.size a.perturbations * ulaMat a.size fun c => phaseFactor d wl u (src.loc c)) ∧
      Function.Injective (S.A l).mulVec ∧
      ∀ j v, x[j]? = some v → (∃ y, response a l wl u "all" v = S.A l *ᵥ y) → ∃ c, j = idx c := by
  have : NeZero wl := ⟨hwl.ne'⟩
  have hsx : ∀ c, src.loc c ∈ x := fun c => List.mem_of_getElem? (hidx c)
  obtain ⟨S, hS, hSA⟩ := uniform_steering hel hps hno hnd hloc src ⟨hsu ▸ hu, fun c => hsu ▸ hx _ (hsx c)⟩ wl hkd
  have hSA' : S.A l = totalFactor a.size a.perturbations * ulaMat a.size fun c => phaseFactor d wl u (src.loc c) := by
    rw [hSA l, hsu]
  have hFinj : Function.Injective (totalFactor a.size a.perturbations).mulVec := mulVec_injective_of_isUnit hinv
  have hloci : Function.Injective src.loc := by
    intro c e h
    have h3 : idx c = idx e := by
      obtain ⟨hc1, hc2⟩ := List.getElem?_eq_some_iff.1 (hidx c)
      obtain ⟨he1, he2⟩ := List.getElem?_eq_some_iff.1 (hidx e)
      exact (List.Nodup.getElem_inj_iff hxd).1 (by rw [hc2, he2, h])
    rcases lt_trichotomy c e with h' | h' | h'
    · have := hsep c e h'; omega
    · exact h'
    · have := hsep e c h'; omega
  have hz : Function.Injective fun c => phaseFactor d wl u (src.loc c) := by
    intro c e h
    exact hloci (phaseFactor_inj hd hwl (hx _ (hsx c)) (hx _ (hsx e)) (hamb _ (hsx c) _ (hsx e)) h)
  have hA : Function.Injective (S.A l).mulVec := by
    intro y y' h
    simp only [hSA', ← mulVec_mulVec] at h
    exact ulaMat_injective hz hka.le (hFinj h)
  refine ⟨S, hS, hSA', hA, ?_⟩
  intro j v hv hy
  have hvx : v ∈ x := List.mem_of_getElem? hv
  obtain ⟨S1, hS1, hS1A⟩ := uniform_steering hel hps hno hnd hloc (⟨![v], u⟩ : FF1D 1) ⟨hu, fun c => by fin_cases c; exact hx v hvx⟩ wl hkd
  have hr : response a l wl u "all" v = totalFactor a.size a.perturbations *ᵥ ulaVec a.size (phaseFactor d wl u v) := by
    funext i
    unfold response
    rw [hS1]
    show S1.A l i 0 = _
    rw [hS1A l]
    rfl
  obtain ⟨y, hy⟩ := hy
  rw [hr, hSA', ← mulVec_mulVec] at hy
  have hy' := hFinj hy
  obtain ⟨c, hc⟩ := (ulaVec_mem_span hz hka _).1 ⟨y, hy'⟩
  refine ⟨c, ?_⟩
  have h3 := phaseFactor_inj hd hwl (hx _ hvx) (hx _ (hsx c)) (hamb _ hvx _ (hsx c)) hc
  obtain ⟨hj1, hj2⟩ := List.getElem?_eq_some_iff.1 hv
  obtain ⟨hc1, hc2⟩ := List.getElem?_eq_some_iff.1 (hidx c)
  exact (List.Nodup.getElem_inj_iff hxd).1 (by rw [hj2, hc2, h3])

/-- **C43** (calibrated ULA, end to end). A uniform linear array with known gain errors, phase errors and mutual coupling whose
product is invertible: MUSIC returns exactly the sources, as for the ideal array. -/
theorem C43_calibrated_ula (eigh : Eigh) {a : ArrayDesign} (hel : a.element = .isotropicScalar)
    (hknown : ∀ p ∈ a.perturbations, p.isKnown = true) (hps : Usable a "all" a.perturbations)
    (hkd : (a.perturbations.map Perturbation.kind).Nodup)
    (hno : ∀ err kn, Perturbation.location err kn ∉ a.perturbations) (hinv : IsUnit (totalFactor a.size a.perturbations))
    {d wl : ℝ} (hd : 0 < d) (hwl : 0 < wl) (hnd : a.ndim = 1) (hloc : ∀ i, i < a.size → a.locations.at0 i 0 = (i : ℝ) * d)
    (l : Fin a.element.outputSize) (cfg : EstCfg (WithTop ℝ) (List (Fin a.size → ℂ)))
    {x : List ℝ} {names : List String} {u : String}
    (hg : cfg.grid = ⟨.ff1, [⟨x, false⟩], names, [u]⟩) (hu : Unit1D u) (hx : ∀ v ∈ x, InRange1D u v) (hxd : x.Nodup)
    (hamb : ∀ v ∈ x, ∀ w ∈ x, d * |Real.sin (angleOf u v) - Real.sin (angleOf u w)| < wl)
    (hpf : cfg.peakFinder = findPeaksSimple) (hsort : IsArgsort cfg.argsort)
    (hcomp : cfg.compute = atomColumns1D a l wl u)
    (src : FF1D k) (hsu : src.unit = u) (idx : Fin k → ℕ) (hidx : ∀ c, x[idx c]? = some (src.loc c))
    (hsep : ∀ c e, c < e → idx c + 1 < idx e) (h1 : ∀ c, 1 ≤ idx c)
    (h2 : ∀ c, idx c + 1 < x.length) (hk : 1 ≤ k) (hka : k < a.size)
    {P : Matrix (Fin k) (Fin k) ℂ} (hP : P.PosDef) (σ : ℝ)
    (ops : List (EstOp (WithTop ℝ) (List (Fin a.size → ℂ)))) :
    ∃ S, steering a (.ff1 src) wl false "all" = .ok S ∧
      (S.A l = totalFactor a.size a.perturbations * ulaMat a.size fun c => phaseFactor d wl u (src.loc c)) ∧
      ∃ o st', musicEstimate eigh cfg (cfg.run ops).1 (covModel (S.A l) P σ) k {} = (.ok o, st') ∧
        ∃ sp, o.observe st' = (true, some (some (List.ofFn fun c => [src.loc c], u)), sp) := by
  obtain ⟨S, hS, hSA, hA, hident⟩ := uniform_identified hel hps hkd hno hinv hd hwl hnd hloc l hu hx hxd hamb src hsu idx hidx hsep hka
  exact ⟨S, hS, hSA, C43_calibrated eigh hel hknown hps l wl cfg hg hu hx hpf hsort hcomp src hsu idx hidx hsep h1 h2 hk hka hS hA hident hP σ ops⟩

/-- Three sensors at half a wavelength with known gain errors and known mutual coupling. -/
noncomputable def calibratedArray : ArrayDesign where
  locations := ⟨1, [![0], ![1 / 2], ![1]]⟩
  name := none
  element := .isotropicScalar
  perts := [(.gain, .gain [0.1, 0, -0.2] true), (.coupling, .coupling ⟨3, [![1, 0, 0], ![0.5, 1, 0], ![0, 0.5, 1]]⟩ true)]

/-- The array hypotheses of `C43_calibrated_ula` hold for `calibratedArray` (the hypotheses on grid and sources are those of `C43_music_ula`). -/
theorem calibratedArray_ok : Usable calibratedArray "all" calibratedArray.perturbations ∧ (∀ p ∈ calibratedArray.perturbations, p.isKnown = true) ∧
    (calibratedArray.perturbations.map Perturbation.kind).Nodup ∧
    (∀ err kn, Perturbation.location err kn ∉ calibratedArray.perturbations) ∧
    IsUnit (totalFactor calibratedArray.size calibratedArray.perturbations) ∧ calibratedArray.ndim = 1 ∧
    ∀ i, i < calibratedArray.size → calibratedArray.locations.at0 i 0 = (i : ℝ) * (1 / 2) := by
  have hps : calibratedArray.perturbations =
      [.gain [0.1, 0, -0.2] true, .coupling ⟨3, [![1, 0, 0], ![0.5, 1, 0], ![0, 0.5, 1]]⟩ true] := rfl
  have hsz : calibratedArray.size = 3 := rfl
  refine ⟨⟨rfl, rfl, ?_, ?_⟩, ?_, ?_, ?_, ?_, rfl, ?_⟩
  · exact ⟨le_refl 1, by decide⟩
  · intro p hp
    rw [hps] at hp
    simp only [List.mem_cons, List.not_mem_nil, or_false] at hp
    rcases hp with rfl | rfl
    · rfl
    · exact ⟨rfl, rfl⟩
  · intro p hp
    rw [hps] at hp
    simp only [List.mem_cons, List.not_mem_nil, or_false] at hp
    rcases hp with rfl | rfl <;> rfl
  · rw [hps]; decide
  · intro err kn h
    rw [hps] at h
    simp at h
  · have h3 : IsUnit (totalFactor 3 [.gain [0.1, 0, -0.2] true, .coupling ⟨3, [![1, 0, 0], ![0.5, 1, 0], ![0, 0.5, 1]]⟩ true]) := by
      have hC : (Matrix.of fun i j : Fin 3 => (⟨3, [![1, 0, 0], ![0.5, 1, 0], ![0, 0.5, 1]]⟩ : Mat ℂ).at0 i j) =
          Matrix.of ![![1, 0, 0], ![0.5, 1, 0], ![0, 0.5, 1]] := by
        ext i j
        fin_cases i <;> fin_cases j <;> rfl
      rw [Matrix.isUnit_iff_isUnit_det, isUnit_iff_ne_zero]
      simp only [totalFactor, List.foldl_cons, List.foldl_nil, factor, Matrix.mul_one]
      have hdet : (Matrix.of ![![1, 0, 0], ![0.5, 1, 0], ![0, 0.5, 1]] : Matrix (Fin 3) (Fin 3) ℂ).det = 1 := by
        simp [det_fin_three]
      rw [hC, det_mul, det_diagonal, hdet, Fin.prod_univ_three]
      norm_num
    exact h3
  · intro i hi
    rw [hsz] at hi
    interval_cases i
    · show (0 : ℝ) = _
      norm_num
    · show (1 / 2 : ℝ) = _
      norm_num
    · show (1 : ℝ) = _
      norm_num

example : Usable calibratedArray "all" calibratedArray.perturbations := calibratedArray_ok.1

end Doa.Props
