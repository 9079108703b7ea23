import Verif.Props.Uncalibrated

/-!
# C109, continued: wrong spacing, wrong wavelength, stretched arrays

Errors of the scale of a uniform linear array cannot be noticed either: all sines of directions are multiplied by one number.
-/

namespace Doa.Props

open Doa Doa.Spec Complex Matrix
open scoped ComplexOrder

variable {k : ℕ}

theorem phaseFactor_scale {d wl d' wl' : ℝ} {u u' : String} {x y : ℝ}
    (h : ∃ p : ℤ, d' / wl' * Real.sin (angleOf u' y) = d / wl * Real.sin (angleOf u x) + p) :
    phaseFactor d' wl' u' y = phaseFactor d wl u x := by
  obtain ⟨p, hp⟩ := h
  unfold phaseFactor
  rw [Complex.exp_eq_exp_iff_exists_int]
  refine ⟨p, ?_⟩
  have : 2 * Real.pi * d' / wl' * Real.sin (angleOf u' y) = 2 * Real.pi * d / wl * Real.sin (angleOf u x) + 2 * Real.pi * p := by
    linear_combination 2 * Real.pi * hp
  rw [this]
  push_cast
  ring

/-- **C109** (wrong spacing or wavelength). ESPRIT run with wavelength `λ'` and spacing `d'` on the exact covariance matrix of a ULA with spacing `d` at
wavelength `λ` returns exactly the directions `θ'` with `d' / λ' sin θ' = d / λ sin θ` (up to integers). -/
theorem C109_wrong_scale (eigh : Eigh) (ev : NpEigvals) {n : ℕ} {d wl d' wl' : ℝ} (hwl : 0 < wl) (hd' : 0 < d') (hwl' : 0 < wl')
    {name : Option String} {a : GridArray} (ha : ula n (.scalar d) name {} = .ok a)
    (l : Fin a.element.outputSize) (src src' : FF1D k) (hsrc : Valid1D src) (hsrc' : Valid1D src')
    (hrel : ∀ c, ∃ p : ℤ, d' / wl' * Real.sin (angleOf src'.unit (src'.loc c)) = d / wl * Real.sin (angleOf src.unit (src.loc c)) + p)
    (hinj : Function.Injective src'.loc) (disp : ℕ) (hdisp : 1 ≤ disp) (hk : k + disp ≤ n)
    (hamb : ∀ c, |2 * Real.pi * (d' * disp) / wl' * Real.sin (angleOf src'.unit (src'.loc c))| < Real.pi)
    (d0 : Option ℝ) (hd0 : d0 = some d' ∨ d0 = none ∧ d' = wl' / 2)
    (form : String) (hform : form = "ls" ∨ form = "tls") (rw : RowWeights)
    (hrw : rw = .str "none" ∨ n ≤ 2 * disp ∧
      (rw = .str "default" ∨ ∃ w, rw = .vec w ∧ w.length = n - disp ∧ ∀ x ∈ w, x ≠ 0))
    {P : Matrix (Fin k) (Fin k) ℂ} (hP : P.PosDef) (σ : ℝ) (unit : String) (hunit : Unit1D unit) :
    ∃ S, steering a.toArrayDesign (.ff1 src) wl false "all" = .ok S ∧
      ∃ s, espritEstimate eigh ev wl' (covModel (S.A l) P σ) k d0 disp form rw unit = .ok s ∧
        s.unit = unit ∧ Monotone s.loc ∧
        ∃ π : Equiv.Perm (Fin k), ∀ i, s.loc i = reprIn unit (angleOf src'.unit (src'.loc (π i))) := by
  have : NeZero wl := ⟨hwl.ne'⟩
  have : NeZero wl' := ⟨hwl'.ne'⟩
  obtain ⟨S, hS, hA⟩ := ula_steering ha src hsrc wl "all" (by simp)
  obtain ⟨a', ha'⟩ := ula_ok n d' none
  have hl' : 0 < a'.element.outputSize := by rw [(gridInit_spec ha').2.2.1]; decide
  obtain ⟨S', hS', s, h⟩ := C47_esprit_partial eigh ev hd' hwl' ha' ⟨0, hl'⟩ src' hsrc' hinj disp hdisp hk hamb d0 hd0 form hform rw hrw hP σ unit hunit
  obtain ⟨S1, hS1, hA'⟩ := ula_steering ha' src' hsrc' wl' "all" (by simp)
  obtain rfl : S1 = S' := Except.ok.inj (hS1.symm.trans hS')
  refine ⟨S, hS, s, ?_⟩
  have e1 : S.A l = ulaMat a.size fun c => phaseFactor d wl src.unit (src.loc c) := by
    ext i c; exact hA l i c
  have e2 : S1.A ⟨0, hl'⟩ = ulaMat a'.size fun c => phaseFactor d wl src.unit (src.loc c) := by
    ext i c
    rw [hA' _ i c, phaseFactor_scale (hrel c)]
    rfl
  rw [e2] at h
  rw [e1]
  have hsz : a'.toArrayDesign.size = a.toArrayDesign.size := (C01_ula_geometry n d' none {} a' ha').1.trans (C01_ula_geometry n d name {} a ha).1.symm
  revert h
  generalize a'.toArrayDesign.size = m1 at hsz
  subst hsz
  exact id

/-- The array whose sensors are `1 + ε` times as far apart as it says. -/
noncomputable def withStretch (a : ArrayDesign) (d ε : ℝ) (known : Bool) (name : Option String) : ArrayDesign :=
  { a with
    name := name
    perts := [(.location, .location ⟨1, (List.range a.size).map fun i : ℕ => ![i * (ε * d)]⟩ known)] }

/-- `withStretch` is what `get_perturbed_copy` returns for these location errors. -/
theorem withStretch_copy {a : ArrayDesign} (hp : a.perts = []) (d ε : ℝ) (known : Bool) (name : Option String) :
    a.perturbedCopy [.location ⟨1, (List.range a.size).map fun i : ℕ => ![i * (ε * d)]⟩ known] name =
      .ok (withStretch a d ε known (name.or a.name)) := by
  simp [ArrayDesign.perturbedCopy, hp, addPerturbations, addPerturbation, Perturbation.isApplicable, Perturbation.kind,
    PyDict.contains, PyDict.set, withStretch, ArrayDesign.perturbationFreeCopy, ArrayDesign.size, Mat.nrows]

/-- The steering matrix of a stretched ULA. -/
theorem withStretch_steering {a : ArrayDesign} (hel : a.element = .isotropicScalar) {d : ℝ} (hnd : a.ndim = 1)
    (hloc : ∀ i, i < a.size → a.locations.at0 i 0 = (i : ℝ) * d) (ε : ℝ) (known : Bool) (name : Option String)
    (s : FF1D k) (hs : Valid1D s) (wl : ℝ) [NeZero wl] :
    ∃ S : Steering a.element.outputSize a.size k, steering (withStretch a d ε known name) (.ff1 s) wl false "all" = .ok S ∧
      ∀ l i c, S.A l i c = phaseFactor ((1 + ε) * d) wl s.unit (s.loc c) ^ i.1 := by
  set err : Mat ℝ := ⟨1, (List.range a.size).map fun i : ℕ => ![i * (ε * d)]⟩ with herr
  have hrw : err.nrows = a.locations.nrows := by
    show ((List.range a.size).map fun i : ℕ => (![i * (ε * d)] : Fin 1 → ℝ)).length = a.size
    simp
  have hnc : a.locations.ncols = 1 := hnd
  have hrows : (perturbLocations err a.locations).nrows = a.size := perturbLocations_nrows err a.locations hrw
  have hcols : (perturbLocations err a.locations).ncols = 1 := by rw [perturbLocations_ncols, hnc]; rfl
  have h1 : (Sources.ff1 s).phaseDelay (perturbLocations err a.locations) wl false = .ok _ :=
    (FF1D.phaseDelay_eq _ _ wl).trans (if_pos ⟨by omega, by omega⟩)
  refine ⟨_, steering_iso (a := withStretch a d ε known name) (ps := [.location err known]) hel rfl hrows h1
    (by intro p hp; simp only [List.mem_cons, List.not_mem_nil, or_false] at hp; rcases hp with rfl; trivial), fun l i c => ?_⟩
  have hat : (perturbLocations err a.locations).at0 i.1 0 = i.1 * ((1 + ε) * d) := by
    rw [perturbLocations_at0 _ _ hrw i.1 0 i.2, hloc i.1 i.2]
    have : err.at0 i.1 0 = i.1 * (ε * d) := by
      have hi : i.1 < ((List.range a.size).map fun i : ℕ => (![i * (ε * d)] : Fin 1 → ℝ)).length := by simp
      rw [herr, Mat.at0_mk _ hi (by norm_num)]
      simp
    rw [this]
    ring
  have hat1 : (perturbLocations err a.locations).at0 i.1 1 = 0 := Mat.at0_of_ge _ (by omega)
  show (totalFactor a.size [.location err known] * ideal hrows _ : Matrix (Fin a.size) (Fin k) ℂ) i c = _
  rw [show totalFactor a.size [.location err known] = 1 by simp [totalFactor, factor], Matrix.one_mul]
  simp only [ideal, phaseFactor, Fin.val_cast, hat, hat1]
  rw [← Complex.exp_nat_mul, ← dir_sin s hs]
  congr 1
  push_cast
  ring

/-- **C109** (stretched arrays). If the sensors are `1 + ε` times as far apart as assumed, sources at `θ` produce exactly the steering matrix the assumed
array has for `θ'` with `sin θ' = (1 + ε) sin θ`. -/
theorem C109_stretch {n : ℕ} {d wl : ℝ} (hwl : 0 < wl) {name : Option String} {a : GridArray} (ha : ula n (.scalar d) name {} = .ok a)
    (ε : ℝ) (known : Bool) (nm : Option String) (src src' : FF1D k) (hsrc : Valid1D src) (hsrc' : Valid1D src')
    (hrel : ∀ c, Real.sin (angleOf src'.unit (src'.loc c)) = (1 + ε) * Real.sin (angleOf src.unit (src.loc c))) :
    ∃ S S' : Steering a.element.outputSize a.size k,
      steering (withStretch a.toArrayDesign d ε known nm) (.ff1 src) wl false "all" = .ok S ∧
      steering a.toArrayDesign (.ff1 src') wl false "all" = .ok S' ∧ ∀ l, S.A l = S'.A l := by
  have : NeZero wl := ⟨hwl.ne'⟩
  obtain ⟨h1, h2, h3⟩ := C01_ula_geometry n d name {} a ha
  have hel : a.element = .isotropicScalar := (gridInit_spec ha).2.2.1
  obtain ⟨S, hS, hA⟩ := withStretch_steering hel (d := d) h2 (fun i hi => by
    have h3' := h3 i (h1 ▸ hi)
    show ((a.locations.get? i 0).getD 0) = _
    rw [h3']; rfl) ε known nm src hsrc wl
  obtain ⟨S', hS', hA'⟩ := ula_steering ha src' hsrc' wl "all" (by simp)
  refine ⟨S, S', hS, hS', fun l => ?_⟩
  ext i c
  rw [hA, hA', phaseFactor_scale (d' := d) (wl' := wl) (d := (1 + ε) * d) (wl := wl) (x := src.loc c) ⟨0, by rw [hrel c]; push_cast; ring⟩]

/-- **C109** (stretched arrays, estimates). If the stretch is not declared known, the estimators that scan a grid use the atoms of the assumed array. -/
theorem C109_stretch_atoms {n : ℕ} {d wl : ℝ} {name : Option String} {a : GridArray} (ha : ula n (.scalar d) name {} = .ok a)
    (ε : ℝ) (nm : Option String) (l : Fin a.element.outputSize) (u : String) :
    atomColumns1D (withStretch a.toArrayDesign d ε false nm) l wl u = atomColumns1D a.toArrayDesign l wl u := by
  have hp : a.perts = [] := (Except.ok.inj (gridInit_spec ha).2.2.2.1).symm
  have e1 : (withStretch a.toArrayDesign d ε false nm).filterPerturbations "known" = .ok [] := by
    simp [ArrayDesign.filterPerturbations, withStretch, PyDict.values, Perturbation.isKnown]
  have e2 : a.toArrayDesign.filterPerturbations "known" = .ok [] := by
    have hp' : a.toArrayDesign.perts = [] := hp
    simp [ArrayDesign.filterPerturbations, hp', PyDict.values]
  exact atoms_same a.locations a.element nm a.name _ a.perts (e1.trans e2.symm) l wl u

/-- **C109** (stretched arrays, ESPRIT). With an unknown stretch of `1 + ε` ESPRIT returns exactly the `θ'`. -/
theorem C109_stretch_esprit (eigh : Eigh) (ev : NpEigvals) {n : ℕ} {d wl : ℝ} (hd : 0 < d) (hwl : 0 < wl)
    {name : Option String} {a : GridArray} (ha : ula n (.scalar d) name {} = .ok a)
    (ε : ℝ) (known : Bool) (nm : Option String) (src src' : FF1D k) (hsrc : Valid1D src) (hsrc' : Valid1D src')
    (hrel : ∀ c, Real.sin (angleOf src'.unit (src'.loc c)) = (1 + ε) * Real.sin (angleOf src.unit (src.loc c)))
    (l : Fin a.element.outputSize)
    (hinj : Function.Injective src'.loc) (disp : ℕ) (hdisp : 1 ≤ disp) (hk : k + disp ≤ n)
    (hamb : ∀ c, |2 * Real.pi * (d * disp) / wl * Real.sin (angleOf src'.unit (src'.loc c))| < Real.pi)
    (d0 : Option ℝ) (hd0 : d0 = some d ∨ d0 = none ∧ d = wl / 2)
    (form : String) (hform : form = "ls" ∨ form = "tls") (rw : RowWeights)
    (hrw : rw = .str "none" ∨ n ≤ 2 * disp ∧
      (rw = .str "default" ∨ ∃ w, rw = .vec w ∧ w.length = n - disp ∧ ∀ x ∈ w, x ≠ 0))
    {P : Matrix (Fin k) (Fin k) ℂ} (hP : P.PosDef) (σ : ℝ) (unit : String) (hunit : Unit1D unit) :
    ∃ S : Steering a.element.outputSize a.size k, steering (withStretch a.toArrayDesign d ε known nm) (.ff1 src) wl false "all" = .ok S ∧
      ∃ s, espritEstimate eigh ev wl (covModel (S.A l) P σ) k d0 disp form rw unit = .ok s ∧
        s.unit = unit ∧ Monotone s.loc ∧
        ∃ π : Equiv.Perm (Fin k), ∀ i, s.loc i = reprIn unit (angleOf src'.unit (src'.loc (π i))) := by
  obtain ⟨S, S', hS, hS', he⟩ := C109_stretch hwl ha ε known nm src src' hsrc hsrc' hrel
  obtain ⟨S1, hS1, h⟩ := C47_esprit_partial eigh ev hd hwl ha l src' hsrc' hinj disp hdisp hk hamb d0 hd0 form hform rw hrw hP σ unit hunit
  obtain rfl : S1 = S' := Except.ok.inj (hS1.symm.trans hS')
  exact ⟨S, hS, by rw [he]; exact h⟩

/-- Non-vacuity of `C109_wrong_scale`: data at wavelength 1.25 with sensors 0.5 apart, processed for wavelength 1 with the default spacing. Sources at
`sin θ = -0.5, 0.75` are returned as `sin θ = -0.4, 0.6`. -/
example : ∃ (a : GridArray) (l : Fin a.element.outputSize) (S : Steering a.element.outputSize a.size 2) (s : FF1D 2),
    ula 4 (.scalar (1 / 2)) none {} = .ok a ∧
    steering a.toArrayDesign (.ff1 ⟨![-0.5, 0.75], "sin"⟩) 1.25 false "all" = .ok S ∧
    espritEstimate someEigh someEigvals 1 (covModel (S.A l) 1 3) 2 none 1 "tls" (.str "none") "sin" = .ok s ∧ Monotone s.loc ∧
    ∀ i, s.loc i = -0.4 ∨ s.loc i = 0.6 := by
  obtain ⟨a, ha⟩ := ula_ok 4 (1 / 2) none
  have hel : a.element = .isotropicScalar := (gridInit_spec ha).2.2.1
  have hl : 0 < a.element.outputSize := by rw [hel]; decide
  have hpi := Real.pi_pos
  have hr : ∀ c, -1 ≤ (![-0.4, 0.6] : Fin 2 → ℝ) c ∧ (![-0.4, 0.6] : Fin 2 → ℝ) c ≤ 1 := by intro c; fin_cases c <;> norm_num
  have hr' : ∀ c, -1 ≤ (![-0.5, 0.75] : Fin 2 → ℝ) c ∧ (![-0.5, 0.75] : Fin 2 → ℝ) c ≤ 1 := by intro c; fin_cases c <;> norm_num
  obtain ⟨S, hS, s, h1, -, h2, π, h3⟩ := C109_wrong_scale someEigh someEigvals (d := 1 / 2) (wl := 1.25) (d' := 1 / 2) (wl' := 1)
    (by norm_num) (by norm_num) (by norm_num) ha ⟨0, hl⟩
    (⟨![-0.5, 0.75], "sin"⟩ : FF1D 2) ⟨![-0.4, 0.6], "sin"⟩
    ⟨Or.inr (Or.inr rfl), fun c => Or.inr (Or.inr ⟨rfl, hr' c⟩)⟩ ⟨Or.inr (Or.inr rfl), fun c => Or.inr (Or.inr ⟨rfl, hr c⟩)⟩
    (by
      intro c
      refine ⟨0, ?_⟩
      dsimp only
      rw [sin_angleOf_sin (hr c).1 (hr c).2, sin_angleOf_sin (hr' c).1 (hr' c).2]
      fin_cases c <;> norm_num)
    (by intro c e h; fin_cases c <;> fin_cases e <;> first | rfl | (norm_num at h)) 1 le_rfl (by norm_num)
    (by
      intro c
      dsimp only
      rw [sin_angleOf_sin (hr c).1 (hr c).2, abs_lt]
      fin_cases c
      · constructor <;> simp <;> nlinarith
      · constructor <;> simp <;> nlinarith)
    none (Or.inr ⟨rfl, by norm_num⟩) "tls" (Or.inr rfl) (.str "none") (Or.inl rfl) (P := 1) PosDef.one 3 "sin" (Or.inr (Or.inr rfl))
  refine ⟨a, ⟨0, hl⟩, S, s, ha, hS, h1, h2, fun i => ?_⟩
  rw [h3 i]
  generalize π i = c
  have : reprIn "sin" (angleOf "sin" ((![-0.4, 0.6] : Fin 2 → ℝ) c)) = (![-0.4, 0.6] : Fin 2 → ℝ) c := by
    have := sin_angleOf_sin (hr c).1 (hr c).2
    simpa [reprIn] using this
  rw [this]
  fin_cases c
  · exact Or.inl rfl
  · exact Or.inr rfl

/-- Non-vacuity of `C109_stretch_esprit`: sensors 20 % further apart than assumed; sources at `sin θ = -0.5, 0.5` are returned as `sin θ = -0.6, 0.6`. -/
example : ∃ (a : GridArray) (l : Fin a.element.outputSize) (S : Steering a.element.outputSize a.size 2) (s : FF1D 2),
    ula 4 (.scalar (1 / 2)) none {} = .ok a ∧
    steering (withStretch a.toArrayDesign (1 / 2) 0.2 false none) (.ff1 ⟨![-0.5, 0.5], "sin"⟩) 1 false "all" = .ok S ∧
    espritEstimate someEigh someEigvals 1 (covModel (S.A l) 1 3) 2 none 1 "tls" (.str "none") "sin" = .ok s ∧ Monotone s.loc ∧
    ∀ i, s.loc i = -0.6 ∨ s.loc i = 0.6 := by
  obtain ⟨a, ha⟩ := ula_ok 4 (1 / 2) none
  have hel : a.element = .isotropicScalar := (gridInit_spec ha).2.2.1
  have hl : 0 < a.element.outputSize := by rw [hel]; decide
  have hpi := Real.pi_pos
  have hr : ∀ c, -1 ≤ (![-0.6, 0.6] : Fin 2 → ℝ) c ∧ (![-0.6, 0.6] : Fin 2 → ℝ) c ≤ 1 := by intro c; fin_cases c <;> norm_num
  have hr' : ∀ c, -1 ≤ (![-0.5, 0.5] : Fin 2 → ℝ) c ∧ (![-0.5, 0.5] : Fin 2 → ℝ) c ≤ 1 := by intro c; fin_cases c <;> norm_num
  obtain ⟨S, hS, s, h1, -, h2, π, h3⟩ := C109_stretch_esprit someEigh someEigvals (d := 1 / 2) (wl := 1) (by norm_num) (by norm_num) ha
    0.2 false none (⟨![-0.5, 0.5], "sin"⟩ : FF1D 2) ⟨![-0.6, 0.6], "sin"⟩
    ⟨Or.inr (Or.inr rfl), fun c => Or.inr (Or.inr ⟨rfl, hr' c⟩)⟩ ⟨Or.inr (Or.inr rfl), fun c => Or.inr (Or.inr ⟨rfl, hr c⟩)⟩
    (by
      intro c
      dsimp only
      rw [sin_angleOf_sin (hr c).1 (hr c).2, sin_angleOf_sin (hr' c).1 (hr' c).2]
      fin_cases c <;> norm_num)
    ⟨0, hl⟩ (by intro c e h; fin_cases c <;> fin_cases e <;> first | rfl | (norm_num at h)) 1 le_rfl (by norm_num)
    (by
      intro c
      dsimp only
      rw [sin_angleOf_sin (hr c).1 (hr c).2, abs_lt]
      fin_cases c
      · constructor <;> simp <;> nlinarith
      · constructor <;> simp <;> nlinarith)
    none (Or.inr ⟨rfl, by norm_num⟩) "tls" (Or.inr rfl) (.str "none") (Or.inl rfl) (P := 1) PosDef.one 3 "sin" (Or.inr (Or.inr rfl))
  refine ⟨a, ⟨0, hl⟩, S, s, ha, hS, h1, h2, fun i => ?_⟩
  rw [h3 i]
  generalize π i = c
  have : reprIn "sin" (angleOf "sin" ((![-0.6, 0.6] : Fin 2 → ℝ) c)) = (![-0.6, 0.6] : Fin 2 → ℝ) c := by
    have := sin_angleOf_sin (hr c).1 (hr c).2
    simpa [reprIn] using this
  rw [this]
  fin_cases c
  · exact Or.inl rfl
  · exact Or.inr rfl

end Doa.Props
