import Verif.Props.Calibrated
import Verif.Props.Esprit
import Verif.Props.Coherent

/-!
# C109: calibration errors that cannot be noticed

An unknown phase error that grows by the same amount from sensor to sensor looks like different directions. No estimator can notice it, and all of them
return the wrong directions.
-/

namespace Doa.Props

open Doa Doa.Spec Complex Matrix
open scoped ComplexOrder

variable {k : ℕ}

/-- The array with the same gain error `g` at every sensor and phase error `φ₀ + i δ` at sensor `i`, declared known or unknown. -/
noncomputable def withRamp (a : ArrayDesign) (g φ₀ δ : ℝ) (known : Bool) (name : Option String) : ArrayDesign :=
  { a with
    name := name
    perts := [(.gain, .gain (List.replicate a.size g) known),
      (.phase, .phase ((List.range a.size).map fun i : ℕ => φ₀ + i * δ) known)] }

/-- `withRamp` is what `get_perturbed_copy` returns for these two perturbations. -/
theorem withRamp_copy {a : ArrayDesign} (hel : a.element.isScalar = true) (hp : a.perts = []) (g φ₀ δ : ℝ) (known : Bool) (name : Option String) :
    a.perturbedCopy [.gain (List.replicate a.size g) known, .phase ((List.range a.size).map fun i : ℕ => φ₀ + i * δ) known] name =
      .ok (withRamp a g φ₀ δ known (name.or a.name)) := by
  simp [ArrayDesign.perturbedCopy, hp, addPerturbations, addPerturbation, Perturbation.isApplicable, hel, Perturbation.kind,
    PyDict.contains, PyDict.set, withRamp, ArrayDesign.perturbationFreeCopy, ArrayDesign.size]

/-- The steering matrix of the array with a phase ramp. -/
theorem withRamp_steering {a : ArrayDesign} (hel : a.element = .isotropicScalar) {d : ℝ} (hnd : a.ndim = 1)
    (hloc : ∀ i, i < a.size → a.locations.at0 i 0 = (i : ℝ) * d) (g φ₀ δ : ℝ) (known : Bool) (name : Option String)
    (s : FF1D k) (hs : Valid1D s) (wl : ℝ) [NeZero wl] :
    ∃ S : Steering a.element.outputSize a.size k, steering (withRamp a g φ₀ δ known name) (.ff1 s) wl false "all" = .ok S ∧
      ∀ l i c, S.A l i c = (1 + (g : ℂ)) * Complex.exp (I * ((φ₀ + i.1 * δ : ℝ) : ℂ)) * phaseFactor d wl s.unit (s.loc c) ^ i.1 := by
  have hu : Usable (withRamp a g φ₀ δ known name) "all"
      [.gain (List.replicate a.size g) known, .phase ((List.range a.size).map fun i : ℕ => φ₀ + i * δ) known] := by
    refine ⟨rfl, rfl, ?_, ?_⟩
    · show 1 ≤ a.ndim ∧ a.ndim ≤ 3
      omega
    · intro p hp
      simp only [List.mem_cons, List.not_mem_nil, or_false] at hp
      rcases hp with rfl | rfl
      · exact List.length_replicate
      · show ((List.range a.size).map _).length = a.size
        simp
  obtain ⟨S, hS, hA⟩ := uniform_steering (a := withRamp a g φ₀ δ known name) hel hu (by simp) hnd hloc s hs wl (by simp [Perturbation.kind])
  refine ⟨S, hS, fun l i c => (congrFun (congrFun (hA l) i) c).trans ?_⟩
  rw [totalFactor_diagonal _ _ (by intro p hp; simp only [List.mem_cons, List.not_mem_nil, or_false] at hp; rcases hp with rfl | rfl <;> simp [Perturbation.kind])]
  have hi : i.1 < a.size := i.2
  refine (Matrix.diagonal_mul (m := Fin a.size) _ _ _ _).trans ?_
  simp only [List.map_cons, List.map_nil, List.prod_cons, List.prod_nil, mul_one, scalarFactor, List.getD_eq_getElem?_getD, ulaMat]
  rw [List.getElem?_eq_getElem (by simp), List.getElem?_eq_getElem (by simp)]
  simp

/-- The steering matrix of a ULA with arbitrary phase errors. -/
theorem phase_steering {a : ArrayDesign} (hel : a.element = .isotropicScalar) {d : ℝ} (hnd : a.ndim = 1)
    (hloc : ∀ i, i < a.size → a.locations.at0 i 0 = (i : ℝ) * d) (φ : List ℝ) (hφ : φ.length = a.size) (known : Bool)
    (s : FF1D k) (hs : Valid1D s) (wl : ℝ) [NeZero wl] :
    ∃ S : Steering a.element.outputSize a.size k, steering { a with perts := [(.phase, .phase φ known)] } (.ff1 s) wl false "all" = .ok S ∧
      ∀ l i c, S.A l i c = Complex.exp (I * ((φ[i.1]'(hφ.symm ▸ i.2) : ℝ) : ℂ)) * phaseFactor d wl s.unit (s.loc c) ^ i.1 := by
  have hu : Usable { a with perts := [(.phase, .phase φ known)] } "all" [.phase φ known] := by
    refine ⟨rfl, rfl, ?_, ?_⟩
    · show 1 ≤ a.ndim ∧ a.ndim ≤ 3
      omega
    · intro p hp
      simp only [List.mem_cons, List.not_mem_nil, or_false] at hp
      rcases hp with rfl
      exact hφ
  obtain ⟨S, hS, hA⟩ := uniform_steering (a := { a with perts := [(.phase, .phase φ known)] }) hel hu (by simp) hnd hloc s hs wl
    (by simp [Perturbation.kind])
  refine ⟨S, hS, fun l i c => (congrFun (congrFun (hA l) i) c).trans ?_⟩
  rw [totalFactor_diagonal _ _ (by intro p hp; simp only [List.mem_cons, List.not_mem_nil, or_false] at hp; rcases hp with rfl; simp [Perturbation.kind])]
  have hi : i.1 < φ.length := hφ.symm ▸ i.2
  refine (Matrix.diagonal_mul (m := Fin a.size) _ _ _ _).trans ?_
  simp only [List.map_cons, List.map_nil, List.prod_cons, List.prod_nil, mul_one, scalarFactor, List.getD_eq_getElem?_getD, ulaMat]
  rw [List.getElem?_eq_getElem hi]
  rfl

/-- The atoms depend on the locations, the element and the known perturbations only. -/
theorem atoms_same (L : Mat ℝ) (el : Element) (nm nm' : Option String) (ps ps' : PDict)
    (h : (⟨L, nm, el, ps⟩ : ArrayDesign).filterPerturbations "known" = (⟨L, nm', el, ps'⟩ : ArrayDesign).filterPerturbations "known")
    (l : Fin el.outputSize) (wl : ℝ) (u : String) :
    atomColumns1D ⟨L, nm, el, ps⟩ l wl u = atomColumns1D ⟨L, nm', el, ps'⟩ l wl u := by
  have hst : ∀ {k' : ℕ} (s : Sources k'),
      (steering ⟨L, nm, el, ps⟩ s wl false "known" : Res (Steering el.outputSize L.nrows k')) = steering ⟨L, nm', el, ps'⟩ s wl false "known" := by
    intro k' s
    unfold steering
    rw [h]
    cases (⟨L, nm', el, ps'⟩ : ArrayDesign).filterPerturbations "known" <;> rfl
  funext rows
  refine (atoms_entry ⟨L, nm, el, ps⟩ l wl u rows).trans (Eq.trans ?_ (atoms_entry ⟨L, nm', el, ps'⟩ l wl u rows).symm)
  congr 1
  funext c i
  exact congrArg (fun r : Res (Steering el.outputSize L.nrows rows.length) => entryOf r l i c)
    (hst (.ff1 ⟨fun c : Fin rows.length => (rows.get c).headD 0, u⟩))

/-- Directions that a phase ramp of `δ` per sensor makes look like one another. -/
theorem ramp_phaseFactor {d wl δ : ℝ} {u u' : String} {x y : ℝ}
    (h : ∃ p : ℤ, 2 * Real.pi * d / wl * (Real.sin (angleOf u' y) - Real.sin (angleOf u x)) = δ + 2 * Real.pi * p) :
    phaseFactor d wl u' y = Complex.exp (I * (δ : ℂ)) * phaseFactor d wl u x := by
  obtain ⟨p, hp⟩ := h
  unfold phaseFactor
  rw [← Complex.exp_add, Complex.exp_eq_exp_iff_exists_int]
  refine ⟨p, ?_⟩
  have : 2 * Real.pi * d / wl * Real.sin (angleOf u' y) = δ + 2 * Real.pi * d / wl * Real.sin (angleOf u x) + 2 * Real.pi * p := by linarith
  rw [this]
  push_cast
  ring

/-- **C109** (what the data look like). The same gain error `g` at every sensor and phase errors `φ₀ + i δ` turn sources at `θ` into sources of the
ideal array at any `θ'` with `2π d / λ (sin θ' - sin θ) = δ` (up to multiples of `2π`), up to one common factor; the covariance matrix is the one
the ideal array would see from sources at `θ'` that are `(1 + g)²` times as strong. -/
theorem C109_same_data {n : ℕ} {d wl : ℝ} (hwl : 0 < wl) {name : Option String} {a : GridArray} (ha : ula n (.scalar d) name {} = .ok a)
    (g φ₀ δ : ℝ) (known : Bool) (nm : Option String) (src src' : FF1D k) (hsrc : Valid1D src) (hsrc' : Valid1D src')
    (hrel : ∀ c, ∃ p : ℤ, 2 * Real.pi * d / wl * (Real.sin (angleOf src'.unit (src'.loc c)) - Real.sin (angleOf src.unit (src.loc c))) =
      δ + 2 * Real.pi * p) :
    ∃ S S' : Steering a.element.outputSize a.size k,
      steering (withRamp a.toArrayDesign g φ₀ δ known nm) (.ff1 src) wl false "all" = .ok S ∧
      steering a.toArrayDesign (.ff1 src') wl false "all" = .ok S' ∧
      (∀ l, S.A l = ((1 + (g : ℂ)) * Complex.exp (I * (φ₀ : ℂ))) • S'.A l) ∧
      ∀ l (P : Matrix (Fin k) (Fin k) ℂ) (σ : ℝ), covModel (S.A l) P σ = covModel (S'.A l) (((1 + g) ^ 2 : ℝ) • P) σ := by
  have : NeZero wl := ⟨hwl.ne'⟩
  obtain ⟨h1, h2, h3⟩ := C01_ula_geometry n d name {} a ha
  have hel : a.element = .isotropicScalar := (gridInit_spec ha).2.2.1
  obtain ⟨S, hS, hA⟩ := withRamp_steering hel (d := d) h2 (fun i hi => by
    have h3' := h3 i (h1 ▸ hi)
    show ((a.locations.get? i 0).getD 0) = _
    rw [h3']; rfl) g φ₀ δ known nm src hsrc wl
  obtain ⟨S', hS', hA'⟩ := ula_steering ha src' hsrc' wl "all" (by simp)
  have key : ∀ l, S.A l = ((1 + (g : ℂ)) * Complex.exp (I * (φ₀ : ℂ))) • S'.A l := by
    intro l
    ext i c
    rw [hA l i c, Matrix.smul_apply, hA' l i c, ramp_phaseFactor (hrel c), mul_pow, ← Complex.exp_nat_mul, smul_eq_mul]
    have : Complex.exp (I * ((φ₀ + i.1 * δ : ℝ) : ℂ)) = Complex.exp (I * (φ₀ : ℂ)) * Complex.exp (↑i.1 * (I * (δ : ℂ))) := by
      rw [← Complex.exp_add]
      congr 1
      push_cast
      ring
    rw [this]
    ring
  refine ⟨S, S', hS, hS', key, fun l P σ => ?_⟩
  rw [key l]
  unfold covModel
  congr 1
  rw [conjTranspose_smul, Matrix.smul_mul, Matrix.smul_mul, Matrix.mul_smul, smul_smul, Matrix.mul_smul, Matrix.smul_mul]
  have e : (1 + (g : ℂ)) * Complex.exp (I * (φ₀ : ℂ)) * star ((1 + (g : ℂ)) * Complex.exp (I * (φ₀ : ℂ))) = (((1 + g) ^ 2 : ℝ) : ℂ) := by
    rw [Complex.star_def, Complex.mul_conj', norm_mul, mul_comm I, Complex.norm_exp_ofReal_mul_I, mul_one]
    rw [show (1 + (g : ℂ)) = ((1 + g : ℝ) : ℂ) by push_cast; ring, Complex.norm_real, Real.norm_eq_abs, ← Complex.ofReal_pow, sq_abs]
  rw [e]
  ext i j
  simp

/-- **C109** (ESPRIT). With such errors ESPRIT returns, from the exact covariance matrix of sources at `θ`, exactly the directions `θ'`. -/
theorem C109_esprit (eigh : Eigh) (ev : NpEigvals) {n : ℕ} {d wl : ℝ} (hd : 0 < d) (hwl : 0 < wl)
    {name : Option String} {a : GridArray} (ha : ula n (.scalar d) name {} = .ok a)
    {g : ℝ} (hg : g ≠ -1) (φ₀ δ : ℝ) (known : Bool) (nm : Option String) (src src' : FF1D k) (hsrc : Valid1D src) (hsrc' : Valid1D src')
    (hrel : ∀ c, ∃ p : ℤ, 2 * Real.pi * d / wl * (Real.sin (angleOf src'.unit (src'.loc c)) - Real.sin (angleOf src.unit (src.loc c))) =
      δ + 2 * Real.pi * p)
    (l : Fin a.element.outputSize)
    (hinj : Function.Injective src'.loc) (disp : ℕ) (hdisp : 1 ≤ disp) (hk : k + disp ≤ n)
    (hamb : ∀ c, |2 * Real.pi * (d * disp) / wl * Real.sin (angleOf src'.unit (src'.loc c))| < Real.pi)
    (d0 : Option ℝ) (hd0 : d0 = some d ∨ d0 = none ∧ d = wl / 2)
    (form : String) (hform : form = "ls" ∨ form = "tls") (rw : RowWeights)
    (hrw : rw = .str "none" ∨ n ≤ 2 * disp ∧
      (rw = .str "default" ∨ ∃ w, rw = .vec w ∧ w.length = n - disp ∧ ∀ x ∈ w, x ≠ 0))
    {P : Matrix (Fin k) (Fin k) ℂ} (hP : P.PosDef) (σ : ℝ) (unit : String) (hunit : Unit1D unit) :
    ∃ S : Steering a.element.outputSize a.size k, steering (withRamp a.toArrayDesign g φ₀ δ known nm) (.ff1 src) wl false "all" = .ok S ∧
      ∃ s, espritEstimate eigh ev wl (covModel (S.A l) P σ) k d0 disp form rw unit = .ok s ∧
        s.unit = unit ∧ Monotone s.loc ∧
        ∃ π : Equiv.Perm (Fin k), ∀ i, s.loc i = reprIn unit (angleOf src'.unit (src'.loc (π i))) := by
  obtain ⟨S, S', hS, hS', -, hcov⟩ := C109_same_data hwl ha g φ₀ δ known nm src src' hsrc hsrc' hrel
  have hP' : (((1 + g) ^ 2 : ℝ) • P).PosDef := by
    have h0 : 0 < (1 + g) ^ 2 := by
      have : 1 + g ≠ 0 := fun h => hg (by linarith)
      positivity
    exact hP.smul h0
  obtain ⟨S1, hS1, h⟩ := C47_esprit_partial eigh ev hd hwl ha l src' hsrc' hinj disp hdisp hk hamb d0 hd0 form hform rw hrw hP' σ unit hunit
  rw [hS'] at hS1
  cases hS1
  refine ⟨S, hS, ?_⟩
  rw [hcov]
  exact h

/-- **C109** (MUSIC). The atoms MUSIC uses for the array with unknown errors are those of the ideal array, so on a grid that contains the `θ'` and no
other ambiguous point it returns exactly the `θ'`, from the exact covariance matrix of sources at `θ`. -/
theorem C109_music (eigh : Eigh) {n : ℕ} {d wl : ℝ} (hd : 0 < d) (hwl : 0 < wl)
    {name : Option String} {a : GridArray} (ha : ula n (.scalar d) name {} = .ok a)
    {g : ℝ} (hg1 : g ≠ -1) (φ₀ δ : ℝ) (nm : Option String) (src src' : FF1D k) (hsrc : Valid1D src) (hsrc' : Valid1D src')
    (hrel : ∀ c, ∃ p : ℤ, 2 * Real.pi * d / wl * (Real.sin (angleOf src'.unit (src'.loc c)) - Real.sin (angleOf src.unit (src.loc c))) =
      δ + 2 * Real.pi * p)
    (l : Fin a.element.outputSize) (cfg : EstCfg (WithTop ℝ) (List (Fin a.size → ℂ)))
    {x : List ℝ} {names : List String} {u : String}
    (hg : cfg.grid = ⟨.ff1, [⟨x, false⟩], names, [u]⟩) (hu : Unit1D u) (hx : ∀ v ∈ x, InRange1D u v)
    (hnd : x.Nodup)
    (hamb : ∀ v ∈ x, ∀ w ∈ x, d * |Real.sin (angleOf u v) - Real.sin (angleOf u w)| < wl)
    (hpf : cfg.peakFinder = findPeaksSimple) (hsort : IsArgsort cfg.argsort)
    (hcomp : cfg.compute = atomColumns1D (withRamp a.toArrayDesign g φ₀ δ false nm) l wl u)
    (hsu : src'.unit = u) (idx : Fin k → ℕ)
    (hidx : ∀ c, x[idx c]? = some (src'.loc c))
    (hsep : ∀ c e, c < e → idx c + 1 < idx e) (h1 : ∀ c, 1 ≤ idx c)
    (h2 : ∀ c, idx c + 1 < x.length) (hk : 1 ≤ k) (hkn : k < n)
    {P : Matrix (Fin k) (Fin k) ℂ} (hP : P.PosDef) (σ : ℝ)
    (ops : List (EstOp (WithTop ℝ) (List (Fin a.size → ℂ)))) :
    ∃ S : Steering a.element.outputSize a.size k, steering (withRamp a.toArrayDesign g φ₀ δ false nm) (.ff1 src) wl false "all" = .ok S ∧
      ∃ o st', musicEstimate eigh cfg (cfg.run ops).1 (covModel (S.A l) P σ) k {} = (.ok o, st') ∧
        ∃ sp, o.observe st' = (true, some (some (List.ofFn fun c => [src'.loc c], u)), sp) := by
  obtain ⟨S, S', hS, hS', -, hcov⟩ := C109_same_data hwl ha g φ₀ δ false nm src src' hsrc hsrc' hrel
  have hP' : (((1 + g) ^ 2 : ℝ) • P).PosDef := by
    have h0 : 0 < (1 + g) ^ 2 := by
      have : 1 + g ≠ 0 := fun h => hg1 (by linarith)
      positivity
    exact hP.smul h0
  have hat : atomColumns1D (withRamp a.toArrayDesign g φ₀ δ false nm) l wl u = atomColumns1D a.toArrayDesign l wl u := by
    have hp : a.perts = [] := (Except.ok.inj (gridInit_spec ha).2.2.2.1).symm
    have e1 : (withRamp a.toArrayDesign g φ₀ δ false nm).filterPerturbations "known" = .ok [] := by
      simp [ArrayDesign.filterPerturbations, withRamp, PyDict.values, Perturbation.isKnown]
    have e2 : a.toArrayDesign.filterPerturbations "known" = .ok [] := by
      have hp' : a.toArrayDesign.perts = [] := hp
      simp [ArrayDesign.filterPerturbations, hp', PyDict.values]
    exact atoms_same a.locations a.element nm a.name _ a.perts (e1.trans e2.symm) l wl u
  obtain ⟨S1, hS1, h⟩ := C43_music_ula eigh hd hwl ha l cfg hg hu hx hnd hamb hpf hsort (hcomp.trans hat) src' hsu idx hidx hsep h1 h2 hk hkn hP' σ ops
  rw [hS'] at hS1
  cases hS1
  refine ⟨S, hS, ?_⟩
  rw [hcov]
  exact h

/-- **C109** (nothing else goes unnoticed). If the covariance matrix a single source produces on a ULA with any phase errors `φ` is one the ideal ULA can
produce with a single source, then the phase errors are a ramp: `φ i = φ 0 + i δ` up to multiples of `2π`, with the `δ` by which the direction appears
shifted. -/
theorem C109_only_ramps {n : ℕ} {d wl : ℝ} (hwl : 0 < wl) {name : Option String} {a : GridArray} (ha : ula n (.scalar d) name {} = .ok a)
    (φ : List ℝ) (hφ : φ.length = a.size) (known : Bool) (src src' : FF1D 1) (hsrc : Valid1D src) (hsrc' : Valid1D src')
    (l : Fin a.element.outputSize) {P P' : Matrix (Fin 1) (Fin 1) ℂ} (hP : P.PosDef) (hP' : P'.PosDef) (σ σ' : ℝ)
    {S S' : Steering a.element.outputSize a.size 1}
    (hS : steering { a.toArrayDesign with perts := [(.phase, .phase φ known)] } (.ff1 src) wl false "all" = .ok S)
    (hS' : steering a.toArrayDesign (.ff1 src') wl false "all" = .ok S')
    (hcov : covModel (S.A l) P σ = covModel (S'.A l) P' σ') :
    ∀ i (hi : i < φ.length), ∃ p : ℤ, φ[i] = φ[0] +
      i * (2 * Real.pi * d / wl * (Real.sin (angleOf src'.unit (src'.loc 0)) - Real.sin (angleOf src.unit (src.loc 0)))) + 2 * Real.pi * p := by
  have : NeZero wl := ⟨hwl.ne'⟩
  obtain ⟨h1, h2, h3⟩ := C01_ula_geometry n d name {} a ha
  have hel : a.element = .isotropicScalar := (gridInit_spec ha).2.2.1
  obtain ⟨S1, hS1, hA⟩ := phase_steering hel h2 (d := d)
    (fun i hi => by
      have h3' := h3 i (h1 ▸ hi)
      show ((a.locations.get? i 0).getD 0) = _
      rw [h3']; rfl) φ hφ known src hsrc wl
  obtain rfl : S1 = S := Except.ok.inj (hS1.symm.trans hS)
  obtain ⟨S2, hS2, hA'⟩ := ula_steering ha src' hsrc' wl "all" (by simp)
  obtain rfl : S2 = S' := Except.ok.inj (hS2.symm.trans hS')
  intro i hi
  rcases Nat.eq_zero_or_pos i with rfl | hi0
  · exact ⟨0, by simp⟩
  have hpi := Real.pi_pos
  have hn : i < a.size := hφ ▸ hi
  have hent := congrFun (congrFun hcov ⟨i, hn⟩) ⟨0, by omega⟩
  have hne : (⟨i, hn⟩ : Fin a.size) ≠ ⟨0, by omega⟩ := by
    intro h; exact hi0.ne' (congrArg Fin.val h)
  simp only [covModel, Matrix.add_apply, Matrix.smul_apply, Matrix.one_apply_ne hne, smul_zero, add_zero, Matrix.mul_apply, Fin.sum_univ_one,
    conjTranspose_apply, Fin.isValue, hA, hA', pow_zero, mul_one, star_one] at hent
  have hp : 0 < P 0 0 := hP.diag_pos
  have hp' : 0 < P' 0 0 := hP'.diag_pos
  have hpp : P 0 0 = (((P 0 0).re : ℝ) : ℂ) := Complex.ext rfl (Complex.lt_def.1 hp).2.symm
  have hpp' : P' 0 0 = (((P' 0 0).re : ℝ) : ℂ) := Complex.ext rfl (Complex.lt_def.1 hp').2.symm
  have hpr : 0 < (P 0 0).re := (Complex.lt_def.1 hp).1
  have hpr' : 0 < (P' 0 0).re := (Complex.lt_def.1 hp').1
  generalize (P 0 0).re = p at hpp hpr
  generalize (P' 0 0).re = p' at hpp' hpr'
  rw [hpp, hpp'] at hent
  have hexp : ∀ x : ℝ, ‖Complex.exp (I * (x : ℂ))‖ = 1 := fun x => by rw [mul_comm, Complex.norm_exp_ofReal_mul_I]
  have hnorm := congrArg norm hent
  simp only [norm_mul, norm_pow, norm_star, hexp, phaseFactor_norm, one_pow, one_mul, mul_one, Complex.norm_real, Real.norm_eq_abs, abs_of_pos hpr,
    abs_of_pos hpr'] at hnorm
  subst hnorm
  have hent2 : Complex.exp (I * ((φ[i] : ℝ) : ℂ)) * phaseFactor d wl src.unit (src.loc 0) ^ i * star (Complex.exp (I * ((φ[0] : ℝ) : ℂ))) =
      phaseFactor d wl src'.unit (src'.loc 0) ^ i := by
    have hpc : (p : ℂ) ≠ 0 := by exact_mod_cast hpr.ne'
    apply mul_right_cancel₀ hpc
    rw [← hent]
    ring
  unfold phaseFactor at hent2
  rw [Complex.star_def, ← Complex.exp_conj, ← Complex.exp_nat_mul, ← Complex.exp_nat_mul, ← Complex.exp_add, ← Complex.exp_add, Complex.exp_eq_exp_iff_exists_int] at hent2
  obtain ⟨q, hq⟩ := hent2
  refine ⟨q, ?_⟩
  rw [map_mul, Complex.conj_I, Complex.conj_ofReal] at hq
  have hq2 : I * ((φ[i] + i * (2 * Real.pi * d / wl * Real.sin (angleOf src.unit (src.loc 0))) - φ[0] : ℝ) : ℂ) =
      I * ((i * (2 * Real.pi * d / wl * Real.sin (angleOf src'.unit (src'.loc 0))) + q * (2 * Real.pi) : ℝ) : ℂ) := by
    push_cast at hq ⊢
    linear_combination hq
  have hq3 := Complex.ofReal_inj.1 (mul_left_cancel₀ Complex.I_ne_zero hq2)
  linarith

/-- `sin` of a direction given as a sine. -/
theorem sin_angleOf_sin {x : ℝ} (h1 : -1 ≤ x) (h2 : x ≤ 1) : Real.sin (angleOf "sin" x) = x := by
  simp only [angleOf, String.reduceEq, if_false, if_true]
  exact Real.sin_arcsin h1 h2

/-- Non-vacuity of `C109_same_data` and `C109_esprit`: four sensors, sources at `sin θ = -0.6, 0.2`, 10 % gain error and a phase error of `π / 5` per
sensor. ESPRIT returns two directions, and each is one of those with `sin θ = -0.4, 0.4`. -/
example : ∃ (a : GridArray) (l : Fin a.element.outputSize) (S : Steering a.element.outputSize a.size 2) (s : FF1D 2),
    ula 4 (.scalar (1 / 2)) none {} = .ok a ∧
    steering (withRamp a.toArrayDesign 0.1 1 (Real.pi / 5) false none) (.ff1 ⟨![-0.6, 0.2], "sin"⟩) 1 false "all" = .ok S ∧
    espritEstimate someEigh someEigvals 1 (covModel (S.A l) 1 3) 2 none 1 "tls" (.str "none") "sin" = .ok s ∧ Monotone s.loc ∧
    ∀ i, s.loc i = -0.4 ∨ s.loc i = 0.4 := by
  obtain ⟨a, ha⟩ := ula_ok 4 (1 / 2) none
  have hel : a.element = .isotropicScalar := (gridInit_spec ha).2.2.1
  have hl : 0 < a.element.outputSize := by rw [hel]; decide
  have hpi := Real.pi_pos
  have hr : ∀ c, -1 ≤ (![-0.4, 0.4] : Fin 2 → ℝ) c ∧ (![-0.4, 0.4] : Fin 2 → ℝ) c ≤ 1 := by intro c; fin_cases c <;> norm_num
  have hr' : ∀ c, -1 ≤ (![-0.6, 0.2] : Fin 2 → ℝ) c ∧ (![-0.6, 0.2] : Fin 2 → ℝ) c ≤ 1 := by intro c; fin_cases c <;> norm_num
  obtain ⟨S, hS, s, h1, -, h2, π, h3⟩ := C109_esprit someEigh someEigvals (d := 1 / 2) (wl := 1) (by norm_num) (by norm_num) ha
    (g := 0.1) (by norm_num) 1 (Real.pi / 5) false none (⟨![-0.6, 0.2], "sin"⟩ : FF1D 2) ⟨![-0.4, 0.4], "sin"⟩
    ⟨Or.inr (Or.inr rfl), fun c => Or.inr (Or.inr ⟨rfl, hr' c⟩)⟩ ⟨Or.inr (Or.inr rfl), fun c => Or.inr (Or.inr ⟨rfl, hr c⟩)⟩
    (by
      intro c
      refine ⟨0, ?_⟩
      dsimp only
      rw [sin_angleOf_sin (hr c).1 (hr c).2, sin_angleOf_sin (hr' c).1 (hr' c).2]
      fin_cases c <;> simp <;> ring)
    ⟨0, hl⟩ (by intro c e h; fin_cases c <;> fin_cases e <;> first | rfl | (norm_num at h)) 1 le_rfl (by norm_num)
    (by
      intro c
      dsimp only
      rw [sin_angleOf_sin (hr c).1 (hr c).2, abs_lt]
      fin_cases c
      · constructor <;> simp <;> nlinarith
      · constructor <;> simp <;> nlinarith)
    none (Or.inr ⟨rfl, by norm_num⟩) "tls" (Or.inr rfl) (.str "none") (Or.inl rfl) (P := 1) PosDef.one 3 "sin" (Or.inr (Or.inr rfl))
  refine ⟨a, ⟨0, hl⟩, S, s, ha, hS, h1, h2, fun i => ?_⟩
  rw [h3 i]
  generalize π i = c
  have : reprIn "sin" (angleOf "sin" ((![-0.4, 0.4] : Fin 2 → ℝ) c)) = (![-0.4, 0.4] : Fin 2 → ℝ) c := by
    have := sin_angleOf_sin (hr c).1 (hr c).2
    simpa [reprIn] using this
  rw [this]
  fin_cases c
  · exact Or.inl rfl
  · exact Or.inr rfl

/-- Non-vacuity of `C109_music`: three sensors, sources at `sin θ = -0.6, 0.2`, an unknown phase error of `π / 5` per sensor. MUSIC returns
`sin θ = -0.4, 0.4`. -/
example : ∃ (a : GridArray) (S : Steering a.element.outputSize a.size 2)
    (cfg : EstCfg (WithTop ℝ) (List (Fin a.size → ℂ))) (l : Fin a.element.outputSize) (o : _) (st' : _),
    ula 3 (.scalar (1 / 2)) none {} = .ok a ∧
    steering (withRamp a.toArrayDesign 0 0 (Real.pi / 5) false none) (.ff1 ⟨![-0.6, 0.2], "sin"⟩) 1 false "all" = .ok S ∧
    cfg.compute = atomColumns1D (withRamp a.toArrayDesign 0 0 (Real.pi / 5) false none) l 1 "sin" ∧
    musicEstimate someEigh cfg cfg.init (covModel (S.A l) 1 1) 2 {} = (.ok o, st') ∧
    ∃ sp, o.observe st' = (true, some (some ([[-0.4], [0.4]], "sin")), sp) := by
  obtain ⟨a, ha⟩ := ula_ok 3 (1 / 2) none
  have hel : a.element = .isotropicScalar := (gridInit_spec ha).2.2.1
  have hl : 0 < a.element.outputSize := by rw [hel]; decide
  let cfg : EstCfg (WithTop ℝ) (List (Fin a.size → ℂ)) :=
    ⟨⟨.ff1, [⟨[-0.8, -0.4, 0, 0.4, 0.8], false⟩], [], ["sin"]⟩,
      atomColumns1D (withRamp a.toArrayDesign 0 0 (Real.pi / 5) false none) ⟨0, hl⟩ 1 "sin", findPeaksSimple, stableArgsort, true, false⟩
  have hr : ∀ v ∈ ([-0.8, -0.4, 0, 0.4, 0.8] : List ℝ), -0.8 ≤ v ∧ v ≤ 0.8 := by
    intro v hv
    simp only [List.mem_cons, List.not_mem_nil, or_false] at hv
    rcases hv with rfl | rfl | rfl | rfl | rfl <;> norm_num
  have hs : ∀ v ∈ ([-0.8, -0.4, 0, 0.4, 0.8] : List ℝ), Real.sin (angleOf "sin" v) = v := fun v hv =>
    sin_angleOf_sin (by linarith [(hr v hv).1]) (by linarith [(hr v hv).2])
  have hr1 : ∀ c, -1 ≤ (![-0.4, 0.4] : Fin 2 → ℝ) c ∧ (![-0.4, 0.4] : Fin 2 → ℝ) c ≤ 1 := by intro c; fin_cases c <;> norm_num
  have hr' : ∀ c, -1 ≤ (![-0.6, 0.2] : Fin 2 → ℝ) c ∧ (![-0.6, 0.2] : Fin 2 → ℝ) c ≤ 1 := by intro c; fin_cases c <;> norm_num
  obtain ⟨S, hS, o, st', h1, sp, h2⟩ := C109_music (k := 2) someEigh (d := 1 / 2) (wl := 1) (by norm_num)
    (by norm_num) ha (g := 0) (by norm_num) 0 (Real.pi / 5) none ⟨![-0.6, 0.2], "sin"⟩ ⟨![-0.4, 0.4], "sin"⟩
    ⟨Or.inr (Or.inr rfl), fun c => Or.inr (Or.inr ⟨rfl, hr' c⟩)⟩ ⟨Or.inr (Or.inr rfl), fun c => Or.inr (Or.inr ⟨rfl, hr1 c⟩)⟩
    (by
      intro c
      refine ⟨0, ?_⟩
      dsimp only
      rw [sin_angleOf_sin (hr1 c).1 (hr1 c).2, sin_angleOf_sin (hr' c).1 (hr' c).2]
      fin_cases c <;> simp <;> ring)
    ⟨0, hl⟩ cfg (x := [-0.8, -0.4, 0, 0.4, 0.8]) rfl (Or.inr (Or.inr rfl))
    (fun v hv => Or.inr (Or.inr ⟨rfl, by linarith [(hr v hv).1], by linarith [(hr v hv).2]⟩))
    (by norm_num)
    (by
      intro v hv w hw
      rw [hs v hv, hs w hw]
      have h1 := hr v hv
      have h2 := hr w hw
      have : |v - w| ≤ 1.6 := by rw [abs_le]; constructor <;> linarith [h1.1, h1.2, h2.1, h2.2]
      linarith)
    rfl stableArgsort_isArgsort rfl rfl ![1, 3]
    (by intro c; fin_cases c <;> rfl)
    (by intro c e h; fin_cases c <;> fin_cases e <;> simp_all)
    (by intro c; fin_cases c <;> simp) (by intro c; fin_cases c <;> simp) (by norm_num) (by norm_num)
    (P := 1) PosDef.one 1 []
  exact ⟨a, S, cfg, ⟨0, hl⟩, o, st', ha, hS, rfl, h1, sp, by rw [h2]; simp⟩

/-- Non-vacuity of `C109_only_ramps`: three sensors, a source at broadside seen with phase errors `0, π / 2, π`, and one at `sin θ = 0.5` seen without
errors, have the same covariance matrix. -/
example : ∃ (a : GridArray) (l : Fin a.element.outputSize) (S S' : Steering a.element.outputSize a.size 1),
    ula 3 (.scalar (1 / 2)) none {} = .ok a ∧ [0, Real.pi / 2, Real.pi].length = a.size ∧
    steering { a.toArrayDesign with perts := [(.phase, .phase [0, Real.pi / 2, Real.pi] false)] } (.ff1 ⟨![0], "sin"⟩) 1 false "all" = .ok S ∧
    steering a.toArrayDesign (.ff1 ⟨![0.5], "sin"⟩) 1 false "all" = .ok S' ∧
    covModel (S.A l) 1 2 = covModel (S'.A l) 1 2 := by
  obtain ⟨a, ha⟩ := ula_ok 3 (1 / 2) none
  obtain ⟨h1, h2, h3⟩ := C01_ula_geometry 3 (1 / 2) none {} a ha
  have hel : a.element = .isotropicScalar := (gridInit_spec ha).2.2.1
  have hl : 0 < a.element.outputSize := by rw [hel]; decide
  have hsz : [0, Real.pi / 2, Real.pi].length = a.size := h1.symm
  obtain ⟨S, hS, hA⟩ := phase_steering hel h2 (d := 1 / 2)
    (fun i hi => by
      have h3' := h3 i (h1 ▸ hi)
      show ((a.locations.get? i 0).getD 0) = _
      rw [h3']; rfl) [0, Real.pi / 2, Real.pi] hsz false (⟨![0], "sin"⟩ : FF1D 1)
    ⟨Or.inr (Or.inr rfl), fun c => Or.inr (Or.inr ⟨rfl, by fin_cases c; norm_num⟩)⟩ 1
  obtain ⟨S', hS', hA'⟩ := ula_steering ha (⟨![0.5], "sin"⟩ : FF1D 1)
    ⟨Or.inr (Or.inr rfl), fun c => Or.inr (Or.inr ⟨rfl, by fin_cases c; norm_num⟩)⟩ 1 "all" (by simp)
  refine ⟨a, ⟨0, hl⟩, S, S', ha, hsz, hS, hS', ?_⟩
  have : S.A ⟨0, hl⟩ = S'.A ⟨0, hl⟩ := by
    ext i c
    rw [hA, hA']
    have hc : c = 0 := Subsingleton.elim _ _
    subst hc
    have e0 : phaseFactor (1 / 2) 1 "sin" ((![0] : Fin 1 → ℝ) 0) = 1 := by
      unfold phaseFactor
      rw [sin_angleOf_sin (by norm_num) (by norm_num)]
      simp
    have e1 : phaseFactor (1 / 2) 1 "sin" ((![0.5] : Fin 1 → ℝ) 0) = Complex.exp (I * ((Real.pi / 2 : ℝ) : ℂ)) := by
      unfold phaseFactor
      rw [sin_angleOf_sin (by norm_num) (by norm_num)]
      congr 3
      simp
      ring
    rw [e0, e1, one_pow, mul_one, ← Complex.exp_nat_mul]
    obtain ⟨i, hi⟩ := i
    have hi3 : i < 3 := h1 ▸ hi
    interval_cases i
    · simp
    · simp
    · simp only [List.getElem_cons_succ, List.getElem_cons_zero]
      congr 1
      push_cast
      ring
  rw [this]

end Doa.Props
