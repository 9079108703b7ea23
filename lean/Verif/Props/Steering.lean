import Mathlib.Analysis.SpecialFunctions.Trigonometric.Deriv
import Mathlib.Analysis.SpecialFunctions.Sqrt
import Mathlib.Analysis.SpecialFunctions.ExpDeriv
import Mathlib.Analysis.Complex.RealDeriv
import Verif.Lemmas.Steering

/-!
# C11, C12, C13, C16, C18: steering matrices
-/

namespace Doa.Props

open Doa Doa.Spec Complex Matrix

/-- **C11**. `'none'` equals the steering matrix of the perturbation-free copy (under every mode),
`'known'` equals `'all'` on the array keeping only the known perturbations, any other string raises
`ValueError`; for every array, every kind of sources, with and without derivatives. -/
theorem C11_modes {k : ℕ} (a : ArrayDesign) (src : Sources k) (wl : ℝ) (cd : Bool)
    (nm : Option String) :
    (∀ mode ∈ ["all", "known", "none"],
      steering a src wl cd "none" = steering (a.perturbationFreeCopy nm) src wl cd mode) ∧
    steering a src wl cd "known" =
      steering { a with perts := a.perts.filter fun e => e.2.isKnown } src wl cd "all" ∧
    (∀ mode, mode ∉ ["all", "known", "none"] →
      steering a src wl cd mode = .error .valueError) := by
  refine ⟨?_, ?_, ?_⟩
  · intro mode hm
    simp only [List.mem_cons, List.not_mem_nil, or_false] at hm
    have h1 : a.filterPerturbations "none" = .ok [] := by simp [ArrayDesign.filterPerturbations]
    have h2 : (a.perturbationFreeCopy nm).filterPerturbations mode = .ok [] := by
      rcases hm with rfl | rfl | rfl <;>
        simp [ArrayDesign.filterPerturbations, ArrayDesign.perturbationFreeCopy, PyDict.values]
    unfold steering
    rw [h1, h2]
    rfl
  · have h1 : a.filterPerturbations "known" = .ok (a.perts.values.filter fun p => p.isKnown) := by
      simp [ArrayDesign.filterPerturbations]
    have h2 : ArrayDesign.filterPerturbations
        { a with perts := a.perts.filter fun e => e.2.isKnown } "all" =
        .ok (a.perts.values.filter fun p => p.isKnown) := by
      simp only [ArrayDesign.filterPerturbations, if_true, PyDict.values, List.filter_map]
      rfl
    unfold steering
    rw [h1, h2]
  · intro mode hm
    simp only [List.mem_cons, List.not_mem_nil, or_false, not_or] at hm
    have h1 : a.filterPerturbations mode = .error .valueError := by
      simp [ArrayDesign.filterPerturbations, hm.1, hm.2.1, hm.2.2]
    unfold steering
    rw [h1]

/-- **C13**. For an array satisfying the bookkeeping invariant (every reachable one does, C09): with
location errors `err`, the actual locations have one row per element, the larger number of columns,
and each coordinate is nominal plus error, missing coordinates being 0; without location errors they
are the nominal locations. -/
theorem C13_actual_locations (a : ArrayDesign) (hw : WellPerturbed a) :
    a.actualElementLocations.nrows = a.size ∧
    (∀ err kn, Perturbation.location err kn ∈ a.perturbations →
      a.actualElementLocations.ncols = max a.ndim err.ncols ∧
      ∀ i j, i < a.size →
        a.actualElementLocations.at0 i j = a.locations.at0 i j + err.at0 i j) ∧
    ((∀ err kn, Perturbation.location err kn ∉ a.perturbations) →
      a.actualElementLocations = a.locations) := by
  obtain ⟨h1, h2, _⟩ := hw
  have hf := foldl_locations a.perturbations a.locations h1
  refine ⟨foldl_locations_nrows _ _ a.element h2, ?_, hf.2⟩
  intro err kn hm
  have hfit : err.nrows = a.locations.nrows := h2 _ hm
  have e : a.actualElementLocations = perturbLocations err a.locations := hf.1 err kn hm
  rw [e]
  exact ⟨perturbLocations_ncols _ _, fun i j hi => perturbLocations_at0 _ _ hfit i j hi⟩

/-- The diagonal entry contributed by a gain or phase error to sensor `i`. -/
noncomputable def scalarFactor (i : ℕ) : Perturbation → ℂ
  | .gain g _ => 1 + ((g.getD i 0 : ℝ) : ℂ)
  | .phase g _ => Complex.exp (I * ((g.getD i 0 : ℝ) : ℂ))
  | _ => 1

theorem totalFactor_diagonal (m : ℕ) (ps : List Perturbation)
    (h : ∀ p ∈ ps, p.kind ≠ .coupling) :
    totalFactor m ps = Matrix.diagonal fun i : Fin m => (ps.map (scalarFactor i)).prod := by
  induction ps with
  | nil => simp [totalFactor]
  | cons p ps ih =>
    rw [totalFactor_cons, ih fun q hq => h q (List.mem_cons_of_mem _ hq)]
    have hp := h p List.mem_cons_self
    have : factor m p = Matrix.diagonal fun i : Fin m => scalarFactor i p := by
      cases p with
      | coupling C kn => exact absurd rfl hp
      | gain g kn => rfl
      | phase g kn => rfl
      | base kn => simp [factor, scalarFactor]
      | location e kn => simp [factor, scalarFactor]
    rw [this, Matrix.diagonal_mul_diagonal]
    congr 1
    ext i
    rw [List.map_cons, List.prod_cons, mul_comm]

/-- **C12** (general form). For an array with isotropic elements satisfying the bookkeeping
invariant, whose coupling matrix (if any) is square: `steering_matrix(perturbations='all')` is the
product of the perturbation matrices, in the order in which they were added, times the ideal steering
matrix of the *actual* locations; the derivative matrices are transformed by the same product. -/
theorem C12_closed_form {k : ℕ} (a : ArrayDesign) (hw : WellPerturbed a)
    (hel : a.element = .isotropicScalar)
    (hC : ∀ C kn, Perturbation.coupling C kn ∈ a.perturbations → C.ncols = a.size)
    (src : Sources k) (wl : ℝ) (cd : Bool) (hr : a.actualElementLocations.nrows = a.size)
    (T : PhaseDelays a.actualElementLocations.nrows k)
    (hT : src.phaseDelay a.actualElementLocations wl cd = .ok T) :
    ∃ out, steering a src wl cd "all" = .ok out ∧
      (∀ l, out.A l = totalFactor a.size a.perturbations * ideal hr T.D) ∧
      out.DA = T.DD.map fun X _ => totalFactor a.size a.perturbations * idealDeriv hr T.D X := by
  have hps : a.filterPerturbations "all" = .ok a.perturbations := by
    simp [ArrayDesign.filterPerturbations, ArrayDesign.perturbations]
  have hshape : ∀ p ∈ a.perturbations, p.ShapeOk a.size := by
    intro p hp
    have := hw.2.1 p hp
    cases p with
    | base kn => trivial
    | location e kn => trivial
    | gain g kn => exact this.2
    | phase g kn => exact this.2
    | coupling C kn => exact ⟨this.2, hC C kn hp⟩
  exact ⟨_, steering_iso hel hps hr hT hshape, fun l => rfl, rfl⟩

/-- **C12** (order). With the coupling matrix added last, the product is
`C · diag(exp(jφ)) · diag(1+g)` in whatever order location, gain and phase errors were added. More
generally perturbations other than coupling commute: their product does not depend on the order. -/
theorem C12_order (m : ℕ) :
    (∀ ps qs : List Perturbation, ps.Perm qs → (∀ p ∈ ps, p.kind ≠ .coupling) →
      totalFactor m ps = totalFactor m qs) ∧
    ∀ (e : Mat ℝ) (g φ : List ℝ) (C : Mat ℂ) (k1 k2 k3 k4 : Bool) (qs : List Perturbation),
      qs.Perm [.location e k1, .gain g k2, .phase φ k3] →
      totalFactor m (qs ++ [.coupling C k4]) =
        (Matrix.of fun i j : Fin m => C.at0 i j) *
        Matrix.diagonal (fun i : Fin m => Complex.exp (I * ((φ.getD i 0 : ℝ) : ℂ))) *
        Matrix.diagonal (fun i : Fin m => 1 + ((g.getD i 0 : ℝ) : ℂ)) := by
  have hperm : ∀ ps qs : List Perturbation, ps.Perm qs → (∀ p ∈ ps, p.kind ≠ .coupling) →
      totalFactor m ps = totalFactor m qs := by
    intro ps qs h hn
    rw [totalFactor_diagonal m ps hn,
      totalFactor_diagonal m qs fun p hp => hn p (h.mem_iff.2 hp)]
    congr 1
    ext i
    exact (h.map _).prod_eq
  refine ⟨hperm, ?_⟩
  intro e g φ C k1 k2 k3 k4 qs hq
  have hn : ∀ p ∈ qs, p.kind ≠ .coupling := by
    intro p hp
    have := hq.mem_iff.1 hp
    simp only [List.mem_cons, List.not_mem_nil, or_false] at this
    rcases this with rfl | rfl | rfl <;> simp [Perturbation.kind]
  rw [totalFactor_append, hperm qs _ hq hn]
  simp [totalFactor, factor, Matrix.mul_assoc]

/-- **C12** (the order matters). Gain errors and coupling do not commute. -/
theorem C12_order_matters : ∃ (g : List ℝ) (C : Mat ℂ),
    totalFactor 2 [.gain g true, .coupling C true] ≠
      totalFactor 2 [.coupling C true, .gain g true] := by
  refine ⟨[1, 0], ⟨2, [![1, 1], ![0, 1]]⟩, fun h => ?_⟩
  have := congrFun (congrFun h 0) 1
  simp [totalFactor, factor, Matrix.mul_apply, Matrix.diagonal_apply,
    Mat.at0, Mat.get?] at this

/-- The example array: three sensors, location, gain, phase errors and coupling. -/
noncomputable def exampleArray : ArrayDesign where
  locations := ⟨1, [![0], ![1]]⟩
  name := none
  element := .isotropicScalar
  perts := [(.location, .location ⟨2, [![0, 0.1], ![0, 0]]⟩ true),
    (.gain, .gain [0.1, 0.2] false), (.phase, .phase [0.3, 0] true),
    (.coupling, .coupling ⟨2, [![1, 0.5], ![0.5, 1]]⟩ false)]

theorem exampleArray_wellPerturbed : WellPerturbed exampleArray := by
  apply GoodDict.wellPerturbed
  refine ⟨by simp [PyDict.keys, exampleArray], ?_⟩
  intro k p hp
  simp only [exampleArray, List.mem_cons, Prod.mk.injEq, List.not_mem_nil, or_false] at hp
  rcases hp with ⟨rfl, rfl⟩ | ⟨rfl, rfl⟩ | ⟨rfl, rfl⟩ | ⟨rfl, rfl⟩ <;>
    simp [Perturbation.kind, Fits, Element.outputSize, ArrayDesign.size, Mat.nrows, exampleArray]

/-- Non-vacuity of C12/C13/C16: the hypotheses hold for a fully perturbed array. -/
example : WellPerturbed exampleArray ∧ exampleArray.element = .isotropicScalar ∧
    (∀ C kn, Perturbation.coupling C kn ∈ exampleArray.perturbations →
      C.ncols = exampleArray.size) ∧
    ∃ T, (Sources.ff1 (⟨![0.1], "rad"⟩ : FF1D 1)).phaseDelay exampleArray.actualElementLocations 1
      true = .ok T := by
  refine ⟨exampleArray_wellPerturbed, rfl, ?_, ?_⟩
  · intro C kn h
    simp [exampleArray, ArrayDesign.perturbations, PyDict.values] at h
    rw [h.1]; rfl
  · have h := C13_actual_locations exampleArray exampleArray_wellPerturbed
    have h2 := (h.2.1 ⟨2, [![0, 0.1], ![0, 0]]⟩ true
      (by simp [exampleArray, ArrayDesign.perturbations, PyDict.values])).1
    obtain ⟨T, hT, _⟩ := FF1D.phaseDelay_spec (⟨![0.1], "rad"⟩ : FF1D 1)
      exampleArray.actualElementLocations (by rw [h2]; simp [exampleArray, ArrayDesign.ndim]) 1 true
      (fun h => by simp at h)
    exact ⟨T, hT⟩

/-! ### Derivatives -/

/-- Replace the location of source `c`. -/
def FF1D.setLoc {k : ℕ} (s : FF1D k) (c : Fin k) (t : ℝ) : FF1D k :=
  { s with loc := Function.update s.loc c t }

theorem phaseDelay_hasDerivAt {k : ℕ} (s : FF1D k)
    (hu : s.unit = "rad" ∨ s.unit = "deg" ∨ s.unit = "sin") (L : Mat ℝ) (wl : ℝ)
    (T : PhaseDelays L.nrows k) (hT : s.phaseDelay L wl true = .ok T) :
    ∃ DD, T.DD = [DD] ∧ ∀ i c, ∃ f : ℝ → ℝ,
      (∀ t T', (FF1D.setLoc s c t).phaseDelay L wl false = .ok T' → T'.D i c = f t) ∧
      f (s.loc c) = T.D i c ∧ HasDerivAt f (DD i c) (s.loc c) := by
  have hwl : ¬ wl = 0 := (Sources.phaseDelay_wl (src := .ff1 s) hT).out
  have hff : ∀ s' : FF1D k, ¬ s'.sinNaN L false := fun s' h => absurd h.1 Bool.false_ne_true
  unfold FF1D.phaseDelay at hT
  by_cases hv : validSensorDim L = true
  swap
  · simp [hv] at hT
  rw [hv] at hT
  simp only [Bool.not_true, Bool.false_eq_true, if_false, if_neg hwl] at hT
  by_cases hs : s.unit = "sin"
  · rw [if_pos hs] at hT
    by_cases hnan : s.sinNaN L true
    · rw [if_pos hnan] at hT; cases hT
    rw [if_neg hnan] at hT
    have hsin : L.ncols ≠ 1 → ∀ c, |s.loc c| < 1 := fun h1 c => by
      by_contra h2
      exact hnan ⟨rfl, h1, c, not_lt.1 h2⟩
    cases hT
    refine ⟨_, rfl, fun i c => ?_⟩
    by_cases h1 : L.ncols = 1
    · refine ⟨fun t => 2 * Real.pi / wl * (L.at0 i 0 * t), ?_, ?_, ?_⟩
      · intro t T' hT'
        unfold FF1D.phaseDelay FF1D.setLoc at hT'
        simp only [hv, Bool.not_true, Bool.false_eq_true, if_false, hs, if_true, if_neg hwl, if_neg (hff _)] at hT'
        cases hT'
        simp [FF1D.phaseDelaySin, h1]
      · simp [FF1D.phaseDelaySin, h1]
      · simp only [h1, if_true]
        have := ((hasDerivAt_id (s.loc c)).const_mul (L.at0 i 0)).const_mul (2 * Real.pi / wl)
        simpa using this
    · refine ⟨fun t => 2 * Real.pi / wl * (L.at0 i 0 * t + L.at0 i 1 * Real.sqrt (1 - t * t)),
        ?_, ?_, ?_⟩
      · intro t T' hT'
        unfold FF1D.phaseDelay FF1D.setLoc at hT'
        simp only [hv, Bool.not_true, Bool.false_eq_true, if_false, hs, if_true, if_neg hwl, if_neg (hff _)] at hT'
        cases hT'
        simp [FF1D.phaseDelaySin, h1]
      · simp [FF1D.phaseDelaySin, h1]
      · simp only [h1, if_false]
        have hlt := abs_lt.1 (hsin h1 c)
        have hpos : 0 < 1 - s.loc c * s.loc c := by nlinarith
        have h2 : HasDerivAt (fun t : ℝ => 1 - t * t) (-(1 * s.loc c + s.loc c * 1)) (s.loc c) :=
          ((hasDerivAt_id (s.loc c)).mul (hasDerivAt_id (s.loc c))).const_sub 1
        have h3 := h2.sqrt hpos.ne'
        have h4 := (((hasDerivAt_id (s.loc c)).const_mul (L.at0 i 0)).add
          (h3.const_mul (L.at0 i 1))).const_mul (2 * Real.pi / wl)
        refine h4.congr_deriv ?_
        have hsq : Real.sqrt (1 - s.loc c * s.loc c) ≠ 0 := (Real.sqrt_pos.2 hpos).ne'
        field_simp
        ring
  · rw [if_neg hs] at hT
    cases hT
    refine ⟨_, rfl, fun i c => ?_⟩
    -- `q` converts a location to radians, with derivative `q'`
    obtain ⟨q, q', hq, hq'⟩ : ∃ (q : ℝ → ℝ) (q' : ℝ),
        (∀ t, HasDerivAt q q' t) ∧
        ((s.unit = "deg" ∧ q = deg2rad ∧ q' = Real.pi / 180) ∨
          (s.unit ≠ "deg" ∧ q = id ∧ q' = 1)) := by
      by_cases hd : s.unit = "deg"
      · refine ⟨deg2rad, Real.pi / 180, fun t => ?_, Or.inl ⟨hd, rfl, rfl⟩⟩
        have := (hasDerivAt_id t).mul_const (Real.pi / 180)
        rw [one_mul] at this
        exact this
      · exact ⟨id, 1, fun t => hasDerivAt_id t, Or.inr ⟨hd, rfl, rfl⟩⟩
    have hloc : ∀ (s' : FF1D k), s'.unit = s.unit →
        (if s'.unit = "deg" then fun c => deg2rad (s'.loc c) else s'.loc) =
          fun c => q (s'.loc c) := by
      intro s' hs'
      rcases hq' with ⟨h1, rfl, _⟩ | ⟨h1, rfl, _⟩
      · rw [hs', if_pos h1]
      · rw [hs', if_neg h1]; rfl
    by_cases h1 : L.ncols = 1
    · refine ⟨fun t => 2 * Real.pi / wl * (L.at0 i 0 * Real.sin (q t)), ?_, ?_, ?_⟩
      · intro t T' hT'
        unfold FF1D.phaseDelay at hT'
        have hs2 : ¬ (FF1D.setLoc s c t).unit = "sin" := hs
        simp only [hv, Bool.not_true, Bool.false_eq_true, if_false, hs2, if_neg hwl] at hT'
        cases hT'
        simp only [FF1D.phaseDelayRad, hloc (FF1D.setLoc s c t) rfl, h1, if_true]
        simp [FF1D.setLoc]
      · simp only [FF1D.phaseDelayRad, hloc s rfl, h1, if_true]
      · have h3 := (((hq (s.loc c)).sin).const_mul (L.at0 i 0)).const_mul (2 * Real.pi / wl)
        refine h3.congr_deriv ?_
        simp only [hloc s rfl, h1, if_true]
        rcases hq' with ⟨hd, _, rfl⟩ | ⟨hd, _, rfl⟩
        · rw [if_pos hd]; ring
        · rw [if_neg hd]; ring
    · refine ⟨fun t => 2 * Real.pi / wl * (L.at0 i 0 * Real.sin (q t) +
        L.at0 i 1 * Real.cos (q t)), ?_, ?_, ?_⟩
      · intro t T' hT'
        unfold FF1D.phaseDelay at hT'
        have hs2 : ¬ (FF1D.setLoc s c t).unit = "sin" := hs
        simp only [hv, Bool.not_true, Bool.false_eq_true, if_false, hs2, if_neg hwl] at hT'
        cases hT'
        simp only [FF1D.phaseDelayRad, hloc (FF1D.setLoc s c t) rfl, h1, if_false]
        simp [FF1D.setLoc]
      · simp only [FF1D.phaseDelayRad, hloc s rfl, h1, if_false]
      · have h3 := ((((hq (s.loc c)).sin).const_mul (L.at0 i 0)).add
          (((hq (s.loc c)).cos).const_mul (L.at0 i 1))).const_mul (2 * Real.pi / wl)
        refine h3.congr_deriv ?_
        simp only [hloc s rfl, h1, if_false]
        rcases hq' with ⟨hd, _, rfl⟩ | ⟨hd, _, rfl⟩
        · rw [if_pos hd]; ring
        · rw [if_neg hd]; ring

/-- **C16**. Whenever `steering_matrix(..., compute_derivatives=True)` succeeds for 1-D far-field
sources (any mode, any perturbations, 1-D/2-D/3-D arrays), exactly one derivative matrix is returned,
and its entry `(i, c)` is the derivative of entry `(i, c)` of the steering matrix with respect to the
location of source `c` in the unit of the placement. (For the unit 'sin', planar arrays and a source at `±1` the derivative is
infinite: `C16_endfire`.) -/
theorem C16_derivative {k : ℕ} (a : ArrayDesign) (hel : a.element = .isotropicScalar) (s : FF1D k)
    (hu : s.unit = "rad" ∨ s.unit = "deg" ∨ s.unit = "sin") (wl : ℝ) (mode : String)
    (out : Steering a.element.outputSize a.size k)
    (h : steering a (.ff1 s) wl true mode = .ok out) :
    ∃ DA, out.DA = [DA] ∧ ∀ l i c,
      entryOf (steering a (.ff1 s) wl false mode) l i c = out.A l i c ∧
      HasDerivAt (fun t : ℝ => entryOf (steering a (.ff1 (FF1D.setLoc s c t)) wl false mode) l i c)
        (DA l i c) (s.loc c) := by
  obtain ⟨ps, T, hrows, hps, hT, hsh, hA, hDA⟩ := steering_iso_inv hel h
  have hT1 : s.phaseDelay _ wl true = .ok T := hT
  obtain ⟨DD, hDD, hder⟩ := phaseDelay_hasDerivAt s hu _ wl T hT1
  have := steering_wl h
  refine ⟨fun _ => totalFactor a.size ps * idealDeriv hrows T.D DD, by rw [hDA, hDD]; rfl, ?_⟩
  intro l i c
  have hdim : 1 ≤ (ps.foldl (fun l p => p.perturbSensorLocations l) a.locations).ncols ∧
      (ps.foldl (fun l p => p.perturbSensorLocations l) a.locations).ncols ≤ 3 := by
    rw [← validSensorDim_iff]
    by_contra hv
    rw [Bool.not_eq_true] at hv
    unfold FF1D.phaseDelay at hT1
    rw [if_pos (by rw [hv]; rfl)] at hT1
    cases hT1
  -- value of the steering matrix for a modified placement
  have hval : ∀ s' : FF1D k, ∃ T', s'.phaseDelay _ wl false = .ok T' ∧
      steering a (.ff1 s') wl false mode = .ok
        { A := fun _ => totalFactor a.size ps * ideal hrows T'.D,
          DA := T'.DD.map fun X _ => totalFactor a.size ps * idealDeriv hrows T'.D X } := by
    intro s'
    obtain ⟨T', hT', _⟩ := FF1D.phaseDelay_spec s' _ hdim wl false
    exact ⟨T', hT', steering_iso hel (src := .ff1 s') hps hrows hT' hsh⟩
  have hent : ∀ t, entryOf (steering a (.ff1 (FF1D.setLoc s c t)) wl false mode) l i c =
      ∑ j, totalFactor a.size ps i j * Complex.exp (I *
        (((hder (Fin.cast hrows.symm j) c).choose t : ℝ) : ℂ)) := by
    intro t
    obtain ⟨T', hT', hst⟩ := hval (FF1D.setLoc s c t)
    rw [hst]
    simp only [entryOf, Matrix.mul_apply]
    apply Finset.sum_congr rfl
    intro j _
    have := (hder (Fin.cast hrows.symm j) c).choose_spec.1 t T' hT'
    simp only [ideal]
    rw [this]
  constructor
  · obtain ⟨T', hT', hst⟩ := hval s
    rw [hst, hA]
    simp only [entryOf, Matrix.mul_apply]
    apply Finset.sum_congr rfl
    intro j _
    have h1 := (hder (Fin.cast hrows.symm j) c).choose_spec.2.1
    have h2 := (hder (Fin.cast hrows.symm j) c).choose_spec.1 (s.loc c) T' (by
      have : FF1D.setLoc s c (s.loc c) = s := by simp [FF1D.setLoc]
      rw [this]; exact hT')
    simp only [ideal]
    rw [h2, h1]
  · have : (fun t : ℝ => entryOf (steering a (.ff1 (FF1D.setLoc s c t)) wl false mode) l i c) =
        fun t => ∑ j, totalFactor a.size ps i j * Complex.exp (I *
          (((hder (Fin.cast hrows.symm j) c).choose t : ℝ) : ℂ)) := funext hent
    rw [this]
    simp only [Matrix.mul_apply]
    apply HasDerivAt.fun_sum
    intro j _
    obtain ⟨_, h1, h2⟩ := (hder (Fin.cast hrows.symm j) c).choose_spec
    have h3 := (((h2.ofReal_comp).const_mul I).cexp).const_mul (totalFactor a.size ps i j)
    refine h3.congr_deriv ?_
    simp only [idealDeriv]
    rw [h1]

/-- **C16** (where there is no derivative). For the unit `'sin'`, sensors with two or three coordinates (after the perturbations selected
by `mode`) and a source at `±1` the steering matrix exists, but `compute_derivatives=True` gives infinities or NaN. -/
theorem C16_endfire {k : ℕ} (a : ArrayDesign) (hel : a.element = .isotropicScalar) (s : FF1D k) (hu : s.unit = "sin") (wl : ℝ)
    (mode : String) (out : Steering a.element.outputSize a.size k) (h : steering a (.ff1 s) wl false mode = .ok out)
    (hd : ∀ ps, a.filterPerturbations mode = .ok ps → (ps.foldl (fun l p => p.perturbSensorLocations l) a.locations).ncols ≠ 1)
    (c : Fin k) (hc : |s.loc c| = 1) :
    steering a (.ff1 s) wl true mode = .error .returnsNaN := by
  obtain ⟨ps, T, hrows, hps, hT, hsh, hA, hDA⟩ := steering_iso_inv hel h
  have hwl := (steering_wl h).out
  have hT1 : s.phaseDelay _ wl false = .ok T := hT
  have hT2 : s.phaseDelay (ps.foldl (fun l p => p.perturbSensorLocations l) a.locations) wl true = .error .returnsNaN := by
    unfold FF1D.phaseDelay at hT1 ⊢
    split at hT1
    · cases hT1
    rename_i hv
    rw [if_neg hv, if_neg hwl, if_pos hu, if_pos ⟨rfl, hd ps hps, c, hc.ge⟩]
  have hT3 : (Sources.ff1 s).phaseDelay (ps.foldl (fun l p => p.perturbSensorLocations l) a.locations) wl true =
    .error .returnsNaN := hT2
  unfold steering
  rw [hps]
  simp only [steerWith, hT3]
  rw [hel]
  rfl

/-- A square array, one source in the direction of an axis. -/
example : ∃ out, steering (⟨⟨2, [![0, 0], ![1, 0], ![0, 1], ![1, 1]]⟩, none, .isotropicScalar, []⟩ : ArrayDesign)
    (.ff1 (⟨![1], "sin"⟩ : FF1D 1)) 2 false "all" = .ok out := by
  obtain ⟨T, hT, -⟩ := FF1D.phaseDelay_spec (⟨![1], "sin"⟩ : FF1D 1) ⟨2, [![0, 0], ![1, 0], ![0, 1], ![1, 1]]⟩ (by simp) 2 false
  exact ⟨_, steering_iso (a := ⟨⟨2, [![0, 0], ![1, 0], ![0, 1], ![1, 1]]⟩, none, .isotropicScalar, []⟩) (src := .ff1 (⟨![1], "sin"⟩ : FF1D 1))
    (ps := []) rfl rfl rfl hT (by simp)⟩

/-! ### Embedding, translation, modulus -/

/-- **C18** (embedding). Padding the sensor coordinates with zero columns (up to 3) does not change
the phase delays of any kind of sources. -/
theorem C18_embedding {k : ℕ} (src : Sources k) (L L' : Mat ℝ) (hp : Padded L L')
    (hL : 1 ≤ L.ncols) (hL' : L'.ncols ≤ 3) (wl : ℝ) (T : PhaseDelays L.nrows k)
    (hT : src.phaseDelay L wl false = .ok T) :
    ∃ T', src.phaseDelay L' wl false = .ok T' ∧
      ∀ (i : Fin L.nrows) (i' : Fin L'.nrows) (c : Fin k), i.1 = i'.1 → T'.D i' c = T.D i c := by
  obtain ⟨h1, h2, h3⟩ := hp
  have d1 : 1 ≤ L.ncols ∧ L.ncols ≤ 3 := ⟨hL, by omega⟩
  have d2 : 1 ≤ L'.ncols ∧ L'.ncols ≤ 3 := ⟨by omega, hL'⟩
  have := Sources.phaseDelay_wl hT
  cases src with
  | ff1 s =>
    obtain ⟨T1, e1, f1⟩ := FF1D.phaseDelay_spec s L d1 wl false
    obtain ⟨T2, e2, f2⟩ := FF1D.phaseDelay_spec s L' d2 wl false
    have : T = T1 := by
      have hT' : s.phaseDelay L wl false = .ok T := hT
      rw [e1] at hT'; exact (Except.ok.inj hT').symm
    subst this
    refine ⟨T2, e2, fun i i' c hi => ?_⟩
    rw [f1, f2, ← hi, h3 i 0 i.2, h3 i 1 i.2]
  | ff2 s =>
    obtain ⟨T1, e1, f1⟩ := FF2D.phaseDelay_spec s L d1 wl
    obtain ⟨T2, e2, f2⟩ := FF2D.phaseDelay_spec s L' d2 wl
    have : T = T1 := by
      have hT' : s.phaseDelay L wl false = .ok T := hT
      rw [e1] at hT'; exact (Except.ok.inj hT').symm
    subst this
    refine ⟨T2, e2, fun i i' c hi => ?_⟩
    rw [f1, f2, ← hi, h3 i 0 i.2, h3 i 1 i.2, h3 i 2 i.2]
  | nf s =>
    by_cases hr : L.nrows = 0
    · have hT' : s.phaseDelay L wl false = .ok T := hT
      unfold NF2D.phaseDelay at hT'
      simp [hr, (validSensorDim_iff L).2 d1, NeZero.ne wl] at hT'
    · obtain ⟨T1, e1, f1⟩ := NF2D.phaseDelay_spec s L d1 hr wl
      obtain ⟨T2, e2, f2⟩ := NF2D.phaseDelay_spec s L' d2 (by omega) wl
      have : T = T1 := by
        have hT' : s.phaseDelay L wl false = .ok T := hT
        rw [e1] at hT'; exact (Except.ok.inj hT').symm
      subst this
      refine ⟨T2, e2, fun i i' c hi => ?_⟩
      have hz : 0 < L.nrows := Nat.pos_of_ne_zero hr
      rw [f1, f2, ← hi]
      simp only [NF2D.dist, h3 i 0 i.2, h3 i 1 i.2, h3 i 2 i.2, h3 0 0 hz, h3 0 1 hz, h3 0 2 hz]

example : Padded ⟨1, [![0], ![0.5]]⟩ ⟨2, [![0, 0], ![0.5, 0]]⟩ := by
  refine ⟨rfl, by simp, ?_⟩
  intro i j hi
  simp [Mat.nrows] at hi
  have hi' : i = 0 ∨ i = 1 := by omega
  rcases hi' with rfl | rfl <;> rcases j with _ | _ | j <;> simp [Mat.at0, Mat.get?]

/-- The unperturbed steering matrix of an isotropic array. -/
theorem steering_unperturbed {k : ℕ} {a : ArrayDesign} (hel : a.element = .isotropicScalar)
    {src : Sources k} {wl : ℝ} {out} (h : steering a src wl false "none" = .ok out) :
    ∃ T : PhaseDelays a.locations.nrows k, src.phaseDelay a.locations wl false = .ok T ∧
      ∀ l i c, out.A l i c = Complex.exp (I * ((T.D i c : ℝ) : ℂ)) := by
  obtain ⟨ps, T, hrows, hps, hT, hsh, hA, hDA⟩ := steering_iso_inv hel h
  have : ps = [] := by
    have h1 : a.filterPerturbations "none" = .ok [] := by simp [ArrayDesign.filterPerturbations]
    rw [h1] at hps; cases hps; rfl
  subst this
  refine ⟨T, hT, fun l i c => ?_⟩
  rw [hA]
  simp [totalFactor, ideal]
  rfl

/-- **C18** (modulus). Every entry of an unperturbed isotropic steering matrix has modulus 1. -/
theorem C18_modulus {k : ℕ} (a : ArrayDesign) (hel : a.element = .isotropicScalar)
    (src : Sources k) (wl : ℝ) (out) (h : steering a src wl false "none" = .ok out) :
    ∀ l i c, ‖out.A l i c‖ = 1 := by
  obtain ⟨T, _, hA⟩ := steering_unperturbed hel h
  intro l i c
  rw [hA, mul_comm, Complex.norm_exp_ofReal_mul_I]

/-- **C18** (translation). Moving all sensors of an array by a common vector multiplies column `c` of
the far-field steering matrix by one factor of modulus 1. -/
theorem C18_translation {k : ℕ} (a a' : ArrayDesign) (hel : a.element = .isotropicScalar)
    (hel' : a'.element = .isotropicScalar) (src : Sources k) (hff : src.isFarField = true)
    (t : ℕ → ℝ) (ht : Translated a.locations a'.locations t)
    (hdim : 1 ≤ a.ndim ∧ a.ndim ≤ 3) (wl : ℝ)
    (out out') (h : steering a src wl false "none" = .ok out)
    (h' : steering a' src wl false "none" = .ok out') :
    ∃ γ : Fin k → ℂ, (∀ c, ‖γ c‖ = 1) ∧
      ∀ l l' i i' c, i.1 = i'.1 → out'.A l' i' c = γ c * out.A l i c := by
  have := steering_wl h
  obtain ⟨T, hT, hA⟩ := steering_unperturbed hel h
  obtain ⟨T', hT', hA'⟩ := steering_unperturbed hel' h'
  obtain ⟨t1, t2, t3⟩ := ht
  have d' : 1 ≤ a'.locations.ncols ∧ a'.locations.ncols ≤ 3 := by rw [t2]; exact hdim
  have hat : ∀ i j, i < a.locations.nrows → a'.locations.at0 i j =
      a.locations.at0 i j + (if j < a.locations.ncols then t j else 0) := by
    intro i j hi
    by_cases hj : j < a.locations.ncols
    · rw [if_pos hj, t3 i j hi hj]
    · rw [if_neg hj, Mat.at0_of_ge _ (by omega), Mat.at0_of_ge _ (by omega), add_zero]
  set τ : ℕ → ℝ := fun j => if j < a.locations.ncols then t j else 0 with hτ
  -- a real phase per source
  obtain ⟨ψ, hψ⟩ : ∃ ψ : Fin k → ℝ, ∀ (i : Fin a.locations.nrows) (i' : Fin a'.locations.nrows) c,
      i.1 = i'.1 → T'.D i' c = T.D i c + ψ c := by
    cases src with
    | nf s => simp [Sources.isFarField] at hff
    | ff1 s =>
      obtain ⟨T1, e1, f1⟩ := FF1D.phaseDelay_spec s a.locations hdim wl false
      obtain ⟨T2, e2, f2⟩ := FF1D.phaseDelay_spec s a'.locations d' wl false
      have q1 : T = T1 := by
        have hh : s.phaseDelay a.locations wl false = .ok T := hT
        rw [e1] at hh; exact (Except.ok.inj hh).symm
      have q2 : T' = T2 := by
        have hh : s.phaseDelay a'.locations wl false = .ok T' := hT'
        rw [e2] at hh; exact (Except.ok.inj hh).symm
      subst q1; subst q2
      refine ⟨fun c => 2 * Real.pi / wl * (τ 0 * (s.dir c).1 + τ 1 * (s.dir c).2.1),
        fun i i' c hi => ?_⟩
      rw [f1, f2, ← hi, hat i 0 i.2, hat i 1 i.2]; ring
    | ff2 s =>
      obtain ⟨T1, e1, f1⟩ := FF2D.phaseDelay_spec s a.locations hdim wl
      obtain ⟨T2, e2, f2⟩ := FF2D.phaseDelay_spec s a'.locations d' wl
      have q1 : T = T1 := by
        have hh : s.phaseDelay a.locations wl false = .ok T := hT
        rw [e1] at hh; exact (Except.ok.inj hh).symm
      have q2 : T' = T2 := by
        have hh : s.phaseDelay a'.locations wl false = .ok T' := hT'
        rw [e2] at hh; exact (Except.ok.inj hh).symm
      subst q1; subst q2
      refine ⟨fun c => 2 * Real.pi / wl * (τ 0 * (s.dir c).1 + τ 1 * (s.dir c).2.1 +
        τ 2 * (s.dir c).2.2), fun i i' c hi => ?_⟩
      rw [f1, f2, ← hi, hat i 0 i.2, hat i 1 i.2, hat i 2 i.2]; ring
  refine ⟨fun c => Complex.exp (I * ((ψ c : ℝ) : ℂ)), fun c => ?_, ?_⟩
  · show ‖Complex.exp (I * ((ψ c : ℝ) : ℂ))‖ = 1
    rw [mul_comm, Complex.norm_exp_ofReal_mul_I]
  · intro l l' i i' c hi
    rw [hA, hA', hψ i i' c hi, ← Complex.exp_add]
    congr 1
    push_cast; ring

end Doa.Props
