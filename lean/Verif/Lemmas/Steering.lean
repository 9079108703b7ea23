import Verif.Lemmas.ArrayHeap
import Verif.Lemmas.Grid
import Verif.Spec.Steering

namespace Doa
open Spec Complex Matrix

/-! ### Perturbed locations -/

theorem perturbLocations_nrows (err L : Mat ℝ) (h : err.nrows = L.nrows) :
    (perturbLocations err L).nrows = L.nrows := by
  unfold perturbLocations
  have h' : err.rows.length = L.rows.length := h
  split <;> simp [Mat.nrows, h']

theorem perturbLocations_ncols (err L : Mat ℝ) :
    (perturbLocations err L).ncols = max L.ncols err.ncols := by
  unfold perturbLocations
  split <;> simp <;> omega

theorem Mat.at0_mk {c : ℕ} (rows : List (Fin c → ℝ)) {i j : ℕ} (hi : i < rows.length) (hj : j < c) :
    (Mat.mk c rows).at0 i j = rows[i] ⟨j, hj⟩ := Mat.at0_eq (Mat.mk c rows) hi hj

theorem perturbLocations_at0 (err L : Mat ℝ) (h : err.nrows = L.nrows) (i j : ℕ)
    (hi : i < L.nrows) :
    (perturbLocations err L).at0 i j = L.at0 i j + err.at0 i j := by
  have hc := perturbLocations_ncols err L
  have h1 : i < L.rows.length := hi
  have h2 : err.rows.length = L.rows.length := h
  by_cases hj : j < max L.ncols err.ncols
  · by_cases hle : err.ncols ≤ L.ncols
    · have hjL : j < L.ncols := by omega
      unfold perturbLocations
      rw [if_pos hle, Mat.at0_eq L hi hjL]
      refine (Mat.at0_mk _ (by simp; omega) hjL).trans ?_
      simp only [List.getElem_zipWith]
      by_cases hje : j < err.ncols
      · rw [Mat.at0_eq err (h ▸ hi) hje, dif_pos hje]; rfl
      · rw [Mat.at0_of_ge err (by omega), dif_neg hje, add_zero]; rfl
    · have hje : j < err.ncols := by omega
      unfold perturbLocations
      rw [if_neg hle, Mat.at0_eq err (h ▸ hi) hje]
      refine (Mat.at0_mk _ (by simp; omega) hje).trans ?_
      simp only [List.getElem_zipWith]
      by_cases hjL : j < L.ncols
      · rw [Mat.at0_eq L hi hjL, dif_pos hjL, add_comm]; rfl
      · rw [Mat.at0_of_ge L (by omega), dif_neg hjL, zero_add]; rfl
  · rw [Mat.at0_of_ge _ (by omega), Mat.at0_of_ge _ (by omega), Mat.at0_of_ge _ (by omega), add_zero]

/-- The locations after a list of perturbations of pairwise different types. -/
theorem foldl_locations (ps : List Perturbation) : ∀ (L : Mat ℝ),
    (ps.map Perturbation.kind).Nodup →
    (∀ err kn, Perturbation.location err kn ∈ ps →
      ps.foldl (fun l p => p.perturbSensorLocations l) L = perturbLocations err L) ∧
    ((∀ err kn, Perturbation.location err kn ∉ ps) →
      ps.foldl (fun l p => p.perturbSensorLocations l) L = L) := by
  induction ps with
  | nil => intro L _; simp
  | cons p ps ih =>
    intro L hn
    simp only [List.map_cons, List.nodup_cons] at hn
    simp only [List.foldl_cons]
    constructor
    · intro err kn hm
      rcases List.mem_cons.1 hm with h | h
      · subst h
        refine (ih _ hn.2).2 ?_
        intro e' k' h'
        exact hn.1 (List.mem_map.2 ⟨_, h', rfl⟩)
      · have hp : p.perturbSensorLocations L = L := by
          cases p with
          | location e' k' => exact absurd (List.mem_map.2 ⟨_, h, rfl⟩) hn.1
          | _ => rfl
        rw [hp]
        exact (ih L hn.2).1 err kn h
    · intro hno
      have hp : p.perturbSensorLocations L = L := by
        cases p with
        | location e' k' => exact absurd List.mem_cons_self (hno e' k')
        | _ => rfl
      rw [hp]
      exact (ih L hn.2).2 fun e' k' h' => hno e' k' (List.mem_cons_of_mem _ h')

theorem foldl_locations_nrows (ps : List Perturbation) (L : Mat ℝ) (el : Element)
    (hf : ∀ p ∈ ps, Fits L.nrows el p) :
    (ps.foldl (fun l p => p.perturbSensorLocations l) L).nrows = L.nrows := by
  suffices H : ∀ (ps : List Perturbation) (M : Mat ℝ), M.nrows = L.nrows →
      (∀ p ∈ ps, Fits L.nrows el p) →
      (ps.foldl (fun l p => p.perturbSensorLocations l) M).nrows = L.nrows from H ps L rfl hf
  intro ps
  induction ps with
  | nil => intro M hM _; exact hM
  | cons p ps ih =>
    intro M hM hf
    refine ih _ ?_ fun q hq => hf q (List.mem_cons_of_mem _ hq)
    cases p with
    | location err kn =>
      have := hf _ List.mem_cons_self
      simp only [Fits] at this
      show (perturbLocations err M).nrows = _
      rw [perturbLocations_nrows err M (by omega), hM]
    | _ => exact hM

/-! ### The perturbation loop -/

/-- The shapes a perturbation needs. -/
def Perturbation.ShapeOk (m : ℕ) : Perturbation → Prop
  | .gain g _ => g.length = m
  | .phase g _ => g.length = m
  | .coupling C _ => C.nrows = m ∧ C.ncols = m
  | _ => True

theorem rowMap_ok {m k : ℕ} {p : Perturbation} (h : p.ShapeOk m) :
    ∃ f, p.rowMap m k = .ok f ∧ ∀ X, f X = factor m p * X := by
  cases p with
  | base kn => exact ⟨_, rfl, fun X => by simp [factor]⟩
  | location e kn => exact ⟨_, rfl, fun X => by simp [factor]⟩
  | gain g kn =>
    refine ⟨_, if_pos (show g.length = m from h), fun X => ?_⟩
    ext i c
    simp [factor, Matrix.diagonal_mul]
  | phase g kn =>
    refine ⟨_, if_pos (show g.length = m from h), fun X => ?_⟩
    ext i c
    simp [factor, Matrix.diagonal_mul]
  | coupling C kn =>
    refine ⟨_, if_pos (show C.nrows = m ∧ C.ncols = m from h), fun X => ?_⟩
    ext i c
    simp [factor, Matrix.mul_apply]

theorem rowMap_err {m k : ℕ} {p : Perturbation} (h : ¬ p.ShapeOk m) :
    p.rowMap m k = .error .valueError := by
  cases p with
  | base kn => exact absurd trivial h
  | location e kn => exact absurd trivial h
  | gain g kn => exact if_neg (show ¬ g.length = m from h)
  | phase g kn => exact if_neg (show ¬ g.length = m from h)
  | coupling C kn => exact if_neg (show ¬ (C.nrows = m ∧ C.ncols = m) from h)

theorem rowMap_shape {m k : ℕ} {p : Perturbation} {f} (h : p.rowMap m k = .ok f) : p.ShapeOk m := by
  by_contra hc
  rw [rowMap_err hc] at h; cases h

theorem foldl_factor_mul {m : ℕ} (ps : List Perturbation) : ∀ F : Matrix (Fin m) (Fin m) ℂ,
    ps.foldl (fun F p => factor m p * F) F = totalFactor m ps * F := by
  induction ps with
  | nil => intro F; simp [totalFactor]
  | cons p ps ih =>
    intro F
    simp only [totalFactor, List.foldl_cons]
    rw [ih, ih (factor m p * 1), Matrix.mul_one, Matrix.mul_assoc]

theorem totalFactor_cons {m : ℕ} (p : Perturbation) (ps : List Perturbation) :
    totalFactor m (p :: ps) = totalFactor m ps * factor m p := by
  rw [totalFactor, List.foldl_cons, foldl_factor_mul, Matrix.mul_one]

theorem totalFactor_append {m : ℕ} (ps qs : List Perturbation) :
    totalFactor m (ps ++ qs) = totalFactor m qs * totalFactor m ps := by
  induction ps with
  | nil => simp [totalFactor]
  | cons p ps ih => rw [List.cons_append, totalFactor_cons, ih, totalFactor_cons, Matrix.mul_assoc]

theorem perturbLoop_ok {n m k : ℕ} (ps : List Perturbation) : ∀ (s : Steering n m k),
    (∀ p ∈ ps, p.ShapeOk m) →
    perturbLoop ps s = .ok { A := fun l => totalFactor m ps * s.A l,
                             DA := s.DA.map fun X l => totalFactor m ps * X l } := by
  induction ps with
  | nil => intro s _; simp [perturbLoop, totalFactor]
  | cons p ps ih =>
    intro s h
    obtain ⟨f, hf, hfe⟩ := rowMap_ok (k := k) (h p List.mem_cons_self)
    simp only [perturbLoop, Perturbation.perturbSteering, hf]
    rw [ih _ fun q hq => h q (List.mem_cons_of_mem _ hq)]
    simp only [totalFactor_cons, hfe, List.map_map, Matrix.mul_assoc]
    rfl

theorem perturbLoop_shape {n m k : ℕ} (ps : List Perturbation) : ∀ {s s' : Steering n m k},
    perturbLoop ps s = .ok s' → ∀ p ∈ ps, p.ShapeOk m := by
  induction ps with
  | nil => intro s s' _ p hp; cases hp
  | cons p ps ih =>
    intro s s' h q hq
    simp only [perturbLoop, Perturbation.perturbSteering] at h
    cases hf : p.rowMap m k with
    | error e => rw [hf] at h; cases h
    | ok f =>
      rw [hf] at h
      rcases List.mem_cons.1 hq with rfl | hq
      · exact rowMap_shape hf
      · exact ih h q hq

/-! ### The steering matrix of an array with isotropic scalar elements -/

theorem steering_iso {k : ℕ} {a : ArrayDesign} (hel : a.element = .isotropicScalar)
    {src : Sources k} {wl : ℝ} {cd : Bool} {mode : String} {ps : List Perturbation}
    (hps : a.filterPerturbations mode = .ok ps)
    (hrows : (ps.foldl (fun l p => p.perturbSensorLocations l) a.locations).nrows = a.size)
    {T : PhaseDelays (ps.foldl (fun l p => p.perturbSensorLocations l) a.locations).nrows k}
    (hT : src.phaseDelay (ps.foldl (fun l p => p.perturbSensorLocations l) a.locations) wl cd = .ok T)
    (hshape : ∀ p ∈ ps, p.ShapeOk a.size) :
    steering a src wl cd mode = .ok
      { A := fun _ => totalFactor a.size ps * ideal hrows T.D,
        DA := T.DD.map fun X _ => totalFactor a.size ps * idealDeriv hrows T.D X } := by
  have hcond : ((!a.element.isIsotropic || !a.element.isScalar) && cd) = false := by
    rw [hel]; rfl
  have hsr : ∀ (el : Element) (L : Mat ℝ) (m : ℕ), el = .isotropicScalar →
      spatialResponse el src L m = .ok fun _ _ _ => 1 := by
    rintro _ L m rfl; rfl
  have e1 : steering a src wl cd mode = steerWith a.element a.locations ps src wl cd := by
    unfold steering; rw [hps]
  rw [e1]
  unfold steerWith
  simp only [hcond]
  rw [if_neg (by simp), hT]
  have hrows' : (ps.foldl (fun l p => p.perturbSensorLocations l) a.locations).nrows =
    a.locations.nrows := hrows
  simp only [hrows', dif_pos, hsr _ _ _ hel]
  refine (perturbLoop_ok _ _ hshape).trans ?_
  simp only [one_mul]
  refine congrArg Except.ok ?_
  refine congrArg₂ Steering.mk rfl ?_
  refine Eq.trans List.map_map ?_
  exact List.map_map

/-- Inversion: a successful call on isotropic elements went through the main path. -/
theorem steering_iso_inv {k : ℕ} {a : ArrayDesign} (hel : a.element = .isotropicScalar)
    {src : Sources k} {wl : ℝ} {cd : Bool} {mode : String}
    {out : Steering a.element.outputSize a.size k}
    (h : steering a src wl cd mode = .ok out) :
    ∃ (ps : List Perturbation)
      (T : PhaseDelays (ps.foldl (fun l p => p.perturbSensorLocations l) a.locations).nrows k)
      (hrows : (ps.foldl (fun l p => p.perturbSensorLocations l) a.locations).nrows = a.size),
      a.filterPerturbations mode = .ok ps ∧
      src.phaseDelay (ps.foldl (fun l p => p.perturbSensorLocations l) a.locations) wl cd = .ok T ∧
      (∀ p ∈ ps, p.ShapeOk a.size) ∧
      out.A = (fun _ => totalFactor a.size ps * ideal hrows T.D) ∧
      out.DA = T.DD.map fun X _ => totalFactor a.size ps * idealDeriv hrows T.D X := by
  have h0 := h
  have hcond : ((!a.element.isIsotropic || !a.element.isScalar) && cd) = false := by
    rw [hel]; rfl
  have hsr : ∀ (el : Element) (L : Mat ℝ) (m : ℕ), el = .isotropicScalar →
      spatialResponse el src L m = .ok fun _ _ _ => 1 := by
    rintro _ L m rfl; rfl
  unfold steering at h
  cases hps : a.filterPerturbations mode with
  | error e => rw [hps] at h; cases h
  | ok ps =>
    rw [hps] at h
    replace h : steerWith a.element a.locations ps src wl cd = .ok out := h
    unfold steerWith at h
    simp only [hcond] at h
    rw [if_neg (by simp)] at h
    cases hT : src.phaseDelay (ps.foldl (fun l p => p.perturbSensorLocations l) a.locations) wl cd with
    | error e => rw [hT] at h; cases h
    | ok T =>
      rw [hT] at h
      simp only at h
      by_cases hrows : (ps.foldl (fun l p => p.perturbSensorLocations l) a.locations).nrows =
        a.locations.nrows
      · rw [dif_pos hrows, hsr _ _ _ hel] at h
        have hsh := perturbLoop_shape ps h
        have := steering_iso hel hps hrows hT hsh
        rw [h0] at this
        cases this
        exact ⟨ps, T, hrows, rfl, hT, hsh, rfl, rfl⟩
      · rw [dif_neg hrows] at h; cases h

theorem filter_subset {a : ArrayDesign} {mode : String} {ps : List Perturbation}
    (h : a.filterPerturbations mode = .ok ps) : ps.Sublist a.perturbations := by
  unfold ArrayDesign.filterPerturbations at h
  split at h
  · cases h; exact List.Sublist.refl _
  · split at h
    · cases h; exact List.filter_sublist
    · split at h
      · cases h; exact List.nil_sublist _
      · cases h

/-! ### Phase delays -/

/-- Direction cosines of the far-field sources as used by the code. -/
noncomputable def FF1D.dir {k : ℕ} (s : FF1D k) (c : Fin k) : ℝ × ℝ × ℝ :=
  if s.unit = "sin" then (s.loc c, Real.sqrt (1 - s.loc c * s.loc c), 0)
  else if s.unit = "deg" then (Real.sin (deg2rad (s.loc c)), Real.cos (deg2rad (s.loc c)), 0)
  else (Real.sin (s.loc c), Real.cos (s.loc c), 0)

noncomputable def FF2D.dir {k : ℕ} (s : FF2D k) (c : Fin k) : ℝ × ℝ × ℝ :=
  let p := if s.unit = "deg" then (deg2rad (s.loc c).1, deg2rad (s.loc c).2) else s.loc c
  (Real.cos p.2 * Real.cos p.1, Real.cos p.2 * Real.sin p.1, Real.sin p.2)

theorem validSensorDim_iff (L : Mat ℝ) : validSensorDim L = true ↔ 1 ≤ L.ncols ∧ L.ncols ≤ 3 := by
  simp [validSensorDim]; omega

theorem FF1D.phaseDelay_spec {k : ℕ} (s : FF1D k) (L : Mat ℝ) (hL : 1 ≤ L.ncols ∧ L.ncols ≤ 3)
    (wl : ℝ) [NeZero wl] (cd : Bool) (hn : s.unit = "sin" → ¬ s.sinNaN L cd := by exact fun _ h => absurd h.1 Bool.false_ne_true) :
    ∃ T, s.phaseDelay L wl cd = .ok T ∧ ∀ i c, T.D i c =
      2 * Real.pi / wl * (L.at0 i 0 * (s.dir c).1 + L.at0 i 1 * (s.dir c).2.1) := by
  have hv := (validSensorDim_iff L).2 hL
  unfold FF1D.phaseDelay
  rw [hv]
  simp only [Bool.not_true, Bool.false_eq_true, if_false, if_neg (NeZero.ne wl)]
  by_cases hs : s.unit = "sin"
  · rw [if_pos hs, if_neg (hn hs)]
    refine ⟨_, rfl, fun i c => ?_⟩
    simp only [FF1D.phaseDelaySin, FF1D.dir, hs, if_true]
    by_cases h1 : L.ncols = 1
    · simp only [h1, if_true]
      rw [Mat.at0_of_ge L (i := i) (j := 1) (by omega)]; ring
    · simp only [h1, if_false]
  · rw [if_neg hs]
    refine ⟨_, rfl, fun i c => ?_⟩
    simp only [FF1D.phaseDelayRad, FF1D.dir, hs, if_false]
    by_cases hd : s.unit = "deg"
    · simp only [hd, if_true]
      by_cases h1 : L.ncols = 1
      · simp only [h1, if_true]
        rw [Mat.at0_of_ge L (i := i) (j := 1) (by omega)]; ring
      · simp only [h1, if_false]
    · simp only [hd, if_false]
      by_cases h1 : L.ncols = 1
      · simp only [h1, if_true]
        rw [Mat.at0_of_ge L (i := i) (j := 1) (by omega)]; ring
      · simp only [h1, if_false]

theorem FF2D.phaseDelay_spec {k : ℕ} (s : FF2D k) (L : Mat ℝ) (hL : 1 ≤ L.ncols ∧ L.ncols ≤ 3)
    (wl : ℝ) [NeZero wl] : ∃ T, s.phaseDelay L wl false = .ok T ∧ ∀ i c, T.D i c =
      2 * Real.pi / wl * (L.at0 i 0 * (s.dir c).1 + L.at0 i 1 * (s.dir c).2.1 +
        L.at0 i 2 * (s.dir c).2.2) := by
  have hv := (validSensorDim_iff L).2 hL
  unfold FF2D.phaseDelay
  rw [hv]
  simp only [Bool.not_true, Bool.false_eq_true, if_false, if_neg (NeZero.ne wl)]
  refine ⟨_, rfl, fun i c => ?_⟩
  have h0 : ∀ j, L.ncols ≤ j → L.at0 i j = 0 := fun j hj => Mat.at0_of_ge L hj
  simp only [FF2D.dir]
  by_cases hd : s.unit = "deg" <;> simp only [hd, if_true, if_false]
  all_goals
    by_cases h1 : L.ncols = 1
    · simp only [h1, if_true]; rw [h0 1 (by omega), h0 2 (by omega)]; ring
    · by_cases h2 : L.ncols = 2
      · simp only [h2, if_true]; rw [h0 2 (by omega)]; simp
      · simp only [h1, h2, if_false]

theorem euclid_sq2 (a b c d : ℝ) : euclid [a, b] [c, d] = Real.sqrt ((a - c) ^ 2 + (b - d) ^ 2) := by
  simp [euclid]

theorem euclid_sq3 (a b c d e f : ℝ) : euclid [a, b, e] [c, d, f] =
    Real.sqrt ((a - c) ^ 2 + (b - d) ^ 2 + (e - f) ^ 2) := by
  simp [euclid, add_assoc]

/-- Distance of sensor `i` to source `c`, in three dimensions. -/
noncomputable def NF2D.dist {k : ℕ} (s : NF2D k) (L : Mat ℝ) (i : ℕ) (c : Fin k) : ℝ :=
  Real.sqrt ((L.at0 i 0 - (s.loc c).1) ^ 2 + (L.at0 i 1 - (s.loc c).2) ^ 2 + (L.at0 i 2) ^ 2)

theorem NF2D.euclid_aligned {k : ℕ} (s : NF2D k) (L : Mat ℝ) (i : ℕ) (c : Fin k) :
    euclid (s.aligned L i c).2 (s.aligned L i c).1 = s.dist L i c := by
  have h0 : ∀ j, L.ncols ≤ j → L.at0 i j = 0 := fun j hj => Mat.at0_of_ge L hj
  unfold NF2D.aligned NF2D.dist
  by_cases h1 : L.ncols < 2
  · simp only [h1, if_true]
    rw [euclid_sq2, h0 1 (by omega), h0 2 (by omega)]; simp
  · by_cases h2 : L.ncols > 2
    · simp only [h1, h2, if_true, if_false]
      rw [euclid_sq3]; simp
    · simp only [h1, h2, if_false]
      rw [euclid_sq2, h0 2 (by omega)]; simp

theorem NF2D.phaseDelay_spec {k : ℕ} (s : NF2D k) (L : Mat ℝ) (hL : 1 ≤ L.ncols ∧ L.ncols ≤ 3)
    (hr : L.nrows ≠ 0) (wl : ℝ) [NeZero wl] : ∃ T, s.phaseDelay L wl false = .ok T ∧ ∀ i c, T.D i c =
      -2 * Real.pi / wl * (s.dist L i c - s.dist L 0 c) := by
  have hv := (validSensorDim_iff L).2 hL
  unfold NF2D.phaseDelay
  rw [hv]
  simp only [Bool.not_true, Bool.false_eq_true, if_false, hr, if_neg (NeZero.ne wl)]
  refine ⟨_, rfl, fun i c => ?_⟩
  simp only [NF2D.euclid_aligned]

/-- A returned delay matrix comes from a nonzero wavelength. -/
theorem Sources.phaseDelay_wl {k : ℕ} {src : Sources k} {L : Mat ℝ} {wl : ℝ} {cd : Bool} {T} (h : src.phaseDelay L wl cd = .ok T) : NeZero wl := by
  refine ⟨fun h0 => ?_⟩
  subst h0
  cases src with
  | ff1 s =>
    simp only [Sources.phaseDelay, FF1D.phaseDelay] at h
    split at h <;> simp at h
  | ff2 s =>
    simp only [Sources.phaseDelay, FF2D.phaseDelay] at h
    split at h
    · simp at h
    · split at h <;> simp at h
  | nf s =>
    simp only [Sources.phaseDelay, NF2D.phaseDelay] at h
    split at h
    · simp at h
    · split at h <;> simp at h

/-- A returned steering matrix comes from a nonzero wavelength. -/
theorem steering_wl {k : ℕ} {a : ArrayDesign} {src : Sources k} {wl : ℝ} {cd : Bool} {mode : String} {out}
    (h : steering a src wl cd mode = .ok out) : NeZero wl := by
  unfold steering at h
  cases hps : a.filterPerturbations mode with
  | error e => rw [hps] at h; cases h
  | ok ps =>
    rw [hps] at h
    replace h : steerWith a.element a.locations ps src wl cd = .ok out := h
    unfold steerWith at h
    split at h
    · cases h
    · cases hT : src.phaseDelay (ps.foldl (fun l p => p.perturbSensorLocations l) a.locations) wl cd with
      | error e => simp only [hT] at h; cases h
      | ok T => exact Sources.phaseDelay_wl hT

end Doa
