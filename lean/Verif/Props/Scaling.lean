import Verif.Props.Sources
import Verif.Props.Performance
import Verif.Lemmas.Grid
import Verif.Props.Geometry

/-!
# C79: the unit of length does not matter
-/

namespace Doa.Props

open Doa Doa.Spec Complex Matrix

variable {k : ℕ}

/-- All lengths of an array expressed in a unit `1/s` times as long: locations and location errors are multiplied by `s`. -/
noncomputable def rescalePert (s : ℝ) : Perturbation → Perturbation
  | .location err kn => .location (err.map (s * ·)) kn
  | p => p

/-- The rescaled array. -/
noncomputable def rescaleArray (s : ℝ) (a : ArrayDesign) : ArrayDesign :=
  { a with locations := a.locations.map (s * ·), perts := a.perts.map fun e => (e.1, rescalePert s e.2) }

/-- The rescaled sources: angles are kept, near-field positions are multiplied by `s`. -/
noncomputable def rescaleSources (s : ℝ) : Sources k → Sources k
  | .nf q => .nf ⟨fun c => (s * (q.loc c).1, s * (q.loc c).2)⟩
  | x => x

theorem map_nrows (s : ℝ) (L : Mat ℝ) : (L.map (s * ·)).nrows = L.nrows := List.length_map _

theorem map_at0 (s : ℝ) (L : Mat ℝ) (i j : ℕ) : (L.map (s * ·)).at0 i j = s * L.at0 i j :=
  Mat.at0_map _ (mul_zero s) L i j

theorem rescale_perturbLocations (s : ℝ) (err L : Mat ℝ) :
    perturbLocations (err.map (s * ·)) (L.map (s * ·)) = (perturbLocations err L).map (s * ·) := by
  by_cases h : err.ncols ≤ L.ncols
  · have h' : (err.map (s * ·)).ncols ≤ (L.map (s * ·)).ncols := h
    unfold perturbLocations
    rw [if_pos h, if_pos h']
    refine congrArg (Mat.mk L.ncols) ?_
    refine (List.zipWith_map ..).trans (Eq.trans ?_ (List.map_zipWith ..).symm)
    refine congrArg (fun f => List.zipWith f L.rows err.rows) ?_
    funext l e j
    change dite (j.1 < err.ncols) (fun h => s * l j + s * e ⟨j.1, h⟩) (fun _ => s * l j) =
      s * dite (j.1 < err.ncols) (fun h => l j + e ⟨j.1, h⟩) (fun _ => l j)
    split
    · rw [mul_add]
    · rfl
  · have h' : ¬ (err.map (s * ·)).ncols ≤ (L.map (s * ·)).ncols := h
    unfold perturbLocations
    rw [if_neg h, if_neg h']
    refine congrArg (Mat.mk err.ncols) ?_
    refine (List.zipWith_map ..).trans (Eq.trans ?_ (List.map_zipWith ..).symm)
    refine congrArg (fun f => List.zipWith f L.rows err.rows) ?_
    funext l e j
    change dite (j.1 < L.ncols) (fun h => s * e j + s * l ⟨j.1, h⟩) (fun _ => s * e j) =
      s * dite (j.1 < L.ncols) (fun h => e j + l ⟨j.1, h⟩) (fun _ => e j)
    split
    · rw [mul_add]
    · rfl

theorem rescale_foldl (s : ℝ) (ps : List Perturbation) : ∀ L : Mat ℝ,
    (ps.map (rescalePert s)).foldl (fun l p => p.perturbSensorLocations l) (L.map (s * ·)) =
      (ps.foldl (fun l p => p.perturbSensorLocations l) L).map (s * ·) := by
  induction ps with
  | nil => intro L; rfl
  | cons p ps ih =>
    intro L
    rw [List.map_cons, List.foldl_cons, List.foldl_cons]
    have : (rescalePert s p).perturbSensorLocations (L.map (s * ·)) = (p.perturbSensorLocations L).map (s * ·) := by
      cases p with
      | location err kn => exact rescale_perturbLocations s err L
      | _ => rfl
    rw [this, ih]

open Classical in
/-- Phase delays as a function of the number of sensors and the coordinates. -/
noncomputable def delays (src : Sources k) (n d : ℕ) (x : ℕ → ℕ → ℝ) (wl : ℝ) (cd : Bool) : Res (PhaseDelays n k) :=
  match src with
  | .ff1 s =>
    if !(!(d < 1 || d > 3)) then .error .valueError
    else if wl = 0 then .error .zeroDivisionError
    else if s.unit = "sin" then
      if cd = true ∧ d ≠ 1 ∧ ∃ c, 1 ≤ |s.loc c| then .error .returnsNaN else
      .ok { D := if d = 1 then fun i c => 2 * Real.pi / wl * (x i 0 * s.loc c)
              else fun i c => 2 * Real.pi / wl * (x i 0 * s.loc c + x i 1 * Real.sqrt (1 - s.loc c * s.loc c)),
            DD := if cd then [if d = 1 then fun i _ => 2 * Real.pi / wl * x i 0
              else fun i c => 2 * Real.pi / wl * (x i 0 - x i 1 * (s.loc c / Real.sqrt (1 - s.loc c * s.loc c)))] else [] }
    else
      let loc : Fin k → ℝ := if s.unit = "deg" then fun c => deg2rad (s.loc c) else s.loc
      let DD : Fin n → Fin k → ℝ :=
        if d = 1 then fun i c => 2 * Real.pi / wl * (x i 0 * Real.cos (loc c))
        else fun i c => 2 * Real.pi / wl * (x i 0 * Real.cos (loc c) - x i 1 * Real.sin (loc c))
      .ok { D := if d = 1 then fun i c => 2 * Real.pi / wl * (x i 0 * Real.sin (loc c))
              else fun i c => 2 * Real.pi / wl * (x i 0 * Real.sin (loc c) + x i 1 * Real.cos (loc c)),
            DD := if cd then [if s.unit = "deg" then fun i c => DD i c * (Real.pi / 180) else DD] else [] }
  | .ff2 s =>
    if !(!(d < 1 || d > 3)) then .error .valueError
    else if cd then .error .valueError
    else if wl = 0 then .error .zeroDivisionError
    else
      let loc : Fin k → ℝ × ℝ :=
        if s.unit = "deg" then fun c => (deg2rad (s.loc c).1, deg2rad (s.loc c).2) else s.loc
      .ok { D := if d = 1 then fun i c => 2 * Real.pi / wl * (x i 0 * (Real.cos (loc c).2 * Real.cos (loc c).1))
              else if d = 2 then fun i c => 2 * Real.pi / wl * (x i 0 * (Real.cos (loc c).2 * Real.cos (loc c).1) +
                x i 1 * (Real.cos (loc c).2 * Real.sin (loc c).1))
              else fun i c => 2 * Real.pi / wl * (x i 0 * (Real.cos (loc c).2 * Real.cos (loc c).1) +
                x i 1 * (Real.cos (loc c).2 * Real.sin (loc c).1) + x i 2 * Real.sin (loc c).2), DD := [] }
  | .nf s =>
    if !(!(d < 1 || d > 3)) then .error .valueError
    else if cd then .error .valueError
    else if wl = 0 then .error .zeroDivisionError
    else if n = 0 then .error .indexError
    else
      let M : ℕ → Fin k → ℝ := fun i c =>
        if d < 2 then euclid [x i 0, 0] [(s.loc c).1, (s.loc c).2]
        else if d > 2 then euclid [x i 0, x i 1, x i 2] [(s.loc c).1, (s.loc c).2, 0]
        else euclid [x i 0, x i 1] [(s.loc c).1, (s.loc c).2]
      .ok { D := fun i c => -2 * Real.pi / wl * (M i c - M 0 c), DD := [] }

theorem delays_eq (src : Sources k) (L : Mat ℝ) (wl : ℝ) (cd : Bool) :
    src.phaseDelay L wl cd = delays src L.nrows L.ncols (fun i j => L.at0 i j) wl cd := by
  cases src with
  | ff1 s =>
    by_cases h : s.sinNaN L cd
    · have h' : cd = true ∧ L.ncols ≠ 1 ∧ ∃ c, 1 ≤ |s.loc c| := h
      simp only [Sources.phaseDelay, FF1D.phaseDelay, delays, if_pos h, if_pos h']
      rfl
    · have h' : ¬ (cd = true ∧ L.ncols ≠ 1 ∧ ∃ c, 1 ≤ |s.loc c|) := h
      simp only [Sources.phaseDelay, FF1D.phaseDelay, delays, if_neg h, if_neg h']
      rfl
  | ff2 s => rfl
  | nf s =>
    unfold delays
    simp only [Sources.phaseDelay, NF2D.phaseDelay, validSensorDim]
    congr 6
    funext i c
    have : ∀ i, euclid (s.aligned L i c).2 (s.aligned L i c).1 = if L.ncols < 2 then euclid [L.at0 i 0, 0] [(s.loc c).1, (s.loc c).2]
        else if L.ncols > 2 then euclid [L.at0 i 0, L.at0 i 1, L.at0 i 2] [(s.loc c).1, (s.loc c).2, 0]
        else euclid [L.at0 i 0, L.at0 i 1] [(s.loc c).1, (s.loc c).2] := by
      intro i
      unfold NF2D.aligned
      split
      · rfl
      · split <;> rfl
    rw [this, this]

theorem euclid_scale {s : ℝ} (hs : 0 < s) (x y : List ℝ) : euclid (x.map (s * ·)) (y.map (s * ·)) = s * euclid x y := by
  unfold euclid
  have : (List.zipWith (fun a b => (a - b) ^ 2) (x.map (s * ·)) (y.map (s * ·))).sum = s ^ 2 * (List.zipWith (fun a b => (a - b) ^ 2) x y).sum := by
    induction x generalizing y with
    | nil => simp
    | cons a x ih =>
      cases y with
      | nil => simp
      | cons b y =>
        simp only [List.map_cons, List.zipWith_cons_cons, List.sum_cons, ih]
        ring
  rw [this, Real.sqrt_mul (sq_nonneg s), Real.sqrt_sq hs.le]

theorem delays_scale {s : ℝ} (hs : 0 < s) (src : Sources k) (n d : ℕ) (x : ℕ → ℕ → ℝ) (wl : ℝ) (cd : Bool) :
    delays (rescaleSources s src) n d (fun i j => s * x i j) (s * wl) cd = delays src n d x wl cd := by
  have hs' : s ≠ 0 := hs.ne'
  have key : ∀ u y : ℝ, u / (s * wl) * (s * y) = u / wl * y := by
    intro u y
    rw [mul_comm s wl, ← div_div]
    field_simp
  have key2 : ∀ u y z w : ℝ, u / (s * wl) * (s * y * z + s * w) = u / wl * (y * z + w) := by
    intro u y z w
    rw [← key]; ring_nf
  have hw : (s * wl = 0) = (wl = 0) := by simp [hs']
  cases src with
  | ff1 q =>
    simp only [rescaleSources, delays, hw]
    simp only [mul_assoc s, ← mul_add s, ← mul_sub s, key]
  | ff2 q =>
    simp only [rescaleSources, delays, hw]
    simp only [mul_assoc s, ← mul_add s, key]
  | nf q =>
    simp only [rescaleSources, delays, hw]
    have h1 : ∀ i c, (if d < 2 then euclid [s * x i 0, 0] [s * (q.loc c).1, s * (q.loc c).2]
        else if d > 2 then euclid [s * x i 0, s * x i 1, s * x i 2] [s * (q.loc c).1, s * (q.loc c).2, 0]
        else euclid [s * x i 0, s * x i 1] [s * (q.loc c).1, s * (q.loc c).2]) =
        s * (if d < 2 then euclid [x i 0, 0] [(q.loc c).1, (q.loc c).2]
        else if d > 2 then euclid [x i 0, x i 1, x i 2] [(q.loc c).1, (q.loc c).2, 0]
        else euclid [x i 0, x i 1] [(q.loc c).1, (q.loc c).2]) := by
      intro i c
      split
      · rw [← euclid_scale hs]; simp
      · split
        · rw [← euclid_scale hs]; simp
        · rw [← euclid_scale hs]; simp
    simp only [h1, ← mul_sub s, key]

/-- The part of `steering_matrix` after the phase delays, for any number of sensors. -/
noncomputable def finish {n m' m : ℕ} (ps : List Perturbation) (T : Res (PhaseDelays m' k)) (R : Res (Fin n → Matrix (Fin m) (Fin k) ℂ)) :
    Res (Steering n m k) :=
  match T with
  | .error e => .error e
  | .ok T =>
    if h : m' = m then
      let A : Matrix (Fin m) (Fin k) ℂ := fun i c => Complex.exp (I * (T.D (Fin.cast h.symm i) c : ℝ))
      let DA : List (Matrix (Fin m) (Fin k) ℂ) := T.DD.map fun X i c => A i c * (I * (X (Fin.cast h.symm i) c : ℝ))
      match R with
      | .error e => .error e
      | .ok S => perturbLoop ps { A := fun l i c => S l i c * A i c, DA := DA.map fun X _ => X }
    else .error .valueError

theorem steerWith_finish (el : Element) (locs : Mat ℝ) (ps : List Perturbation) (src : Sources k) (wl : ℝ) (cd : Bool) :
    steerWith el locs ps src wl cd = if (!el.isIsotropic || !el.isScalar) && cd then .error .runtimeError
      else finish ps (src.phaseDelay (ps.foldl (fun l p => p.perturbSensorLocations l) locs) wl cd)
        (spatialResponse el src (ps.foldl (fun l p => p.perturbSensorLocations l) locs) locs.nrows) := by
  unfold steerWith finish
  simp only []
  split
  · rfl
  · cases src.phaseDelay (ps.foldl (fun l p => p.perturbSensorLocations l) locs) wl cd with
    | error e => rfl
    | ok T =>
      by_cases h : (ps.foldl (fun l p => p.perturbSensorLocations l) locs).nrows = locs.nrows
      · simp only [dif_pos h]
        cases spatialResponse el src (ps.foldl (fun l p => p.perturbSensorLocations l) locs) locs.nrows <;> rfl
      · simp only [dif_neg h]

theorem perturbLoop_rescale {n m : ℕ} (s : ℝ) (ps : List Perturbation) : ∀ S : Steering n m k,
    perturbLoop (ps.map (rescalePert s)) S = perturbLoop ps S := by
  induction ps with
  | nil => intro S; rfl
  | cons p ps ih =>
    intro S
    have : (rescalePert s p).perturbSteering S = p.perturbSteering S := by
      cases p <;> rfl
    rw [List.map_cons]
    simp only [perturbLoop, this]
    split
    · rfl
    · exact ih _

theorem finish_rescale {n m' m : ℕ} (s : ℝ) (ps : List Perturbation) (T : Res (PhaseDelays m' k)) (R : Res (Fin n → Matrix (Fin m) (Fin k) ℂ)) :
    finish (ps.map (rescalePert s)) T R = finish ps T R := by
  unfold finish
  simp only [perturbLoop_rescale]

theorem filter_rescale (s : ℝ) (a : ArrayDesign) (mode : String) :
    (rescaleArray s a).filterPerturbations mode = (a.filterPerturbations mode).map (List.map (rescalePert s)) := by
  have hv : (rescaleArray s a).perts.values = a.perts.values.map (rescalePert s) := by
    simp only [rescaleArray, PyDict.values, List.map_map]
    rfl
  have hk : ∀ p, (rescalePert s p).isKnown = p.isKnown := by intro p; cases p <;> rfl
  unfold ArrayDesign.filterPerturbations
  rw [hv]
  split
  · rfl
  · split
    · rw [List.filter_map]
      refine congrArg Except.ok (congrArg (List.map _) ?_)
      exact List.filter_congr fun p _ => hk p
    · split <;> rfl

/-- The steering matrix after the perturbations have been selected. -/
theorem steerWith_rescale {s : ℝ} (hs : 0 < s) (el : Element) (locs : Mat ℝ) (ps : List Perturbation) (src : Sources k)
    (hel : el = .isotropicScalar ∨ src.isFarField = true) (wl : ℝ) (cd : Bool) :
    HEq (steerWith el (locs.map (s * ·)) (ps.map (rescalePert s)) (rescaleSources s src) (s * wl) cd) (steerWith el locs ps src wl cd) := by
  rw [steerWith_finish, steerWith_finish, rescale_foldl]
  obtain ⟨L, hL⟩ : ∃ L, ps.foldl (fun l p => p.perturbSensorLocations l) locs = L := ⟨_, rfl⟩
  rw [hL, delays_eq, delays_eq]
  have hat : (fun i j => (L.map (s * ·)).at0 i j) = fun i j => s * L.at0 i j := by
    funext i j; exact map_at0 s L i j
  have hnc : (L.map (s * ·)).ncols = L.ncols := rfl
  rw [hat, hnc, delays_scale hs]
  have hsr : ∀ m L', spatialResponse el (rescaleSources s src) L' m = spatialResponse el src L m := by
    intro m L'
    cases el with
    | isotropicScalar => rfl
    | custom n resp =>
      rcases hel with hel | hel
      · cases hel
      · cases src with
        | ff1 q => rfl
        | ff2 q => rfl
        | nf q => cases hel
  rw [hsr]
  have hn1 := map_nrows s L
  have hn2 := map_nrows s locs
  obtain ⟨n1, e1⟩ : ∃ n1, (L.map (s * ·)).nrows = n1 := ⟨_, rfl⟩
  obtain ⟨n2, e2⟩ : ∃ n2, (locs.map (s * ·)).nrows = n2 := ⟨_, rfl⟩
  rw [e1, e2]
  rw [e1] at hn1
  rw [e2] at hn2
  subst hn1 hn2
  rw [finish_rescale]

/-- **C79** (steering matrices). Expressing all lengths - sensor locations, location errors, positions of near-field sources and the
wavelength - in another unit does not change the steering matrix, its derivatives or the exception raised: for every array, every
perturbation, mode and kind of sources. (Elements that are not isotropic are told the range of near-field sources, in the new unit;
for them the claim is made for far-field sources.) -/
theorem C79_steering {s : ℝ} (hs : 0 < s) (a : ArrayDesign) (src : Sources k) (hel : a.element = .isotropicScalar ∨ src.isFarField = true)
    (wl : ℝ) (cd : Bool) (mode : String) :
    (rescaleArray s a).size = a.size ∧
    HEq (steering (rescaleArray s a) (rescaleSources s src) (s * wl) cd mode) (steering a src wl cd mode) := by
  have hsz : (rescaleArray s a).size = a.size := map_nrows s a.locations
  refine ⟨hsz, ?_⟩
  unfold steering
  rw [filter_rescale]
  cases a.filterPerturbations mode with
  | error e =>
    have : ∀ m1 m2 : ℕ, m1 = m2 → HEq (Except.error e : Res (Steering a.element.outputSize m1 k)) (Except.error e : Res (Steering a.element.outputSize m2 k)) := by
      rintro m1 _ rfl; rfl
    exact this _ _ hsz
  | ok ps => exact steerWith_rescale hs a.element a.locations ps src hel wl cd

/-- `steerPair` as a function of the result of `steering_matrix`. -/
noncomputable def pairOf {n m : ℕ} (r : Res (Steering n m k)) : Res (Matrix (Fin m) (Fin k) ℂ × Matrix (Fin m) (Fin k) ℂ) :=
  match r with
  | .error e => .error e
  | .ok out =>
    if h : n = 1 then
      match out.DA with
      | [D] => .ok (out.A ⟨0, by omega⟩, D ⟨0, by omega⟩)
      | _ => .error .valueError
    else .error .valueError

theorem steerPair_eq_pairOf (a : ArrayDesign) (src : Sources k) (wl : ℝ) (mode : String) :
    steerPair a src wl mode = pairOf (steering a src wl true mode) := by
  unfold steerPair pairOf
  cases steering a src wl true mode with
  | error e => rfl
  | ok out =>
    by_cases h : a.element.outputSize = 1
    · simp only [dif_pos h]
      rcases out.DA with _ | ⟨D, _ | ⟨_, _⟩⟩ <;> rfl
    · simp only [dif_neg h]

theorem steerPair_rescale {s : ℝ} (hs : 0 < s) (a : ArrayDesign) (q : FF1D k) (wl : ℝ) (mode : String) :
    HEq (steerPair (rescaleArray s a) (.ff1 q) (s * wl) mode) (steerPair a (.ff1 q) wl mode) := by
  rw [steerPair_eq_pairOf, steerPair_eq_pairOf]
  have h := C79_steering hs a (.ff1 q) (Or.inr rfl) wl true mode
  have : ∀ (n m1 m2 : ℕ) (r1 : Res (Steering n m1 k)) (r2 : Res (Steering n m2 k)), m1 = m2 → HEq r1 r2 → HEq (pairOf r1) (pairOf r2) := by
    rintro n m1 _ r1 r2 rfl h
    rw [eq_of_heq h]
  exact this _ _ _ _ _ h.1 h.2

/-- The rest of a bound computation, once the steering matrix and its derivative are known. -/
noncomputable def restOf {m : ℕ} (f : ∀ {m : ℕ}, Matrix (Fin m) (Fin k) ℂ → Matrix (Fin m) (Fin k) ℂ → Res (CovOut k))
    (r : Res (Matrix (Fin m) (Fin k) ℂ × Matrix (Fin m) (Fin k) ℂ)) : Res (CovOut k) :=
  match r with
  | .error e => .error e
  | .ok (A, D) => f A D

theorem restOf_heq {m m' : ℕ} (h : m = m') {f : ∀ {m : ℕ}, Matrix (Fin m) (Fin k) ℂ → Matrix (Fin m) (Fin k) ℂ → Res (CovOut k)}
    {r : Res (Matrix (Fin m) (Fin k) ℂ × Matrix (Fin m) (Fin k) ℂ)} {r' : Res (Matrix (Fin m') (Fin k) ℂ × Matrix (Fin m') (Fin k) ℂ)}
    (hr : HEq r r') : restOf f r = restOf f r' := by
  subst h
  rw [eq_of_heq hr]

/-- **C79** (bounds). The three Cramér-Rao bounds and the asymptotic covariance of MUSIC do not depend on the unit of length: the calls
return the same value or raise the same exception, for all arguments. -/
theorem C79_bounds {s : ℝ} (hs : 0 < s) (a : ArrayDesign) (src : Sources k) (wl : ℝ) (p : PowerArg) (σ : ℝ) (n : ℕ) (mode pert : String) :
    crbSto (rescaleArray s a) src (s * wl) p σ n mode = crbSto a src wl p σ n mode ∧
    crbDet (rescaleArray s a) src (s * wl) p σ n mode = crbDet a src wl p σ n mode ∧
    crbStouc (rescaleArray s a) src (s * wl) p σ n mode = crbStouc a src wl p σ n mode ∧
    ecovMusic (rescaleArray s a) src (s * wl) p σ n pert mode = ecovMusic a src wl p σ n pert mode := by
  cases src with
  | ff2 q => exact ⟨rfl, rfl, rfl, rfl⟩
  | nf q => exact ⟨rfl, rfl, rfl, rfl⟩
  | ff1 q =>
    have hsz : (rescaleArray s a).size = a.size := map_nrows s a.locations
    have hall := steerPair_rescale hs a q wl "all"
    have hpert := steerPair_rescale hs a q wl pert
    refine ⟨?_, ?_, ?_, ?_⟩
    · have key : ∀ (a : ArrayDesign) (wl : ℝ), crbSto a (.ff1 q) wl p σ n mode = match unifyPToMatrix p k with
          | .error e => .error e
          | .ok P => restOf (fun A D => match crbStoCore A D P σ n with
            | .error e => .error e
            | .ok C => reduceOutput C mode) (steerPair a (.ff1 q) wl "all") := by
        intro a wl
        unfold crbSto restOf
        rw [if_neg (by simp [Sources.isFF1])]
        cases unifyPToMatrix p k with
        | error e => rfl
        | ok P => cases steerPair a (.ff1 q) wl "all" <;> rfl
      rw [key, key]
      cases unifyPToMatrix p k with
      | error e => rfl
      | ok P => exact restOf_heq hsz hall
    · have key : ∀ (P : CMat) (a : ArrayDesign) (wl : ℝ) (h : ¬ (P.r ≠ k ∨ P.c ≠ k)), crbDet a (.ff1 q) wl (.matrix P) σ n mode =
          restOf (fun A D => match crbDetCore A D (P.A.submatrix (Fin.cast (by omega)) (Fin.cast (by omega))) σ n with
            | .error e => .error e
            | .ok C => reduceOutput C mode) (steerPair a (.ff1 q) wl "all") := by
        intro P a wl h
        unfold crbDet restOf
        rw [if_neg (by simp [Sources.isFF1])]
        simp only [dif_neg h]
        cases steerPair a (.ff1 q) wl "all" <;> rfl
      cases p with
      | matrix P =>
        by_cases h : P.r ≠ k ∨ P.c ≠ k
        · unfold crbDet
          simp only [dif_pos h]
        · rw [key P _ _ h, key P _ _ h]
          exact restOf_heq hsz hall
      | scalar x => rfl
      | list x => rfl
      | vector x => rfl
      | nd x => rfl
    · have key : ∀ (a : ArrayDesign) (wl : ℝ), crbStouc a (.ff1 q) wl p σ n mode = match unifyPToVector p k with
          | .error e => .error e
          | .ok P => restOf (fun A D => match crbStoucCore A D P σ n with
            | .error e => .error e
            | .ok C => reduceOutput C mode) (steerPair a (.ff1 q) wl "all") := by
        intro a wl
        unfold crbStouc restOf
        rw [if_neg (by simp [Sources.isFF1])]
        cases unifyPToVector p k with
        | error e => rfl
        | ok P => cases steerPair a (.ff1 q) wl "all" <;> rfl
      rw [key, key]
      cases unifyPToVector p k with
      | error e => rfl
      | ok P => exact restOf_heq hsz hall
    · have key : ∀ (a : ArrayDesign) (wl : ℝ), ecovMusic a (.ff1 q) wl p σ n pert mode = if k ≥ a.size then .error .valueError else
          match unifyPToMatrix p k with
          | .error e => .error e
          | .ok P => restOf (fun A D => match ecovMusicCore A D P σ n with
            | .error e => .error e
            | .ok C => reduceOutput C mode) (steerPair a (.ff1 q) wl pert) := by
        intro a wl
        unfold ecovMusic restOf
        rw [if_neg (by simp [Sources.isFF1])]
        split
        · rfl
        · cases unifyPToMatrix p k with
          | error e => rfl
          | ok P => cases steerPair a (.ff1 q) wl pert <;> rfl
      rw [key, key]
      by_cases hk : k ≥ a.size
      · rw [if_pos hk, if_pos (hsz.symm ▸ hk)]
      · rw [if_neg hk, if_neg (hsz.symm ▸ hk)]
        cases unifyPToMatrix p k with
        | error e => rfl
        | ok P => exact restOf_heq hsz hpert

theorem mat_ext {L L' : Mat ℝ} (hr : L'.nrows = L.nrows) (hc : L'.ncols = L.ncols)
    (h : ∀ i j, i < L.nrows → j < L.ncols → L'.at0 i j = L.at0 i j) : L' = L := by
  obtain ⟨c, rows⟩ := L
  obtain ⟨c', rows'⟩ := L'
  obtain rfl : c' = c := hc
  refine congrArg (Mat.mk c') (List.ext_getElem hr fun i h1 h2 => ?_)
  funext j
  have := h i j.1 h2 j.2
  rwa [Mat.at0_eq _ h1 j.2, Mat.at0_eq _ h2 j.2] at this

/-- The rescaled grid-based array: the indices stay, base vectors and spacings are multiplied by `s`. -/
noncomputable def rescaleGrid (s : ℝ) (a : GridArray) : GridArray :=
  { toArrayDesign := rescaleArray s a.toArrayDesign, elementIndices := a.elementIndices, bases := a.bases.map (s * ·), d0 := a.d0.map (s * ·) }

theorem ula_rescale (s : ℝ) (n : ℕ) (d : ℝ) : ∃ v v', ula n (.scalar d) none {} = .ok v ∧ ula n (.scalar (s * d)) none {} = .ok v' ∧
    v'.toArrayDesign = rescaleArray s v.toArrayDesign := by
  obtain ⟨v, hv⟩ := ula_ok n d none
  obtain ⟨v', hv'⟩ := ula_ok n (s * d) none
  refine ⟨v, v', hv, hv', ?_⟩
  have g := C01_ula_geometry n d none {} v hv
  have g' := C01_ula_geometry n (s * d) none {} v' hv'
  have q := gridInit_spec hv
  have q' := gridInit_spec hv'
  have hp : v.perts = [] := (Except.ok.inj q.2.2.2.1).symm
  have hp' : v'.perts = [] := (Except.ok.inj q'.2.2.2.1).symm
  have hat : ∀ i j, i < v.locations.nrows → j < v.locations.ncols → v'.locations.at0 i j = (v.locations.map (s * ·)).at0 i j := by
    intro i j hi hj
    have h1 : v.locations.ncols = 1 := g.2.1
    obtain rfl : j = 0 := by omega
    have hn : v.locations.nrows = n := g.1
    rw [map_at0, Mat.at0, Mat.at0, g.2.2 i (by omega), g'.2.2 i (by omega)]
    simp only [Option.getD_some]
    ring
  have hloc : v'.locations = v.locations.map (s * ·) := by
    refine mat_ext ?_ ?_ ?_
    · rw [map_nrows]
      exact g'.1.trans g.1.symm
    · exact g'.2.1.trans g.2.1.symm
    · intro i j hi hj
      exact hat i j (by rwa [map_nrows] at hi) hj
  have hel : v'.element = v.element := q'.2.2.1.trans q.2.2.1.symm
  have hnm : v'.name = v.name := q'.2.1.trans q.2.1.symm
  have : ∀ a b : ArrayDesign, a.locations = b.locations → a.name = b.name → a.element = b.element → a.perts = b.perts → a = b := by
    rintro ⟨_, _, _, _⟩ ⟨_, _, _, _⟩ rfl rfl rfl rfl; rfl
  refine this _ _ hloc hnm hel ?_
  change v'.perts = v.perts.map _
  rw [hp, hp']
  rfl

open Classical in
/-- The rest of the computation of `ecov_coarray_music_1d`. -/
noncomputable def coarrayRest (eigh : Eigh) (p : Fin k → ℂ) (σ : ℝ) (n : ℕ) (mode : String) (F : List (List ℂ)) {N m mv : ℕ}
    (r : Res (Steering N m k)) (rv : Res (Matrix (Fin mv) (Fin k) ℂ × Matrix (Fin mv) (Fin k) ℂ)) : Res (CovOut k) :=
  match r with
  | .error e => .error e
  | .ok out =>
    match rv with
    | .error e => .error e
    | .ok (Av, DAv) =>
      if h : N = 1 then
        if ecovCoarrayNaN eigh p σ n Av DAv then .error .returnsNaN
        else reduceOutput (ecovCoarrayCore eigh (out.A ⟨0, by omega⟩) p σ n Av DAv (Matrix.of fun i c => (F.getD i.1 []).getD c.1 0)) mode
      else .error .valueError

theorem coarrayRest_heq {eigh : Eigh} {p : Fin k → ℂ} {σ : ℝ} {n : ℕ} {mode : String} {F : List (List ℂ)} {N m m' mv mv' : ℕ}
    (h1 : m = m') (h2 : mv = mv') {r : Res (Steering N m k)} {r' : Res (Steering N m' k)}
    {rv : Res (Matrix (Fin mv) (Fin k) ℂ × Matrix (Fin mv) (Fin k) ℂ)} {rv' : Res (Matrix (Fin mv') (Fin k) ℂ × Matrix (Fin mv') (Fin k) ℂ)}
    (hr : HEq r r') (hv : HEq rv rv') : coarrayRest eigh p σ n mode F r rv = coarrayRest eigh p σ n mode F r' rv' := by
  subst h1 h2
  rw [eq_of_heq hr, eq_of_heq hv]

theorem ecovCoarray_eq_rest (eigh : Eigh) (spacing : ℝ) (a : GridArray) (q : FF1D k) (wl : ℝ) (p : PowerArg) (σ : ℝ) (n : ℕ) (mode : String) :
    ecovCoarrayWith eigh spacing a (.ff1 q) wl p σ n mode =
      if a.toArrayDesign.isPerturbed then .error .valueError
      else match unifyPToVector p k with
        | .error e => .error e
        | .ok p =>
          match WeightFunction.init a with
          | .error e => .error e
          | .ok wf =>
            match (wf.selectionMatrix ℂ false).1 with
            | .error e => .error e
            | .ok F =>
              if k ≥ (F.length + 1) / 2 then .error .valueError
              else
                match ula ((F.length + 1) / 2) (.scalar spacing) none {} with
                | .error e => .error e
                | .ok v => coarrayRest eigh p σ n mode F (steering a.toArrayDesign (.ff1 q) wl false "all")
                    (steerPair v.toArrayDesign (.ff1 q) wl "all") := by
  unfold ecovCoarrayWith coarrayRest
  rw [if_neg (by simp [Sources.isFF1])]
  split
  · rfl
  cases unifyPToVector p k with
  | error e => rfl
  | ok p =>
    cases WeightFunction.init a with
    | error e => rfl
    | ok wf =>
      cases hF : (wf.selectionMatrix ℂ false).1 with
      | error e => simp only [hF]
      | ok F =>
        simp only [hF]
        split
        · rfl
        · obtain ⟨v, hv⟩ := ula_ok ((F.length + 1) / 2) spacing none
          simp only [hv]
          cases steering a.toArrayDesign (.ff1 q) wl false "all" with
          | error e => rfl
          | ok out =>
            cases steerPair v.toArrayDesign (.ff1 q) wl "all" with
            | error e => rfl
            | ok AD => rfl

/-- **C79** (coarray MUSIC). The same for the asymptotic covariance of coarray-based MUSIC on grid-based arrays. -/
theorem C79_coarray {s : ℝ} (hs : 0 < s) (eigh : Eigh) (a : GridArray) (src : Sources k) (wl : ℝ) (p : PowerArg) (σ : ℝ) (n : ℕ) (mode : String) :
    ecovCoarray eigh (rescaleGrid s a) src (s * wl) p σ n mode = ecovCoarray eigh a src wl p σ n mode := by
  cases src with
  | ff2 q => rfl
  | nf q => rfl
  | ff1 q =>
    unfold ecovCoarray
    rw [ecovCoarray_eq_rest, ecovCoarray_eq_rest]
    have hp : (rescaleGrid s a).toArrayDesign.isPerturbed = a.toArrayDesign.isPerturbed := by
      simp only [rescaleGrid, rescaleArray, ArrayDesign.isPerturbed, List.length_map]
    have hsz : (rescaleGrid s a).size = a.size := map_nrows s a.locations
    have hw : WeightFunction.init (rescaleGrid s a) = WeightFunction.init a := by
      unfold WeightFunction.init
      rw [hsz]
      rfl
    rw [hp, hw]
    split
    · rfl
    cases unifyPToVector p k with
    | error e => rfl
    | ok p =>
      cases WeightFunction.init a with
      | error e => rfl
      | ok wf =>
        cases hF : (wf.selectionMatrix ℂ false).1 with
        | error e => simp only [hF]
        | ok F =>
          simp only [hF]
          split
          · rfl
          · obtain ⟨v, v', hv, hv', he⟩ := ula_rescale s ((F.length + 1) / 2) (wl / 2)
            have hsp : s * wl / 2 = s * (wl / 2) := by ring
            simp only [hsp, hv, hv']
            have hst : ∀ w, w = rescaleArray s v.toArrayDesign → w.size = v.toArrayDesign.size ∧
                HEq (steerPair w (.ff1 q) (s * wl) "all") (steerPair v.toArrayDesign (.ff1 q) wl "all") := by
              rintro _ rfl
              exact ⟨map_nrows s v.locations, steerPair_rescale hs v.toArrayDesign q wl "all"⟩
            exact coarrayRest_heq hsz (hst _ he).1 (C79_steering hs a.toArrayDesign (.ff1 q) (Or.inr rfl) wl false "all").2 (hst _ he).2

/-- Non-vacuity: a half-wavelength ULA described in metres and in wavelengths; the bound of the example exists in both descriptions. -/
example : ∃ (a : ArrayDesign) (s : ℝ), 0 < s ∧ a.size = 2 ∧ (rescaleArray s a).locations.at0 1 0 = 3 ∧ a.locations.at0 1 0 = 2 ∧
    (∃ S, steering a (.ff1 (⟨![0], "rad"⟩ : FF1D 1)) 4 false "all" = .ok S) := by
  refine ⟨⟨⟨1, [![0], ![2]]⟩, none, .isotropicScalar, []⟩, 3 / 2, by norm_num, rfl, ?_, by simp [Mat.at0, Mat.get?], ?_⟩
  · change ((⟨1, [![0], ![2]]⟩ : Mat ℝ).map ((3 / 2 : ℝ) * ·)).at0 1 0 = 3
    rw [map_at0]
    simp [Mat.at0, Mat.get?]
  · obtain ⟨T, hT, -⟩ := FF1D.phaseDelay_spec (⟨![0], "rad"⟩ : FF1D 1) ⟨1, [![0], ![2]]⟩ ⟨le_refl 1, by norm_num⟩ 4 false
    exact ⟨_, steering_iso rfl (ps := []) rfl rfl hT (by simp)⟩

end Doa.Props
