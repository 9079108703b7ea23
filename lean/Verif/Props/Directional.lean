import Verif.Props.Sources
import Verif.Props.Calibrated

/-!
# C78: directional and vector elements see every source where it is
-/

namespace Doa.Props

open Doa Doa.Spec Complex Matrix

/-- The unit vector with azimuth `az` and elevation `el`. -/
noncomputable def unitVector (az el : ℝ) : ℝ × ℝ × ℝ :=
  (Real.cos el * Real.cos az, Real.cos el * Real.sin az, Real.sin el)

/-- What a sensor at `(x, y, z)` sees of source `c`: its range (`none` for infinity), azimuth and elevation.
Broadside angles are measured from the y-axis, in the plane `z = 0`; near-field sources lie in that plane. -/
def SeenFrom {k : ℕ} (src : Sources k) (c : Fin k) (x y z : ℝ) (r : Option ℝ) (az el : ℝ) : Prop :=
  match src with
  | .ff1 s => r = none ∧ el = 0 ∧ az = Real.pi / 2 - angleOf s.unit (s.loc c)
  | .ff2 s => r = none ∧ az = angleOf s.unit (s.loc c).1 ∧ el = angleOf s.unit (s.loc c).2
  | .nf s => ∃ ρ, r = some ρ ∧ ρ = Real.sqrt (((s.loc c).1 - x) ^ 2 + ((s.loc c).2 - y) ^ 2 + (0 - z) ^ 2) ∧
      (-Real.pi < az ∧ az ≤ Real.pi) ∧ (-(Real.pi / 2) ≤ el ∧ el ≤ Real.pi / 2) ∧
      ρ * (unitVector az el).1 = (s.loc c).1 - x ∧ ρ * (unitVector az el).2.1 = (s.loc c).2 - y ∧
      ρ * (unitVector az el).2.2 = 0 - z

/-- The placement denotes sources: angles of far-field sources are in their documented ranges. -/
def ValidSources {k : ℕ} (src : Sources k) : Prop :=
  match src with
  | .ff1 s => Valid1D s
  | .ff2 s => Unit2D s.unit
  | .nf _ => True

theorem convertAngles_rad_2d {k : ℕ} {u : String} (hu : Unit2D u) (x : Fin k → ℝ) :
    convertAngles x u "rad" = .ok fun i => angleOf u (x i) := by
  rcases hu with rfl | rfl
  · simp [convertAngles, angleOf]
  · simp [convertAngles, angularCov, angleOf, deg2rad]
    funext i; ring

theorem sphericalCoords_seen {k : ℕ} (src : Sources k) (hv : ValidSources src) (L : Mat ℝ)
    (hL : 1 ≤ L.ncols ∧ L.ncols ≤ 3) :
    ∃ t, src.sphericalCoords L = .ok t ∧
      ∀ i c, SeenFrom src c (L.at0 i 0) (L.at0 i 1) (L.at0 i 2) (t i c).1 (t i c).2.1 (t i c).2.2 := by
  cases src with
  | ff1 s =>
    refine ⟨fun _ c => (none, Real.pi / 2 - reprIn "rad" (angleOf s.unit (s.loc c)), 0), ?_, ?_⟩
    · simp only [Sources.sphericalCoords]
      rw [convertAngles_eq hv.1 (Or.inl rfl) _ hv.2]
    · intro i c
      exact ⟨rfl, rfl, by simp [reprIn]⟩
  | ff2 s =>
    refine ⟨fun _ c => (none, angleOf s.unit (s.loc c).1, angleOf s.unit (s.loc c).2), ?_, ?_⟩
    · simp only [Sources.sphericalCoords]
      rw [convertAngles_rad_2d hv, convertAngles_rad_2d hv]
    · intro i c
      exact ⟨rfl, rfl, rfl⟩
  | nf s =>
    refine ⟨_, rfl, ?_⟩
    intro i c
    have key : ∃ v : List ℝ, List.zipWith (· - ·) (s.aligned L i c).1 (s.aligned L i c).2 = v ∧ 1 ≤ v.length ∧ v.length ≤ 3 ∧
        v.getD 0 0 = (s.loc c).1 - L.at0 i 0 ∧ v.getD 1 0 = (s.loc c).2 - L.at0 i 1 ∧ v.getD 2 0 = 0 - L.at0 i 2 := by
      refine ⟨_, rfl, ?_⟩
      unfold NF2D.aligned
      split
      · rename_i h
        have h1 : L.at0 i 1 = 0 := Mat.at0_of_ge _ (by omega)
        have h2 : L.at0 i 2 = 0 := Mat.at0_of_ge _ (by omega)
        simp [h1, h2]
      · split
        · simp
        · have h2 : L.at0 i 2 = 0 := Mat.at0_of_ge _ (by omega)
          simp [h2]
    obtain ⟨v, hv, hv1, hv3, e0, e1, e2⟩ := key
    obtain ⟨r, az, el, h, hr, haz, hel, q0, q1, q2⟩ := C20_cart2spherical v hv1 hv3
    simp only [hv, h]
    rw [e0] at q0; rw [e1] at q1; rw [e2] at q2
    refine ⟨r, rfl, ?_, haz, hel, by rw [← q0]; simp [unitVector, mul_assoc], by rw [← q1]; simp [unitVector, mul_assoc],
      by rw [← q2]; simp [unitVector]⟩
    rw [← q0, ← q1, ← q2]
    have : (r * Real.cos el * Real.cos az) ^ 2 + (r * Real.cos el * Real.sin az) ^ 2 + (r * Real.sin el) ^ 2 = r ^ 2 := by
      have s1 := Real.sin_sq_add_cos_sq az
      have s2 := Real.sin_sq_add_cos_sq el
      linear_combination (r * Real.cos el) ^ 2 * s1 + r ^ 2 * s2
    rw [this, Real.sqrt_sq hr]

/-- Far-field phase delays in terms of the directions seen: projection of the location on the unit vector. -/
theorem farField_delay {k : ℕ} (src : Sources k) (hff : src.isFarField = true) (hv : ValidSources src) (L : Mat ℝ)
    (hL : 1 ≤ L.ncols ∧ L.ncols ≤ 3) (wl : ℝ) [NeZero wl] :
    ∃ T, src.phaseDelay L wl false = .ok T ∧ ∀ (i : Fin L.nrows) (c : Fin k) (x y z : ℝ) (r : Option ℝ) (az el : ℝ),
      SeenFrom src c x y z r az el → T.D i c = 2 * Real.pi / wl *
        (L.at0 i 0 * (unitVector az el).1 + L.at0 i 1 * (unitVector az el).2.1 + L.at0 i 2 * (unitVector az el).2.2) := by
  cases src with
  | ff1 s =>
    obtain ⟨T, hT, hD⟩ := FF1D.phaseDelay_spec s L hL wl false
    refine ⟨T, hT, fun i c x y z r az el h => ?_⟩
    obtain ⟨-, rfl, rfl⟩ := h
    have hd : s.dir c = (Real.sin (angleOf s.unit (s.loc c)), Real.cos (angleOf s.unit (s.loc c)), 0) := by
      exact FF1D.dir_angle s hv c
    rw [hD, hd]
    simp [unitVector, Real.cos_pi_div_two_sub, Real.sin_pi_div_two_sub]
  | ff2 s =>
    obtain ⟨T, hT, hD⟩ := FF2D.phaseDelay_spec s L hL wl
    refine ⟨T, hT, fun i c x y z r az el h => ?_⟩
    obtain ⟨-, rfl, rfl⟩ := h
    rw [hD]
    have hd : s.dir c = unitVector (angleOf s.unit (s.loc c).1) (angleOf s.unit (s.loc c).2) := by
      rcases hv with hu | hu
      · simp [FF2D.dir, unitVector, hu, angleOf]
      · simp [FF2D.dir, unitVector, hu, angleOf, deg2rad, mul_div_assoc]
    rw [hd]
  | nf s => cases hff

/-- The actual sensor locations under the perturbations `ps`. -/
def placed (a : ArrayDesign) (ps : List Perturbation) : Mat ℝ :=
  ps.foldl (fun l p => p.perturbSensorLocations l) a.locations

theorem steerWith_custom {k n : ℕ} (resp : Fin n → Option ℝ → ℝ → ℝ → ℂ) (locs : Mat ℝ) (ps : List Perturbation)
    (src : Sources k) (hv : ValidSources src) (wl : ℝ) {L : Mat ℝ} (hLe : ps.foldl (fun l p => p.perturbSensorLocations l) locs = L)
    (hrows : L.nrows = locs.nrows) (hL : 1 ≤ L.ncols ∧ L.ncols ≤ 3) (hshape : ∀ p ∈ ps, p.ShapeOk locs.nrows)
    {T : PhaseDelays L.nrows k} (hT : src.phaseDelay L wl false = .ok T) :
    ∃ (out : Steering n locs.nrows k) (t : ℕ → Fin k → Option ℝ × ℝ × ℝ),
      steerWith (.custom n resp) locs ps src wl false = .ok out ∧
      (∀ i c, SeenFrom src c (L.at0 i 0) (L.at0 i 1) (L.at0 i 2) (t i c).1 (t i c).2.1 (t i c).2.2) ∧
      ∀ l, out.A l = totalFactor locs.nrows ps * Matrix.of fun (i : Fin locs.nrows) c =>
        resp l (t i c).1 (t i c).2.1 (t i c).2.2 * Complex.exp (I * ((T.D (Fin.cast hrows.symm i) c : ℝ) : ℂ)) := by
  subst hLe
  have hsr : ∃ t : ℕ → Fin k → Option ℝ × ℝ × ℝ,
      spatialResponse (.custom n resp) src (ps.foldl (fun l p => p.perturbSensorLocations l) locs) locs.nrows =
        .ok (fun l i c => resp l (t i c).1 (t i c).2.1 (t i c).2.2) ∧
      ∀ i c, SeenFrom src c ((ps.foldl (fun l p => p.perturbSensorLocations l) locs).at0 i 0)
        ((ps.foldl (fun l p => p.perturbSensorLocations l) locs).at0 i 1)
        ((ps.foldl (fun l p => p.perturbSensorLocations l) locs).at0 i 2) (t i c).1 (t i c).2.1 (t i c).2.2 := by
    cases src with
    | ff1 s =>
      obtain ⟨t, ht, hs⟩ := sphericalCoords_seen (.ff1 s) hv ⟨1, [![0]]⟩ ⟨le_refl 1, by norm_num⟩
      refine ⟨fun _ c => t 0 c, ?_, fun i c => hs 0 c⟩
      simp only [spatialResponse, Sources.isFarField, if_true]
      rw [ht]
    | ff2 s =>
      obtain ⟨t, ht, hs⟩ := sphericalCoords_seen (.ff2 s) hv ⟨1, [![0]]⟩ ⟨le_refl 1, by norm_num⟩
      refine ⟨fun _ c => t 0 c, ?_, fun i c => hs 0 c⟩
      simp only [spatialResponse, Sources.isFarField, if_true]
      rw [ht]
    | nf s =>
      obtain ⟨t, ht, hs⟩ := sphericalCoords_seen (.nf s) hv _ hL
      refine ⟨t, ?_, hs⟩
      simp only [spatialResponse, Sources.isFarField]
      rw [ht]
      rfl
  obtain ⟨t, ht, hseen⟩ := hsr
  unfold steerWith
  simp only [Bool.and_false]
  rw [if_neg (by simp), hT]
  simp only [hrows, dif_pos, ht]
  rw [perturbLoop_ok _ _ hshape]
  exact ⟨_, t, rfl, hseen, fun l => rfl⟩

/-- **C78** (far field). On an array of custom elements (directional, or with several outputs), the steering matrix of output `l` is
the product of the perturbation matrices with the matrix of entries `response of output l to the direction of source c` times
`exp(j·2π/λ·⟨location of sensor i, unit vector to source c⟩)`: the direction handed to the response function and the one that
determines the phase delays are the same, and it is the direction the placement denotes. Sensors are at their actual locations. -/
theorem C78_far_field {k n : ℕ} {a : ArrayDesign} {resp : Fin n → Option ℝ → ℝ → ℝ → ℂ} (hel : a.element = .custom n resp)
    {mode : String} {ps : List Perturbation} (hps : Usable a mode ps) (src : Sources k) (hff : src.isFarField = true)
    (hv : ValidSources src) (wl : ℝ) [NeZero wl] :
    ∃ (out : Steering a.element.outputSize a.size k) (az el : Fin k → ℝ), steering a src wl false mode = .ok out ∧
      (∀ c x y z, SeenFrom src c x y z none (az c) (el c)) ∧
      ∀ (l : Fin n) (h : a.element.outputSize = n), out.A (Fin.cast h.symm l) = totalFactor a.size ps * Matrix.of fun (i : Fin a.size) c =>
        resp l none (az c) (el c) * Complex.exp (I * ((2 * Real.pi / wl * ((placed a ps).at0 i 0 * (unitVector (az c) (el c)).1 +
          (placed a ps).at0 i 1 * (unitVector (az c) (el c)).2.1 + (placed a ps).at0 i 2 * (unitVector (az c) (el c)).2.2) : ℝ) : ℂ)) := by
  obtain ⟨locs, nm, elem, perts⟩ := a
  obtain rfl : elem = .custom n resp := hel
  obtain ⟨hsel, hrows, hdim, hshape⟩ := hps
  obtain ⟨T, hT, hD⟩ := farField_delay src hff hv _ hdim wl
  obtain ⟨out, t, hout, hseen, hA⟩ := steerWith_custom resp locs ps src hv wl rfl hrows hdim hshape hT
  have hfar : ∀ i c x y z, SeenFrom src c x y z none (t i c).2.1 (t i c).2.2 ∧ (t i c).1 = none ∧ t i c = t 0 c := by
    intro i c x y z
    have h1 := hseen i c
    have h0 := hseen 0 c
    have he : ∀ p q : Option ℝ × ℝ × ℝ, p.1 = q.1 → p.2.1 = q.2.1 → p.2.2 = q.2.2 → p = q := by
      rintro ⟨_, _, _⟩ ⟨_, _, _⟩ rfl rfl rfl; rfl
    cases src with
    | ff1 s => exact ⟨⟨rfl, h1.2⟩, h1.1, he _ _ (h1.1.trans h0.1.symm) (h1.2.2.trans h0.2.2.symm) (h1.2.1.trans h0.2.1.symm)⟩
    | ff2 s => exact ⟨⟨rfl, h1.2⟩, h1.1, he _ _ (h1.1.trans h0.1.symm) (h1.2.1.trans h0.2.1.symm) (h1.2.2.trans h0.2.2.symm)⟩
    | nf s => cases hff
  refine ⟨out, fun c => (t 0 c).2.1, fun c => (t 0 c).2.2, ?_, fun c x y z => (hfar 0 c x y z).1, fun l h => ?_⟩
  · unfold steering
    rw [hsel]
    exact hout
  · refine (hA l).trans (congrArg _ ?_)
    ext i c
    simp only [Matrix.of_apply]
    rw [hD _ c 0 0 0 none _ _ (hfar i c 0 0 0).1, (hfar i c 0 0 0).2.2, (hfar 0 c 0 0 0).2.1]
    rfl

/-- **C78** (near field). For near-field sources every sensor sees the source under its own range, azimuth and elevation, measured from
the sensor's actual location, and the phases are those of the ranges relative to the first sensor. -/
theorem C78_near_field {k n : ℕ} {a : ArrayDesign} {resp : Fin n → Option ℝ → ℝ → ℝ → ℂ} (hel : a.element = .custom n resp)
    {mode : String} {ps : List Perturbation} (hps : Usable a mode ps) (hne : a.size ≠ 0) (s : NF2D k) (wl : ℝ) [NeZero wl] :
    ∃ (out : Steering a.element.outputSize a.size k) (r az el : ℕ → Fin k → ℝ), steering a (.nf s) wl false mode = .ok out ∧
      (∀ i c, SeenFrom (.nf s) c ((placed a ps).at0 i 0) ((placed a ps).at0 i 1) ((placed a ps).at0 i 2) (some (r i c)) (az i c) (el i c)) ∧
      ∀ (l : Fin n) (h : a.element.outputSize = n), out.A (Fin.cast h.symm l) = totalFactor a.size ps * Matrix.of fun (i : Fin a.size) c =>
        resp l (some (r i c)) (az i c) (el i c) * Complex.exp (I * ((-2 * Real.pi / wl * (r i c - r 0 c) : ℝ) : ℂ)) := by
  obtain ⟨locs, nm, elem, perts⟩ := a
  obtain rfl : elem = .custom n resp := hel
  obtain ⟨hsel, hrows, hdim, hshape⟩ := hps
  obtain ⟨T, hT, hD⟩ := NF2D.phaseDelay_spec s _ hdim (by rw [hrows]; exact hne) wl
  obtain ⟨out, t, hout, hseen, hA⟩ := steerWith_custom resp locs ps (.nf s) trivial wl rfl hrows hdim hshape hT
  choose r hr1 hr2 hr3 using hseen
  refine ⟨out, r, fun i c => (t i c).2.1, fun i c => (t i c).2.2, ?_, fun i c => ⟨r i c, rfl, hr2 i c, hr3 i c⟩, fun l h => ?_⟩
  · unfold steering
    rw [hsel]
    exact hout
  · refine (hA l).trans (congrArg _ ?_)
    ext i c
    simp only [Matrix.of_apply]
    have hd : ∀ j : ℕ, s.dist (ps.foldl (fun l p => p.perturbSensorLocations l) locs) j c = r j c := by
      intro j
      rw [hr2 j c, NF2D.dist]
      congr 1
      ring
    rw [hD, hr1 i c]
    change _ * Complex.exp (I * ((-2 * Real.pi / wl * (s.dist _ (i : ℕ) c - s.dist _ 0 c) : ℝ) : ℂ)) = _
    rw [hd, hd]
    rfl

/-- **C78** (outputs). Asking for derivatives with such elements raises `RuntimeError`; with `flatten` the blocks of the outputs are stacked. -/
theorem C78_derivatives {k n : ℕ} {a : ArrayDesign} {resp : Fin n → Option ℝ → ℝ → ℝ → ℂ} (hel : a.element = .custom n resp)
    {mode : String} {ps : List Perturbation} (hsel : a.filterPerturbations mode = .ok ps) (src : Sources k) (wl : ℝ) :
    steering a src wl true mode = .error .runtimeError := by
  unfold steering
  rw [hsel]
  unfold steerWith
  rw [hel]
  rfl

/-- **C78** (stacking). The flattened steering matrix has the rows of output 0 first, then those of output 1, and so on. -/
theorem C78_flatten {n m k : ℕ} (S : Steering n m k) (l : Fin n) (i : Fin m) (c : Fin k) (r : Fin (n * m)) (hr : r.1 = l.1 * m + i.1) :
    S.flat r c = S.A l i c := by
  have : r = finProdFinEquiv (l, i) := by
    apply Fin.ext
    rw [hr]
    simp [finProdFinEquiv]
    ring
  rw [this]
  simp [Steering.flat]

/-- Non-vacuity: two cardioid elements, one of them displaced, seen by a far-field source and by a near-field source. -/
example : ∃ (a : ArrayDesign) (n : ℕ) (resp : Fin n → Option ℝ → ℝ → ℝ → ℂ) (ps : List Perturbation), a.element = .custom n resp ∧
    Usable a "all" ps ∧ a.size = 2 ∧ (placed a ps).at0 1 1 = 5 ∧
    (∃ S, steering a (.ff1 (⟨![30], "deg"⟩ : FF1D 1)) 1 false "all" = .ok S) ∧
    ∃ S, steering a (.nf (⟨![(3, 4)]⟩ : NF2D 1)) 1 false "all" = .ok S := by
  have hu : Usable (⟨⟨1, [![0], ![2]]⟩, none, .custom 1 fun _ _ az _ => (1 + Real.cos az : ℝ), [(.location, .location ⟨2, [![0, 0], ![1, 5]]⟩ true)]⟩ : ArrayDesign)
      "all" [.location ⟨2, [![0, 0], ![1, 5]]⟩ true] := by
    refine ⟨by simp [ArrayDesign.filterPerturbations, PyDict.values], ?_, ?_, ?_⟩
    · simp [Perturbation.perturbSensorLocations, perturbLocations, Mat.nrows, ArrayDesign.size]
    · simp [Perturbation.perturbSensorLocations, perturbLocations]
    · intro p hp
      rw [List.mem_singleton.1 hp]
      trivial
  refine ⟨_, 1, _, _, rfl, hu, rfl, ?_, ?_, ?_⟩
  · simp [placed, Perturbation.perturbSensorLocations, perturbLocations, Mat.at0, Mat.get?]
    change (if (1 : Fin 2) = 0 then ![(1:ℝ), 5] 1 + 2 else ![(1:ℝ), 5] 1) = 5
    simp
  · obtain ⟨S, _, _, hS, _⟩ := C78_far_field rfl hu (.ff1 (⟨![30], "deg"⟩ : FF1D 1)) rfl
      ⟨Or.inr (Or.inl rfl), fun i => by fin_cases i; exact Or.inr (Or.inl ⟨rfl, by norm_num, by norm_num⟩)⟩ 1
    exact ⟨S, hS⟩
  · obtain ⟨S, _, _, _, hS, _⟩ := C78_near_field rfl hu (by simp [ArrayDesign.size, Mat.nrows]) (⟨![(3, 4)]⟩ : NF2D 1) 1
    exact ⟨S, hS⟩

end Doa.Props
