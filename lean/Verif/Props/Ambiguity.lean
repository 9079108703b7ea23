import Verif.Props.Directional
import Verif.Props.Scaling
import Verif.Props.Subspace

/-!
# C80: what the geometry of an array can and cannot tell apart
-/

namespace Doa.Props

open Doa Doa.Spec Complex Matrix

variable {k : ℕ}

theorem steering_same {a : ArrayDesign} {mode : String} {src src' : Sources k} {wl : ℝ} {cd : Bool}
    (h : ∀ ps, a.filterPerturbations mode = .ok ps →
      src.phaseDelay (placed a ps) wl cd = src'.phaseDelay (placed a ps) wl cd ∧
      ∀ m, spatialResponse a.element src (placed a ps) m = spatialResponse a.element src' (placed a ps) m) :
    steering a src wl cd mode = steering a src' wl cd mode := by
  unfold steering
  cases hps : a.filterPerturbations mode with
  | error e => rfl
  | ok ps =>
    obtain ⟨h1, h2⟩ := h ps hps
    have h3 : ps.foldl (fun l p => p.perturbSensorLocations l) a.locations = placed a ps := rfl
    change steerWith a.element a.locations ps src wl cd = steerWith a.element a.locations ps src' wl cd
    rw [steerWith_finish, steerWith_finish, h3, h1, h2]

/-- The 2-D far-field sources in the plane `z = 0` at the broadside angles of a 1-D placement. -/
noncomputable def inPlane (s : FF1D k) : FF2D k := ⟨fun c => (Real.pi / 2 - angleOf s.unit (s.loc c), 0), "rad"⟩

/-- **C80** (1-D and 2-D placements). A 1-D far-field placement is the 2-D placement with azimuth `π/2 - θ` and elevation 0: on every array,
with any elements and perturbations, both give the same steering matrix or the same exception. -/
theorem C80_in_plane (a : ArrayDesign) (s : FF1D k) (hs : Valid1D s) (wl : ℝ) (mode : String) :
    steering a (.ff1 s) wl false mode = steering a (.ff2 (inPlane s)) wl false mode := by
  refine steering_same fun ps _ => ⟨?_, fun m => ?_⟩
  · refine (FF1D.phaseDelay_eq' s _ wl).trans (Eq.trans ?_ (FF2D.phaseDelay_eq' (inPlane s) _ wl).symm)
    split
    · refine congrArg (fun T => if wl = 0 then Except.error PyErr.zeroDivisionError else Except.ok T) (congrArg₂ PhaseDelays.mk ?_ rfl)
      funext i c
      rw [FF1D.dir_angle s hs c]
      simp [FF2D.dir, inPlane, Real.cos_pi_div_two_sub, Real.sin_pi_div_two_sub]
    · rfl
  · cases a.element with
    | isotropicScalar => rfl
    | custom n resp =>
      have h1 := convertAngles_eq hs.1 (Or.inl rfl : Unit1D "rad") s.loc hs.2
      have h2 : ∀ x : Fin k → ℝ, convertAngles x "rad" "rad" = .ok x := fun x => by simp [convertAngles]
      simp only [spatialResponse, Sources.isFarField, if_true, Sources.sphericalCoords, inPlane, h1, h2]
      simp [reprIn]

/-- The direction cosine of a 2-D source along the x-axis. -/
noncomputable def xCosine (u : String) (p : ℝ × ℝ) : ℝ := Real.cos (angleOf u p.2) * Real.cos (angleOf u p.1)

theorem ff2_dir {s : FF2D k} (hu : Unit2D s.unit) (c : Fin k) :
    s.dir c = unitVector (angleOf s.unit (s.loc c).1) (angleOf s.unit (s.loc c).2) := by
  rcases hu with hu | hu
  · simp [FF2D.dir, unitVector, hu, angleOf]
  · simp [FF2D.dir, unitVector, hu, angleOf, deg2rad, mul_div_assoc]

/-- **C80** (cone of ambiguity). If the actual locations have one coordinate, the steering matrix of isotropic elements depends on a 2-D
placement only through the direction cosines along the array axis; it equals the one of the 1-D placement with these sines. -/
theorem C80_cone {a : ArrayDesign} (hel : a.element = .isotropicScalar) {mode : String}
    (hlin : ∀ ps, a.filterPerturbations mode = .ok ps → (placed a ps).ncols = 1) (s s' : FF2D k) (hu : Unit2D s.unit) (hu' : Unit2D s'.unit)
    (wl : ℝ) (h : ∀ c, xCosine s.unit (s.loc c) = xCosine s'.unit (s'.loc c)) :
    steering a (.ff2 s) wl false mode = steering a (.ff2 s') wl false mode ∧
    steering a (.ff2 s) wl false mode = steering a (.ff1 ⟨fun c => xCosine s.unit (s.loc c), "sin"⟩) wl false mode := by
  have hsr : ∀ (q q' : Sources k) L m, spatialResponse a.element q L m = spatialResponse a.element q' L m := by
    intro q q' L m
    have : ∀ el : Element, el = .isotropicScalar → spatialResponse el q L m = spatialResponse el q' L m := by
      rintro _ rfl; rfl
    exact this _ hel
  refine ⟨steering_same fun ps hps => ⟨?_, fun m => hsr _ _ _ _⟩, steering_same fun ps hps => ⟨?_, fun m => hsr _ _ _ _⟩⟩
  · refine (FF2D.phaseDelay_eq' s _ wl).trans (Eq.trans ?_ (FF2D.phaseDelay_eq' s' _ wl).symm)
    split
    · refine congrArg (fun T => if wl = 0 then Except.error PyErr.zeroDivisionError else Except.ok T) (congrArg₂ PhaseDelays.mk ?_ rfl)
      funext i c
      have h1 : (placed a ps).at0 i 1 = 0 := Mat.at0_of_ge _ (by rw [hlin ps hps])
      have h2 : (placed a ps).at0 i 2 = 0 := Mat.at0_of_ge _ (by rw [hlin ps hps]; norm_num)
      have hc := h c
      unfold xCosine at hc
      rw [ff2_dir hu, ff2_dir hu', h1, h2]
      simp only [unitVector, hc]
      ring
    · rfl
  · refine (FF2D.phaseDelay_eq' s _ wl).trans (Eq.trans ?_ (FF1D.phaseDelay_eq' _ _ wl).symm)
    split
    · refine congrArg (fun T => if wl = 0 then Except.error PyErr.zeroDivisionError else Except.ok T) (congrArg₂ PhaseDelays.mk ?_ rfl)
      funext i c
      have h1 : (placed a ps).at0 i 1 = 0 := Mat.at0_of_ge _ (by rw [hlin ps hps])
      have h2 : (placed a ps).at0 i 2 = 0 := Mat.at0_of_ge _ (by rw [hlin ps hps]; norm_num)
      rw [ff2_dir hu, h1, h2]
      simp [unitVector, FF1D.dir, xCosine]
    · rfl

/-- **C80** (planar arrays). If the actual locations have at most two coordinates, sources above and below the plane of the array are not
told apart: negating elevations leaves the steering matrix of isotropic elements unchanged. -/
theorem C80_up_down {a : ArrayDesign} (hel : a.element = .isotropicScalar) {mode : String}
    (hpl : ∀ ps, a.filterPerturbations mode = .ok ps → (placed a ps).ncols ≤ 2) (s : FF2D k) (hu : Unit2D s.unit) (wl : ℝ) :
    steering a (.ff2 s) wl false mode = steering a (.ff2 ⟨fun c => ((s.loc c).1, -(s.loc c).2), s.unit⟩) wl false mode := by
  have hsr : ∀ (q q' : Sources k) L m, spatialResponse a.element q L m = spatialResponse a.element q' L m := by
    intro q q' L m
    have : ∀ el : Element, el = .isotropicScalar → spatialResponse el q L m = spatialResponse el q' L m := by
      rintro _ rfl; rfl
    exact this _ hel
  refine steering_same fun ps hps => ⟨?_, fun m => hsr _ _ _ _⟩
  refine (FF2D.phaseDelay_eq' s _ wl).trans (Eq.trans ?_ (FF2D.phaseDelay_eq' _ _ wl).symm)
  split
  · refine congrArg (fun T => if wl = 0 then Except.error PyErr.zeroDivisionError else Except.ok T) (congrArg₂ PhaseDelays.mk ?_ rfl)
    funext i c
    have h2 : (placed a ps).at0 i 2 = 0 := Mat.at0_of_ge _ (hpl ps hps)
    have hneg : angleOf s.unit (-(s.loc c).2) = -angleOf s.unit (s.loc c).2 := by
      rcases hu with hu | hu <;> simp [angleOf, hu, neg_div]
    rw [ff2_dir hu, ff2_dir (s := ⟨fun c => ((s.loc c).1, -(s.loc c).2), s.unit⟩) hu, h2]
    simp only [unitVector, hneg, Real.cos_neg]
    ring
  · rfl

/-- **C80** (mirror image). On an array whose actual locations have one coordinate, mirroring the sources at broadside conjugates the ideal
steering matrix: with perturbation-free isotropic elements, `A(-θ) = conj A(θ)`. -/
theorem C80_mirror {a : ArrayDesign} (hel : a.element = .isotropicScalar) (hlin : a.ndim = 1) (s : FF1D k) (wl : ℝ) [NeZero wl] :
    ∃ S S', steering a (.ff1 s) wl false "none" = .ok S ∧ steering a (.ff1 ⟨fun c => -s.loc c, s.unit⟩) wl false "none" = .ok S' ∧
      ∀ l i c, S'.A l i c = star (S.A l i c) := by
  have hd : 1 ≤ a.locations.ncols ∧ a.locations.ncols ≤ 3 := by
    have : a.locations.ncols = 1 := hlin
    omega
  have h0 : a.filterPerturbations "none" = .ok [] := by simp [ArrayDesign.filterPerturbations]
  obtain ⟨T, hT, hD⟩ := FF1D.phaseDelay_spec s a.locations hd wl false
  obtain ⟨T', hT', hD'⟩ := FF1D.phaseDelay_spec (⟨fun c => -s.loc c, s.unit⟩ : FF1D k) a.locations hd wl false
  refine ⟨_, _, steering_iso hel h0 rfl hT (by simp), steering_iso hel h0 rfl hT' (by simp), fun l i c => ?_⟩
  have hx : ((⟨fun c => -s.loc c, s.unit⟩ : FF1D k).dir c).1 = -(s.dir c).1 := by
    unfold FF1D.dir
    split
    · simp
    · split <;> simp [deg2rad]
  have h1 : a.locations.at0 i 1 = 0 := Mat.at0_of_ge _ (by rw [show a.locations.ncols = 1 from hlin])
  simp only [totalFactor, List.foldl_nil, Matrix.one_mul, ideal]
  have e1 := hD i c
  have e2 := hD' i c
  rw [hx, h1] at e2
  rw [h1] at e1
  have : T'.D i c = -T.D i c := by rw [e1, e2]; ring
  change Complex.exp (I * ((T'.D i c : ℝ) : ℂ)) = star (Complex.exp (I * ((T.D i c : ℝ) : ℂ)))
  rw [this, Complex.star_def, ← Complex.exp_conj, map_mul, Complex.conj_I, Complex.conj_ofReal]
  push_cast
  ring_nf

theorem phaseFactor_eq_iff {d wl : ℝ} {u : String} {x y : ℝ} :
    phaseFactor d wl u x = phaseFactor d wl u y ↔ ∃ n : ℤ, d / wl * (Real.sin (angleOf u x) - Real.sin (angleOf u y)) = n := by
  have hpi := Real.pi_pos
  unfold phaseFactor
  rw [Complex.exp_eq_exp_iff_exists_int]
  refine exists_congr fun n => ?_
  have e : (I * ((2 * Real.pi * d / wl * Real.sin (angleOf u x) : ℝ) : ℂ) =
      I * ((2 * Real.pi * d / wl * Real.sin (angleOf u y) : ℝ) : ℂ) + n * (2 * Real.pi * I)) ↔
      (((2 * Real.pi * d / wl * Real.sin (angleOf u x) : ℝ) : ℂ) = ((2 * Real.pi * d / wl * Real.sin (angleOf u y) + n * (2 * Real.pi) : ℝ) : ℂ)) := by
    constructor
    · intro h
      apply mul_left_cancel₀ Complex.I_ne_zero
      rw [h]
      push_cast
      ring
    · intro h
      rw [h]
      push_cast
      ring
  rw [e, Complex.ofReal_inj]
  constructor
  · intro h
    have : 2 * Real.pi * (d / wl * (Real.sin (angleOf u x) - Real.sin (angleOf u y))) = 2 * Real.pi * n := by
      linear_combination h
    exact mul_left_cancel₀ (by positivity) this
  · intro h
    linear_combination 2 * Real.pi * h

/-- **C80** (grating lobes). On a ULA with at least two elements two sources have the same steering vector exactly if the difference of the
sines of their broadside angles is a multiple of wavelength over spacing; with a spacing below half a wavelength this happens only for
equal directions. -/
theorem C80_grating_lobes {n : ℕ} (hn : 2 ≤ n) {d : ℝ} {name : Option String} {a : GridArray} (ha : ula n (.scalar d) name {} = .ok a)
    (s : FF1D k) (hs : Valid1D s) (wl : ℝ) [NeZero wl] :
    ∃ S, steering a.toArrayDesign (.ff1 s) wl false "all" = .ok S ∧
      (∀ l c e, (∀ i, S.A l i c = S.A l i e) ↔
        ∃ m : ℤ, d / wl * (Real.sin (angleOf s.unit (s.loc c)) - Real.sin (angleOf s.unit (s.loc e))) = m) ∧
      (0 < d → 2 * d < wl → ∀ l c e, (∀ i, S.A l i c = S.A l i e) → s.loc c = s.loc e) := by
  obtain ⟨S, hS, hA⟩ := ula_steering ha s hs wl "all" (by simp)
  have hsize : a.size = n := (C01_ula_geometry n d name {} a ha).1
  have hiff : ∀ l c e, (∀ i, S.A l i c = S.A l i e) ↔ phaseFactor d wl s.unit (s.loc c) = phaseFactor d wl s.unit (s.loc e) := by
    intro l c e
    constructor
    · intro h
      have := h ⟨1, by rw [hsize]; omega⟩
      rw [hA, hA] at this
      simpa using this
    · intro h i
      rw [hA, hA, h]
  refine ⟨S, hS, fun l c e => (hiff l c e).trans phaseFactor_eq_iff, fun hd hdw l c e h => ?_⟩
  have hwl : 0 < wl := by linarith
  refine phaseFactor_inj hd hwl (hs.2 c) (hs.2 e) ?_ ((hiff l c e).1 h)
  have h1 : |Real.sin (angleOf s.unit (s.loc c)) - Real.sin (angleOf s.unit (s.loc e))| ≤ 2 := by
    rw [abs_le]
    constructor <;> linarith [Real.sin_le_one (angleOf s.unit (s.loc c)), Real.neg_one_le_sin (angleOf s.unit (s.loc c)),
      Real.sin_le_one (angleOf s.unit (s.loc e)), Real.neg_one_le_sin (angleOf s.unit (s.loc e))]
  calc _ ≤ d * 2 := mul_le_mul_of_nonneg_left h1 hd.le
    _ < wl := by linarith

/-- Non-vacuity of the cone: a ULA, two different directions with the same cosine. -/
example : ∃ (a : GridArray) (s s' : FF2D 1), ula 2 (.scalar (1 / 2)) none {} = .ok a ∧ s.loc 0 ≠ s'.loc 0 ∧
    steering a.toArrayDesign (.ff2 s) 1 false "all" = steering a.toArrayDesign (.ff2 s') 1 false "all" := by
  obtain ⟨a, ha⟩ := ula_ok 2 (1 / 2) none
  have hp : a.toArrayDesign.perts = [] := (Except.ok.inj (gridInit_spec ha).2.2.2.1).symm
  refine ⟨a, ⟨![(0, 60)], "deg"⟩, ⟨![(60, 0)], "deg"⟩, ha, by simp, ?_⟩
  refine (C80_cone (gridInit_spec ha).2.2.1 ?_ _ _ (Or.inr rfl) (Or.inr rfl) 1 ?_).1
  · intro ps hps
    have : a.toArrayDesign.filterPerturbations "all" = .ok [] := by simp [ArrayDesign.filterPerturbations, hp, PyDict.values]
    rw [this] at hps
    cases hps
    exact (C01_ula_geometry 2 (1 / 2) none {} a ha).2.1
  · intro c
    fin_cases c
    simp [xCosine, angleOf]

end Doa.Props
