import Verif.Lemmas.Steering
import Verif.Spec.Sources

namespace Doa
open Spec Complex

theorem deg2rad_rad2deg (x : ℝ) : deg2rad (rad2deg x) = x := by
  unfold deg2rad rad2deg; field_simp

theorem rad2deg_deg2rad (x : ℝ) : rad2deg (deg2rad x) = x := by
  unfold deg2rad rad2deg; field_simp

theorem inRange1D_angle {u : String} {x : ℝ} (h : InRange1D u x) :
    -(Real.pi / 2) ≤ angleOf u x ∧ angleOf u x ≤ Real.pi / 2 := by
  rcases h with ⟨rfl, h1, h2⟩ | ⟨rfl, h1, h2⟩ | ⟨rfl, h1, h2⟩
  · simpa [angleOf] using ⟨h1, h2⟩
  · have := Real.pi_pos
    simp only [angleOf, if_true]
    constructor <;> nlinarith
  · simp [angleOf, Real.neg_pi_div_two_le_arcsin, Real.arcsin_le_pi_div_two]

theorem inRange1D_repr {u : String} (hu : Unit1D u) {t : ℝ} (h1 : -(Real.pi / 2) ≤ t)
    (h2 : t ≤ Real.pi / 2) : InRange1D u (reprIn u t) := by
  have := Real.pi_pos
  rcases hu with rfl | rfl | rfl
  · left; simpa [reprIn] using ⟨h1, h2⟩
  · right; left
    simp only [reprIn, if_true, true_and]
    constructor
    · rw [le_div_iff₀ this]; nlinarith
    · rw [div_le_iff₀ this]; nlinarith
  · right; right
    simp [reprIn, Real.neg_one_le_sin, Real.sin_le_one]

theorem reprIn_angleOf {u : String} {x : ℝ} (h : InRange1D u x) : reprIn u (angleOf u x) = x := by
  rcases h with ⟨rfl, h1, h2⟩ | ⟨rfl, h1, h2⟩ | ⟨rfl, h1, h2⟩
  · simp [reprIn, angleOf]
  · simp only [reprIn, angleOf, if_true]; field_simp
  · simp [reprIn, angleOf, Real.sin_arcsin h1 h2]

theorem angleOf_reprIn {u : String} (hu : Unit1D u) {t : ℝ} (h1 : -(Real.pi / 2) ≤ t)
    (h2 : t ≤ Real.pi / 2) : angleOf u (reprIn u t) = t := by
  rcases hu with rfl | rfl | rfl
  · simp [reprIn, angleOf]
  · simp only [reprIn, angleOf, if_true]; field_simp
  · simp [reprIn, angleOf, Real.arcsin_sin h1 h2]

/-- `convert_angles` between known units, for valid angles. -/
theorem convertAngles_eq {k : ℕ} {u v : String} (hu : Unit1D u) (hv : Unit1D v) (x : Fin k → ℝ)
    (hx : ∀ i, InRange1D u (x i)) :
    convertAngles x u v = .ok fun i => reprIn v (angleOf u (x i)) := by
  unfold convertAngles
  by_cases huv : u = v
  · subst huv
    rw [if_pos rfl]
    congr 1
    ext i
    exact (reprIn_angleOf (hx i)).symm
  · rw [if_neg huv]
    rcases hu with rfl | rfl | rfl <;> rcases hv with rfl | rfl | rfl <;>
      first
      | exact absurd rfl huv
      | (simp [angularCov, reprIn, angleOf, rad2deg, deg2rad] <;>
          first
          | done
          | (ext i; ring)
          | (ext i; congr 1; ring))

theorem validRange1D_of {u : String} (hu : Unit1D u) : ∃ lb ub, validRange1D u = some (lb, ub) ∧
    ∀ x, InRange1D u x ↔ lb ≤ x ∧ x ≤ ub := by
  rcases hu with rfl | rfl | rfl
  · exact ⟨-Real.pi / 2, Real.pi / 2, by simp [validRange1D], fun x => by
      simp [InRange1D, neg_div]⟩
  · exact ⟨-90, 90, by simp [validRange1D], fun x => by simp [InRange1D]⟩
  · exact ⟨-1, 1, by simp [validRange1D], fun x => by simp [InRange1D]⟩

theorem validRange1D_none {u : String} (hu : ¬ Unit1D u) : validRange1D u = none := by
  simp only [Unit1D, not_or] at hu
  simp [validRange1D, hu.1, hu.2.1, hu.2.2]

theorem FF1D.init_ok {k : ℕ} {u : String} (hu : Unit1D u) (x : Fin k → ℝ)
    (hx : ∀ i, InRange1D u (x i)) : FF1D.init (.vec x) u = .ok ⟨x, u⟩ := by
  obtain ⟨lb, ub, h1, h2⟩ := validRange1D_of hu
  simp only [FF1D.init, h1]
  rw [if_neg]
  rintro (⟨i, hi⟩ | ⟨i, hi⟩)
  · have := ((h2 _).1 (hx i)).1; linarith
  · have := ((h2 _).1 (hx i)).2; linarith

theorem FF1D.asUnit_eq {k : ℕ} (s : FF1D k) (hs : Valid1D s) {u : String} (hu : Unit1D u) :
    s.asUnit u = .ok ⟨fun i => reprIn u (angleOf s.unit (s.loc i)), u⟩ := by
  unfold FF1D.asUnit
  rw [convertAngles_eq hs.1 hu _ hs.2]
  exact FF1D.init_ok hu _ fun i =>
    inRange1D_repr hu (inRange1D_angle (hs.2 i)).1 (inRange1D_angle (hs.2 i)).2

/-- The direction used by the code is that of the angle. -/
theorem FF1D.dir_angle {k : ℕ} (s : FF1D k) (hs : Valid1D s) (c : Fin k) :
    s.dir c = (Real.sin (angleOf s.unit (s.loc c)), Real.cos (angleOf s.unit (s.loc c)), 0) := by
  have hr := hs.2 c
  unfold FF1D.dir
  rcases hr with ⟨hu, h1, h2⟩ | ⟨hu, h1, h2⟩ | ⟨hu, h1, h2⟩
  · simp [hu, angleOf]
  · simp only [hu, angleOf, deg2rad]
    simp [mul_div_assoc]
  · simp only [hu, angleOf, if_true]
    simp [Real.sin_arcsin h1 h2, Real.cos_arcsin, sq]

/-- The value of the phase delays in terms of directions, as an equation of results. -/
theorem FF1D.phaseDelay_eq' {k : ℕ} (s : FF1D k) (L : Mat ℝ) (wl : ℝ) :
    s.phaseDelay L wl false = if 1 ≤ L.ncols ∧ L.ncols ≤ 3 then
      if wl = 0 then .error .zeroDivisionError else .ok ⟨fun i c => 2 * Real.pi / wl * (L.at0 i 0 * (s.dir c).1 + L.at0 i 1 * (s.dir c).2.1), []⟩
      else .error .valueError := by
  split
  · rename_i h
    by_cases hwl : wl = 0
    · rw [if_pos hwl]
      unfold FF1D.phaseDelay
      rw [(validSensorDim_iff L).2 h, if_neg (by simp), if_pos hwl]
    have : NeZero wl := ⟨hwl⟩
    rw [if_neg hwl]
    have hnn : ¬ s.sinNaN L false := fun h => absurd h.1 Bool.false_ne_true
    obtain ⟨T, hT, hD⟩ := FF1D.phaseDelay_spec s L h wl false
    have hDD : T.DD = [] := by
      unfold FF1D.phaseDelay at hT
      rw [(validSensorDim_iff L).2 h] at hT
      simp only [Bool.not_true, Bool.false_eq_true, if_false, if_neg hwl, if_neg hnn] at hT
      split at hT <;> · cases hT; rfl
    rw [hT]
    cases T
    congr 2
    ext i c
    exact hD i c
  · rename_i h
    have : validSensorDim L = false := by
      rw [← Bool.not_eq_true, validSensorDim_iff]; exact h
    unfold FF1D.phaseDelay
    rw [if_pos (by rw [this]; rfl)]

theorem FF2D.phaseDelay_eq' {k : ℕ} (s : FF2D k) (L : Mat ℝ) (wl : ℝ) :
    s.phaseDelay L wl false = if 1 ≤ L.ncols ∧ L.ncols ≤ 3 then
      if wl = 0 then .error .zeroDivisionError else .ok ⟨fun i c => 2 * Real.pi / wl * (L.at0 i 0 * (s.dir c).1 + L.at0 i 1 * (s.dir c).2.1 +
        L.at0 i 2 * (s.dir c).2.2), []⟩
      else .error .valueError := by
  split
  · rename_i h
    by_cases hwl : wl = 0
    · rw [if_pos hwl]
      unfold FF2D.phaseDelay
      rw [(validSensorDim_iff L).2 h, if_neg (by simp), if_neg (by simp), if_pos hwl]
    have : NeZero wl := ⟨hwl⟩
    rw [if_neg hwl]
    obtain ⟨T, hT, hD⟩ := FF2D.phaseDelay_spec s L h wl
    have hDD : T.DD = [] := by
      unfold FF2D.phaseDelay at hT
      rw [(validSensorDim_iff L).2 h] at hT
      simp only [Bool.not_true, Bool.false_eq_true, if_false, if_neg hwl] at hT
      cases hT; rfl
    rw [hT]
    cases T
    congr 2
    ext i c
    exact hD i c
  · rename_i h
    have : validSensorDim L = false := by
      rw [← Bool.not_eq_true, validSensorDim_iff]; exact h
    unfold FF2D.phaseDelay
    rw [if_pos (by rw [this]; rfl)]

theorem FF1D.phaseDelay_eq {k : ℕ} (s : FF1D k) (L : Mat ℝ) (wl : ℝ) [NeZero wl] :
    s.phaseDelay L wl false = if 1 ≤ L.ncols ∧ L.ncols ≤ 3 then
      .ok ⟨fun i c => 2 * Real.pi / wl * (L.at0 i 0 * (s.dir c).1 + L.at0 i 1 * (s.dir c).2.1), []⟩
      else .error .valueError := by
  rw [FF1D.phaseDelay_eq', if_neg (NeZero.ne wl)]

theorem FF2D.phaseDelay_eq {k : ℕ} (s : FF2D k) (L : Mat ℝ) (wl : ℝ) [NeZero wl] :
    s.phaseDelay L wl false = if 1 ≤ L.ncols ∧ L.ncols ≤ 3 then
      .ok ⟨fun i c => 2 * Real.pi / wl * (L.at0 i 0 * (s.dir c).1 + L.at0 i 1 * (s.dir c).2.1 +
        L.at0 i 2 * (s.dir c).2.2), []⟩
      else .error .valueError := by
  rw [FF2D.phaseDelay_eq', if_neg (NeZero.ne wl)]

/-- The steering matrix sees the sources only through these three functions. -/
theorem steering_congr {k : ℕ} (a : ArrayDesign) (src src' : Sources k) (wl : ℝ) (cd : Bool)
    (mode : String) (hp : ∀ L, src.phaseDelay L wl cd = src'.phaseDelay L wl cd)
    (hs : ∀ L, src.sphericalCoords L = src'.sphericalCoords L)
    (hf : src.isFarField = src'.isFarField) :
    steering a src wl cd mode = steering a src' wl cd mode := by
  have hr : ∀ (el : Element) L m, spatialResponse el src L m = spatialResponse el src' L m := by
    intro el L m
    cases el with
    | isotropicScalar => rfl
    | custom n r => simp only [spatialResponse, hs, hf]
  unfold steering
  cases a.filterPerturbations mode with
  | error e => rfl
  | ok ps =>
    simp only [steerWith, hp, hr]
    rfl

/-! ### 2-D far-field units -/

theorem validRange2D_of {u : String} (hu : Unit2D u) : ∃ a b c d, validRange2D u = some ((a, b), (c, d)) ∧
    ∀ p, InRange2D u p ↔ a ≤ p.1 ∧ p.1 ≤ b ∧ c ≤ p.2 ∧ p.2 ≤ d := by
  rcases hu with rfl | rfl
  · exact ⟨-Real.pi, Real.pi, -Real.pi / 2, Real.pi / 2, by simp [validRange2D], fun x => by
      simp [InRange2D, neg_div]⟩
  · exact ⟨-180, 180, -90, 90, by simp [validRange2D], fun x => by simp [InRange2D]⟩

theorem validRange2D_none {u : String} (hu : ¬ Unit2D u) : validRange2D u = none := by
  simp only [Unit2D, not_or] at hu
  simp [validRange2D, hu.1, hu.2]

theorem FF2D.init_ok {k : ℕ} {u : String} (hu : Unit2D u) (x : Fin k → ℝ × ℝ)
    (hx : ∀ i, InRange2D u (x i)) : FF2D.init (.mat x) u = .ok ⟨x, u⟩ := by
  obtain ⟨a, b, c, d, h1, h2⟩ := validRange2D_of hu
  simp only [FF2D.init, h1]
  rw [if_neg, if_neg]
  · rintro (⟨i, hi⟩ | ⟨i, hi⟩)
    · have := ((h2 _).1 (hx i)).2.2.1; linarith
    · have := ((h2 _).1 (hx i)).2.2.2; linarith
  · rintro (⟨i, hi⟩ | ⟨i, hi⟩)
    · have := ((h2 _).1 (hx i)).1; linarith
    · have := ((h2 _).1 (hx i)).2.1; linarith

end Doa
