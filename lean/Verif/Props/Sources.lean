import Mathlib.Analysis.SpecialFunctions.Sqrt
import Mathlib.Analysis.Real.Pi.Bounds
import Mathlib.Topology.Algebra.Order.Field
import Verif.Lemmas.Sources

/-!
# C14, C15, C17, C19, C20, C21, C22: source placements
-/

namespace Doa.Props

open Doa Doa.Spec Complex

/-! ### C14 -/

/-- **C14** (1-D placements). For a valid placement, converting to any unit succeeds, gives a valid
placement in that unit denoting the same angles, and converting back returns the original placement. -/
theorem C14_as_unit_1d {k : ℕ} (s : FF1D k) (hs : Valid1D s) (u : String) (hu : Unit1D u) :
    ∃ s', s.asUnit u = .ok s' ∧ s'.unit = u ∧ Valid1D s' ∧
      (∀ i, angleOf s'.unit (s'.loc i) = angleOf s.unit (s.loc i)) ∧ s'.asUnit s.unit = .ok s := by
  have hrange : ∀ i, InRange1D u (reprIn u (angleOf s.unit (s.loc i))) := fun i =>
    inRange1D_repr hu (inRange1D_angle (hs.2 i)).1 (inRange1D_angle (hs.2 i)).2
  have hang : ∀ i, angleOf u (reprIn u (angleOf s.unit (s.loc i))) = angleOf s.unit (s.loc i) :=
    fun i => angleOf_reprIn hu (inRange1D_angle (hs.2 i)).1 (inRange1D_angle (hs.2 i)).2
  have hv : Valid1D (⟨fun i => reprIn u (angleOf s.unit (s.loc i)), u⟩ : FF1D k) := ⟨hu, hrange⟩
  refine ⟨_, FF1D.asUnit_eq s hs hu, rfl, hv, hang, ?_⟩
  rw [FF1D.asUnit_eq _ hv hs.1]
  simp only [hang]
  obtain ⟨loc, unit⟩ := s
  congr 2
  ext i
  exact reprIn_angleOf (hs.2 i)

/-- **C14** (2-D placements). The same for the units 'rad' and 'deg'; a conversion to any other unit
raises. -/
theorem C14_as_unit_2d {k : ℕ} (s : FF2D k) (hs : Valid2D s) (u : String) :
    (Unit2D u → ∃ s', s.asUnit u = .ok s' ∧ s'.unit = u ∧ Valid2D s' ∧ s'.asUnit s.unit = .ok s) ∧
    (¬ Unit2D u → ∃ e, s.asUnit u = .error e) := by
  obtain ⟨loc, unit⟩ := s
  obtain ⟨hu0, hr⟩ := hs
  have hpi := Real.pi_pos
  constructor
  · intro hu
    by_cases huv : unit = u
    · subst huv
      have h1 : (⟨loc, unit⟩ : FF2D k).asUnit unit = .ok ⟨loc, unit⟩ := by
        simp only [FF2D.asUnit, convertAngles, if_true]
        exact FF2D.init_ok hu0 _ hr
      exact ⟨_, h1, rfl, ⟨hu0, hr⟩, h1⟩
    · rcases hu0 with h0 | h0 <;> rcases hu with h1 | h1 <;> simp only at h0 <;> subst h0 <;>
        subst h1
      · exact absurd rfl huv
      · have hr2 : ∀ i, InRange2D "deg" (rad2deg (loc i).1, rad2deg (loc i).2) := by
          intro i
          rcases hr i with ⟨_, a, b, c, d⟩ | ⟨h, _⟩
          · right
            simp only [rad2deg, true_and]
            simp only at a b c d
            refine ⟨?_, ?_, ?_, ?_⟩
            · rw [mul_div_assoc', le_div_iff₀ hpi]; nlinarith
            · rw [mul_div_assoc', div_le_iff₀ hpi]; nlinarith
            · rw [mul_div_assoc', le_div_iff₀ hpi]; nlinarith
            · rw [mul_div_assoc', div_le_iff₀ hpi]; nlinarith
          · simp at h
        refine ⟨⟨fun i => (rad2deg (loc i).1, rad2deg (loc i).2), "deg"⟩, ?_, rfl, ⟨Or.inr rfl, hr2⟩, ?_⟩
        · simp only [FF2D.asUnit, convertAngles, angularCov]
          simp only [String.reduceEq, if_false, if_true]
          exact FF2D.init_ok (Or.inr rfl) _ hr2
        · simp only [FF2D.asUnit, convertAngles, angularCov]
          simp only [String.reduceEq, if_false, if_true, deg2rad_rad2deg]
          exact FF2D.init_ok (Or.inl rfl) _ hr
      · have hr2 : ∀ i, InRange2D "rad" (deg2rad (loc i).1, deg2rad (loc i).2) := by
          intro i
          rcases hr i with ⟨h, _⟩ | ⟨_, a, b, c, d⟩
          · simp at h
          · left
            simp only [deg2rad, true_and]
            simp only at a b c d
            refine ⟨?_, ?_, ?_, ?_⟩ <;> nlinarith
        refine ⟨⟨fun i => (deg2rad (loc i).1, deg2rad (loc i).2), "rad"⟩, ?_, rfl, ⟨Or.inl rfl, hr2⟩, ?_⟩
        · simp only [FF2D.asUnit, convertAngles, angularCov]
          simp only [String.reduceEq, if_false, if_true]
          exact FF2D.init_ok (Or.inl rfl) _ hr2
        · simp only [FF2D.asUnit, convertAngles, angularCov]
          simp only [String.reduceEq, if_false, if_true, rad2deg_deg2rad]
          exact FF2D.init_ok (Or.inr rfl) _ hr
      · exact absurd rfl huv
  · intro hu
    unfold FF2D.asUnit
    cases h1 : convertAngles (fun i => (loc i).1) unit u with
    | error e => exact ⟨e, rfl⟩
    | ok az =>
      cases h2 : convertAngles (fun i => (loc i).2) unit u with
      | error e => exact ⟨e, rfl⟩
      | ok el => exact ⟨.valueError, by simp [FF2D.init, validRange2D_none hu]⟩

/-- **C14** (`convert_angles`, values and errors). Between two different known units every value is
replaced by the representation of the same angle; equal units leave the values alone (even unknown
ones), and any other pair with an unknown unit raises `KeyError`. -/
theorem C14_convert_angles_value {k : ℕ} (x : Fin k → ℝ) (u v : String) :
    convertAngles x u u = .ok x ∧
    (u ≠ v → Unit1D u → Unit1D v →
      convertAngles x u v = .ok fun i => reprIn v (angleOf u (x i))) ∧
    (u ≠ v → ¬ (Unit1D u ∧ Unit1D v) → convertAngles x u v = .error .keyError) := by
  have hpi := Real.pi_ne_zero
  refine ⟨by simp [convertAngles], fun huv hu hv => ?_, fun huv h => ?_⟩
  · rcases hu with rfl | rfl | rfl <;> rcases hv with rfl | rfl | rfl <;>
      first
      | exact absurd rfl huv
      | (simp only [convertAngles, angularCov, String.reduceEq, if_false, if_true, reprIn, angleOf,
            Except.ok.injEq]
         try funext i
         try simp only [rad2deg, deg2rad, mul_div_assoc])
  · have hn : angularCov u v = none := by
      by_contra hne
      apply h
      unfold angularCov at hne
      unfold Unit1D
      split_ifs at hne <;> simp_all
    simp [convertAngles, huv, hn]

/-- **C14** (units that cannot be reached). A one-dimensional far-field placement with a known unit raises `KeyError` for every unknown unit. -/
theorem C14_as_unit_1d_unknown {k : ℕ} (s : FF1D k) (hs : Valid1D s) (u : String) (hu : ¬ Unit1D u) : s.asUnit u = .error .keyError := by
  unfold FF1D.asUnit
  rw [(C14_convert_angles_value s.loc s.unit u).2.2 (fun h => hu (h ▸ hs.1)) (fun h => hu h.2)]

/-- A placement at 10°; `'m'` is not an angular unit. -/
example : (⟨![10], "deg"⟩ : FF1D 1).asUnit "m" = .error .keyError :=
  C14_as_unit_1d_unknown _ ⟨Or.inr (Or.inl rfl), fun c => by fin_cases c; exact Or.inr (Or.inl ⟨rfl, by norm_num, by norm_num⟩)⟩ "m"
    (by unfold Unit1D; decide)

/-- **C14** (near-field placements). The only unit is the metre: converting to it returns the same locations, everything else raises
`ValueError`. -/
theorem C14_as_unit_near {k : ℕ} (s : NF2D k) (u : String) :
    (u = "m" → s.asUnit u = .ok s) ∧ (u ≠ "m" → s.asUnit u = .error .valueError) := by
  refine ⟨?_, fun h => by simp [NF2D.asUnit, h]⟩
  rintro rfl
  simp [NF2D.asUnit, NF2D.init]

/-- **C22** (near field). `NearField2DSourcePlacement` accepts exactly the two-dimensional arrays with two columns, keeps the locations
and raises `ValueError` otherwise. -/
theorem C22_near_field {k : ℕ} (arg : ArrK2 k) :
    (∀ s, NF2D.init arg = .ok s ↔ arg = .mat s.loc) ∧ ((∀ s, NF2D.init arg ≠ .ok s) → NF2D.init arg = .error .valueError) := by
  cases arg with
  | other => simp [NF2D.init]
  | mat x =>
    constructor
    · rintro ⟨y⟩
      simp [NF2D.init]
    · intro h
      exact absurd rfl (h ⟨x⟩)

/-- **C14** (`convert_angles`, the part of its documentation that holds). Between 'rad' and 'deg' the
conversion is invertible for all values; through 'sin' it is invertible on `[-pi/2, pi/2]`
(`[-90, 90]`) and `[-1, 1]`. -/
theorem C14_convert_angles_partial {k : ℕ} (x : Fin k → ℝ) (u v : String) (hu : Unit1D u)
    (hv : Unit1D v) (hx : (Unit2D u ∧ Unit2D v) ∨ ∀ i, InRange1D u (x i)) :
    ∃ y, convertAngles x u v = .ok y ∧ convertAngles y v u = .ok x := by
  rcases hx with ⟨hu2, hv2⟩ | hx
  · by_cases huv : u = v
    · subst huv; exact ⟨x, by simp [convertAngles], by simp [convertAngles]⟩
    · rcases hu2 with rfl | rfl <;> rcases hv2 with rfl | rfl
      · exact absurd rfl huv
      · exact ⟨fun i => rad2deg (x i), by simp [convertAngles, angularCov],
          by simp [convertAngles, angularCov, deg2rad_rad2deg]⟩
      · exact ⟨fun i => deg2rad (x i), by simp [convertAngles, angularCov],
          by simp [convertAngles, angularCov, rad2deg_deg2rad]⟩
      · exact absurd rfl huv
  · refine ⟨_, convertAngles_eq hu hv x hx, ?_⟩
    have hrange := fun i => inRange1D_repr hv (inRange1D_angle (hx i)).1 (inRange1D_angle (hx i)).2
    rw [convertAngles_eq hv hu _ hrange]
    congr 1
    ext i
    rw [angleOf_reprIn hv (inRange1D_angle (hx i)).1 (inRange1D_angle (hx i)).2,
      reprIn_angleOf (hx i)]

/-- **C14** (refutation). The documented range `(-pi, pi)` for 'rad' does not make the conversion to
'sin' invertible: `pi - 0.5` does not come back. -/
theorem C14_convert_angles_not_invertible : ∃ x : Fin 1 → ℝ,
    (∀ i, -Real.pi < x i ∧ x i < Real.pi) ∧
    ∃ y, convertAngles x "rad" "sin" = .ok y ∧ convertAngles y "sin" "rad" ≠ .ok x := by
  have h3 := Real.pi_gt_three
  refine ⟨fun _ => Real.pi - 0.5, fun i => ⟨by norm_num; linarith, by norm_num⟩, _,
    by simp [convertAngles, angularCov]; rfl, ?_⟩
  simp only [convertAngles, angularCov]
  simp only [String.reduceEq, if_false, if_true]
  intro h
  have h1 := congrFun (Except.ok.inj h) 0
  have h2 := Real.arcsin_le_pi_div_two (Real.sin 0.5)
  rw [h1] at h2
  norm_num at h2
  linarith

example : Valid1D (⟨![-90, 45], "deg"⟩ : FF1D 2) := by
  refine ⟨Or.inr (Or.inl rfl), fun i => Or.inr (Or.inl ⟨rfl, ?_⟩)⟩
  fin_cases i <;> simp <;> norm_num

example : Valid2D (⟨![(-180, 45)], "deg"⟩ : FF2D 1) := by
  refine ⟨Or.inr rfl, fun i => Or.inr ⟨rfl, ?_⟩⟩
  fin_cases i; norm_num

/-! ### C15 -/

/-- **C15** (1-D). Phase delays and steering matrices (any array, any element type, any perturbation
mode) do not depend on the unit in which a valid placement is given. -/
theorem C15_unit_independent_1d {k : ℕ} (s s' : FF1D k) (hs : Valid1D s) (u : String)
    (hu : Unit1D u) (h : s.asUnit u = .ok s') (wl : ℝ) :
    (∀ L, s'.phaseDelay L wl false = s.phaseDelay L wl false) ∧
    ∀ a mode, steering a (.ff1 s') wl false mode = steering a (.ff1 s) wl false mode := by
  obtain ⟨s'', h1, h2, h3, h4, _⟩ := C14_as_unit_1d s hs u hu
  obtain rfl : s' = s'' := by rw [h] at h1; exact Except.ok.inj h1
  have hdir : ∀ c, s'.dir c = s.dir c := fun c => by
    rw [FF1D.dir_angle s' h3 c, FF1D.dir_angle s hs c, h4 c]
  have hp : ∀ L, s'.phaseDelay L wl false = s.phaseDelay L wl false := by
    intro L
    rw [FF1D.phaseDelay_eq', FF1D.phaseDelay_eq']
    simp only [hdir]
  refine ⟨hp, fun a mode => steering_congr a _ _ wl false mode hp ?_ rfl⟩
  intro L
  simp only [Sources.sphericalCoords]
  rw [convertAngles_eq h3.1 (Or.inl rfl) _ h3.2, convertAngles_eq hs.1 (Or.inl rfl) _ hs.2]
  simp only [h4]

/-- **C15** (2-D). -/
theorem C15_unit_independent_2d {k : ℕ} (s s' : FF2D k) (hs : Valid2D s) (u : String)
    (hu : Unit2D u) (h : s.asUnit u = .ok s') (wl : ℝ) :
    (∀ L, s'.phaseDelay L wl false = s.phaseDelay L wl false) ∧
    ∀ a mode, steering a (.ff2 s') wl false mode = steering a (.ff2 s) wl false mode := by
  obtain ⟨s'', h1, h2, h3, _⟩ := (C14_as_unit_2d s hs u).1 hu
  obtain rfl : s' = s'' := by rw [h] at h1; exact Except.ok.inj h1
  obtain ⟨loc, unit⟩ := s
  have hcases : s' = ⟨loc, unit⟩ ∨
      (unit = "rad" ∧ s' = ⟨fun i => (rad2deg (loc i).1, rad2deg (loc i).2), "deg"⟩) ∨
      (unit = "deg" ∧ s' = ⟨fun i => (deg2rad (loc i).1, deg2rad (loc i).2), "rad"⟩) := by
    by_cases huv : unit = u
    · left
      subst huv
      simp only [FF2D.asUnit, convertAngles, if_true] at h
      rw [FF2D.init_ok hs.1 _ hs.2] at h
      exact (Except.ok.inj h).symm
    · right
      obtain ⟨hu0, hr⟩ := hs
      rcases hu0 with h0 | h0 <;> rcases hu with hu1 | hu1 <;> simp only at h0 <;> subst h0 <;>
        subst hu1
      · exact absurd rfl huv
      · left
        simp only [FF2D.asUnit, convertAngles, angularCov] at h
        simp only [String.reduceEq, if_false, if_true] at h
        unfold FF2D.init at h
        simp only [validRange2D] at h
        simp only [String.reduceEq, if_false, if_true] at h
        split_ifs at h
        exact ⟨rfl, (Except.ok.inj h).symm⟩
      · right
        simp only [FF2D.asUnit, convertAngles, angularCov] at h
        simp only [String.reduceEq, if_false, if_true] at h
        unfold FF2D.init at h
        simp only [validRange2D] at h
        simp only [if_true] at h
        split_ifs at h
        exact ⟨rfl, (Except.ok.inj h).symm⟩
      · exact absurd rfl huv
  have hdir : ∀ c, s'.dir c = (⟨loc, unit⟩ : FF2D k).dir c := by
    intro c
    rcases hcases with rfl | ⟨rfl, rfl⟩ | ⟨rfl, rfl⟩
    · rfl
    · simp [FF2D.dir, deg2rad_rad2deg]
    · simp [FF2D.dir]
  have hp : ∀ L, s'.phaseDelay L wl false = (⟨loc, unit⟩ : FF2D k).phaseDelay L wl false := by
    intro L
    rw [FF2D.phaseDelay_eq', FF2D.phaseDelay_eq']
    simp only [hdir]
  refine ⟨hp, fun a mode => steering_congr a _ _ wl false mode hp ?_ rfl⟩
  intro L
  rcases hcases with rfl | ⟨rfl, rfl⟩ | ⟨rfl, rfl⟩
  · rfl
  · simp [Sources.sphericalCoords, convertAngles, angularCov, deg2rad_rad2deg]
  · simp [Sources.sphericalCoords, convertAngles, angularCov]

/-! ### C17 -/

/-- **C17**. A 1-D source at broadside angle `t` and a 2-D source at azimuth `pi/2 - t`, elevation 0
have the same phase delays at all sensor locations; on a linear array a 2-D source has the delays of
the 1-D source at its `ae2broad` angle, which is a valid 1-D location. -/
theorem C17_far_field_agree {k : ℕ} (wl : ℝ) :
    (∀ (t : Fin k → ℝ) (L : Mat ℝ), (⟨t, "rad"⟩ : FF1D k).phaseDelay L wl false =
      (⟨fun i => (Real.pi / 2 - t i, 0), "rad"⟩ : FF2D k).phaseDelay L wl false) ∧
    (∀ (p : Fin k → ℝ × ℝ) (L : Mat ℝ), L.ncols = 1 →
      (⟨p, "rad"⟩ : FF2D k).phaseDelay L wl false =
      (⟨fun i => ae2broad (p i).1 (p i).2, "rad"⟩ : FF1D k).phaseDelay L wl false) ∧
    (∀ az el, InRange1D "rad" (ae2broad az el)) := by
  refine ⟨?_, ?_, ?_⟩
  · intro t L
    rw [FF1D.phaseDelay_eq', FF2D.phaseDelay_eq']
    simp [FF1D.dir, FF2D.dir, Real.cos_pi_div_two_sub, Real.sin_pi_div_two_sub]
  · intro p L hL
    rw [FF1D.phaseDelay_eq', FF2D.phaseDelay_eq']
    by_cases hw : wl = 0
    · simp only [if_pos hw]
    simp only [if_neg hw]
    rw [if_pos (by omega), if_pos (by omega)]
    congr 2
    ext i c
    have h1 : L.at0 i 1 = 0 := Mat.at0_of_ge L (by omega)
    have h2 : L.at0 i 2 = 0 := Mat.at0_of_ge L (by omega)
    have hb : |Real.cos (p c).1 * Real.cos (p c).2| ≤ 1 := by
      rw [abs_mul]
      exact mul_le_one₀ (Real.abs_cos_le_one _) (abs_nonneg _) (Real.abs_cos_le_one _)
    rw [abs_le] at hb
    simp only [FF1D.dir, FF2D.dir, h1, h2, ae2broad]
    simp [Real.sin_arcsin hb.1 hb.2, mul_comm]
  · intro az el
    left
    exact ⟨rfl, Real.neg_pi_div_two_le_arcsin _, Real.arcsin_le_pi_div_two _⟩

/-! ### C19 -/

/-- Euclidean distance in the plane/space between sensor `i` and source `c` (missing sensor
coordinates are 0, sources lie in the plane `z = 0`). -/
noncomputable def sensorSourceDist {k : ℕ} (L : Mat ℝ) (s : NF2D k) (i : ℕ) (c : Fin k) : ℝ :=
  Real.sqrt ((L.at0 i 0 - (s.loc c).1) ^ 2 + (L.at0 i 1 - (s.loc c).2) ^ 2 + (L.at0 i 2) ^ 2)

/-- **C19** (values). -/
theorem C19_near_field_delays {k : ℕ} (s : NF2D k) (L : Mat ℝ) (wl : ℝ) (T : PhaseDelays L.nrows k)
    (hT : s.phaseDelay L wl false = .ok T) :
    (∀ i : Fin L.nrows, i.1 = 0 → ∀ c, T.D i c = 0) ∧
    ∀ i c, T.D i c = -2 * Real.pi / wl * (sensorSourceDist L s i c - sensorSourceDist L s 0 c) := by
  have hd : 1 ≤ L.ncols ∧ L.ncols ≤ 3 := by
    rw [← validSensorDim_iff]
    by_contra hv
    rw [Bool.not_eq_true] at hv
    unfold NF2D.phaseDelay at hT
    rw [if_pos (by rw [hv]; rfl)] at hT
    cases hT
  have : NeZero wl := Sources.phaseDelay_wl (src := .nf s) hT
  have hr : L.nrows ≠ 0 := by
    intro h0
    unfold NF2D.phaseDelay at hT
    rw [(validSensorDim_iff L).2 hd] at hT
    simp [h0, NeZero.ne wl] at hT
  obtain ⟨T', hT', hD⟩ := NF2D.phaseDelay_spec s L hd hr wl
  obtain rfl : T = T' := by rw [hT] at hT'; exact Except.ok.inj hT'
  refine ⟨fun i hi c => ?_, hD⟩
  rw [hD, hi, sub_self, mul_zero]

/-- **C19** (reference sensor). If `L'` lists the sensors of `L` in another order (row `i` of `L'` is
row `f i` of `L`), the steering vector of each near-field source is the reordered one up to a common
factor of modulus 1. -/
theorem C19_reference_swap {k : ℕ} (s : NF2D k) (L L' : Mat ℝ) (wl : ℝ)
    (f : Fin L'.nrows → Fin L.nrows) (hf : ∀ (i : Fin L'.nrows) (j : ℕ), L'.at0 i j = L.at0 (f i) j)
    (T : PhaseDelays L.nrows k) (T' : PhaseDelays L'.nrows k)
    (hT : s.phaseDelay L wl false = .ok T) (hT' : s.phaseDelay L' wl false = .ok T') :
    ∃ γ : Fin k → ℂ, (∀ c, ‖γ c‖ = 1) ∧ ∀ i c,
      Complex.exp (I * (T'.D i c : ℝ)) = γ c * Complex.exp (I * (T.D (f i) c : ℝ)) := by
  have h := (C19_near_field_delays s L wl T hT).2
  have h' := (C19_near_field_delays s L' wl T' hT').2
  refine ⟨fun c => Complex.exp (I * ((-2 * Real.pi / wl *
    (sensorSourceDist L s 0 c - sensorSourceDist L' s 0 c) : ℝ) : ℂ)), fun c => ?_, fun i c => ?_⟩
  · show ‖Complex.exp (I * _)‖ = 1
    rw [mul_comm, Complex.norm_exp_ofReal_mul_I]
  · rw [← Complex.exp_add, h, h']
    have : sensorSourceDist L' s i c = sensorSourceDist L s (f i) c := by
      simp only [sensorSourceDist, hf]
    rw [this]
    congr 1
    push_cast; ring

theorem dist_sub_tendsto (a b : ℝ) (_hb : 0 ≤ b) :
    Filter.Tendsto (fun R : ℝ => Real.sqrt (R ^ 2 - 2 * R * a + b) - R) Filter.atTop
      (nhds (-a)) := by
  have hg : Filter.Tendsto (fun x : ℝ => (-(2 * a) + b * x) /
      (Real.sqrt (1 - 2 * a * x + b * x ^ 2) + 1)) (nhds 0) (nhds (-a)) := by
    have : -a = (-(2 * a) + b * 0) / (Real.sqrt (1 - 2 * a * 0 + b * 0 ^ 2) + 1) := by
      simp; ring
    rw [this]
    apply ContinuousAt.tendsto
    apply ContinuousAt.div
    · fun_prop
    · fun_prop
    · have := Real.sqrt_nonneg (1 - 2 * a * 0 + b * 0 ^ 2); positivity
  have hinv : Filter.Tendsto (fun R : ℝ => R⁻¹) Filter.atTop (nhds 0) := tendsto_inv_atTop_zero
  refine (hg.comp hinv).congr' ?_
  have hev : ∀ᶠ R : ℝ in Filter.atTop, 0 < R ∧ 0 ≤ 1 - 2 * a * R⁻¹ + b * R⁻¹ ^ 2 := by
    have hc : Filter.Tendsto (fun R : ℝ => 1 - 2 * a * R⁻¹ + b * R⁻¹ ^ 2) Filter.atTop
        (nhds (1 - 2 * a * 0 + b * 0 ^ 2)) :=
      ((tendsto_const_nhds.mul hinv).const_sub 1).add ((hinv.pow 2).const_mul b)
    have h1 : (0 : ℝ) < 1 - 2 * a * 0 + b * 0 ^ 2 := by norm_num
    filter_upwards [Filter.eventually_gt_atTop 0, hc.eventually (lt_mem_nhds h1)] with R hR h2
    exact ⟨hR, h2.le⟩
  filter_upwards [hev] with R hR
  obtain ⟨hR, hnn⟩ := hR
  simp only [Function.comp]
  have hs : Real.sqrt (R ^ 2 - 2 * R * a + b) =
      R * Real.sqrt (1 - 2 * a * R⁻¹ + b * R⁻¹ ^ 2) := by
    have : R ^ 2 - 2 * R * a + b = R ^ 2 * (1 - 2 * a * R⁻¹ + b * R⁻¹ ^ 2) := by
      field_simp
    rw [this, Real.sqrt_mul (by positivity), Real.sqrt_sq hR.le]
  rw [hs]
  set q := Real.sqrt (1 - 2 * a * R⁻¹ + b * R⁻¹ ^ 2) with hq
  have hq0 : 0 ≤ q := Real.sqrt_nonneg _
  have hq2 : q ^ 2 = 1 - 2 * a * R⁻¹ + b * R⁻¹ ^ 2 := Real.sq_sqrt hnn
  rw [div_eq_iff (by positivity)]
  have : (R * q - R) * (q + 1) = R * (q ^ 2 - 1) := by ring
  rw [this, hq2]
  field_simp
  ring

/-- **C19** (far-field limit). As a near-field source recedes along the direction with broadside angle
`t`, its phase delays converge to the far-field delays of the 1-D source at `t`, taken relative to
sensor 0. -/
theorem C19_far_field_limit (L : Mat ℝ) (hL : 1 ≤ L.ncols ∧ L.ncols ≤ 3) (hr : L.nrows ≠ 0)
    (wl t : ℝ) (F : PhaseDelays L.nrows 1)
    (hF : (⟨![t], "rad"⟩ : FF1D 1).phaseDelay L wl false = .ok F) (i i0 : Fin L.nrows)
    (hi0 : i0.1 = 0) :
    ∃ T : ℝ → PhaseDelays L.nrows 1,
      (∀ R, (⟨![(R * Real.sin t, R * Real.cos t)]⟩ : NF2D 1).phaseDelay L wl false = .ok (T R)) ∧
      Filter.Tendsto (fun R => (T R).D i 0) Filter.atTop (nhds (F.D i 0 - F.D i0 0)) := by
  have : NeZero wl := Sources.phaseDelay_wl (src := .ff1 ⟨![t], "rad"⟩) hF
  have hspec := fun R : ℝ =>
    NF2D.phaseDelay_spec (⟨![(R * Real.sin t, R * Real.cos t)]⟩ : NF2D 1) L hL hr wl
  choose T hT hD using hspec
  refine ⟨T, hT, ?_⟩
  rw [FF1D.phaseDelay_eq, if_pos hL] at hF
  have hF' := Except.ok.inj hF
  subst hF'
  simp only [hD]
  have hdist : ∀ j : ℕ, Filter.Tendsto (fun R : ℝ =>
      (⟨![(R * Real.sin t, R * Real.cos t)]⟩ : NF2D 1).dist L j 0 - R) Filter.atTop
      (nhds (-(L.at0 j 0 * Real.sin t + L.at0 j 1 * Real.cos t))) := by
    intro j
    have := dist_sub_tendsto (L.at0 j 0 * Real.sin t + L.at0 j 1 * Real.cos t)
      (L.at0 j 0 ^ 2 + L.at0 j 1 ^ 2 + L.at0 j 2 ^ 2) (by positivity)
    refine this.congr fun R => ?_
    unfold NF2D.dist
    congr 2
    have hsc := Real.sin_sq_add_cos_sq t
    simp only [Matrix.cons_val_fin_one]
    linear_combination (-(R ^ 2)) * hsc
  have h1 := ((hdist i).sub (hdist i0)).const_mul (-2 * Real.pi / wl)
  have h2 : -2 * Real.pi / wl * (-(L.at0 i 0 * Real.sin t + L.at0 i 1 * Real.cos t) -
      -(L.at0 i0 0 * Real.sin t + L.at0 i0 1 * Real.cos t)) =
      2 * Real.pi / wl * (L.at0 i 0 * ((⟨![t], "rad"⟩ : FF1D 1).dir 0).1 +
        L.at0 i 1 * ((⟨![t], "rad"⟩ : FF1D 1).dir 0).2.1) -
      2 * Real.pi / wl * (L.at0 i0 0 * ((⟨![t], "rad"⟩ : FF1D 1).dir 0).1 +
        L.at0 i0 1 * ((⟨![t], "rad"⟩ : FF1D 1).dir 0).2.1) := by
    simp only [FF1D.dir]
    simp
    ring
  rw [← h2]
  refine h1.congr fun R => ?_
  rw [hi0]; ring

example : ∃ T, (⟨![(3, 4)]⟩ : NF2D 1).phaseDelay ⟨1, [![0], ![0.5]]⟩ 1 false = .ok T := by
  obtain ⟨T, h, _⟩ := NF2D.phaseDelay_spec (⟨![(3, 4)]⟩ : NF2D 1) ⟨1, [![0], ![0.5]]⟩
    (by simp) (by simp [Mat.nrows]) 1
  exact ⟨T, h⟩

/-- Reordering of two sensors, for `C19_reference_swap`. -/
example : ∀ (i : Fin (⟨1, [![0.5], ![0]]⟩ : Mat ℝ).nrows) (j : ℕ),
    (⟨1, [![0.5], ![0]]⟩ : Mat ℝ).at0 i j =
    (⟨1, [![0], ![0.5]]⟩ : Mat ℝ).at0 ((Fin.rev (n := 2) i : Fin 2) : ℕ) j := by
  intro i j
  have : i.1 = 0 ∨ i.1 = 1 := by have := i.2; simp only [Mat.nrows, List.length] at this; omega
  rcases j with _ | j <;> rcases this with h | h <;> simp [Mat.at0, Mat.get?, h, Fin.rev]

/-! ### C20 -/

/-- **C20**. `cart2spherical` on 1, 2 or 3 coordinates. -/
theorem C20_cart2spherical (v : List ℝ) (h1 : 1 ≤ v.length) (h3 : v.length ≤ 3) :
    ∃ r az el, cart2spherical v = .ok (r, az, el) ∧ 0 ≤ r ∧
      (-Real.pi < az ∧ az ≤ Real.pi) ∧ (-(Real.pi / 2) ≤ el ∧ el ≤ Real.pi / 2) ∧
      r * Real.cos el * Real.cos az = v.getD 0 0 ∧ r * Real.cos el * Real.sin az = v.getD 1 0 ∧
      r * Real.sin el = v.getD 2 0 := by
  have hpi := Real.pi_pos
  have harg : ∀ z : ℂ, -Real.pi < Complex.arg z ∧ Complex.arg z ≤ Real.pi := fun z =>
    ⟨Complex.neg_pi_lt_arg z, Complex.arg_le_pi z⟩
  have hn : ∀ x y : ℝ, ‖(⟨x, y⟩ : ℂ)‖ = Real.sqrt (x ^ 2 + y ^ 2) := by
    intro x y
    rw [Complex.norm_def, Complex.normSq_mk]; ring_nf
  match v, h1, h3 with
  | [x], _, _ =>
    refine ⟨_, _, _, rfl, abs_nonneg x, harg _, by constructor <;> linarith, ?_, ?_, ?_⟩
    · have := Complex.norm_mul_cos_arg ⟨x, 0⟩
      rw [hn] at this
      simpa [arctan2, Real.sqrt_sq_eq_abs] using this
    · have := Complex.norm_mul_sin_arg ⟨x, 0⟩
      rw [hn] at this
      simpa [arctan2, Real.sqrt_sq_eq_abs] using this
    · simp
  | [x, y], _, _ =>
    refine ⟨_, _, _, rfl, Real.sqrt_nonneg _, harg _, by constructor <;> linarith, ?_, ?_, ?_⟩
    · have := Complex.norm_mul_cos_arg ⟨x, y⟩
      rw [hn] at this
      simpa [arctan2] using this
    · have := Complex.norm_mul_sin_arg ⟨x, y⟩
      rw [hn] at this
      simpa [arctan2] using this
    · simp
  | [x, y, z], _, _ =>
    have hp := Complex.norm_mul_cos_arg (⟨Real.sqrt (x ^ 2 + y ^ 2), z⟩ : ℂ)
    have hq := Complex.norm_mul_sin_arg (⟨Real.sqrt (x ^ 2 + y ^ 2), z⟩ : ℂ)
    rw [hn, Real.sq_sqrt (by positivity)] at hp hq
    have hx := Complex.norm_mul_cos_arg (⟨x, y⟩ : ℂ)
    have hy := Complex.norm_mul_sin_arg (⟨x, y⟩ : ℂ)
    rw [hn] at hx hy
    have hel : |Complex.arg (⟨Real.sqrt (x ^ 2 + y ^ 2), z⟩ : ℂ)| ≤ Real.pi / 2 :=
      Complex.abs_arg_le_pi_div_two_iff.2 (Real.sqrt_nonneg _)
    rw [abs_le] at hel
    refine ⟨_, _, _, rfl, Real.sqrt_nonneg _, harg _, hel, ?_, ?_, ?_⟩
    · simp only [arctan2]
      rw [hp]; simpa using hx
    · simp only [arctan2]
      rw [hp]; simpa using hy
    · simpa [arctan2] using hq

example : ∃ r az el, cart2spherical [-1, 0, 2] = .ok (r, az, el) ∧ r * Real.sin el = 2 := by
  obtain ⟨r, az, el, h, _, _, _, _, _, h2⟩ := C20_cart2spherical [-1, 0, 2] (by simp) (by simp)
  exact ⟨r, az, el, h, by simpa using h2⟩

/-! ### C21 -/

/-- **C21**. `from_z` applied to the phase factors of broadside angles `t` (any positive magnitudes)
returns exactly those angles in the requested unit, sorted ascending. -/
theorem C21_from_z {k : ℕ} (t ρ : Fin k → ℝ) (wl d0 : ℝ) (hwl : 0 < wl) (hd : 0 < d0)
    (ht : ∀ i, InRange1D "rad" (t i)) (hρ : ∀ i, 0 < ρ i)
    (hunamb : ∀ i, |2 * Real.pi * d0 / wl * Real.sin (t i)| < Real.pi)
    (u : String) (hu : Unit1D u) :
    ∃ s : FF1D k, FF1D.fromZ (fun i => (ρ i : ℂ) *
        Complex.exp (I * ((2 * Real.pi * d0 / wl * Real.sin (t i) : ℝ) : ℂ))) wl d0 u = .ok s ∧
      s.unit = u ∧ Monotone s.loc ∧
      ∃ σ : Equiv.Perm (Fin k), ∀ i, s.loc i = reprIn u (t (σ i)) := by
  have hpi := Real.pi_pos
  have hc : 2 * Real.pi * d0 / wl ≠ 0 := by positivity
  have hwl0 : wl ≠ 0 := by positivity
  have harg : ∀ i, Complex.arg ((ρ i : ℂ) *
      Complex.exp (I * ((2 * Real.pi * d0 / wl * Real.sin (t i) : ℝ) : ℂ))) =
      2 * Real.pi * d0 / wl * Real.sin (t i) := by
    intro i
    have h := abs_lt.1 (hunamb i)
    rw [mul_comm I, Complex.arg_real_mul _ (hρ i), Complex.arg_exp_mul_I, toIocMod_eq_self]
    constructor
    · exact h.1
    · have := h.2.le; linarith
  have hsin : ∀ i, Complex.arg ((ρ i : ℂ) *
      Complex.exp (I * ((2 * Real.pi * d0 / wl * Real.sin (t i) : ℝ) : ℂ))) /
      (2 * Real.pi * d0 / wl) = Real.sin (t i) := by
    intro i
    rw [harg i, mul_div_cancel_left₀ _ hc]
  have htr : ∀ i, -(Real.pi / 2) ≤ t i ∧ t i ≤ Real.pi / 2 := by
    intro i
    rcases ht i with ⟨_, h⟩ | ⟨h, _⟩ | ⟨h, _⟩
    · exact h
    · simp at h
    · simp at h
  have hasin : ∀ i, Real.arcsin (Real.sin (t i)) = t i := fun i =>
    Real.arcsin_sin (htr i).1 (htr i).2
  have hnan : ¬ ∃ i, 1 < |Real.sin (t i)| := fun ⟨i, hi⟩ => absurd (Real.abs_sin_le_one _) (not_le.2 hi)
  unfold FF1D.fromZ
  simp only [hsin, hasin, if_neg hnan, if_neg hwl0]
  rcases hu with rfl | rfl | rfl
  · simp only [String.reduceEq, if_false, if_true]
    refine ⟨_, FF1D.init_ok (Or.inl rfl) _ fun i => ht _, rfl, Tuple.monotone_sort t,
      Tuple.sort t, fun i => ?_⟩
    simp [reprIn, sortVec]
  · simp only [String.reduceEq, if_false]
    refine ⟨_, FF1D.init_ok (Or.inr (Or.inl rfl)) _ fun i => ?_, rfl, ?_, Tuple.sort t,
      fun i => ?_⟩
    · have := inRange1D_repr (u := "deg") (Or.inr (Or.inl rfl)) (htr (Tuple.sort t i)).1
        (htr (Tuple.sort t i)).2
      simpa [reprIn, sortVec, rad2deg, mul_div_assoc] using this
    · intro i j hij
      have := Tuple.monotone_sort t hij
      simp only [rad2deg, sortVec]
      exact mul_le_mul_of_nonneg_right this (by positivity)
    · simp [reprIn, sortVec, rad2deg, mul_div_assoc]
  · simp only [if_true]
    refine ⟨_, FF1D.init_ok (Or.inr (Or.inr rfl)) _ fun i => ?_, rfl,
      Tuple.monotone_sort fun i => Real.sin (t i), Tuple.sort fun i => Real.sin (t i), fun i => ?_⟩
    · exact Or.inr (Or.inr ⟨rfl, Real.neg_one_le_sin _, Real.sin_le_one _⟩)
    · simp [reprIn, sortVec]

/-- Non-vacuity of C21: half-wavelength spacing, two sources. -/
example : ∀ i : Fin 2, InRange1D "rad" (![0.3, -0.2] i : ℝ) ∧
    |2 * Real.pi * 0.5 / 1 * Real.sin (![0.3, -0.2] i)| < Real.pi := by
  have h3 := Real.pi_gt_three
  have key : ∀ x : ℝ, |x| < 1 → |2 * Real.pi * 0.5 / 1 * Real.sin x| < Real.pi := by
    intro x hx
    have h1 : |Real.sin x| ≤ |x| := Real.abs_sin_le_abs
    have : |2 * Real.pi * 0.5 / 1 * Real.sin x| = Real.pi * |Real.sin x| := by
      rw [abs_mul]; congr 1
      rw [abs_of_pos (by positivity)]; ring
    rw [this]
    nlinarith
  intro i
  fin_cases i
  · exact ⟨Or.inl ⟨rfl, by simp; linarith, by simp; linarith⟩,
      key _ (by simp [abs_of_pos]; norm_num)⟩
  · exact ⟨Or.inl ⟨rfl, by simp; linarith, by simp; linarith⟩,
      key _ (by simp [abs_of_pos]; norm_num)⟩

/-! ### C22 -/

/-- **C22** (1-D, what holds). The constructor succeeds exactly for 1-D arrays whose entries all lie
in the closed range of a known unit, and then stores them unchanged; every other input raises. -/
theorem C22_init_1d_partial {k : ℕ} (arg : Arr1 k) (u : String) :
    (∀ x, arg = .vec x → Unit1D u → (∀ i, InRange1D u (x i)) → FF1D.init arg u = .ok ⟨x, u⟩) ∧
    (∀ s, FF1D.init arg u = .ok s → arg = .vec s.loc ∧ s.unit = u ∧ Valid1D s) ∧
    ((arg = .nd ∨ ¬ Unit1D u) → FF1D.init arg u = .error .valueError) := by
  refine ⟨?_, ?_, ?_⟩
  · rintro x rfl hu hx
    exact FF1D.init_ok hu x hx
  · intro s h
    cases arg with
    | nd => simp [FF1D.init] at h
    | vec x =>
      by_cases hu : Unit1D u
      · obtain ⟨lb, ub, h1, h2⟩ := validRange1D_of hu
        simp only [FF1D.init, h1] at h
        split at h
        · cases h
        · rename_i hn
          cases h
          push Not at hn
          exact ⟨rfl, rfl, hu, fun i => (h2 _).2 ⟨hn.1 i, hn.2 i⟩⟩
      · simp [FF1D.init, validRange1D_none hu] at h
  · rintro (rfl | hu)
    · rfl
    · cases arg with
      | nd => rfl
      | vec x => simp [FF1D.init, validRange1D_none hu]

/-- **C22** (refutation). An out-of-range 1-D location never raises the documented `ValueError`: the
call `format_map(unit, lb, ub)` raises `TypeError` first. -/
theorem C22_out_of_range_1d_typeError {k : ℕ} (x : Fin k → ℝ) (u : String) (hu : Unit1D u)
    (hx : ∃ i, ¬ InRange1D u (x i)) : FF1D.init (.vec x) u = .error .typeError := by
  obtain ⟨i, hi⟩ := hx
  obtain ⟨lb, ub, h1, h2⟩ := validRange1D_of hu
  simp only [FF1D.init, h1]
  rw [if_pos]
  rw [h2, not_and_or, not_le, not_le] at hi
  rcases hi with hi | hi
  · exact Or.inl ⟨i, hi⟩
  · exact Or.inr ⟨i, hi⟩

/-- **C22** (2-D). The constructor succeeds exactly for `k × 2` arrays in the closed ranges of a known
unit; every other input raises `ValueError`. -/
theorem C22_init_2d {k : ℕ} (arg : ArrK2 k) (u : String) :
    (∀ s, FF2D.init arg u = .ok s ↔ arg = .mat s.loc ∧ s.unit = u ∧ Valid2D s) ∧
    ((∀ s, FF2D.init arg u ≠ .ok s) → FF2D.init arg u = .error .valueError) := by
  cases arg with
  | other => simp [FF2D.init]
  | mat x =>
    by_cases hu : Unit2D u
    · obtain ⟨a, b, c, d, h1, h2⟩ := validRange2D_of hu
      constructor
      · intro s
        constructor
        · intro h
          simp only [FF2D.init, h1] at h
          split at h
          · cases h
          · split at h
            · cases h
            · rename_i hn1 hn2
              cases h
              push Not at hn1 hn2
              exact ⟨rfl, rfl, hu, fun i => (h2 _).2 ⟨hn1.1 i, hn1.2 i, hn2.1 i, hn2.2 i⟩⟩
        · rintro ⟨h3, h4, h5⟩
          obtain ⟨loc, unit⟩ := s
          cases h3
          cases h4
          exact FF2D.init_ok hu _ h5.2
      · intro h
        simp only [FF2D.init, h1] at h ⊢
        split
        · rfl
        · rename_i hn1
          rw [if_neg hn1] at h
          split
          · rfl
          · rename_i hn2
            rw [if_neg hn2] at h
            exact absurd rfl (h _)
    · have : FF2D.init (.mat x) u = .error .valueError := by
        simp [FF2D.init, validRange2D_none hu]
      rw [this]
      refine ⟨fun s => ⟨fun h => (by cases h), ?_⟩, fun _ => rfl⟩
      rintro ⟨_, h4, h5⟩
      exact absurd (h4 ▸ h5.1) hu

/-- The bound itself is accepted, a value beyond it is not. -/
example : FF1D.init (.vec ![90]) "deg" = .ok (⟨![90], "deg"⟩ : FF1D 1) ∧
    FF1D.init (.vec ![91]) "deg" = (.error .typeError : Res (FF1D 1)) := by
  constructor
  · apply FF1D.init_ok (Or.inr (Or.inl rfl))
    intro i; fin_cases i; simp [InRange1D]
  · apply C22_out_of_range_1d_typeError _ _ (Or.inr (Or.inl rfl))
    refine ⟨0, ?_⟩
    simp [InRange1D]; norm_num

end Doa.Props
