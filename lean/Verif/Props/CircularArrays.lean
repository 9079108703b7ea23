import Verif.Props.Ura
import Verif.Props.SingleSource
import Verif.Props.Calibrated
import Verif.Props.Ambiguity

/-!
# C100: uniform circular arrays
-/

namespace Doa.Props

open Doa Doa.Spec Matrix Complex
open scoped ComplexOrder

variable {k : ℕ}

/-- The projection of the `p`-th sensor of a uniform circular array (`n` sensors, radius `r`) on the direction `d`. -/
noncomputable def ucaShift (n : ℕ) (r : ℝ) (d : ℝ × ℝ) (p : ℕ) : ℝ :=
  r * Real.cos (2 * Real.pi * p / n) * d.1 + r * Real.sin (2 * Real.pi * p / n) * d.2

/-- The steering matrix of a uniform circular array. -/
theorem uca_steering {n : ℕ} (hn : 1 ≤ n) {r : ℝ} {name : Option String} {kw : Kwargs} {a : ArrayDesign} (ha : uca n r name kw = .ok a) :
    a.size = n ∧ a.element = .isotropicScalar ∧ (∀ p ∈ a.perturbations, p.isKnown = true) ∧ Usable a "all" [] ∧
    ∀ {k : ℕ} (s : FF2D k) (_ : Unit2D s.unit) (wl : ℝ) [NeZero wl], ∃ S, steering a (.ff2 s) wl false "all" = .ok S ∧
      ∀ l (p : Fin a.size) c, S.A l p c = Complex.exp (I * ((2 * Real.pi / wl * ucaShift n r (dirCos s.unit (s.loc c)) p.1 : ℝ) : ℂ)) := by
  obtain ⟨a', ha', hsize, hdim, hloc⟩ := C06_uca_geometry n hn r name kw
  have haa : a' = a := Except.ok.inj (ha'.symm.trans ha)
  subst haa
  have hpe := (C06_uca_kwargs_dropped n r name kw).2 a' ha
  have hp0 : a'.perts.values = [] := hpe.1
  have hps : a'.filterPerturbations "all" = .ok [] := by
    simp [ArrayDesign.filterPerturbations, hp0]
  have hc : a'.locations.ncols = 2 := hdim
  have hd : 1 ≤ a'.locations.ncols ∧ a'.locations.ncols ≤ 3 := by omega
  refine ⟨hsize, hpe.2, by rw [hpe.1]; simp, ⟨hps, rfl, hd, by simp⟩, ?_⟩
  intro k s hu wl _
  have hph : (Sources.ff2 s).phaseDelay a'.locations wl false = .ok _ :=
    (FF2D.phaseDelay_eq s a'.locations wl).trans (if_pos hd)
  refine ⟨_, steering_iso (ps := []) hpe.2 hps rfl hph (by simp), fun l p c => ?_⟩
  have hp1 : p.1 < n := by rw [← hsize]; exact p.2
  obtain ⟨e1, e2, -⟩ := hloc p.1 hp1
  have l0 : a'.locations.at0 p.1 0 = r * Real.cos (2 * Real.pi * p.1 / n) := by rw [Mat.at0, e1]; rfl
  have l1 : a'.locations.at0 p.1 1 = r * Real.sin (2 * Real.pi * p.1 / n) := by rw [Mat.at0, e2]; rfl
  have l2 : a'.locations.at0 p.1 2 = 0 := Mat.at0_of_ge a'.locations (by omega)
  obtain ⟨c1, c2⟩ := dir_dirCos s hu c
  simp only [totalFactor, List.foldl_nil, Matrix.one_mul, ideal, Fin.val_cast, of_apply, ucaShift, l0, l1, l2, c1, c2]
  congr 1
  push_cast
  ring

/-- The direction cosines of two directions differ by at most 2. -/
theorem dirCos_dist (u u' : String) (v w : ℝ × ℝ) :
    ((dirCos u v).1 - (dirCos u' w).1) ^ 2 + ((dirCos u v).2 - (dirCos u' w).2) ^ 2 ≤ 4 := by
  have h : ∀ (u : String) (v : ℝ × ℝ), (dirCos u v).1 ^ 2 + (dirCos u v).2 ^ 2 ≤ 1 := by
    intro u v
    have h1 := Real.sin_sq_add_cos_sq (angleOf u v.1)
    have h2 := Real.cos_sq_le_one (angleOf u v.2)
    have : (dirCos u v).1 ^ 2 + (dirCos u v).2 ^ 2 = Real.cos (angleOf u v.2) ^ 2 := by
      simp only [dirCos]
      linear_combination Real.cos (angleOf u v.2) ^ 2 * h1
    rw [this]
    exact h2
  have h1 := h u v
  have h2 := h u' w
  nlinarith [sq_nonneg ((dirCos u v).1 + (dirCos u' w).1), sq_nonneg ((dirCos u v).2 + (dirCos u' w).2)]

/-- Two neighbouring sensors of an unambiguous array see a phase difference that determines the projection. -/
theorem chord_zero {x y w1 w2 r s wl : ℝ} (hr : 0 < r) (hs : 0 < s) (hwl : 4 * r * s < wl) (hxy : x ^ 2 + y ^ 2 = 4 * r ^ 2 * s ^ 2)
    (hw : w1 ^ 2 + w2 ^ 2 ≤ 4) {m : ℤ} (h : x * w1 + y * w2 = m * wl) : x * w1 + y * w2 = 0 := by
  have hrs : 0 < r * s := mul_pos hr hs
  have hcs : (x * w1 + y * w2) ^ 2 ≤ 16 * (r * s) ^ 2 := by
    have e : (x * w1 + y * w2) ^ 2 + (x * w2 - y * w1) ^ 2 = (x ^ 2 + y ^ 2) * (w1 ^ 2 + w2 ^ 2) := by ring
    have : (x ^ 2 + y ^ 2) * (w1 ^ 2 + w2 ^ 2) ≤ (4 * r ^ 2 * s ^ 2) * 4 := by
      rw [hxy]
      exact mul_le_mul_of_nonneg_left hw (by positivity)
    nlinarith [sq_nonneg (x * w2 - y * w1)]
  have hlt : (x * w1 + y * w2) ^ 2 < wl ^ 2 := by nlinarith
  rw [h] at hlt ⊢
  have hw0 : 0 < wl := by nlinarith
  have hm : (m : ℝ) ^ 2 < 1 := by
    rw [mul_pow] at hlt
    have : 0 < wl ^ 2 := by positivity
    by_contra hc
    push Not at hc
    nlinarith
  have hm' : m ^ 2 < 1 := by exact_mod_cast hm
  have : m = 0 := by nlinarith [sq_nonneg m, (sq_eq_zero_iff (a := m)).1 (by nlinarith [sq_nonneg m])]
  rw [this]
  simp

/-- Proportional responses have equal projections differences between any two sensors, up to multiples of the wavelength. -/
theorem prop_phases {f g : ℕ → ℝ} {wl : ℝ} (hwl : wl ≠ 0) {z : ℂ} {p q : ℕ}
    (hp : Complex.exp (I * ((2 * Real.pi / wl * f p : ℝ) : ℂ)) = z * Complex.exp (I * ((2 * Real.pi / wl * g p : ℝ) : ℂ)))
    (hq : Complex.exp (I * ((2 * Real.pi / wl * f q : ℝ) : ℂ)) = z * Complex.exp (I * ((2 * Real.pi / wl * g q : ℝ) : ℂ))) :
    ∃ m : ℤ, (f p - g p) - (f q - g q) = m * wl := by
  have hpi := Real.pi_pos
  have h : Complex.exp (I * ((2 * Real.pi / wl * (f p + g q) : ℝ) : ℂ)) = Complex.exp (I * ((2 * Real.pi / wl * (f q + g p) : ℝ) : ℂ)) := by
    have e : ∀ s t : ℝ, Complex.exp (I * ((2 * Real.pi / wl * (s + t) : ℝ) : ℂ)) =
        Complex.exp (I * ((2 * Real.pi / wl * s : ℝ) : ℂ)) * Complex.exp (I * ((2 * Real.pi / wl * t : ℝ) : ℂ)) := by
      intro s t
      rw [← Complex.exp_add]
      congr 1
      push_cast
      ring
    rw [e, e, hp, hq]
    ring
  rw [Complex.exp_eq_exp_iff_exists_int] at h
  obtain ⟨m, hm⟩ := h
  refine ⟨m, ?_⟩
  have h1 : (2 * Real.pi / wl * (f p + g q) : ℝ) = 2 * Real.pi / wl * (f q + g p) + m * (2 * Real.pi) := by
    have h2 := congrArg Complex.im hm
    simpa [-Complex.ofReal_mul, -Complex.ofReal_div] using h2
  field_simp at h1
  linarith

/-- Directions with proportional phases on the first three sensors of an unambiguous circular array are the same. -/
theorem uca_directions {n : ℕ} (hn : 3 ≤ n) {r wl : ℝ} (hr : 0 < r) (hamb : 4 * r * Real.sin (Real.pi / n) < wl) {v w : ℝ × ℝ}
    (hvw : (v.1 - w.1) ^ 2 + (v.2 - w.2) ^ 2 ≤ 4) {z : ℂ}
    (h : ∀ p < 3, Complex.exp (I * ((2 * Real.pi / wl * ucaShift n r v p : ℝ) : ℂ)) =
      z * Complex.exp (I * ((2 * Real.pi / wl * ucaShift n r w p : ℝ) : ℂ))) : v = w := by
  have hpi := Real.pi_pos
  have hn0 : (3 : ℝ) ≤ n := by exact_mod_cast hn
  have hnp : (0 : ℝ) < n := by linarith
  have hs2 : 0 < Real.sin (Real.pi / n) := Real.sin_pos_of_pos_of_lt_pi (by positivity) (by rw [div_lt_iff₀ hnp]; nlinarith)
  have hwl : 0 < wl := by nlinarith [mul_pos hr hs2]
  obtain ⟨t, ht⟩ : ∃ t, t = 2 * Real.pi / n := ⟨_, rfl⟩
  have ht2 : t = 2 * (Real.pi / n) := by rw [ht]; ring
  have hst : 0 < Real.sin t := by
    refine Real.sin_pos_of_pos_of_lt_pi (by rw [ht]; positivity) ?_
    rw [ht, div_lt_iff₀ hnp]
    nlinarith
  have hsc := Real.sin_sq_add_cos_sq t
  have hct : Real.cos t < 1 := by nlinarith [Real.cos_le_one t]
  have hhalf : 2 - 2 * Real.cos t = 4 * Real.sin (Real.pi / n) ^ 2 := by
    rw [ht2, Real.cos_two_mul]
    have := Real.sin_sq_add_cos_sq (Real.pi / n)
    linarith
  have p0 : ∀ d : ℝ × ℝ, ucaShift n r d 0 = r * d.1 := fun d => by simp [ucaShift]
  have p1 : ∀ d : ℝ × ℝ, ucaShift n r d 1 = r * Real.cos t * d.1 + r * Real.sin t * d.2 := fun d => by simp [ucaShift, ht]
  have p2 : ∀ d : ℝ × ℝ, ucaShift n r d 2 = r * (2 * Real.cos t ^ 2 - 1) * d.1 + r * (2 * Real.sin t * Real.cos t) * d.2 := fun d => by
    have : 2 * Real.pi * ((2 : ℕ) : ℝ) / n = 2 * t := by rw [ht]; push_cast; ring
    rw [ucaShift, this, Real.cos_two_mul, Real.sin_two_mul]
  obtain ⟨m1, e1⟩ := prop_phases hwl.ne' (h 1 (by norm_num)) (h 0 (by norm_num))
  obtain ⟨m2, e2⟩ := prop_phases hwl.ne' (h 2 (by norm_num)) (h 1 (by norm_num))
  rw [p1, p1, p0, p0] at e1
  rw [p1, p1, p2, p2] at e2
  have z1 := chord_zero (x := r * (Real.cos t - 1)) (y := r * Real.sin t) (w1 := v.1 - w.1) (w2 := v.2 - w.2) (m := m1) hr hs2 hamb
    (by linear_combination r ^ 2 * hsc + r ^ 2 * hhalf) hvw (by linear_combination e1)
  have z2 := chord_zero (x := r * (2 * Real.cos t ^ 2 - 1 - Real.cos t)) (y := r * (2 * Real.sin t * Real.cos t - Real.sin t))
    (w1 := v.1 - w.1) (w2 := v.2 - w.2) (m := m2) hr hs2 hamb
    (by linear_combination r ^ 2 * (4 * Real.cos t ^ 2 - 4 * Real.cos t + 1) * hsc + r ^ 2 * hhalf) hvw (by linear_combination e2)
  have z1' : (Real.cos t - 1) * (v.1 - w.1) + Real.sin t * (v.2 - w.2) = 0 := by
    have : r * ((Real.cos t - 1) * (v.1 - w.1) + Real.sin t * (v.2 - w.2)) = 0 := by linear_combination z1
    exact (mul_eq_zero.1 this).resolve_left hr.ne'
  have z2' : (2 * Real.cos t ^ 2 - 1 - Real.cos t) * (v.1 - w.1) + (2 * Real.sin t * Real.cos t - Real.sin t) * (v.2 - w.2) = 0 := by
    have : r * ((2 * Real.cos t ^ 2 - 1 - Real.cos t) * (v.1 - w.1) + (2 * Real.sin t * Real.cos t - Real.sin t) * (v.2 - w.2)) = 0 := by
      linear_combination z2
    exact (mul_eq_zero.1 this).resolve_left hr.ne'
  have hx : (2 - 2 * Real.cos t) * (v.1 - w.1) = 0 := by
    linear_combination (2 * Real.cos t - 1) * z1' - z2'
  have hx' : v.1 - w.1 = 0 := (mul_eq_zero.1 hx).resolve_left (by linarith)
  rw [hx'] at z1'
  have hy' : v.2 - w.2 = 0 := (mul_eq_zero.1 (by linear_combination z1' : Real.sin t * (v.2 - w.2) = 0)).resolve_left hst.ne'
  exact Prod.ext (by linarith) (by linarith)

/-- The responses of a circular array on the directions of a 2-D placement. -/
theorem uca_response2 {n : ℕ} (hn : 1 ≤ n) {r wl : ℝ} [NeZero wl] {name : Option String} {kw : Kwargs} {a : ArrayDesign}
    (ha : uca n r name kw = .ok a) (l : Fin a.element.outputSize) {u : String} (hu : Unit2D u) (v : ℝ × ℝ) (p : Fin a.size) :
    response2 a l wl u "all" v p = Complex.exp (I * ((2 * Real.pi / wl * ucaShift n r (dirCos u v) p.1 : ℝ) : ℂ)) := by
  obtain ⟨-, -, -, -, hst⟩ := uca_steering hn ha
  obtain ⟨S1, hS1, hSA1⟩ := hst (⟨![v], u⟩ : FF2D 1) hu wl
  unfold response2
  rw [hS1]
  exact hSA1 l p 0

theorem uca_power {n : ℕ} (hn : 1 ≤ n) {r wl : ℝ} [NeZero wl] {name : Option String} {kw : Kwargs} {a : ArrayDesign}
    (ha : uca n r name kw = .ok a) (l : Fin a.element.outputSize) {u : String} (hu : Unit2D u) (v : ℝ × ℝ) :
    power (response2 a l wl u "all" v) = n := by
  have hs := (uca_steering hn ha).1
  have : ∀ p, ‖response2 a l wl u "all" v p‖ = 1 := fun p => by
    rw [uca_response2 hn ha l hu, mul_comm Complex.I, Complex.norm_exp_ofReal_mul_I]
  simp [power, this, hs]

/-- **C100** (no two directions look alike). A `UniformCircularArray` with at least three sensors, neighbours less than half a wavelength
apart (`2 r sin(π/n) < λ/2`): two directions whose responses are proportional have the same direction cosines along both axes. -/
theorem C100_unambiguous {n : ℕ} (hn : 3 ≤ n) {r wl : ℝ} (hr : 0 < r) (hamb : 4 * r * Real.sin (Real.pi / n) < wl) {name : Option String}
    {kw : Kwargs} {a : ArrayDesign} (ha : uca n r name kw = .ok a) (l : Fin a.element.outputSize) {u u' : String} (hu : Unit2D u)
    (hu' : Unit2D u') (v w : ℝ × ℝ) (z : ℂ) (h : response2 a l wl u "all" v = z • response2 a l wl u' "all" w) : dirCos u v = dirCos u' w := by
  have hpi := Real.pi_pos
  have hnp : (3 : ℝ) ≤ n := by exact_mod_cast hn
  have hs2 : 0 < Real.sin (Real.pi / n) := Real.sin_pos_of_pos_of_lt_pi (by positivity) (by rw [div_lt_iff₀ (by linarith)]; nlinarith)
  have hwl : 0 < wl := by nlinarith [mul_pos hr hs2]
  have : NeZero wl := ⟨hwl.ne'⟩
  have hsize := (uca_steering (by omega) ha).1
  refine uca_directions hn hr hamb (dirCos_dist u u' v w) (z := z) fun p hp => ?_
  have := congrFun h ⟨p, by rw [hsize]; omega⟩
  rw [Pi.smul_apply, uca_response2 (by omega) ha l hu, uca_response2 (by omega) ha l hu', smul_eq_mul] at this
  exact this

/-- A grid of azimuths and elevations in the open upper hemisphere, without repetitions. -/
structure UpperGrid (u : String) (ga gb : List ℝ) : Prop where
  unit : Unit2D u
  azimuths : ∀ v ∈ ga, -Real.pi < angleOf u v ∧ angleOf u v ≤ Real.pi
  elevations : ∀ w ∈ gb, 0 ≤ angleOf u w ∧ angleOf u w < Real.pi / 2
  nodup_az : ga.Nodup
  nodup_el : gb.Nodup

theorem UpperGrid.inRange {u : String} {ga gb : List ℝ} (h : UpperGrid u ga gb) : ∀ v ∈ ga, ∀ w ∈ gb, InRange2D u (v, w) := by
  intro v hv w hw
  have hpi := Real.pi_pos
  obtain ⟨h1, h2⟩ := h.azimuths v hv
  obtain ⟨h3, h4⟩ := h.elevations w hw
  rcases h.unit with rfl | rfl
  · simp only [angleOf, String.reduceEq, if_false] at h1 h2 h3 h4
    exact Or.inl ⟨rfl, h1.le, h2, by show -(Real.pi / 2) ≤ w; linarith, h4.le⟩
  · simp only [angleOf, if_true] at h1 h2 h3 h4
    have e : ∀ t : ℝ, t * Real.pi / 180 * 180 = t * Real.pi := fun t => by ring
    have a1 : -180 ≤ v := by by_contra hc; push Not at hc; nlinarith
    have a2 : v ≤ 180 := by by_contra hc; push Not at hc; nlinarith
    have a3 : 0 ≤ w := by by_contra hc; push Not at hc; nlinarith
    have a4 : w ≤ 90 := by by_contra hc; push Not at hc; nlinarith
    exact Or.inr ⟨rfl, a1, a2, by show -90 ≤ w; linarith, a4⟩

theorem UpperGrid.inj {u : String} {ga gb : List ℝ} (h : UpperGrid u ga gb) {i i' j j' : ℕ} {v v' w w' : ℝ} (h1 : ga[i]? = some v)
    (h2 : ga[i']? = some v') (h3 : gb[j]? = some w) (h4 : gb[j']? = some w') (he : dirCos u (v, w) = dirCos u (v', w')) : i = i' ∧ j = j' := by
  have hvw := dirCos_inj h.unit (v := (v, w)) (w := (v', w')) (h.azimuths v (List.mem_of_getElem? h1)) (h.azimuths v' (List.mem_of_getElem? h2))
    (h.elevations w (List.mem_of_getElem? h3)) (h.elevations w' (List.mem_of_getElem? h4)) he
  have key : ∀ {L : List ℝ} (_ : L.Nodup) (p q : ℕ) (y : ℝ), L[p]? = some y → L[q]? = some y → p = q := by
    intro L hnd p q y hp hq
    obtain ⟨hp1, hp2⟩ := List.getElem?_eq_some_iff.1 hp
    obtain ⟨hq1, hq2⟩ := List.getElem?_eq_some_iff.1 hq
    exact (List.Nodup.getElem_inj_iff hnd).1 (by rw [hp2, hq2])
  have e1 : v = v' := congrArg Prod.fst hvw
  have e2 : w = w' := congrArg Prod.snd hvw
  subst e1
  subst e2
  exact ⟨key h.nodup_az _ _ _ h1 h2, key h.nodup_el _ _ _ h3 h4⟩

/-- The columns of a one-column matrix. -/
theorem mulVec_one {m : ℕ} (A : Matrix (Fin m) (Fin 1) ℂ) (y : Fin 1 → ℂ) : A *ᵥ y = y 0 • A.col 0 := by
  funext i
  simp [mulVec, dotProduct, mul_comm]

theorem injective_one {m : ℕ} {A : Matrix (Fin m) (Fin 1) ℂ} (h : A.col 0 ≠ 0) : Function.Injective A.mulVec := by
  intro y y' hy
  change A *ᵥ y = A *ᵥ y' at hy
  rw [mulVec_one, mulVec_one, ← sub_eq_zero, ← sub_smul] at hy
  funext c
  fin_cases c
  exact sub_eq_zero.1 ((smul_eq_zero.1 hy).resolve_right h)

theorem ne_zero_of_power {m n : ℕ} (hn : 1 ≤ n) {v : Fin m → ℂ} (h : power v = n) : v ≠ 0 := by
  rintro rfl
  simp only [power, Pi.zero_apply, norm_zero] at h
  norm_num at h
  have : n = 0 := by exact_mod_cast h.symm
  omega

/-- **C100** (azimuth and elevation). One source at any point of a grid in the open upper hemisphere (azimuth in `(-180°, 180°]`, elevation in
`[0°, 90°)`), seen by a `UniformCircularArray` of at least three sensors with neighbours less than half a wavelength apart, with the exact
covariance: MUSIC, the Bartlett and the MVDR beamformer return exactly its azimuth and elevation, whatever the source power and the history of
the estimators, for every choice of eigenvectors. -/
theorem C100_two_dimensional (eigh : Eigh) {n : ℕ} (hn : 3 ≤ n) {r wl : ℝ} (hr : 0 < r) (hamb : 4 * r * Real.sin (Real.pi / n) < wl)
    {name : Option String} {kw : Kwargs} {a : ArrayDesign} (haa : uca n r name kw = .ok a) (l : Fin a.element.outputSize)
    (cfg : EstCfg ℝ (List (Fin a.size → ℂ))) (cfg' : EstCfg (WithTop ℝ) (List (Fin a.size → ℂ)))
    {ga gb : List ℝ} {names : List String} {u : String}
    (hg : cfg.grid = ⟨.ff2, [⟨ga, false⟩, ⟨gb, false⟩], names, [u, u]⟩) (hg' : cfg'.grid = cfg.grid) (hgr : UpperGrid u ga gb)
    (hpf : cfg.peakFinder = findPeaksSimple) (hpf' : cfg'.peakFinder = findPeaksSimple)
    (hsort : IsArgsort cfg.argsort) (hsort' : IsArgsort cfg'.argsort)
    (hcomp : cfg.compute = atomColumns2D a l wl u) (hcomp' : cfg'.compute = atomColumns2D a l wl u)
    (src : FF2D 1) (hsu : src.unit = u) (hi : (src.loc 0).1 ∈ ga) (hj : (src.loc 0).2 ∈ gb)
    {P : Matrix (Fin 1) (Fin 1) ℂ} (hP : P.PosDef) :
    ∃ S, steering a (.ff2 src) wl false "all" = .ok S ∧
    (∀ (σ : ℝ) (ops : List (EstOp (WithTop ℝ) (List (Fin a.size → ℂ)))),
      ∃ o st', musicEstimate eigh cfg' (cfg'.run ops).1 (covModel (S.A l) P σ) 1 {} = (.ok o, st') ∧
        ∃ sp, o.observe st' = (true, some (some ([[(src.loc 0).1, (src.loc 0).2]], u)), sp)) ∧
    (∀ (σ : ℝ) (ops : List (EstOp ℝ (List (Fin a.size → ℂ)))),
      ∃ o st', bartlettEstimate cfg (cfg.run ops).1 (covModel (S.A l) P σ) 1 {} = (.ok o, st') ∧
        ∃ sp, o.observe st' = (true, some (some ([[(src.loc 0).1, (src.loc 0).2]], u)), sp)) ∧
    ∀ (σ : ℝ) (_ : 0 < σ) (ops : List (EstOp (WithTop ℝ) (List (Fin a.size → ℂ)))),
      ∃ o st', mvdrEstimate cfg' (cfg'.run ops).1 (covModel (S.A l) P σ) 1 {} = (.ok o, st') ∧
        ∃ sp, o.observe st' = (true, some (some ([[(src.loc 0).1, (src.loc 0).2]], u)), sp) := by
  have hpi := Real.pi_pos
  have hnp : (3 : ℝ) ≤ n := by exact_mod_cast hn
  have hs2 : 0 < Real.sin (Real.pi / n) := Real.sin_pos_of_pos_of_lt_pi (by positivity) (by rw [div_lt_iff₀ (by linarith)]; nlinarith)
  have hwl : 0 < wl := by nlinarith [mul_pos hr hs2]
  have : NeZero wl := ⟨hwl.ne'⟩
  have hn1 : 1 ≤ n := by omega
  obtain ⟨hsize, hel, hkn, hus, hst⟩ := uca_steering hn1 haa
  obtain ⟨S, hS, -⟩ := hst src (hsu ▸ hgr.unit) wl
  obtain ⟨i0, hi⟩ := List.getElem?_of_mem hi
  obtain ⟨j0, hj⟩ := List.getElem?_of_mem hj
  have hcol : (S.A l).col 0 = response2 a l wl u "all" (src.loc 0) := by
    funext i
    rw [Matrix.col_apply, steering_columns2 hel l wl "all" src hS, hsu]
  have hne : response2 a l wl u "all" (src.loc 0) ≠ 0 := ne_zero_of_power hn1 (uca_power hn1 haa l hgr.unit _)
  have huniq : ∀ i j v w, ga[i]? = some v → gb[j]? = some w → ∀ z : ℂ,
      response2 a l wl u "all" (v, w) = z • response2 a l wl u "all" (src.loc 0) → i = i0 ∧ j = j0 := by
    intro i j v w hv hw z hz
    exact hgr.inj hv hi hw hj (C100_unambiguous hn hr hamb haa l hgr.unit hgr.unit _ _ z hz)
  refine ⟨S, hS, fun σ ops => ?_, ?_⟩
  · obtain ⟨o, st', h1, sp, h2⟩ := C43_music_2d eigh hel hkn hus l wl cfg' (hg'.trans hg) hgr.unit hgr.inRange hpf' hsort' hcomp' src hsu
      (fun _ => i0) (fun _ => j0) (fun c => by fin_cases c; exact hi) (fun c => by fin_cases c; exact hj)
      (fun c e h => absurd h (fin_one_lt c e)) le_rfl (by rw [hsize]; omega) hS (injective_one (by rw [hcol]; exact hne))
      (by
        rintro i j v w hv hw ⟨y, hy⟩
        rw [mulVec_one, hcol] at hy
        exact ⟨0, huniq i j v w hv hw _ hy⟩) hP σ ops
    exact ⟨o, st', h1, sp, by simpa [List.ofFn_succ] using h2⟩
  · exact C77_two_dimensional hel hkn hus l wl cfg cfg' hg hg' hgr.unit hgr.inRange hpf hpf' hsort hsort' hcomp hcomp' src hsu i0 j0 hi hj hS hne
      (fun v _ w _ => by rw [uca_power hn1 haa l hgr.unit, uca_power hn1 haa l hgr.unit])
      (fun i j v w hv hw hij z hz => hij (huniq i j v w hv hw z hz)) hP

/-- The response to a broadside angle, as the response to a direction in the plane of the array. -/
theorem response_in_plane (a : ArrayDesign) (l : Fin a.element.outputSize) (wl : ℝ) {u : String} (hu : Unit1D u) {v : ℝ} (hv : InRange1D u v) :
    response a l wl u "all" v = response2 a l wl "rad" "all" (Real.pi / 2 - angleOf u v, 0) := by
  have h := C80_in_plane a (⟨![v], u⟩ : FF1D 1) ⟨hu, fun c => by fin_cases c; exact hv⟩ wl "all"
  have e : inPlane (⟨![v], u⟩ : FF1D 1) = ⟨![(Real.pi / 2 - angleOf u v, 0)], "rad"⟩ := by
    unfold inPlane
    congr 1
    funext c
    fin_cases c
    rfl
  rw [e] at h
  unfold response response2
  rw [h]

/-- **C100** (broadside angles). The same with a one-dimensional grid of directions in the plane of the array, for one source at an interior
grid point. -/
theorem C100_one_dimensional (eigh : Eigh) {n : ℕ} (hn : 3 ≤ n) {r wl : ℝ} (hr : 0 < r) (hamb : 4 * r * Real.sin (Real.pi / n) < wl)
    {name : Option String} {kw : Kwargs} {a : ArrayDesign} (haa : uca n r name kw = .ok a) (l : Fin a.element.outputSize)
    (cfg : EstCfg ℝ (List (Fin a.size → ℂ))) (cfg' : EstCfg (WithTop ℝ) (List (Fin a.size → ℂ)))
    {x : List ℝ} {names : List String} {u : String}
    (hg : cfg.grid = ⟨.ff1, [⟨x, false⟩], names, [u]⟩) (hg' : cfg'.grid = cfg.grid) (hu : Unit1D u) (hx : ∀ v ∈ x, InRange1D u v)
    (hxd : x.Nodup) (hpf : cfg.peakFinder = findPeaksSimple) (hpf' : cfg'.peakFinder = findPeaksSimple)
    (hsort : IsArgsort cfg.argsort) (hsort' : IsArgsort cfg'.argsort)
    (hcomp : cfg.compute = atomColumns1D a l wl u) (hcomp' : cfg'.compute = atomColumns1D a l wl u)
    (src : FF1D 1) (hsu : src.unit = u) (j0 : ℕ) (hj : x[j0]? = some (src.loc 0)) (h1 : 1 ≤ j0) (h2 : j0 + 1 < x.length)
    {P : Matrix (Fin 1) (Fin 1) ℂ} (hP : P.PosDef) :
    ∃ S, steering a (.ff1 src) wl false "all" = .ok S ∧
    (∀ (σ : ℝ) (ops : List (EstOp (WithTop ℝ) (List (Fin a.size → ℂ)))),
      ∃ o st', musicEstimate eigh cfg' (cfg'.run ops).1 (covModel (S.A l) P σ) 1 {} = (.ok o, st') ∧
        ∃ sp, o.observe st' = (true, some (some ([[src.loc 0]], u)), sp)) ∧
    (∀ (σ : ℝ) (ops : List (EstOp ℝ (List (Fin a.size → ℂ)))),
      ∃ o st', bartlettEstimate cfg (cfg.run ops).1 (covModel (S.A l) P σ) 1 {} = (.ok o, st') ∧
        ∃ sp, o.observe st' = (true, some (some ([[src.loc 0]], u)), sp)) ∧
    ∀ (σ : ℝ) (_ : 0 < σ) (ops : List (EstOp (WithTop ℝ) (List (Fin a.size → ℂ)))),
      ∃ o st', mvdrEstimate cfg' (cfg'.run ops).1 (covModel (S.A l) P σ) 1 {} = (.ok o, st') ∧
        ∃ sp, o.observe st' = (true, some (some ([[src.loc 0]], u)), sp) := by
  have hpi := Real.pi_pos
  have hnp : (3 : ℝ) ≤ n := by exact_mod_cast hn
  have hs2 : 0 < Real.sin (Real.pi / n) := Real.sin_pos_of_pos_of_lt_pi (by positivity) (by rw [div_lt_iff₀ (by linarith)]; nlinarith)
  have hwl : 0 < wl := by nlinarith [mul_pos hr hs2]
  have : NeZero wl := ⟨hwl.ne'⟩
  have hn1 : 1 ≤ n := by omega
  obtain ⟨hsize, hel, hkn, hus, hst⟩ := uca_steering hn1 haa
  have hsx : src.loc 0 ∈ x := List.mem_of_getElem? hj
  have hv : Valid1D src := ⟨hsu ▸ hu, fun c => by fin_cases c; exact hsu ▸ hx _ hsx⟩
  obtain ⟨S, hS, -⟩ := hst (inPlane src) (Or.inl rfl) wl
  rw [← C80_in_plane a src hv wl "all"] at hS
  have hcol : (S.A l).col 0 = response a l wl u "all" (src.loc 0) := by
    funext i
    rw [Matrix.col_apply, steering_columns hel l wl "all" src hS, hsu]
  have hpw : ∀ v ∈ x, power (response a l wl u "all" v) = n := fun v hv => by
    rw [response_in_plane a l wl hu (hx v hv), uca_power hn1 haa l (Or.inl rfl)]
  have hne : response a l wl u "all" (src.loc 0) ≠ 0 := ne_zero_of_power hn1 (hpw _ hsx)
  have huniq : ∀ j v, x[j]? = some v → ∀ z : ℂ, response a l wl u "all" v = z • response a l wl u "all" (src.loc 0) → j = j0 := by
    intro j v hv z hz
    have hvx := List.mem_of_getElem? hv
    rw [response_in_plane a l wl hu (hx v hvx), response_in_plane a l wl hu (hx _ hsx)] at hz
    have hd := congrArg Prod.fst (C100_unambiguous hn hr hamb haa l (Or.inl rfl) (Or.inl rfl) _ _ z hz)
    have hrad : ∀ t, angleOf "rad" t = t := fun t => by simp [angleOf]
    simp only [dirCos, hrad, Real.cos_zero, one_mul, Real.cos_pi_div_two_sub] at hd
    have h3 : v = src.loc 0 := phaseFactor_inj one_pos one_pos (hx v hvx) (hx _ hsx) (by rw [hd]; simp) (by unfold phaseFactor; rw [hd])
    obtain ⟨hj1, hj2⟩ := List.getElem?_eq_some_iff.1 hv
    obtain ⟨hc1, hc2⟩ := List.getElem?_eq_some_iff.1 hj
    exact (List.Nodup.getElem_inj_iff hxd).1 (by rw [hj2, hc2, h3])
  refine ⟨S, hS, fun σ ops => ?_, ?_⟩
  · obtain ⟨o, st', e1, sp, e2⟩ := C43_calibrated eigh hel hkn hus l wl cfg' (hg'.trans hg) hu hx hpf' hsort' hcomp' src hsu
      (fun _ => j0) (fun c => by fin_cases c; exact hj) (fun c e h => absurd h (fin_one_lt c e)) (fun _ => h1) (fun _ => h2)
      le_rfl (by rw [hsize]; omega) hS (injective_one (by rw [hcol]; exact hne))
      (by
        rintro j v hv ⟨y, hy⟩
        rw [mulVec_one, hcol] at hy
        exact ⟨0, huniq j v hv _ hy⟩) hP σ ops
    exact ⟨o, st', e1, sp, by simpa [List.ofFn_succ] using e2⟩
  · exact C77_one_dimensional hel hkn hus l wl cfg cfg' hg hg' hu hx hpf hpf' hsort hsort' hcomp hcomp' src hsu j0 hj h1 h2 hS hne
      (fun v hv => by rw [hpw v hv, hpw _ hsx]) (fun j v hv hjj z hz => hjj (huniq j v hv z hz)) hP

/-- The hypotheses hold for four sensors at a quarter wavelength from the centre and a source at azimuth 90°, elevation 30°. -/
example (eigh : Eigh) : ∃ (a : ArrayDesign) (S : Steering a.element.outputSize a.size 1) (i : Fin a.element.outputSize)
    (cfg : EstCfg (WithTop ℝ) (List (Fin a.size → ℂ))) (o : _) (st' : _),
    uca 4 (1 / 4) none {} = .ok a ∧
    steering a (.ff2 ⟨![(90, 30)], "deg"⟩) 1 false "all" = .ok S ∧
    musicEstimate eigh cfg cfg.init (covModel (S.A i) 1 1) 1 {} = (.ok o, st') ∧
    ∃ sp, o.observe st' = (true, some (some ([[90, 30]], "deg")), sp) := by
  obtain ⟨a, ha, -⟩ := C06_uca_geometry 4 (by norm_num) (1 / 4) none {}
  have hel := (uca_steering (by norm_num) ha).2.1
  have hla : 0 < a.element.outputSize := by rw [hel]; decide
  have hpi := Real.pi_pos
  have hgr : UpperGrid "deg" [-90, 0, 90, 180] [0, 30, 60] := by
    refine ⟨Or.inr rfl, ?_, ?_, by norm_num, by norm_num⟩
    · intro v hv
      simp only [List.mem_cons, List.not_mem_nil, or_false] at hv
      rcases hv with rfl | rfl | rfl | rfl <;> simp only [angleOf, if_true] <;> constructor <;> nlinarith
    · intro v hv
      simp only [List.mem_cons, List.not_mem_nil, or_false] at hv
      rcases hv with rfl | rfl | rfl <;> simp only [angleOf, if_true] <;> constructor <;> nlinarith
  have hamb : 4 * (1 / 4 : ℝ) * Real.sin (Real.pi / (4 : ℕ)) < 1 := by
    have : Real.sin (Real.pi / (4 : ℕ)) = Real.sqrt 2 / 2 := by
      push_cast
      exact Real.sin_pi_div_four
    rw [this]
    have : Real.sqrt 2 < 2 := by rw [Real.sqrt_lt' (by norm_num)]; norm_num
    linarith
  obtain ⟨S, hS, hm, -⟩ := C100_two_dimensional eigh (by norm_num) (by norm_num) hamb ha ⟨0, hla⟩
    ⟨⟨.ff2, [⟨[-90, 0, 90, 180], false⟩, ⟨[0, 30, 60], false⟩], [], ["deg", "deg"]⟩, atomColumns2D a ⟨0, hla⟩ 1 "deg", findPeaksSimple,
      stableArgsort, true, false⟩
    ⟨⟨.ff2, [⟨[-90, 0, 90, 180], false⟩, ⟨[0, 30, 60], false⟩], [], ["deg", "deg"]⟩, atomColumns2D a ⟨0, hla⟩ 1 "deg", findPeaksSimple,
      stableArgsort, true, false⟩ rfl rfl hgr rfl rfl stableArgsort_isArgsort stableArgsort_isArgsort rfl rfl
    ⟨![(90, 30)], "deg"⟩ rfl (by simp) (by simp) PosDef.one
  obtain ⟨o, st', h1, sp, h2⟩ := hm 1 []
  exact ⟨a, S, ⟨0, hla⟩, _, o, st', ha, hS, h1, sp, h2⟩

/-- **C100** (symmetry). Turning all sources about the centre by the angle `2π/n` between two sensors only renumbers the sensors: sensor
`p + 1` (cyclically) sees what sensor `p` saw before. -/
theorem C100_cyclic {n : ℕ} (hn : 1 ≤ n) {r : ℝ} {name : Option String} {kw : Kwargs} {a : ArrayDesign} (ha : uca n r name kw = .ok a)
    (s s' : FF2D k) (hu : Unit2D s.unit) (hu' : Unit2D s'.unit)
    (haz : ∀ c, angleOf s'.unit (s'.loc c).1 = angleOf s.unit (s.loc c).1 + 2 * Real.pi / n)
    (hel : ∀ c, angleOf s'.unit (s'.loc c).2 = angleOf s.unit (s.loc c).2) (wl : ℝ) [NeZero wl] :
    ∃ S S', steering a (.ff2 s) wl false "all" = .ok S ∧ steering a (.ff2 s') wl false "all" = .ok S' ∧
      ∀ l (p q : Fin a.size) c, q.1 = (p.1 + 1) % n → S'.A l q c = S.A l p c := by
  obtain ⟨hsize, -, -, -, hst⟩ := uca_steering hn ha
  obtain ⟨S, hS, hA⟩ := hst s hu wl
  obtain ⟨S', hS', hA'⟩ := hst s' hu' wl
  refine ⟨S, S', hS, hS', fun l p q c hq => ?_⟩
  have hn0 : (n : ℝ) ≠ 0 := by exact_mod_cast (by omega : n ≠ 0)
  rw [hA, hA']
  congr 4
  obtain ⟨φ, hφ⟩ : ∃ φ, φ = angleOf s.unit (s.loc c).1 := ⟨_, rfl⟩
  obtain ⟨θ, hθ⟩ : ∃ θ, θ = angleOf s.unit (s.loc c).2 := ⟨_, rfl⟩
  have hqm : ∃ m : ℕ, 2 * Real.pi * (q.1 : ℝ) / n = 2 * Real.pi * p.1 / n + 2 * Real.pi / n - m * (2 * Real.pi) := by
    refine ⟨(p.1 + 1) / n, ?_⟩
    have h1 : (q.1 : ℝ) = p.1 + 1 - n * (((p.1 + 1) / n : ℕ) : ℝ) := by
      have := Nat.div_add_mod (p.1 + 1) n
      rw [← hq] at this
      have h2 : ((n * ((p.1 + 1) / n) + q.1 : ℕ) : ℝ) = ((p.1 + 1 : ℕ) : ℝ) := by rw [this]
      push_cast at h2
      linarith
    rw [h1]
    field_simp
  obtain ⟨m, hm⟩ := hqm
  simp only [ucaShift, dirCos, haz, hel, hm, ← hφ, ← hθ, Real.cos_sub_nat_mul_two_pi, Real.sin_sub_nat_mul_two_pi]
  have h1 : ∀ x y : ℝ, Real.cos x * Real.cos y + Real.sin x * Real.sin y = Real.cos (x - y) := fun x y => (Real.cos_sub x y).symm
  have e1 := h1 (2 * Real.pi * p.1 / n + 2 * Real.pi / n) (φ + 2 * Real.pi / n)
  have e2 := h1 (2 * Real.pi * p.1 / n) φ
  rw [add_sub_add_right_eq_sub, ← e2] at e1
  linear_combination r * Real.cos θ * e1

/-- The hypotheses hold for eight sensors and two sources turned by 45°. -/
example : ∃ (s s' : FF2D 2), Unit2D s.unit ∧ Unit2D s'.unit ∧
    (∀ c, angleOf s'.unit (s'.loc c).1 = angleOf s.unit (s.loc c).1 + 2 * Real.pi / (8 : ℕ)) ∧
    (∀ c, angleOf s'.unit (s'.loc c).2 = angleOf s.unit (s.loc c).2) ∧ (∃ a, uca 8 1 none {} = .ok a) := by
  refine ⟨⟨![(0, 10), (20, 40)], "deg"⟩, ⟨![(45, 10), (65, 40)], "deg"⟩, Or.inr rfl, Or.inr rfl, fun c => ?_, fun c => ?_, _,
    uca_locations 8 (by norm_num) 1 none {}⟩ <;> fin_cases c <;> simp [angleOf] <;> ring

/-- **C100** (the spacing must be less than half a wavelength). With four sensors and neighbours exactly half a wavelength apart, the opposite
directions `135°` and `-45°` have the same covariance for every source power and noise: no estimator can tell them apart. -/
theorem C100_spacing_needed (wl : ℝ) (hwl : 0 < wl) (name : Option String) (kw : Kwargs) :
    ∃ a, uca 4 (wl / (2 * Real.sqrt 2)) name kw = .ok a ∧ 4 * (wl / (2 * Real.sqrt 2)) * Real.sin (Real.pi / (4 : ℕ)) = wl ∧
      ∃ S S', steering a (.ff2 ⟨![(135, 0)], "deg"⟩ : Sources 1) wl false "all" = .ok S ∧
        steering a (.ff2 ⟨![(-45, 0)], "deg"⟩ : Sources 1) wl false "all" = .ok S' ∧
        ∀ l P σ, covModel (S.A l) P σ = covModel (S'.A l) P σ := by
  have : NeZero wl := ⟨hwl.ne'⟩
  obtain ⟨a, ha, -⟩ := C06_uca_geometry 4 (by norm_num) (wl / (2 * Real.sqrt 2)) name kw
  have hq : Real.sqrt 2 * Real.sqrt 2 = 2 := Real.mul_self_sqrt (by norm_num)
  have hq0 : 0 < Real.sqrt 2 := Real.sqrt_pos.2 (by norm_num)
  obtain ⟨hsize, -, -, -, hst⟩ := uca_steering (by norm_num) ha
  obtain ⟨S, hS, hA⟩ := hst (⟨![(135, 0)], "deg"⟩ : FF2D 1) (Or.inr rfl) wl
  obtain ⟨S', hS', hA'⟩ := hst (⟨![(-45, 0)], "deg"⟩ : FF2D 1) (Or.inr rfl) wl
  refine ⟨a, ha, ?_, S, S', hS, hS', fun l P σ => ?_⟩
  · have : Real.sin (Real.pi / (4 : ℕ)) = Real.sqrt 2 / 2 := by
      push_cast
      exact Real.sin_pi_div_four
    rw [this]
    field_simp
    norm_num
  · have hd1 : dirCos "deg" (135, 0) = (-(Real.sqrt 2 / 2), Real.sqrt 2 / 2) := by
      have e : angleOf "deg" 135 = Real.pi - Real.pi / 4 := by simp only [angleOf, if_true]; ring
      have e0 : angleOf "deg" 0 = 0 := by simp [angleOf]
      simp only [dirCos, e, e0, Real.cos_pi_sub, Real.sin_pi_sub, Real.cos_pi_div_four, Real.sin_pi_div_four, Real.cos_zero, one_mul]
    have hd2 : dirCos "deg" (-45, 0) = (Real.sqrt 2 / 2, -(Real.sqrt 2 / 2)) := by
      have e : angleOf "deg" (-45) = -(Real.pi / 4) := by simp only [angleOf, if_true]; ring
      have e0 : angleOf "deg" 0 = 0 := by simp [angleOf]
      simp only [dirCos, e, e0, Real.cos_neg, Real.sin_neg, Real.cos_pi_div_four, Real.sin_pi_div_four, Real.cos_zero, one_mul]
    have hshift : ∀ p < 4, ∃ ε : ℝ, (ε = 1 ∨ ε = -1) ∧
        ucaShift 4 (wl / (2 * Real.sqrt 2)) (-(Real.sqrt 2 / 2), Real.sqrt 2 / 2) p = ε * (wl / 4) ∧
        ucaShift 4 (wl / (2 * Real.sqrt 2)) (Real.sqrt 2 / 2, -(Real.sqrt 2 / 2)) p = -(ε * (wl / 4)) := by
      intro p hp
      have h3 : 2 * Real.pi * 3 / 4 = Real.pi + Real.pi / 2 := by ring
      have h2 : 2 * Real.pi * 2 / 4 = Real.pi := by ring
      have h1 : 2 * Real.pi / 4 = Real.pi / 2 := by ring
      interval_cases p
      · refine ⟨-1, Or.inr rfl, ?_, ?_⟩ <;> simp [ucaShift] <;> field_simp <;> norm_num
      · refine ⟨1, Or.inl rfl, ?_, ?_⟩ <;> simp [ucaShift, h1] <;> field_simp <;> norm_num
      · refine ⟨1, Or.inl rfl, ?_, ?_⟩ <;> simp [ucaShift, h2] <;> field_simp <;> norm_num
      · refine ⟨-1, Or.inr rfl, ?_, ?_⟩ <;> simp [ucaShift, h3, Real.cos_add, Real.sin_add] <;> field_simp <;> norm_num
    have hneg : S.A l = -S'.A l := by
      ext p c
      have hc : c = 0 := Subsingleton.elim _ _
      subst hc
      obtain ⟨ε, hε, g1, g2⟩ := hshift p.1 (by rw [← hsize]; exact p.2)
      rw [Matrix.neg_apply, hA, hA']
      simp only [Matrix.cons_val_zero, hd1, hd2, g1, g2]
      have e : 2 * Real.pi / wl * (ε * (wl / 4)) = ε * (Real.pi / 2) := by field_simp; try ring
      rw [mul_neg, e]
      have hexp : Complex.exp (I * ((Real.pi / 2 : ℝ) : ℂ)) = I := by
        rw [mul_comm]; push_cast; exact Complex.exp_pi_div_two_mul_I
      have hexp' : Complex.exp (I * ((-(Real.pi / 2) : ℝ) : ℂ)) = -I := by
        rw [mul_comm, ← Complex.exp_neg_pi_div_two_mul_I]; congr 1; push_cast; ring
      rcases hε with rfl | rfl
      · rw [one_mul, hexp, hexp', neg_neg]
      · rw [neg_one_mul, neg_neg, hexp, hexp']
    rw [hneg]
    simp [covModel]

end Doa.Props
