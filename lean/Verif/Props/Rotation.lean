import Verif.Spec.Rotation
import Verif.Props.Translation
import Verif.Props.Units

/-!
# C90: only the direction of the sources relative to the array matters
-/

namespace Doa.Props

open Doa Doa.Spec Matrix
open scoped ComplexOrder

variable {k : ℕ}

theorem sign_trig {ε : ℝ} (h : ε = 1 ∨ ε = -1) (x : ℝ) :
    ε * ε = 1 ∧ Real.sin (ε * x) = ε * Real.sin x ∧ Real.cos (ε * x) = Real.cos x := by
  rcases h with rfl | rfl <;> simp

theorem _root_.Doa.Spec.Turned.symm {ε φ : ℝ} {L L' : Mat ℝ} (h : Turned ε φ L L') : Turned ε (-(ε * φ)) L' L := by
  obtain ⟨h0, h1, ⟨c1, c2, c3, c4⟩, hx, hy, hz⟩ := h
  obtain ⟨t1, t2, t3⟩ := sign_trig h0 φ
  have hcs := Real.sin_sq_add_cos_sq φ
  refine ⟨h0, h1.symm, ⟨c3, c4, c1, c2⟩, fun i hi => ?_, fun i hi => ?_, fun i hi => ?_⟩ <;> rw [h1] at hi
  · rw [hx i hi, hy i hi, Real.cos_neg, Real.sin_neg, t2, t3]
    linear_combination (-(L.at0 i 0) * (Real.sin φ ^ 2 + Real.cos φ ^ 2)) * t1 + (-(L.at0 i 0)) * hcs
  · rw [hx i hi, hy i hi, Real.cos_neg, Real.sin_neg, t2, t3]
    linear_combination (-(ε * Real.sin φ * Real.cos φ * L.at0 i 0) - (Real.sin φ ^ 2) * L.at0 i 1) * t1 + (-(L.at0 i 1)) * hcs
  · rw [hz i hi]

theorem _root_.Doa.Spec.TurnedPert.symm {ε φ : ℝ} {p p' : Perturbation} (h : TurnedPert ε φ p p') : TurnedPert ε (-(ε * φ)) p' p := by
  cases h with
  | location kn h => exact .location kn h.symm
  | other h => exact .other h

theorem _root_.Doa.Spec.TurnedArray.symm {ε φ : ℝ} {a a' : ArrayDesign} (h : TurnedArray ε φ a a') : TurnedArray ε (-(ε * φ)) a' a :=
  ⟨h.element.symm, h.locations.symm, h.perts.flip.imp fun _ _ h => h.symm⟩

theorem _root_.Doa.Spec.Turned.perturb {ε φ : ℝ} {L L' err err' : Mat ℝ} (h : Turned ε φ L L') (he : Turned ε φ err err') :
    Turned ε φ (perturbLocations err L) (perturbLocations err' L') := by
  have hat : ∀ i, i < (perturbLocations err L).nrows → ∀ j, (perturbLocations err L).at0 i j = L.at0 i j + err.at0 i j ∧
      (perturbLocations err' L').at0 i j = L'.at0 i j + err'.at0 i j ∧ i < L.nrows ∧ i < err.nrows := by
    intro i hi j
    rw [perturbLocations_size, lt_min_iff] at hi
    exact ⟨perturbLocations_at0_of_lt _ _ _ _ hi.1 hi.2,
      perturbLocations_at0_of_lt _ _ _ _ (h.rows ▸ hi.1) (he.rows ▸ hi.2), hi⟩
  have c1 := h.cols
  have c2 := he.cols
  refine ⟨h.sign, ?_, ?_, fun i hi => ?_, fun i hi => ?_, fun i hi => ?_⟩
  · rw [perturbLocations_size, perturbLocations_size, h.rows, he.rows]
  · rw [perturbLocations_ncols, perturbLocations_ncols]
    omega
  · obtain ⟨e1, e2, i1, i2⟩ := hat i hi 0
    rw [e2, e1, (hat i hi 1).1, h.x i i1, he.x i i2]
    ring
  · obtain ⟨e1, e2, i1, i2⟩ := hat i hi 1
    rw [e2, e1, (hat i hi 0).1, h.y i i1, he.y i i2]
    ring
  · obtain ⟨e1, e2, i1, i2⟩ := hat i hi 2
    rw [e2, e1, h.z i i1, he.z i i2]

theorem _root_.Doa.Spec.Turned.foldl {ε φ : ℝ} {ps ps' : List Perturbation} (hp : List.Forall₂ (TurnedPert ε φ) ps ps') : ∀ {L L' : Mat ℝ}, Turned ε φ L L' →
    Turned ε φ (ps.foldl (fun l p => p.perturbSensorLocations l) L) (ps'.foldl (fun l p => p.perturbSensorLocations l) L') := by
  induction hp with
  | nil => intro L L' h; exact h
  | @cons p p' ps ps' h1 h2 ih =>
    intro L L' h
    simp only [List.foldl_cons]
    refine ih ?_
    cases h1 with
    | location kn he => exact h.perturb he
    | other hne =>
      cases p with
      | location err kn => exact absurd rfl (hne err kn)
      | base kn => exact h
      | gain g kn => exact h
      | phase g kn => exact h
      | coupling C kn => exact h

theorem _root_.Doa.Spec.TurnedPert.factor_eq {ε φ : ℝ} {p p' : Perturbation} (h : TurnedPert ε φ p p') (m : ℕ) :
    factor m p' = factor m p ∧ (p.ShapeOk m → p'.ShapeOk m) ∧ p'.isKnown = p.isKnown := by
  cases h with
  | location kn h => exact ⟨rfl, fun _ => trivial, rfl⟩
  | other h => exact ⟨rfl, id, rfl⟩

theorem turned_factor {ε φ : ℝ} {ps ps' : List Perturbation} (hp : List.Forall₂ (TurnedPert ε φ) ps ps') (m : ℕ) :
    totalFactor m ps' = totalFactor m ps ∧ ((∀ p ∈ ps, p.ShapeOk m) → ∀ p ∈ ps', p.ShapeOk m) := by
  constructor
  · unfold totalFactor
    generalize (1 : Matrix (Fin m) (Fin m) ℂ) = F
    induction hp generalizing F with
    | nil => rfl
    | cons h1 h2 ih =>
      simp only [List.foldl_cons]
      rw [(h1.factor_eq m).1]
      exact ih _
  · intro h p' hp'
    induction hp with
    | nil => simp at hp'
    | cons h1 h2 ih =>
      rcases List.mem_cons.1 hp' with rfl | hmem
      · exact (h1.factor_eq m).2.1 (h _ List.mem_cons_self)
      · exact ih (fun p hp => h p (List.mem_cons_of_mem _ hp)) hmem

theorem _root_.Doa.Spec.TurnedArray.filter {ε φ : ℝ} {a a' : ArrayDesign} (h : TurnedArray ε φ a a') {mode : String} {ps : List Perturbation}
    (hps : a.filterPerturbations mode = .ok ps) : ∃ ps', a'.filterPerturbations mode = .ok ps' ∧ List.Forall₂ (TurnedPert ε φ) ps ps' := by
  have hv : List.Forall₂ (TurnedPert ε φ) a.perts.values a'.perts.values := by
    have := h.perts
    simp only [PyDict.values]
    rw [List.forall₂_map_left_iff, List.forall₂_map_right_iff]
    exact this
  unfold ArrayDesign.filterPerturbations at hps ⊢
  split at hps
  · rename_i hm
    cases hps
    exact ⟨_, if_pos hm, hv⟩
  · rename_i hm
    split at hps
    · rename_i hm2
      cases hps
      refine ⟨_, by rw [if_neg hm, if_pos hm2], ?_⟩
      generalize a.perts.values = l at hv
      generalize a'.perts.values = l' at hv
      induction hv with
      | nil => exact .nil
      | @cons p p' l l' h1 h2 ih =>
        have := (h1.factor_eq 0).2.2
        by_cases hk : p.isKnown = true
        · rw [List.filter_cons_of_pos hk, List.filter_cons_of_pos (by rw [this]; exact hk)]
          exact .cons h1 ih
        · rw [List.filter_cons_of_neg hk, List.filter_cons_of_neg (by rw [this]; exact hk)]
          exact ih
    · rename_i hm2
      split at hps
      · rename_i hm3
        cases hps
        exact ⟨[], by rw [if_neg hm, if_neg hm2, if_pos hm3], .nil⟩
      · cases hps

/-- Phase delays that agree entry by entry, with derivatives of sign `ε`. -/
def SameDelays {m m' : ℕ} (ε : ℝ) (T : PhaseDelays m k) (T' : PhaseDelays m' k) : Prop :=
  (∀ (i : Fin m) (i' : Fin m') c, i.1 = i'.1 → T'.D i' c = T.D i c) ∧
  List.Forall₂ (fun X X' => ∀ (i : Fin m) (i' : Fin m') c, i.1 = i'.1 → X' i' c = ε * X i c) T.DD T'.DD

/-- If the phase delays agree, so do the steering matrices of an array and the turned array. -/
theorem steering_turned {ε φ : ℝ} {a a' : ArrayDesign} (h : TurnedArray ε φ a a') (hiso : a.element = .isotropicScalar) {src src' : Sources k}
    {wl : ℝ} {cd : Bool} {mode : String}
    (hsrc : ∀ L L' : Mat ℝ, Turned ε φ L L' → ∀ T, src.phaseDelay L wl cd = .ok T → ∃ T', src'.phaseDelay L' wl cd = .ok T' ∧ SameDelays ε T T')
    {out} (hst : steering a src wl cd mode = .ok out) :
    ∃ out', steering a' src' wl cd mode = .ok out' ∧
      (∀ l l', out'.A l' = castRows (m := a.size) (m' := a'.size) h.locations.rows (out.A l)) ∧
      List.Forall₂ (fun X X' => ∀ l l', X' l' = castRows (m := a.size) (m' := a'.size) h.locations.rows ((ε : ℂ) • X l)) out.DA out'.DA := by
  obtain ⟨ps, T, hrows, hps, hT, hsh, hA, hDA⟩ := steering_iso_inv hiso hst
  obtain ⟨ps', hps', hpp⟩ := h.filter hps
  have hL := h.locations.foldl hpp
  obtain ⟨T', hT', hD, hDD⟩ := hsrc _ _ hL T hT
  have hrows' : (ps'.foldl (fun l p => p.perturbSensorLocations l) a'.locations).nrows = a'.size := by
    rw [hL.rows, hrows]; exact h.locations.rows.symm
  have hsize : a'.size = a.size := h.locations.rows
  have hst' := steering_iso (h.element.trans hiso) hps' hrows' hT' (by rw [hsize]; exact (turned_factor hpp _).2 hsh)
  have hmul : ∀ (X : Matrix (Fin a.size) (Fin k) ℂ), totalFactor a'.size ps' * castRows hsize X = castRows hsize (totalFactor a.size ps * X) := by
    intro X
    rw [(turned_factor hpp _).1]
    have : ∀ m m' (e : m' = m) (X : Matrix (Fin m) (Fin k) ℂ), totalFactor m' ps * castRows e X = castRows e (totalFactor m ps * X) := by
      rintro m _ rfl X; rfl
    exact this _ _ hsize X
  refine ⟨_, hst', fun l l' => ?_, ?_⟩
  · rw [hA]
    dsimp only
    rw [← hmul]
    congr 1
    funext i c
    unfold castRows ideal
    rw [hD _ _ c]
    rfl
  · rw [hDA]
    dsimp only
    rw [List.forall₂_map_left_iff, List.forall₂_map_right_iff]
    refine hDD.imp fun X X' hX l l' => ?_
    beta_reduce
    have e : idealDeriv hrows' T'.D X' = castRows hsize ((ε : ℂ) • idealDeriv hrows T.D X) := by
      funext i c
      have h1 := hD (Fin.cast (by rw [hrows, ← hsize]) i) (Fin.cast hrows'.symm i) c rfl
      have h2 := hX (Fin.cast (by rw [hrows, ← hsize]) i) (Fin.cast hrows'.symm i) c rfl
      have h3 : idealDeriv hrows' T'.D X' i c = Complex.exp (Complex.I * (T'.D (Fin.cast hrows'.symm i) c : ℂ)) *
        (Complex.I * (X' (Fin.cast hrows'.symm i) c : ℂ)) := rfl
      rw [h3, h1, h2]
      show _ = (ε : ℂ) * (Complex.exp (Complex.I * (T.D (Fin.cast (by rw [hrows, ← hsize]) i) c : ℂ)) *
        (Complex.I * (X (Fin.cast (by rw [hrows, ← hsize]) i) c : ℂ)))
      push_cast
      ring
    rw [e, hmul, Matrix.mul_smul]

theorem turned_1d {ε φ : ℝ} {s s' : FF1D k} (hv : Valid1D s) (hv' : Valid1D s') (h : ∀ c, angleOf s'.unit (s'.loc c) = ε * angleOf s.unit (s.loc c) + φ)
    (wl : ℝ) : ∀ L L' : Mat ℝ, Turned ε φ L L' → ∀ T, (Sources.ff1 s).phaseDelay L wl false = .ok T →
      ∃ T', (Sources.ff1 s').phaseDelay L' wl false = .ok T' ∧ SameDelays ε T T' := by
  intro L L' hL T hT
  have dd : ∀ (s : FF1D k) (L : Mat ℝ) T, s.phaseDelay L wl false = .ok T → T.DD = [] := by
    intro s L T hT
    unfold FF1D.phaseDelay at hT
    split at hT
    · cases hT
    · split at hT
      · cases hT
      · split at hT
        · split at hT
          · cases hT
          · cases hT; rfl
        · cases hT; rfl
  have := Sources.phaseDelay_wl hT
  obtain ⟨c1, c2, c3, c4⟩ := hL.cols
  obtain ⟨T0, hT0, hD⟩ := FF1D.phaseDelay_spec s L ⟨c1, c2⟩ wl false
  obtain ⟨T', hT', hD'⟩ := FF1D.phaseDelay_spec s' L' ⟨c3, c4⟩ wl false
  have : T = T0 := by
    have : s.phaseDelay L wl false = .ok T := hT
    rw [hT0] at this
    exact (Except.ok.inj this).symm
  subst this
  refine ⟨T', hT', fun i i' c hi => ?_, ?_⟩
  · rw [hD', hD, FF1D.dir_angle s hv, FF1D.dir_angle s' hv', h c, ← hi, hL.x _ i.2, hL.y _ i.2, Real.sin_add, Real.cos_add]
    have hcs := Real.sin_sq_add_cos_sq φ
    obtain ⟨t1, t2, t3⟩ := sign_trig hL.sign (angleOf s.unit (s.loc c))
    rw [t2, t3]
    dsimp only
    linear_combination (2 * Real.pi / wl * (ε * ε * L.at0 i 0 * Real.sin (angleOf s.unit (s.loc c)) + L.at0 i 1 * Real.cos (angleOf s.unit (s.loc c)))) * hcs +
      (2 * Real.pi / wl * (L.at0 i 0 * Real.sin (angleOf s.unit (s.loc c)))) * t1
  · rw [dd s L T hT, dd s' L' T' hT']
    exact .nil

/-- The derivatives with respect to angles turn as well. -/
theorem turned_1d_deriv {ε φ : ℝ} {s s' : FF1D k} (hv : Valid1D s) (hv' : Valid1D s') (hu : s'.unit = s.unit) (hus : s.unit ≠ "sin")
    (h : ∀ c, angleOf s'.unit (s'.loc c) = ε * angleOf s.unit (s.loc c) + φ)
    (wl : ℝ) : ∀ L L' : Mat ℝ, Turned ε φ L L' → ∀ T, (Sources.ff1 s).phaseDelay L wl true = .ok T →
      ∃ T', (Sources.ff1 s').phaseDelay L' wl true = .ok T' ∧ SameDelays ε T T' := by
  intro L L' hL T hT
  have dd : ∀ (s : FF1D k) (L : Mat ℝ) T, s.unit ≠ "sin" → s.phaseDelay L wl true = .ok T →
      T.DD = [fun (i : Fin L.nrows) c => (if s.unit = "deg" then Real.pi / 180 else 1) * (2 * Real.pi / wl *
        (L.at0 i 0 * Real.cos (angleOf s.unit (s.loc c)) - L.at0 i 1 * Real.sin (angleOf s.unit (s.loc c))))] := by
    intro s L T hs hT
    unfold FF1D.phaseDelay at hT
    split at hT
    · cases hT
    · rename_i hval
      split at hT
      · cases hT
      cases hT
      unfold FF1D.phaseDelayRad
      simp only [if_true, List.cons.injEq, and_true]
      funext i c
      have h0 : L.ncols = 1 → L.at0 i 1 = 0 := fun h => Mat.at0_of_ge L (by omega)
      by_cases hd : s.unit = "deg"
      · simp only [hd, if_true, angleOf, deg2rad]
        split
        · rename_i hn
          rw [h0 hn]; ring_nf
        · ring_nf
      · simp only [hd, if_false, angleOf, hs, one_mul]
        split
        · rename_i hn
          rw [h0 hn]; ring
        · rfl
  obtain ⟨c1, c2, c3, c4⟩ := hL.cols
  have := Sources.phaseDelay_wl hT
  obtain ⟨T0, hT0, hD⟩ := FF1D.phaseDelay_spec s L ⟨c1, c2⟩ wl true fun e => absurd e hus
  obtain ⟨T', hT', hD'⟩ := FF1D.phaseDelay_spec s' L' ⟨c3, c4⟩ wl true fun e => absurd e (hu ▸ hus)
  have : T = T0 := by
    have : s.phaseDelay L wl true = .ok T := hT
    rw [hT0] at this
    exact (Except.ok.inj this).symm
  subst this
  have hcs := Real.sin_sq_add_cos_sq φ
  refine ⟨T', hT', fun i i' c hi => ?_, ?_⟩
  · rw [hD', hD, FF1D.dir_angle s hv, FF1D.dir_angle s' hv', h c, ← hi, hL.x _ i.2, hL.y _ i.2, Real.sin_add, Real.cos_add]
    obtain ⟨t1, t2, t3⟩ := sign_trig hL.sign (angleOf s.unit (s.loc c))
    rw [t2, t3]
    dsimp only
    linear_combination (2 * Real.pi / wl * (ε * ε * L.at0 i 0 * Real.sin (angleOf s.unit (s.loc c)) + L.at0 i 1 * Real.cos (angleOf s.unit (s.loc c)))) * hcs +
      (2 * Real.pi / wl * (L.at0 i 0 * Real.sin (angleOf s.unit (s.loc c)))) * t1
  · rw [dd s L T hus hT, dd s' L' T' (hu ▸ hus) hT']
    refine .cons (fun i i' c hi => ?_) .nil
    rw [h c, ← hi, hL.x _ i.2, hL.y _ i.2, Real.sin_add, Real.cos_add, hu]
    obtain ⟨t1, t2, t3⟩ := sign_trig hL.sign (angleOf s.unit (s.loc c))
    rw [t2, t3]
    linear_combination ((if s.unit = "deg" then Real.pi / 180 else 1) * (2 * Real.pi / wl) * ε *
      (L.at0 i 0 * Real.cos (angleOf s.unit (s.loc c)) - L.at0 i 1 * Real.sin (angleOf s.unit (s.loc c)))) * hcs

theorem turned_2d {ε φ : ℝ} {s s' : FF2D k}
    (haz : ∀ c, ∃ n : ℤ, Real.pi / 2 - (anglesOf s'.unit (s'.loc c)).1 =
        ε * (Real.pi / 2 - (anglesOf s.unit (s.loc c)).1) + φ + n * (2 * Real.pi))
    (hel : ∀ c, (anglesOf s'.unit (s'.loc c)).2 = (anglesOf s.unit (s.loc c)).2)
    (wl : ℝ) : ∀ L L' : Mat ℝ, Turned ε φ L L' → ∀ T, (Sources.ff2 s).phaseDelay L wl false = .ok T →
      ∃ T', (Sources.ff2 s').phaseDelay L' wl false = .ok T' ∧ SameDelays ε T T' := by
  intro L L' hL T hT
  have dd : ∀ (s : FF2D k) (L : Mat ℝ) T, s.phaseDelay L wl false = .ok T → T.DD = [] := by
    intro s L T hT
    unfold FF2D.phaseDelay at hT
    split at hT
    · cases hT
    · simp only [Bool.false_eq_true, if_false] at hT
      split at hT
      · cases hT
      · cases hT; rfl
  have := Sources.phaseDelay_wl hT
  obtain ⟨c1, c2, c3, c4⟩ := hL.cols
  obtain ⟨T0, hT0, hD⟩ := FF2D.phaseDelay_spec s L ⟨c1, c2⟩ wl
  obtain ⟨T', hT', hD'⟩ := FF2D.phaseDelay_spec s' L' ⟨c3, c4⟩ wl
  have : T = T0 := by
    have : s.phaseDelay L wl false = .ok T := hT
    rw [hT0] at this
    exact (Except.ok.inj this).symm
  subst this
  refine ⟨T', hT', fun i i' c hi => ?_, ?_⟩
  · have hcs := Real.sin_sq_add_cos_sq φ
    obtain ⟨n, hn⟩ := haz c
    obtain ⟨t1, t2, t3⟩ := sign_trig hL.sign (Real.pi / 2 - (anglesOf s.unit (s.loc c)).1)
    have hd : ∀ s : FF2D k, s.dir c = (Real.cos (anglesOf s.unit (s.loc c)).2 * Real.sin (Real.pi / 2 - (anglesOf s.unit (s.loc c)).1),
        Real.cos (anglesOf s.unit (s.loc c)).2 * Real.cos (Real.pi / 2 - (anglesOf s.unit (s.loc c)).1), Real.sin (anglesOf s.unit (s.loc c)).2) := by
      intro s
      rw [Real.sin_pi_div_two_sub, Real.cos_pi_div_two_sub]
      unfold FF2D.dir anglesOf
      split <;> simp [deg2rad, mul_div_assoc]
    rw [hD', hD, hd s', hd s, hel c, hn, Real.sin_add_int_mul_two_pi, Real.cos_add_int_mul_two_pi, Real.sin_add, Real.cos_add, t2, t3,
      ← hi, hL.x _ i.2, hL.y _ i.2, hL.z _ i.2]
    generalize Real.pi / 2 - (anglesOf s.unit (s.loc c)).1 = α
    dsimp only
    linear_combination (2 * Real.pi / wl * Real.cos (anglesOf s.unit (s.loc c)).2 * (ε * ε * L.at0 i 0 * Real.sin α + L.at0 i 1 * Real.cos α)) * hcs +
      (2 * Real.pi / wl * Real.cos (anglesOf s.unit (s.loc c)).2 * (L.at0 i 0 * Real.sin α)) * t1
  · rw [dd s L T hT, dd s' L' T' hT']
    exact .nil

theorem turned_nf {ε φ : ℝ} {s s' : NF2D k}
    (h : ∀ c, s'.loc c = (Real.cos φ * (ε * (s.loc c).1) + Real.sin φ * (s.loc c).2,
        -Real.sin φ * (ε * (s.loc c).1) + Real.cos φ * (s.loc c).2))
    (wl : ℝ) : ∀ L L' : Mat ℝ, Turned ε φ L L' → ∀ T, (Sources.nf s).phaseDelay L wl false = .ok T →
      ∃ T', (Sources.nf s').phaseDelay L' wl false = .ok T' ∧ SameDelays ε T T' := by
  intro L L' hL T hT
  have dd : ∀ (s : NF2D k) (L : Mat ℝ) T, s.phaseDelay L wl false = .ok T → T.DD = [] ∧ L.nrows ≠ 0 := by
    intro s L T hT
    unfold NF2D.phaseDelay at hT
    split at hT
    · cases hT
    · simp only [Bool.false_eq_true, if_false] at hT
      split at hT
      · cases hT
      · split at hT
        · cases hT
        · rename_i h0
          cases hT; exact ⟨rfl, h0⟩
  have := Sources.phaseDelay_wl hT
  obtain ⟨c1, c2, c3, c4⟩ := hL.cols
  have h0 := (dd s L T hT).2
  obtain ⟨T0, hT0, hD⟩ := NF2D.phaseDelay_spec s L ⟨c1, c2⟩ h0 wl
  obtain ⟨T', hT', hD'⟩ := NF2D.phaseDelay_spec s' L' ⟨c3, c4⟩ (hL.rows ▸ h0) wl
  have : T = T0 := by
    have : s.phaseDelay L wl false = .ok T := hT
    rw [hT0] at this
    exact (Except.ok.inj this).symm
  subst this
  have hd : ∀ i, i < L.nrows → ∀ c, s'.dist L' i c = s.dist L i c := by
    intro i hi c
    unfold NF2D.dist
    congr 1
    rw [h c, hL.x _ hi, hL.y _ hi, hL.z _ hi]
    have hcs := Real.sin_sq_add_cos_sq φ
    have t1 := (sign_trig hL.sign 0).1
    dsimp only
    linear_combination (ε * ε * (L.at0 i 0 - (s.loc c).1) ^ 2 + (L.at0 i 1 - (s.loc c).2) ^ 2) * hcs + ((L.at0 i 0 - (s.loc c).1) ^ 2) * t1
  refine ⟨T', hT', fun i i' c hi => ?_, ?_⟩
  · rw [hD', hD, ← hi, hd _ i.2, hd 0 (Nat.pos_of_ne_zero h0)]
  · rw [(dd s L T hT).1, (dd s' L' T' hT').1]
    exact .nil

theorem _root_.Doa.Spec.TurnedSources.delays {ε φ : ℝ} {src src' : Sources k} (h : TurnedSources ε φ src src') (wl : ℝ) :
    ∀ L L' : Mat ℝ, Turned ε φ L L' → ∀ T, src.phaseDelay L wl false = .ok T → ∃ T', src'.phaseDelay L' wl false = .ok T' ∧ SameDelays ε T T' := by
  cases h with
  | ff1 hv hv' h => exact turned_1d hv hv' h wl
  | ff2 haz hel => exact turned_2d haz hel wl
  | nf h => exact turned_nf h wl

/-- **C90** (steering matrices). If an array of isotropic sensors, with all its perturbations, and the sources are turned and mirrored together,
`steering_matrix` returns the same matrix. -/
theorem C90_steering {ε φ : ℝ} {a a' : ArrayDesign} (h : TurnedArray ε φ a a') (hiso : a.element = .isotropicScalar) {src src' : Sources k}
    (hs : TurnedSources ε φ src src') (wl : ℝ) (mode : String) {out} (hout : steering a src wl false mode = .ok out) :
    a'.size = a.size ∧ ∃ out', steering a' src' wl false mode = .ok out' ∧
      ∀ l l' (i : Fin a.size) (i' : Fin a'.size) c, i.1 = i'.1 → out'.A l' i' c = out.A l i c := by
  obtain ⟨out', h1, h2, -⟩ := steering_turned h hiso (hs.delays wl) hout
  refine ⟨h.locations.rows, out', h1, fun l l' i i' c hi => ?_⟩
  rw [h2 l l']
  obtain rfl : i = Fin.cast h.locations.rows i' := Fin.ext hi
  rfl

theorem steerPair_turned {ε φ : ℝ} {a a' : ArrayDesign} (h : TurnedArray ε φ a a') (hiso : a.element = .isotropicScalar) {s s' : FF1D k}
    (hs : TurnedSources ε φ (.ff1 s) (.ff1 s')) (hu : s'.unit = s.unit) (hus : s.unit ≠ "sin") {wl : ℝ} {mode : String}
    {A D : Matrix (Fin a.size) (Fin k) ℂ} (hst : steerPair a (.ff1 s) wl mode = .ok (A, D)) :
    steerPair a' (.ff1 s') wl mode = .ok (castRows (m' := a'.size) (m := a.size) h.locations.rows A,
      castRows (m' := a'.size) (m := a.size) h.locations.rows (D * diagonal fun _ => (ε : ℂ))) := by
  obtain ⟨hv, hv', ha⟩ : Valid1D s ∧ Valid1D s' ∧ ∀ c, angleOf s'.unit (s'.loc c) = ε * angleOf s.unit (s.loc c) + φ := by
    cases hs with
    | ff1 hv hv' h => exact ⟨hv, hv', h⟩
  obtain ⟨out, DA, h1, h2, h3, h4, h5⟩ := steers_iff.2 hst
  obtain ⟨out', g1, g2, g3⟩ := steering_turned h hiso (turned_1d_deriv hv hv' hu hus ha wl) h1
  rw [h3] at g3
  have ho' : a'.element.outputSize = 1 := by rw [h.element]; exact h2
  obtain ⟨DA', e, hDA'⟩ : ∃ DA', out'.DA = [DA'] ∧ ∀ l l', DA' l' = castRows (m := a.size) (m' := a'.size) h.locations.rows ((ε : ℂ) • DA l) := by
    generalize hL : out'.DA = L at g3
    cases g3 with
    | cons h1 h2 =>
      cases h2
      exact ⟨_, rfl, h1⟩
  refine steers_iff.1 ⟨out', DA', g1, ho', e, fun l => ?_, fun l => ?_⟩
  · rw [g2 ⟨0, by omega⟩, h4]
  · rw [hDA' ⟨0, by omega⟩, h5]
    congr 1
    ext i c
    rw [mul_diagonal, Matrix.smul_apply, smul_eq_mul, mul_comm]

theorem turned_back {ε φ : ℝ} {a a' : ArrayDesign} (h : TurnedArray ε φ a a') {s s' : FF1D k} (hs : TurnedSources ε φ (.ff1 s) (.ff1 s')) :
    TurnedSources ε (-(ε * φ)) (.ff1 s') (.ff1 s) := by
  cases hs with
  | ff1 hv hv' ha =>
    refine .ff1 hv' hv fun c => ?_
    rw [ha c]
    linear_combination (-angleOf s.unit (s.loc c)) * (sign_trig h.locations.sign 0).1

theorem sign_scale {ε : ℝ} (h : ε = 1 ∨ ε = -1) (C : Matrix (Fin k) (Fin k) ℝ) :
    (diagonal fun _ => ε⁻¹) * C * (diagonal fun _ => ε⁻¹) = C := by
  ext i j
  rw [mul_diagonal, diagonal_mul]
  rcases h with rfl | rfl <;> norm_num

theorem turned_forward {ε φ : ℝ} {a a' : ArrayDesign} (h : TurnedArray ε φ a a') (hiso : a.element = .isotropicScalar) {s s' : FF1D k}
    (hs : TurnedSources ε φ (.ff1 s) (.ff1 s')) (hu : s'.unit = s.unit) (hus : s.unit ≠ "sin") (wl : ℝ) (p : PowerArg) (σ : ℝ) (n : ℕ)
    (pert : String) (C : Matrix (Fin k) (Fin k) ℝ) :
    (crbSto a (.ff1 s) wl p σ n "full" = .ok (.full C) → crbSto a' (.ff1 s') wl p σ n "full" = .ok (.full C)) ∧
    (crbDet a (.ff1 s) wl p σ n "full" = .ok (.full C) → crbDet a' (.ff1 s') wl p σ n "full" = .ok (.full C)) ∧
    (crbStouc a (.ff1 s) wl p σ n "full" = .ok (.full C) → crbStouc a' (.ff1 s') wl p σ n "full" = .ok (.full C)) ∧
    (ecovMusic a (.ff1 s) wl p σ n pert "full" = .ok (.full C) → ecovMusic a' (.ff1 s') wl p σ n pert "full" = .ok (.full C)) := by
  have h0 : ε ≠ 0 := by rcases h.locations.sign with rfl | rfl <;> norm_num
  have hsc := sign_scale (k := k) h.locations.sign
  refine ⟨fun hC => ?_, fun hC => ?_, fun hC => ?_, fun hC => ?_⟩
  · obtain ⟨_, P, A, D, g1, g2, g3⟩ := crbSto_full_iff.1 hC
    refine crbSto_full_iff.2 ⟨rfl, P, _, _, g1, steerPair_turned h hiso hs hu hus g2, (core_castRows _ _ _ _ 0 _ _).1.trans ?_⟩
    rw [crbStoCore_scale (fun _ => h0) g3, hsc]
  · obtain ⟨_, P, A, D, g1, g2, g3⟩ := crbDet_full_iff.1 hC
    refine crbDet_full_iff.2 ⟨rfl, P, _, _, g1, steerPair_turned h hiso hs hu hus g2, (core_castRows _ _ _ _ 0 _ _).2.1.trans ?_⟩
    rw [crbDetCore_scale (fun _ => h0) g3, hsc]
  · obtain ⟨_, P, A, D, g1, g2, g3⟩ := crbStouc_full_iff.1 hC
    refine crbStouc_full_iff.2 ⟨rfl, P, _, _, g1, steerPair_turned h hiso hs hu hus g2, (core_castRows _ _ _ 0 _ _ _).2.2.2.trans ?_⟩
    rw [crbStoucCore_scale (fun _ => h0) g3, hsc]
  · obtain ⟨_, hk, P, A, D, g1, g2, g3⟩ := ecovMusic_full_iff.1 hC
    refine ecovMusic_full_iff.2 ⟨rfl, ?_, P, _, _, g1, steerPair_turned h hiso hs hu hus g2, (core_castRows _ _ _ _ 0 _ _).2.2.1.trans ?_⟩
    · have : a'.size = a.size := h.locations.rows
      omega
    · rw [ecovMusicCore_scale (fun _ => h0) g3, hsc]

/-- **C90** (accuracy). The Cramér-Rao bounds and the predicted MUSIC error of angles in degrees or radians do not change if array
and sources are turned and mirrored together. -/
theorem C90_accuracy {ε φ : ℝ} {a a' : ArrayDesign} (h : TurnedArray ε φ a a') (hiso : a.element = .isotropicScalar) {s s' : FF1D k}
    (hs : TurnedSources ε φ (.ff1 s) (.ff1 s')) (hu : s'.unit = s.unit) (hus : s.unit ≠ "sin") (wl : ℝ) (p : PowerArg) (σ : ℝ) (n : ℕ)
    (pert : String) (C : Matrix (Fin k) (Fin k) ℝ) :
    (crbSto a' (.ff1 s') wl p σ n "full" = .ok (.full C) ↔ crbSto a (.ff1 s) wl p σ n "full" = .ok (.full C)) ∧
    (crbDet a' (.ff1 s') wl p σ n "full" = .ok (.full C) ↔ crbDet a (.ff1 s) wl p σ n "full" = .ok (.full C)) ∧
    (crbStouc a' (.ff1 s') wl p σ n "full" = .ok (.full C) ↔ crbStouc a (.ff1 s) wl p σ n "full" = .ok (.full C)) ∧
    (ecovMusic a' (.ff1 s') wl p σ n pert "full" = .ok (.full C) ↔ ecovMusic a (.ff1 s) wl p σ n pert "full" = .ok (.full C)) := by
  obtain ⟨f1, f2, f3, f4⟩ := turned_forward h hiso hs hu hus wl p σ n pert C
  obtain ⟨b1, b2, b3, b4⟩ := turned_forward h.symm (h.element.trans hiso) (turned_back h hs) hu.symm (hu ▸ hus) wl p σ n pert C
  exact ⟨⟨b1, f1⟩, ⟨b2, f2⟩, ⟨b3, f3⟩, ⟨b4, f4⟩⟩

/-- Every point set can be turned. -/
theorem exists_turned {ε : ℝ} (hε : ε = 1 ∨ ε = -1) (φ : ℝ) {L : Mat ℝ} (hL : 1 ≤ L.ncols ∧ L.ncols ≤ 3) : ∃ L', Turned ε φ L L' := by
  refine ⟨⟨3, (List.range L.nrows).map fun i => ![Real.cos φ * (ε * L.at0 i 0) + Real.sin φ * L.at0 i 1,
    -Real.sin φ * (ε * L.at0 i 0) + Real.cos φ * L.at0 i 1, L.at0 i 2]⟩, hε, by simp [Mat.nrows], ⟨hL.1, hL.2, by norm_num, le_rfl⟩, ?_, ?_, ?_⟩ <;>
  · intro i hi
    unfold Mat.at0 Mat.get?
    simp [hi]

/-- Every array without location errors can be turned, to any side. -/
theorem exists_turnedArray {ε : ℝ} (hε : ε = 1 ∨ ε = -1) (φ : ℝ) {a : ArrayDesign} (hL : 1 ≤ a.ndim ∧ a.ndim ≤ 3)
    (hp : ∀ p ∈ a.perts, ∀ err known, p.2 ≠ .location err known) : ∃ a', TurnedArray ε φ a a' := by
  obtain ⟨L', h⟩ := exists_turned hε φ (L := a.locations) hL
  refine ⟨{ a with locations := L' }, rfl, h, ?_⟩
  show List.Forall₂ _ a.perts a.perts
  generalize a.perts = l at hp
  induction l with
  | nil => exact .nil
  | cons p l ih => exact .cons (.other (hp p List.mem_cons_self)) (ih fun q hq => hp q (List.mem_cons_of_mem _ hq))

/-- Two sources at broadside and 30 degrees. -/
theorem degScene : UlaScene (1 / 2) 1 3 (⟨![0, 30], "deg"⟩ : FF1D 2) where
  d_pos := by norm_num
  wl_pos := by norm_num
  few := by norm_num
  valid := ⟨by simp [Unit1D], fun i => by fin_cases i <;> simp [InRange1D] <;> norm_num⟩
  distinct := by intro i j hij; fin_cases i <;> fin_cases j <;> simp_all
  unambiguous := by
    have h0 : Real.sin (angleOf "deg" 30) = 1 / 2 := by
      rw [angleOf, if_pos rfl, ← Real.sin_pi_div_six]
      congr 1; ring
    have h1 : Real.sin (angleOf "deg" 0) = 0 := by simp [angleOf]
    intro c e
    fin_cases c <;> fin_cases e <;> simp [h0, h1] <;> norm_num [abs_of_pos]
  not_endfire := by
    intro _ c
    have h0 : Real.cos (angleOf "deg" 30) ≠ 0 := by
      rw [angleOf, if_pos rfl, show (30 : ℝ) * Real.pi / 180 = Real.pi / 6 by ring, Real.cos_pi_div_six]
      positivity
    have h1 : Real.cos (angleOf "deg" 0) ≠ 0 := by simp [angleOf]
    fin_cases c
    · exact h1
    · exact h0

/-- Non-vacuity: a ULA with sources at 0° and 30° mirrored and turned by 60°, so that the sources come from 60° and 30°. -/
example : ∃ (a : GridArray) (a' : ArrayDesign) (C : Matrix (Fin 2) (Fin 2) ℝ), ula 3 (.scalar (1 / 2)) none {} = .ok a ∧
    TurnedArray (-1) (Real.pi / 3) a.toArrayDesign a' ∧
    crbSto a.toArrayDesign (.ff1 (⟨![0, 30], "deg"⟩ : FF1D 2)) 1 (.scalar 1) 1 10 "full" = .ok (.full C) ∧
    crbSto a' (.ff1 (⟨![60, 30], "deg"⟩ : FF1D 2)) 1 (.scalar 1) 1 10 "full" = .ok (.full C) ∧ C.PosDef := by
  obtain ⟨a, ha⟩ := ula_ok 3 (1 / 2) none
  obtain ⟨hsz, hnd, hat⟩ := C01_ula_geometry 3 (1 / 2) none {} a ha
  obtain ⟨-, -, hel, g4, -⟩ := gridInit_spec ha
  have hpt : a.toArrayDesign.perts = [] := (Except.ok.inj g4).symm
  obtain ⟨a', hm⟩ := exists_turnedArray (Or.inr rfl) (Real.pi / 3) (a := a.toArrayDesign) (by rw [hnd]; norm_num) (by rw [hpt]; simp)
  have hP : (Matrix.diagonal fun _ : Fin 2 => ((1 : ℝ) : ℂ)).PosDef := by
    rw [Complex.ofReal_one]; exact (diagonal_one (n := Fin 2) (α := ℂ)) ▸ PosDef.one
  obtain ⟨⟨C, h1, h2⟩, _⟩ := C58_ula degScene ha (p := .scalar 1) rfl hP one_pos (N := 10) (by norm_num)
  refine ⟨a, a', C, ha, hm, h1, (C90_accuracy (s' := ⟨![60, 30], "deg"⟩) hm hel (.ff1 degScene.valid ?_ fun c => ?_) rfl (by decide) 1 (.scalar 1) 1 10 "all" C).1.2 h1, h2⟩
  · exact ⟨by simp [Unit1D], fun i => by fin_cases i <;> simp [InRange1D] <;> norm_num⟩
  · fin_cases c <;> simp [angleOf] <;> ring

/-- Near-field sources: a source at distance 2 in front of the array, the scene turned by a quarter. -/
example (a : ArrayDesign) (hiso : a.element = .isotropicScalar) (hd : 1 ≤ a.ndim ∧ a.ndim ≤ 3) (hp : a.perts = []) (h0 : a.size ≠ 0) :
    ∃ a' out out', TurnedArray 1 (Real.pi / 2) a a' ∧ steering a (.nf (⟨![(0, 2)]⟩ : NF2D 1)) 1 false "all" = .ok out ∧
      steering a' (.nf (⟨![(2, 0)]⟩ : NF2D 1)) 1 false "all" = .ok out' ∧
      ∀ l l' (i : Fin a.size) (i' : Fin a'.size) c, i.1 = i'.1 → out'.A l' i' c = out.A l i c := by
  obtain ⟨a', hm⟩ := exists_turnedArray (Or.inl rfl) (Real.pi / 2) hd (by rw [hp]; simp)
  obtain ⟨T, hT, -⟩ := NF2D.phaseDelay_spec (⟨![(0, 2)]⟩ : NF2D 1) a.locations hd h0 1
  have hps : a.filterPerturbations "all" = .ok [] := by
    unfold ArrayDesign.filterPerturbations PyDict.values
    rw [hp]; rfl
  have hout := steering_iso (src := .nf (⟨![(0, 2)]⟩ : NF2D 1)) (wl := 1) (cd := false) hiso hps rfl hT (by simp)
  obtain ⟨-, out', h1, h2⟩ := C90_steering hm hiso (.nf (s' := ⟨![(2, 0)]⟩) fun c => by fin_cases c; simp) 1 "all" hout
  exact ⟨a', _, out', hm, hout, h1, h2⟩

end Doa.Props
