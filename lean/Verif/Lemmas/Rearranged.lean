import Verif.Spec.Rearranged
import Verif.Props.Translation
import Verif.Props.Scaling

/-!
# Steering matrices of rearranged arrays
-/

namespace Doa.Props

open Doa Doa.Spec Complex Matrix

variable {k m m' n : ℕ}

/-- Both calls raise the same exception, or both succeed with results in the relation `P`. -/
def BothOr {X Y : Type} (P : X → Y → Prop) (r : Res X) (r' : Res Y) : Prop :=
  (∃ e, r = .error e ∧ r' = .error e) ∨ ∃ x y, r = .ok x ∧ r' = .ok y ∧ P x y

theorem renumbered_known {σ : Fin m' ≃ Fin m} {p p' : Perturbation} (h : Renumbered σ p p') : p'.isKnown = p.isKnown := by
  cases p <;> cases p' <;> first | exact h | exact h.1 | exact h.elim

theorem filter_renumbered {a a' : ArrayDesign} {σ : Fin m' ≃ Fin m} (h : List.Forall₂ (Renumbered σ) a.perts.values a'.perts.values) (mode : String) :
    BothOr (List.Forall₂ (Renumbered σ)) (a.filterPerturbations mode) (a'.filterPerturbations mode) := by
  unfold ArrayDesign.filterPerturbations
  split
  · exact Or.inr ⟨_, _, rfl, rfl, h⟩
  · split
    · refine Or.inr ⟨_, _, rfl, rfl, ?_⟩
      generalize a.perts.values = l at h
      generalize a'.perts.values = l' at h
      induction h with
      | nil => exact .nil
      | @cons p p' l l' hp _ ih =>
        rw [List.filter_cons, List.filter_cons, renumbered_known hp]
        split
        · exact .cons hp ih
        · exact ih
    · split
      · exact Or.inr ⟨_, _, rfl, rfl, .nil⟩
      · exact Or.inl ⟨_, rfl, rfl⟩

theorem foldl_rearranged {σ : Fin m' ≃ Fin m} (τ : ℕ → ℝ) {ps ps' : List Perturbation} (h : List.Forall₂ (Renumbered σ) ps ps') :
    ∀ (L L' : Mat ℝ), L.nrows = m → L'.nrows = m' → L'.ncols = L.ncols →
    (∀ (i : Fin m') j, L'.at0 i j = L.at0 (σ i) j + τ j) →
    (ps.foldl (fun l p => p.perturbSensorLocations l) L).nrows = m ∧ (ps'.foldl (fun l p => p.perturbSensorLocations l) L').nrows = m' ∧
    (ps'.foldl (fun l p => p.perturbSensorLocations l) L').ncols = (ps.foldl (fun l p => p.perturbSensorLocations l) L).ncols ∧
    ∀ (i : Fin m') j,
      (ps'.foldl (fun l p => p.perturbSensorLocations l) L').at0 i j = (ps.foldl (fun l p => p.perturbSensorLocations l) L).at0 (σ i) j + τ j := by
  induction h with
  | nil => intro L L' h1 h2 h3 h4; exact ⟨h1, h2, h3, h4⟩
  | @cons p p' ps ps' hp _ ih =>
    intro L L' h1 h2 h3 h4
    simp only [List.foldl_cons]
    cases p <;> cases p' <;> first | exact hp.elim | skip
    case location.location err kn err' kn' =>
      obtain ⟨-, e1, e2, e3, e4⟩ := hp
      refine ih (perturbLocations err L) (perturbLocations err' L') ?_ ?_ ?_ ?_
      · rw [perturbLocations_size, h1, e1, min_self]
      · rw [perturbLocations_size, h2, e2, min_self]
      · rw [perturbLocations_ncols, perturbLocations_ncols, h3, e3]
      · intro i j
        rw [perturbLocations_at0_of_lt _ _ _ _ (h2 ▸ i.2) (e2 ▸ i.2), perturbLocations_at0_of_lt _ _ _ _ (h1 ▸ (σ i).2) (e1 ▸ (σ i).2), h4, e4]
        ring
    all_goals exact ih L L' h1 h2 h3 h4

/-- The phase delays of far-field sources are linear in the coordinates of a sensor. -/
theorem farField_linear (src : Sources k) (hff : src.isFarField = true) (wl : ℝ) [NeZero wl] : ∃ α β γ : Fin k → ℝ, ∀ L : Mat ℝ,
    src.phaseDelay L wl false = if 1 ≤ L.ncols ∧ L.ncols ≤ 3 then
      .ok ⟨fun i c => L.at0 i 0 * α c + L.at0 i 1 * β c + L.at0 i 2 * γ c, []⟩ else .error .valueError := by
  cases src with
  | nf s => cases hff
  | ff1 s =>
    refine ⟨fun c => 2 * Real.pi / wl * (s.dir c).1, fun c => 2 * Real.pi / wl * (s.dir c).2.1, 0, fun L => ?_⟩
    refine (FF1D.phaseDelay_eq s L wl).trans ?_
    congr 3
    funext i c
    simp only [Pi.zero_apply]
    ring
  | ff2 s =>
    refine ⟨fun c => 2 * Real.pi / wl * (s.dir c).1, fun c => 2 * Real.pi / wl * (s.dir c).2.1, fun c => 2 * Real.pi / wl * (s.dir c).2.2, fun L => ?_⟩
    refine (FF2D.phaseDelay_eq s L wl).trans ?_
    congr 3
    funext i c
    ring

theorem farField_zero (src : Sources k) (hff : src.isFarField = true) (L : Mat ℝ) :
    src.phaseDelay L 0 false = .error (if 1 ≤ L.ncols ∧ L.ncols ≤ 3 then .zeroDivisionError else .valueError) := by
  cases src with
  | nf s => cases hff
  | ff1 s =>
    refine (FF1D.phaseDelay_eq' s L 0).trans ?_
    split <;> simp
  | ff2 s =>
    refine (FF2D.phaseDelay_eq' s L 0).trans ?_
    split <;> simp

/-- The columns of one steering matrix are those of the other, renumbered and multiplied by phase factors. -/
def ColumnsRephased (σ : Fin m' ≃ Fin m) (φ : Fin k → ℂ) (S : Steering n m k) (S' : Steering n m' k) : Prop :=
  ∀ l i c, S'.A l i c = φ c * S.A l (σ i) c

theorem perturbSteering_rearranged {σ : Fin m' ≃ Fin m} {φ : Fin k → ℂ} {p p' : Perturbation} (hp : Renumbered σ p p')
    {S : Steering n m k} {S' : Steering n m' k} (hS : ColumnsRephased σ φ S S') :
    BothOr (ColumnsRephased σ φ) (p.perturbSteering S) (p'.perturbSteering S') := by
  cases p <;> cases p' <;> first | exact hp.elim | skip
  case base.base => exact Or.inr ⟨_, _, rfl, rfl, hS⟩
  case location.location => exact Or.inr ⟨_, _, rfl, rfl, hS⟩
  case gain.gain g kn g' kn' =>
    obtain ⟨-, e1, e2, e3⟩ := hp
    unfold Perturbation.perturbSteering Perturbation.rowMap
    simp only [e1, e2, if_true]
    refine Or.inr ⟨_, _, rfl, rfl, fun l i c => ?_⟩
    simp only [hS l i c, e3 i]
    ring
  case phase.phase g kn g' kn' =>
    obtain ⟨-, e1, e2, e3⟩ := hp
    unfold Perturbation.perturbSteering Perturbation.rowMap
    simp only [e1, e2, if_true]
    refine Or.inr ⟨_, _, rfl, rfl, fun l i c => ?_⟩
    simp only [hS l i c, e3 i]
    ring
  case coupling.coupling C kn C' kn' =>
    obtain ⟨-, e1, e2, e3, e4, e5⟩ := hp
    unfold Perturbation.perturbSteering Perturbation.rowMap
    simp only [e1, e2, e3, e4, and_self, if_true]
    refine Or.inr ⟨_, _, rfl, rfl, fun l i c => ?_⟩
    show ∑ j : Fin m', C'.at0 i j * S'.A l j c = φ c * ∑ j : Fin m, C.at0 (σ i) j * S.A l j c
    rw [← Equiv.sum_comp σ, Finset.mul_sum]
    refine Finset.sum_congr rfl fun j _ => ?_
    rw [hS l j c, e5 i j]
    ring

theorem perturbLoop_rearranged {σ : Fin m' ≃ Fin m} {φ : Fin k → ℂ} {ps ps' : List Perturbation} (h : List.Forall₂ (Renumbered σ) ps ps') :
    ∀ {S : Steering n m k} {S' : Steering n m' k}, ColumnsRephased σ φ S S' → BothOr (ColumnsRephased σ φ) (perturbLoop ps S) (perturbLoop ps' S') := by
  induction h with
  | nil => intro S S' hS; exact Or.inr ⟨S, S', rfl, rfl, hS⟩
  | @cons p p' ps ps' hp _ ih =>
    intro S S' hS
    unfold perturbLoop
    rcases perturbSteering_rearranged hp hS with ⟨e, h1, h2⟩ | ⟨x, y, h1, h2, h3⟩
    · rw [h1, h2]; exact Or.inl ⟨e, rfl, rfl⟩
    · rw [h1, h2]; exact ih h3

theorem steerWith_rearranged (el : Element) {L L' : Mat ℝ} {σ : Fin L'.nrows ≃ Fin L.nrows} {t : ℕ → ℝ} (hn : L'.ncols = L.ncols)
    (hL : ∀ (i : Fin L'.nrows) (j : ℕ), j < L.ncols → L'.at0 i j = L.at0 (σ i) j + t j)
    {ps ps' : List Perturbation} (h : List.Forall₂ (Renumbered σ) ps ps') (src : Sources k) (hff : src.isFarField = true) (wl : ℝ) :
    BothOr (fun S S' => ∃ φ : Fin k → ℂ, (∀ c, ‖φ c‖ = 1) ∧ ColumnsRephased σ φ S S')
      (steerWith el L ps src wl false) (steerWith el L' ps' src wl false) := by
  obtain ⟨f1, f2, f3, f4⟩ := foldl_rearranged (fun j => if j < L.ncols then t j else 0) h L L' rfl rfl hn (by
    intro i j
    by_cases hj : j < L.ncols
    · rw [hL i j hj, if_pos hj]
    · rw [Mat.at0_of_ge _ (by omega), Mat.at0_of_ge _ (by omega), if_neg hj, zero_add])
  rw [steerWith_finish, steerWith_finish]
  simp only [Bool.and_false, Bool.false_eq_true, if_false]
  set F := ps.foldl (fun l p => p.perturbSensorLocations l) L with hF
  set F' := ps'.foldl (fun l p => p.perturbSensorLocations l) L' with hF'
  by_cases hwl : wl = 0
  · subst hwl
    rw [farField_zero src hff F, farField_zero src hff F', f3]
    exact Or.inl ⟨_, rfl, rfl⟩
  have : NeZero wl := ⟨hwl⟩
  obtain ⟨α, β, γ, hlin⟩ := farField_linear src hff wl
  rw [hlin F, hlin F', f3]
  by_cases hd : 1 ≤ F.ncols ∧ F.ncols ≤ 3
  swap
  · simp only [hd, if_false]; exact Or.inl ⟨_, rfl, rfl⟩
  simp only [hd, and_self, if_true]
  have hsr : BothOr (fun (X : Fin el.outputSize → Matrix (Fin L.nrows) (Fin k) ℂ) (Y : Fin el.outputSize → Matrix (Fin L'.nrows) (Fin k) ℂ) =>
      ∀ l i c, Y l i c = X l (σ i) c) (spatialResponse el src F L.nrows) (spatialResponse el src F' L'.nrows) := by
    cases el with
    | isotropicScalar => exact Or.inr ⟨_, _, rfl, rfl, fun _ _ _ => rfl⟩
    | custom n resp =>
      unfold spatialResponse
      simp only [hff, if_true]
      cases src.sphericalCoords ⟨1, [![0]]⟩ with
      | error e => exact Or.inl ⟨e, rfl, rfl⟩
      | ok T => exact Or.inr ⟨_, _, rfl, rfl, fun _ _ _ => rfl⟩
  unfold finish
  simp only [f1, f2, dite_true]
  rcases hsr with ⟨e, h1, h2⟩ | ⟨X, Y, h1, h2, h3⟩
  · rw [h1, h2]; exact Or.inl ⟨e, rfl, rfl⟩
  · rw [h1, h2]
    set τ : ℕ → ℝ := fun j => if j < L.ncols then t j else 0 with hτ
    have hphi : ∀ c, ‖Complex.exp (I * ((τ 0 * α c + τ 1 * β c + τ 2 * γ c : ℝ) : ℂ))‖ = 1 := fun c => by
      rw [mul_comm]; exact Complex.norm_exp_ofReal_mul_I _
    have key := perturbLoop_rearranged (φ := fun c => Complex.exp (I * ((τ 0 * α c + τ 1 * β c + τ 2 * γ c : ℝ) : ℂ))) h
      (S := (⟨fun l i c => X l i c * Complex.exp (I * ((F.at0 i 0 * α c + F.at0 i 1 * β c + F.at0 i 2 * γ c : ℝ) : ℂ)), []⟩ : Steering el.outputSize L.nrows k))
      (S' := ⟨fun l i c => Y l i c * Complex.exp (I * ((F'.at0 i 0 * α c + F'.at0 i 1 * β c + F'.at0 i 2 * γ c : ℝ) : ℂ)), []⟩)
      (by
        intro l i c
        show Y l i c * Complex.exp _ = Complex.exp _ * (X l (σ i) c * Complex.exp _)
        rw [h3, f4, f4, f4, mul_left_comm, ← Complex.exp_add]
        congr 2
        push_cast
        ring)
    rcases key with ⟨e, k1, k2⟩ | ⟨x, y, k1, k2, k3⟩
    · exact Or.inl ⟨e, k1, k2⟩
    · exact Or.inr ⟨x, y, k1, k2, _, hphi, k3⟩

/-- The steering matrix of a rearranged array: the rows are renumbered and the columns multiplied by phase factors. -/
theorem steering_rearranged {a a' : ArrayDesign} {σ : Fin a'.size ≃ Fin a.size} {t : ℕ → ℝ} (h : Rearranged a a' σ t) (src : Sources k)
    (hff : src.isFarField = true) (wl : ℝ) (mode : String) :
    BothOr (fun (S : Steering a.element.outputSize a.size k) (S' : Steering a'.element.outputSize a'.size k) =>
        ∃ φ : Fin k → ℂ, (∀ c, ‖φ c‖ = 1) ∧ ∀ l l' i c, l'.1 = l.1 → S'.A l' i c = φ c * S.A l (σ i) c)
      (steering a src wl false mode) (steering a' src wl false mode) := by
  obtain ⟨h1, h2, h3, h4⟩ := h
  have hf := filter_renumbered h4 mode
  unfold steering
  rcases hf with ⟨e, e1, e2⟩ | ⟨ps, ps', e1, e2, e3⟩
  · rw [e1, e2]; exact Or.inl ⟨e, rfl, rfl⟩
  · rw [e1, e2]
    clear e1 e2 h4
    obtain ⟨L, nm, el, pt⟩ := a
    obtain ⟨L', nm', el', pt'⟩ := a'
    simp only at h1
    subst h1
    rcases steerWith_rearranged el' (L := L) (L' := L') (σ := σ) h2 h3 e3 src hff wl with ⟨e, k1, k2⟩ | ⟨x, y, k1, k2, φ, k3, k4⟩
    · exact Or.inl ⟨e, k1, k2⟩
    · refine Or.inr ⟨x, y, k1, k2, φ, k3, fun l l' i c hl => ?_⟩
      have : l' = l := Fin.ext hl
      subst this
      exact k4 l' i c

end Doa.Props
