import Verif.Props.Bookkeeping

/-!
# C09: which exception rejects a perturbation
-/

namespace Doa.Props

open Doa Doa.Spec

/-- The exception raised for a perturbation that cannot be added: `RuntimeError`, or `TypeError` if it is a direct instance of the abstract
base class, whose `is_applicable_to` returns no message. -/
def rejection : Perturbation → PyErr
  | .base _ => .typeError
  | _ => .runtimeError

theorem isApplicable_not_fits {size : ℕ} {el : Element} {p : Perturbation} (h : ¬ Fits size el p) (ro : Bool) (d : PDict) :
    addPerturbation size el ro d p = .error (rejection p) := by
  cases p <;> simp only [Fits, Element.isScalar, addPerturbation, Perturbation.isApplicable, rejection] at h ⊢
  all_goals
    split
    · rename_i h'; simp_all
    · rename_i h'; simp_all
    · rename_i h'
      exfalso
      simp_all

theorem addPerturbation_error {size : ℕ} {el : Element} {ro : Bool} {d : PDict} {p : Perturbation} {e : PyErr} (hf : Fits size el p)
    (h : addPerturbation size el ro d p = .error e) : e = .runtimeError := by
  have happ : p.isApplicable size el = .ok true := by
    cases p <;> simp_all [Fits, Perturbation.isApplicable, Element.isScalar]
  unfold addPerturbation at h
  rw [happ] at h
  simp only at h
  split at h <;> cases h
  rfl

theorem addPerturbations_append {size : ℕ} {el : Element} {ro : Bool} (qs rs : List Perturbation) (d : PDict) :
    addPerturbations size el ro d (qs ++ rs) = match addPerturbations size el ro d qs with
      | .error e => .error e
      | .ok d' => addPerturbations size el ro d' rs := by
  induction qs generalizing d with
  | nil => rfl
  | cons q qs ih =>
    simp only [List.cons_append, addPerturbations]
    cases addPerturbation size el ro d q with
    | error e => rfl
    | ok d' => exact ih d'

/-- **C09** (exceptions). Perturbations are added in order. Behind perturbations `qs` that can be added, a perturbation that does not fit the
array, or in the constructor one of a type already present, ends the call: with `RuntimeError`, or with `TypeError` when it is a direct
instance of the base class. What follows it is not looked at. -/
theorem C09_exceptions (M : Mat ℝ) (hM : M.ncols ≤ 3) (nm : Option String) (el : Element) (qs rs : List Perturbation) (p : Perturbation) :
    ((∀ q ∈ qs, Fits M.nrows el q) → (qs.map Perturbation.kind).Nodup → (¬ Fits M.nrows el p ∨ p.kind ∈ qs.map Perturbation.kind) →
      ArrayDesign.init (.mat M) nm ⟨qs ++ p :: rs, el⟩ = .error (rejection p)) ∧
    ∀ (a : ArrayDesign) (nm' : Option String), (∀ q ∈ qs, Fits a.size a.element q) → ¬ Fits a.size a.element p →
      a.perturbedCopy (qs ++ p :: rs) nm' = .error (rejection p) := by
  constructor
  · intro hq hnd hp
    have h3 : ¬ M.ncols > 3 := by omega
    obtain ⟨d, hok⟩ := (addPerturbations_true_ok_iff (size := M.nrows) (el := el) (ps := qs) (d := ([] : PDict))).2
      ⟨hq, hnd, by simp [PyDict.keys]⟩
    have hbad : addPerturbation M.nrows el true d p = .error (rejection p) := by
      by_cases hf : Fits M.nrows el p
      · have hdup : p.kind ∈ qs.map Perturbation.kind := hp.resolve_left (not_not.2 hf)
        cases h : addPerturbation M.nrows el true d p with
        | error e =>
          rw [addPerturbation_error hf h]
          cases p <;> first | rfl | exact hf.elim
        | ok d' =>
          have := (addPerturbations_true_ok_iff (size := M.nrows) (el := el) (ps := qs ++ [p]) (d := ([] : PDict))).1
            ⟨d', by rw [addPerturbations_append, hok]; simp only [addPerturbations, h]⟩
          have hn := this.2.1
          rw [List.map_append, List.nodup_append] at hn
          exact absurd rfl (hn.2.2 _ hdup p.kind (by simp))
      · exact isApplicable_not_fits hf true d
    have : addPerturbations M.nrows el true [] (qs ++ p :: rs) = .error (rejection p) := by
      rw [addPerturbations_append, hok]
      simp only [addPerturbations, hbad]
    simp only [ArrayDesign.init, h3, if_false, this]
  · intro a nm' hq hp
    obtain ⟨d, hok⟩ := (addPerturbations_false_ok_iff (d := a.perts)).2 hq
    rw [perturbedCopy_eq, addPerturbations_append, hok]
    simp only [addPerturbations, isApplicable_not_fits hp, Except.map]

/-- Non-vacuity: on two sensors, gain errors and then a direct instance of the base class, then location errors for three sensors;
or gain errors twice. -/
example : ArrayDesign.init (.mat ⟨1, [![0], ![1]]⟩) none ⟨[.gain [0.1, 0.2] true, .base true, .location ⟨1, [![0], ![1], ![2]]⟩ true], .isotropicScalar⟩ =
      .error .typeError ∧
    ArrayDesign.init (.mat ⟨1, [![0], ![1]]⟩) none ⟨[.gain [0.1, 0.2] true, .gain [0.3, 0.2] true], .isotropicScalar⟩ = .error .runtimeError := by
  have hf : ∀ q ∈ [Perturbation.gain [0.1, 0.2] true], Fits (Mat.nrows (⟨1, [![0], ![1]]⟩ : Mat ℝ)) .isotropicScalar q := by
    simp [Fits, Element.outputSize, Mat.nrows]
  exact ⟨(C09_exceptions ⟨1, [![0], ![1]]⟩ (by norm_num) none .isotropicScalar [.gain [0.1, 0.2] true] _ (.base true)).1 hf (by simp)
      (Or.inl (by simp [Fits])),
    (C09_exceptions ⟨1, [![0], ![1]]⟩ (by norm_num) none .isotropicScalar [.gain [0.1, 0.2] true] [] (.gain [0.3, 0.2] true)).1 hf (by simp)
      (Or.inr (by simp [Perturbation.kind]))⟩

end Doa.Props
