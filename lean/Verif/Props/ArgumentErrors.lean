import Verif.Model.Perturbations
import Verif.Model.SourceNumber

/-!
# C42: which arguments the constructors of perturbations and the detectors reject, and how
-/

namespace Doa.Props

open Doa Doa.Perturbation

/-- What a Python caller may pass where a vector is expected, with the exception it should cause:
`none` for an acceptable 1-D array. -/
def vectorComplaint {α : Type} : VecArg α → Option PyErr
  | .ndarray (.vec _) => none
  | .ndarray _ => some .valueError
  | .pylist => some .attributeError

/-- **C42** (perturbations). Gain and phase errors accept exactly 1-D arrays (a plain list raises
`AttributeError`, anything else `ValueError`); location errors accept exactly matrices with one to three
columns; mutual coupling rejects scalars and vectors with `IndexError`. -/
theorem C42_perturbation_arguments (known : Bool) :
    (∀ x : VecArg ℝ, (∀ e, Perturbation.mkGain x known = .error e ↔ vectorComplaint x = some e) ∧
      ∀ e, Perturbation.mkPhase x known = .error e ↔ vectorComplaint x = some e) ∧
    (∀ x : Nd ℝ, (Perturbation.mkLocation x known = .error .valueError ↔ ¬ ∃ M, x = .mat M ∧ 1 ≤ M.ncols ∧ M.ncols ≤ 3)) ∧
    ∀ C : Nd ℂ, (∃ p, Perturbation.mkCoupling C known = .ok p) ↔ ∃ M, C = .mat M := by
  refine ⟨fun x => ⟨fun e => ?_, fun e => ?_⟩, fun x => ?_, fun C => ?_⟩
  · rcases x with (_ | _ | _ | _) | _ <;> simp [Perturbation.mkGain, vectorComplaint]
  · rcases x with (_ | _ | _ | _) | _ <;> simp [Perturbation.mkPhase, vectorComplaint]
  · cases x with
    | mat M =>
      unfold Perturbation.mkLocation
      simp only
      split
      · rename_i h
        refine ⟨fun _ => ?_, fun _ => rfl⟩
        rintro ⟨M', hM, h1, h2⟩
        cases hM
        omega
      · rename_i h
        refine ⟨fun h' => (by cases h'), fun h' => absurd ⟨M, rfl, by omega, by omega⟩ h'⟩
    | _ => simp [Perturbation.mkLocation]
  · cases C <;> simp [Perturbation.mkCoupling]

/-- **C42** (detectors). A scalar is rejected by every detector: AIC and MDL raise `ValueError`, SORTE
`IndexError`. -/
theorem C42_detector_scalar (f : EigvalshFn) (x : ℝ) (N : ℕ) :
    aic f (.scalar x) N = .error .valueError ∧ mdl f (.scalar x) N = .error .valueError ∧
    sorte f (.scalar x) = .error .indexError := ⟨rfl, rfl, rfl⟩

example : Perturbation.mkPhase .pylist true = .error .attributeError :=
  (((C42_perturbation_arguments true).1 .pylist).2 .attributeError).2 rfl

end Doa.Props
