import Verif.Model.Arrays

/-!
# Model of the perturbation queries of `ArrayDesign` (`doatools/model/arrays.py:166-182`)
-/

namespace Doa

/-- `params` of a perturbation (model/perturbations.py:22-25), the ndarray given to the constructor.
The parameters of a direct instance of `ArrayPerturbation` are not modelled (`opaque`). -/
inductive PertParams where
  | opaque
  | locations (err : Mat ℝ)
  | gains (g : List ℝ)
  | phases (phi : List ℝ)
  | coupling (C : Mat ℂ)

/-- model/perturbations.py:22-25 `params`. -/
def Perturbation.params : Perturbation → PertParams
  | .base _ => .opaque
  | .location err _ => .locations err
  | .gain g _ => .gains g
  | .phase phi _ => .phases phi
  | .coupling C _ => .coupling C

/-- `is_perturbation_known` (model/arrays.py:170-172); a missing type is a `KeyError`. -/
def ArrayDesign.isPerturbationKnown (a : ArrayDesign) (k : PertKind) : Res Bool :=
  match a.perts.get? k with
  | some p => .ok p.isKnown
  | none => .error .keyError

/-- `get_perturbation_params` (model/arrays.py:174-176); a missing type is a `KeyError`. -/
def ArrayDesign.getPerturbationParams (a : ArrayDesign) (k : PertKind) : Res PertParams :=
  match a.perts.get? k with
  | some p => .ok p.params
  | none => .error .keyError

end Doa
