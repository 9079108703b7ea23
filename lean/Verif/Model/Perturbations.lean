import Mathlib.Data.Complex.Basic
import Verif.Nd
import Verif.Dict

/-!
# Model of `doatools/model/perturbations.py` and of the parts of
`doatools/model/array_elements.py` that do not involve sources.
-/

namespace Doa

/-- The Python class of a perturbation, which is the key of the dictionary of an array
(model/arrays.py:197 `p_class = p.__class__`). `base` is a direct instance of
`ArrayPerturbation`. User defined subclasses are not modelled. -/
inductive PertKind where
  | base | location | gain | phase | coupling
  deriving DecidableEq, Repr

/-- Perturbation objects (model/perturbations.py:4-334) after a successful constructor call.
`Mat ℝ` for `LocationErrors._params`, 1-D vectors for `GainErrors`/`PhaseErrors`, a 2-D matrix for
`MutualCoupling` and the flag `_is_known`. The objects are never mutated by the library. -/
inductive Perturbation where
  | base (known : Bool)
  | location (err : Mat ℝ) (known : Bool)
  | gain (g : List ℝ) (known : Bool)
  | phase (phi : List ℝ) (known : Bool)
  | coupling (C : Mat ℂ) (known : Bool)

namespace Perturbation

/-- `p.__class__`
[model/arrays.py:197] -/
def kind : Perturbation → PertKind
  | base _ => .base
  | location _ _ => .location
  | gain _ _ => .gain
  | phase _ _ => .phase
  | coupling _ _ => .coupling

/-- model/perturbations.py:27-30 `is_known`. -/
def isKnown : Perturbation → Bool
  | base k => k
  | location _ k => k
  | gain _ k => k
  | phase _ k => k
  | coupling _ k => k

/-- `LocationErrors.__init__` (model/perturbations.py:135-142). -/
def mkLocation (x : Nd ℝ) (known : Bool) : Res Perturbation :=
  match x with
  | .mat M => if M.ncols < 1 ∨ M.ncols > 3 then .error .valueError else .ok (.location M known)
  | _ => .error .valueError

/-- How a vector argument was passed: as an ndarray or as a plain Python list.
[argument of model/perturbations.py:135-142, 177-182, 233-238] -/
inductive VecArg (α : Type) where
  | ndarray (x : Nd α)
  | pylist

/-- `GainErrors.__init__` (model/perturbations.py:177-182).  The conversion of a list assigns to a
misspelt variable (`gain_erros`), so for a list `gain_errors.ndim` raises `AttributeError`. -/
def mkGain (x : VecArg ℝ) (known : Bool) : Res Perturbation :=
  match x with
  | .pylist => .error .attributeError
  | .ndarray (.vec g) => .ok (.gain g known)
  | .ndarray _ => .error .valueError

/-- `PhaseErrors.__init__` (model/perturbations.py:233-238), same misspelling as in `GainErrors`. -/
def mkPhase (x : VecArg ℝ) (known : Bool) : Res Perturbation :=
  match x with
  | .pylist => .error .attributeError
  | .ndarray (.vec g) => .ok (.phase g known)
  | .ndarray _ => .error .valueError

/-- `MutualCoupling.__init__` (model/perturbations.py:290-295): the test is
`C.ndim != 2 and C.shape[0] != C.shape[1]`, so every 2-D matrix is accepted, and a 0-D/1-D argument
fails with `IndexError` in `C.shape[1]`.  Simplification: tensors are reported as `ValueError`
(the code accepts tensors with two equal leading dimensions). -/
def mkCoupling (C : Nd ℂ) (known : Bool) : Res Perturbation :=
  match C with
  | .mat M => .ok (.coupling M known)
  | .tensor => .error .valueError
  | _ => .error .indexError

end Perturbation

/-- Array elements (model/array_elements.py).  `isotropicScalar` is `ISOTROPIC_SCALAR_SENSOR`
(87-109); `custom` is `CustomNonisotropicSensor` (111-145) with its `output_size`; the custom
spatial response `f_sr` is assumed to act elementwise on `(r, az, el)`. An infinite range (far-field
sources) is `none`. Polarisation is never passed by the library and not modelled. -/
inductive Element where
  | isotropicScalar
  | custom (outputSize : ℕ) (resp : Fin outputSize → Option ℝ → ℝ → ℝ → ℂ)

namespace Element
/-- `output_size` (array_elements.py:90-92, 132-134). -/
def outputSize : Element → ℕ
  | isotropicScalar => 1
  | custom n _ => n

/-- `is_scalar` (array_elements.py:17-20). -/
def isScalar (e : Element) : Bool := e.outputSize == 1

/-- `is_isotropic` (array_elements.py:94-96, 136-138). -/
def isIsotropic : Element → Bool
  | isotropicScalar => true
  | custom _ _ => false
end Element

/-- `p.is_applicable_to(array)` for an array with `size` elements of type `el`.
LocationErrors 144-149, GainErrors 184-191, PhaseErrors 240-247, MutualCoupling 297-304
(model/perturbations.py).  The base class (32-44) returns `True` instead of a pair, which makes the
unpacking at model/arrays.py:194 raise `TypeError`. -/
def Perturbation.isApplicable (p : Perturbation) (size : ℕ) (el : Element) : Res Bool :=
  match p with
  | .base _ => .error .typeError
  | .location err _ => .ok (size == err.nrows)
  | .gain g _ => .ok (if !el.isScalar then false else size == g.length)
  | .phase g _ => .ok (if !el.isScalar then false else size == g.length)
  | .coupling C _ => .ok (if !el.isScalar then false else size == C.nrows)

/-- `LocationErrors.perturb_sensor_locations` (model/perturbations.py:151-165).
First branch: a copy of `locations` whose leading columns are incremented by the errors; second
branch: a copy of the errors whose leading columns are incremented by `locations`.
Simplification: both matrices are assumed to have the same number of rows (guaranteed by
`is_applicable_to`); the zip stops at the shorter one. -/
def perturbLocations (err locs : Mat ℝ) : Mat ℝ :=
  if err.ncols ≤ locs.ncols then
    ⟨locs.ncols, List.zipWith (fun l e j =>
      if h : j.1 < err.ncols then l j + e ⟨j.1, h⟩ else l j) locs.rows err.rows⟩
  else
    ⟨err.ncols, List.zipWith (fun l e j =>
      if h : j.1 < locs.ncols then e j + l ⟨j.1, h⟩ else e j) locs.rows err.rows⟩

/-- `p.perturb_sensor_locations(locations)`; identity except for location errors
(model/perturbations.py:46-60, 151-165). -/
def Perturbation.perturbSensorLocations (p : Perturbation) (locs : Mat ℝ) : Mat ℝ :=
  match p with
  | .location err _ => perturbLocations err locs
  | _ => locs

end Doa
