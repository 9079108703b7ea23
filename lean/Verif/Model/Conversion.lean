import Mathlib.Analysis.SpecialFunctions.Trigonometric.Inverse
import Mathlib.Analysis.SpecialFunctions.Complex.Arg
import Mathlib.Analysis.Real.Sqrt
import Verif.Py

/-! # Model of `doatools/utils/conversion.py` -/

namespace Doa

/-- `np.arctan2(y, x)`: the argument of `x + iy`, in `(-pi, pi]` (signed zeros are not modelled).
[used in utils/conversion.py:62-90] -/
noncomputable def arctan2 (y x : ℝ) : ℝ := Complex.arg ⟨x, y⟩

/-- `np.rad2deg`.
[used in utils/conversion.py:29-42] -/
noncomputable def rad2deg (x : ℝ) : ℝ := x * (180 / Real.pi)

/-- `np.deg2rad`.
[used in utils/conversion.py:29-42] -/
noncomputable def deg2rad (x : ℝ) : ℝ := x * (Real.pi / 180)

/-- `ae2broad` (utils/conversion.py:3-27), one row `(az, el)`. -/
noncomputable def ae2broad (az el : ℝ) : ℝ := Real.arcsin (Real.cos az * Real.cos el)

/-- `ANGULAR_COV_MAT[from][to]` (utils/conversion.py:29-42) applied to one value; a missing key is a
`KeyError`.  `np.arcsin` outside `[-1, 1]` gives NaN; `Real.arcsin` is only meaningful inside. -/
noncomputable def angularCov (fromUnit toUnit : String) : Option (ℝ → ℝ) :=
  if fromUnit = "rad" then
    if toUnit = "deg" then some rad2deg
    else if toUnit = "sin" then some Real.sin
    else none
  else if fromUnit = "deg" then
    if toUnit = "rad" then some deg2rad
    else if toUnit = "sin" then some (fun x => Real.sin (deg2rad x))
    else none
  else if fromUnit = "sin" then
    if toUnit = "rad" then some Real.arcsin
    else if toUnit = "deg" then some (fun x => rad2deg (Real.arcsin x))
    else none
  else none

/-- `convert_angles` (utils/conversion.py:44-60), elementwise. -/
noncomputable def convertAngles {k : ℕ} (x : Fin k → ℝ) (fromUnit toUnit : String) :
    Res (Fin k → ℝ) :=
  if fromUnit = toUnit then .ok x
  else match angularCov fromUnit toUnit with
    | some f => .ok fun i => f (x i)
    | none => .error .keyError

/-- `cart2spherical` (utils/conversion.py:62-90), one row of coordinates. No column: `IndexError` in
`coords[:, 0]`; more than three columns: zeros. -/
noncomputable def cart2spherical : List ℝ → Res (ℝ × ℝ × ℝ)
  | [] => .error .indexError
  | [x] => .ok (|x|, arctan2 0 x, 0)
  | [x, y] => .ok (Real.sqrt (x ^ 2 + y ^ 2), arctan2 y x, 0)
  | [x, y, z] => .ok (Real.sqrt (x ^ 2 + y ^ 2 + z ^ 2), arctan2 y x,
      arctan2 z (Real.sqrt (x ^ 2 + y ^ 2)))
  | _ => .ok (0, 0, 0)

end Doa
