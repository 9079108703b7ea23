import Mathlib.Data.Fin.Tuple.Sort
import Mathlib.Analysis.Complex.Exponential
import Verif.Nd
import Verif.Model.Conversion

/-!
# Model of `doatools/model/sources.py`

Source placements of `k` sources are statically sized: a 1-D numpy array of length `k` is a
`Fin k → ℝ`, a `k × 2` array is a `Fin k → ℝ × ℝ`.  Rejected shapes are represented by the
constructors' argument types.
-/

namespace Doa

/-- The `locations` argument of `FarField1DSourcePlacement`: a 1-D array of length `k` or an array
with more dimensions. (0-D arrays pass the check in the code and are not modelled.)
[model/sources.py:187-203] -/
inductive Arr1 (k : ℕ) where
  | vec (x : Fin k → ℝ)
  | nd

/-- The `locations` argument of the 2-D placements: a `k × 2` array or any other shape.
[model/sources.py:345-366, 437-442] -/
inductive ArrK2 (k : ℕ) where
  | mat (x : Fin k → ℝ × ℝ)
  | other

/-- `FarField1DSourcePlacement` (model/sources.py:157-203). -/
structure FF1D (k : ℕ) where
  loc : Fin k → ℝ
  unit : String

/-- `FarField1DSourcePlacement.VALID_RANGES` (model/sources.py:181-185). -/
noncomputable def validRange1D (unit : String) : Option (ℝ × ℝ) :=
  if unit = "rad" then some (-Real.pi / 2, Real.pi / 2)
  else if unit = "deg" then some (-90, 90)
  else if unit = "sin" then some (-1, 1)
  else none

open Classical in
/-- `FarField1DSourcePlacement.__init__` (model/sources.py:187-203). An out-of-range location leads
to `str.format_map` being called with three arguments, which raises `TypeError` while the message of
the intended `ValueError` is being built. -/
noncomputable def FF1D.init {k : ℕ} (locations : Arr1 k) (unit : String) : Res (FF1D k) :=
  match locations with
  | .nd => .error .valueError
  | .vec x =>
    match validRange1D unit with
    | none => .error .valueError
    | some (lb, ub) =>
      if (∃ i, x i < lb) ∨ (∃ i, x i > ub) then .error .typeError
      else .ok { loc := x, unit := unit }

/-- `np.sort` of a 1-D array (used in `from_z`).
[model/sources.py:206-232] -/
noncomputable def sortVec {k : ℕ} (x : Fin k → ℝ) : Fin k → ℝ := x ∘ Tuple.sort x

/-- `FarField1DSourcePlacement.from_z` (model/sources.py:206-232). `np.arcsin` of a value outside [-1, 1] is NaN, which no comparison in the
constructor rejects: the returned placement contains NaN. Simplification: `d0` is not 0 (numpy would divide by 0). -/
noncomputable def FF1D.fromZ {k : ℕ} (z : Fin k → ℂ) (wavelength d0 : ℝ) (unit : String) :
    Res (FF1D k) :=
  let c := 2 * Real.pi * d0 / wavelength
  let sinVals : Fin k → ℝ := fun i => Complex.arg (z i) / c
  open Classical in
  if wavelength = 0 then .error .zeroDivisionError
  else if unit = "sin" then FF1D.init (.vec (sortVec sinVals)) "sin"
  else if ∃ i, 1 < |sinVals i| then .error .returnsNaN
  else
    let locations := sortVec fun i => Real.arcsin (sinVals i)
    if unit = "rad" then FF1D.init (.vec locations) "rad"
    else FF1D.init (.vec fun i => rad2deg (locations i)) "deg"

/-- `as_unit` (model/sources.py:242-246). -/
noncomputable def FF1D.asUnit {k : ℕ} (s : FF1D k) (newUnit : String) : Res (FF1D k) :=
  match convertAngles s.loc s.unit newUnit with
  | .error e => .error e
  | .ok x => FF1D.init (.vec x) newUnit

/-- `FarField2DSourcePlacement` (model/sources.py:325-380); locations are `(azimuth, elevation)`. -/
structure FF2D (k : ℕ) where
  loc : Fin k → ℝ × ℝ
  unit : String

/-- `FarField2DSourcePlacement.VALID_RANGES` (model/sources.py:340-343). -/
noncomputable def validRange2D (unit : String) : Option ((ℝ × ℝ) × (ℝ × ℝ)) :=
  if unit = "rad" then some ((-Real.pi, Real.pi), (-Real.pi / 2, Real.pi / 2))
  else if unit = "deg" then some ((-180, 180), (-90, 90))
  else none

open Classical in
/-- `FarField2DSourcePlacement.__init__` (model/sources.py:345-366). -/
noncomputable def FF2D.init {k : ℕ} (locations : ArrK2 k) (unit : String) : Res (FF2D k) :=
  match locations with
  | .other => .error .valueError
  | .mat x =>
    match validRange2D unit with
    | none => .error .valueError
    | some ((minAz, maxAz), (minEl, maxEl)) =>
      if (∃ i, (x i).1 < minAz) ∨ (∃ i, (x i).1 > maxAz) then .error .valueError
      else if (∃ i, (x i).2 < minEl) ∨ (∃ i, (x i).2 > maxEl) then .error .valueError
      else .ok { loc := x, unit := unit }

/-- `as_unit` (model/sources.py:376-380): `convert_angles` acts on the whole `k × 2` array. -/
noncomputable def FF2D.asUnit {k : ℕ} (s : FF2D k) (newUnit : String) : Res (FF2D k) :=
  match convertAngles (fun i => (s.loc i).1) s.unit newUnit,
      convertAngles (fun i => (s.loc i).2) s.unit newUnit with
  | .ok az, .ok el => FF2D.init (.mat fun i => (az i, el i)) newUnit
  | .error e, _ => .error e
  | _, .error e => .error e

/-- `NearField2DSourcePlacement` (model/sources.py:427-442); locations are `(x, y)` in metres. -/
structure NF2D (k : ℕ) where
  loc : Fin k → ℝ × ℝ

/-- `NearField2DSourcePlacement.__init__` (model/sources.py:437-442). -/
def NF2D.init {k : ℕ} (locations : ArrK2 k) : Res (NF2D k) :=
  match locations with
  | .other => .error .valueError
  | .mat x => .ok { loc := x }

/-- `as_unit` (model/sources.py:452-455). -/
def NF2D.asUnit {k : ℕ} (s : NF2D k) (newUnit : String) : Res (NF2D k) :=
  if newUnit ≠ "m" then .error .valueError else NF2D.init (.mat s.loc)

/-- A source placement of any of the three kinds.
[model/sources.py:157, 325, 427] -/
inductive Sources (k : ℕ) where
  | ff1 (s : FF1D k)
  | ff2 (s : FF2D k)
  | nf (s : NF2D k)

/-- `is_far_field` (model/sources.py:234-236, 368-370, 444-446). -/
def Sources.isFarField {k : ℕ} : Sources k → Bool
  | .ff1 _ => true
  | .ff2 _ => true
  | .nf _ => false

/-- A phase delay matrix with its list of derivative matrices (empty unless requested).
[result of model/sources.py:258-322, 394-425, 484-498] -/
structure PhaseDelays (m k : ℕ) where
  D : Fin m → Fin k → ℝ
  DD : List (Fin m → Fin k → ℝ)

/-- `_validate_sensor_location_ndim` (model/sources.py:9-11). -/
def validSensorDim (L : Mat ℝ) : Bool := !(L.ncols < 1 || L.ncols > 3)

/-- `_phase_delay_matrix_rad` (model/sources.py:267-294). -/
noncomputable def FF1D.phaseDelayRad {k : ℕ} (src : FF1D k) (L : Mat ℝ) (wavelength : ℝ)
    (derivatives : Bool) : PhaseDelays L.nrows k :=
  let loc : Fin k → ℝ := if src.unit = "deg" then fun c => deg2rad (src.loc c) else src.loc
  let s := 2 * Real.pi / wavelength
  let D : Fin L.nrows → Fin k → ℝ :=
    if L.ncols = 1 then fun i c => s * (L.at0 i 0 * Real.sin (loc c))
    else fun i c => s * (L.at0 i 0 * Real.sin (loc c) + L.at0 i 1 * Real.cos (loc c))
  let DD : Fin L.nrows → Fin k → ℝ :=
    if L.ncols = 1 then fun i c => s * (L.at0 i 0 * Real.cos (loc c))
    else fun i c => s * (L.at0 i 0 * Real.cos (loc c) - L.at0 i 1 * Real.sin (loc c))
  let DD' : Fin L.nrows → Fin k → ℝ :=
    if src.unit = "deg" then fun i c => DD i c * (Real.pi / 180) else DD
  { D := D, DD := if derivatives then [DD'] else [] }

/-- `_phase_delay_matrix_sin` (model/sources.py:296-322). -/
noncomputable def FF1D.phaseDelaySin {k : ℕ} (src : FF1D k) (L : Mat ℝ) (wavelength : ℝ)
    (derivatives : Bool) : PhaseDelays L.nrows k :=
  let s := 2 * Real.pi / wavelength
  let cosVals : Fin k → ℝ := fun c => Real.sqrt (1 - src.loc c * src.loc c)
  let D : Fin L.nrows → Fin k → ℝ :=
    if L.ncols = 1 then fun i c => s * (L.at0 i 0 * src.loc c)
    else fun i c => s * (L.at0 i 0 * src.loc c + L.at0 i 1 * cosVals c)
  let DD : Fin L.nrows → Fin k → ℝ :=
    if L.ncols = 1 then fun i _ => s * L.at0 i 0
    else fun i c => s * (L.at0 i 0 - L.at0 i 1 * (src.loc c / cosVals c))
  { D := D, DD := if derivatives then [DD] else [] }

/-- For unit `'sin'` and sensors with two or three coordinates, the derivative `x / np.sqrt(1 - x²)` is infinite (or NaN, times a zero
coordinate) for `|x| = 1` and NaN for `|x| > 1`. (model/sources.py:311, 321; the constructor excludes `|x| > 1`, for which the delays
themselves would be NaN, so this is left out.) -/
def FF1D.sinNaN {k : ℕ} (src : FF1D k) (L : Mat ℝ) (derivatives : Bool) : Prop :=
  derivatives = true ∧ L.ncols ≠ 1 ∧ ∃ c, 1 ≤ |src.loc c|

open Classical in
/-- `FarField1DSourcePlacement.phase_delay_matrix` (model/sources.py:258-265). Division by a zero wavelength raises
`ZeroDivisionError`. -/
noncomputable def FF1D.phaseDelay {k : ℕ} (src : FF1D k) (L : Mat ℝ) (wavelength : ℝ)
    (derivatives : Bool) : Res (PhaseDelays L.nrows k) :=
  if !validSensorDim L then .error .valueError
  else if wavelength = 0 then .error .zeroDivisionError
  else if src.unit = "sin" then
    if src.sinNaN L derivatives then .error .returnsNaN
    else .ok (src.phaseDelaySin L wavelength derivatives)
  else .ok (src.phaseDelayRad L wavelength derivatives)

/-- `FarField2DSourcePlacement.phase_delay_matrix` (model/sources.py:394-425). -/
noncomputable def FF2D.phaseDelay {k : ℕ} (src : FF2D k) (L : Mat ℝ) (wavelength : ℝ)
    (derivatives : Bool) : Res (PhaseDelays L.nrows k) :=
  if !validSensorDim L then .error .valueError
  else if derivatives then .error .valueError
  else if wavelength = 0 then .error .zeroDivisionError
  else
    let loc : Fin k → ℝ × ℝ :=
      if src.unit = "deg" then fun c => (deg2rad (src.loc c).1, deg2rad (src.loc c).2) else src.loc
    let s := 2 * Real.pi / wavelength
    let cosEl : Fin k → ℝ := fun c => Real.cos (loc c).2
    let cc : Fin k → ℝ := fun c => cosEl c * Real.cos (loc c).1
    let cs : Fin k → ℝ := fun c => cosEl c * Real.sin (loc c).1
    let D : Fin L.nrows → Fin k → ℝ :=
      if L.ncols = 1 then fun i c => s * (L.at0 i 0 * (cosEl c * Real.cos (loc c).1))
      else if L.ncols = 2 then fun i c => s * (L.at0 i 0 * cc c + L.at0 i 1 * cs c)
      else fun i c => s * (L.at0 i 0 * cc c + L.at0 i 1 * cs c + L.at0 i 2 * Real.sin (loc c).2)
    .ok { D := D, DD := [] }

/-- Sensor and source coordinates after `_align_location_dims` (model/sources.py:457-472) as lists of
equal length: 1-D sensors are padded to 2-D, 2-D sources to 3-D. -/
def NF2D.aligned {k : ℕ} (src : NF2D k) (L : Mat ℝ) (i : ℕ) (c : Fin k) : List ℝ × List ℝ :=
  if L.ncols < 2 then ([(src.loc c).1, (src.loc c).2], [L.at0 i 0, 0])
  else if L.ncols > 2 then
    ([(src.loc c).1, (src.loc c).2, 0], [L.at0 i 0, L.at0 i 1, L.at0 i 2])
  else ([(src.loc c).1, (src.loc c).2], [L.at0 i 0, L.at0 i 1])

/-- Euclidean distance of two coordinate lists (`cdist`, one entry).
[used in model/sources.py:484-498] -/
noncomputable def euclid (x y : List ℝ) : ℝ :=
  Real.sqrt ((List.zipWith (fun a b => (a - b) ^ 2) x y).sum)

/-- `NearField2DSourcePlacement.phase_delay_matrix` (model/sources.py:484-498). `M[0, :]` raises
`IndexError` for an array without elements. -/
noncomputable def NF2D.phaseDelay {k : ℕ} (src : NF2D k) (L : Mat ℝ) (wavelength : ℝ)
    (derivatives : Bool) : Res (PhaseDelays L.nrows k) :=
  if !validSensorDim L then .error .valueError
  else if derivatives then .error .valueError
  else if wavelength = 0 then .error .zeroDivisionError
  else if L.nrows = 0 then .error .indexError
  else
    let s := -2 * Real.pi / wavelength
    let M : ℕ → Fin k → ℝ := fun i c => euclid (src.aligned L i c).2 (src.aligned L i c).1
    .ok { D := fun i c => s * (M i c - M 0 c), DD := [] }

/-- `sources.phase_delay_matrix(...)` for any placement.
[model/sources.py:258, 394, 484] -/
noncomputable def Sources.phaseDelay {k : ℕ} (src : Sources k) (L : Mat ℝ) (wavelength : ℝ)
    (derivatives : Bool) : Res (PhaseDelays L.nrows k) :=
  match src with
  | .ff1 s => s.phaseDelay L wavelength derivatives
  | .ff2 s => s.phaseDelay L wavelength derivatives
  | .nf s => s.phaseDelay L wavelength derivatives

/-- `calc_spherical_coords(ref)` (model/sources.py:248-256, 382-392, 474-482), as a function of the
reference number and the source: range (`none` = infinity), azimuth, elevation. The aligned
coordinates of near-field sources always have two or three columns, so `cart2spherical` succeeds. -/
noncomputable def Sources.sphericalCoords {k : ℕ} (src : Sources k) (ref : Mat ℝ) :
    Res (ℕ → Fin k → Option ℝ × ℝ × ℝ) :=
  match src with
  | .ff1 s =>
    match convertAngles s.loc s.unit "rad" with
    | .ok x => .ok fun _ c => (none, Real.pi / 2 - x c, 0)
    | .error e => .error e
  | .ff2 s =>
    match convertAngles (fun i => (s.loc i).1) s.unit "rad",
        convertAngles (fun i => (s.loc i).2) s.unit "rad" with
    | .ok az, .ok el => .ok fun _ c => (none, az c, el c)
    | .error e, _ => .error e
    | _, .error e => .error e
  | .nf s => .ok fun i c =>
    match cart2spherical (List.zipWith (· - ·) (s.aligned ref i c).1 (s.aligned ref i c).2) with
    | .ok (r, az, el) => (some r, az, el)
    | .error _ => (none, 0, 0)

end Doa
