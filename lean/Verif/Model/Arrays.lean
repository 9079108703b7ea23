import Mathlib.Analysis.Real.Sqrt
import Mathlib.Analysis.SpecialFunctions.Trigonometric.Basic
import Verif.Model.Perturbations

/-!
# Model of `doatools/model/arrays.py` (everything except `steering_matrix`)
-/

namespace Doa

/-- The perturbation dictionary of an array, keyed by class (model/arrays.py:88, 204). -/
abbrev PDict := PyDict PertKind Perturbation

/-- An `ArrayDesign` object as a value (model/arrays.py:74-89). Names are optional strings. -/
structure ArrayDesign where
  locations : Mat ℝ
  name : Option String
  element : Element
  perts : PDict

namespace ArrayDesign

/-- `size` (model/arrays.py:96-99). -/
def size (a : ArrayDesign) : ℕ := a.locations.nrows

/-- `ndim` (model/arrays.py:146-159). -/
def ndim (a : ArrayDesign) : ℕ := a.locations.ncols

/-- `output_size` (model/arrays.py:101-108): returns `size` for every element type. -/
def outputSize (a : ArrayDesign) : ℕ := a.size

/-- `perturbations` (model/arrays.py:178-182). -/
def perturbations (a : ArrayDesign) : List Perturbation := a.perts.values

/-- `has_perturbation` (model/arrays.py:166-168). -/
def hasPerturbation (a : ArrayDesign) (k : PertKind) : Bool := a.perts.contains k

/-- `is_perturbed` (model/arrays.py:141-144). -/
def isPerturbed (a : ArrayDesign) : Bool := decide (0 < a.perts.length)

/-- `actual_element_locations` (model/arrays.py:120-134). -/
def actualElementLocations (a : ArrayDesign) : Mat ℝ :=
  a.perts.values.foldl (fun l p => p.perturbSensorLocations l) a.locations

end ArrayDesign

/-- One iteration of the loop of `_add_perturbation_from_list` (model/arrays.py:193-204). -/
def addPerturbation (size : ℕ) (el : Element) (raiseOnOverride : Bool) (d : PDict)
    (p : Perturbation) : Res PDict :=
  match p.isApplicable size el with
  | .error e => .error e
  | .ok false => .error .runtimeError
  | .ok true =>
    if d.contains p.kind && raiseOnOverride then .error .runtimeError
    else .ok (d.set p.kind p)

/-- `_add_perturbation_from_list` (model/arrays.py:184-204) on the dictionary `d` of an array with
the given size and element. -/
def addPerturbations (size : ℕ) (el : Element) (raiseOnOverride : Bool) :
    PDict → List Perturbation → Res PDict
  | d, [] => .ok d
  | d, p :: ps =>
    match addPerturbation size el raiseOnOverride d p with
    | .error e => .error e
    | .ok d' => addPerturbations size el raiseOnOverride d' ps

/-- Keyword arguments accepted by `ArrayDesign.__init__` (model/arrays.py:74-75): a list of
perturbations (the dictionary form is parsed into such a list, 206-215) and the element. -/
structure Kwargs where
  perturbations : List Perturbation := []
  element : Element := .isotropicScalar

/-- `ArrayDesign.__init__` (model/arrays.py:74-89). A 0-D array fails in `locations.shape[1]`
with `IndexError`. -/
def ArrayDesign.init (locations : Nd ℝ) (name : Option String) (kw : Kwargs) : Res ArrayDesign :=
  let finish (M : Mat ℝ) : Res ArrayDesign :=
    match addPerturbations M.nrows kw.element true [] kw.perturbations with
    | .error e => .error e
    | .ok d => .ok { locations := M, name := name, element := kw.element, perts := d }
  match locations with
  | .tensor => .error .valueError
  | .vec l => finish (Mat.col l)
  | .mat M => if M.ncols > 3 then .error .valueError else finish M
  | .scalar _ => .error .indexError

/-- `get_perturbation_free_copy` (model/arrays.py:258-276), as a value. -/
def ArrayDesign.perturbationFreeCopy (a : ArrayDesign) (newName : Option String) : ArrayDesign :=
  { a with perts := [], name := newName.or a.name }

/-- `get_perturbed_copy` (model/arrays.py:217-256), as a value (see `Model/ArrayHeap.lean` for the
version with shared mutable dictionaries). -/
def ArrayDesign.perturbedCopy (a : ArrayDesign) (ps : List Perturbation)
    (newName : Option String) : Res ArrayDesign :=
  let array := a.perturbationFreeCopy newName
  match addPerturbations array.size array.element false a.perts ps with
  | .error e => .error e
  | .ok d => .ok { array with perts := d }

/-- A `GridBasedArrayDesign` object (model/arrays.py:477-502). -/
structure GridArray extends ArrayDesign where
  elementIndices : Mat ℤ
  bases : Mat ℝ
  d0 : List ℝ

/-- The `d0` argument of `GridBasedArrayDesign.__init__`: a scalar, a 1-D list, or something with
more than one dimension. (`d0=None` without `bases` yields NaN locations and is not modelled.)
[model/arrays.py:477-492] -/
inductive D0Arg where
  | scalar (x : ℝ)
  | vec (l : List ℝ)
  | nd

/-- The `d0`/`bases` arguments: `bases` wins when given (model/arrays.py:477). -/
inductive GridSpec where
  | d0 (x : D0Arg)
  | bases (B : Mat ℝ)

/-- `np.linalg.norm(bases, ord=2, axis=1)` (model/arrays.py:498). -/
noncomputable def rowNorms (B : Mat ℝ) : List ℝ :=
  B.rows.map fun r => Real.sqrt (∑ j, r j ^ 2)

/-- `GridBasedArrayDesign.__init__` (model/arrays.py:477-502). -/
noncomputable def GridArray.init (indices : Mat ℤ) (spec : GridSpec) (name : Option String)
    (kw : Kwargs) : Res GridArray :=
  let build (bases : Mat ℝ) (d0 : List ℝ) : Res GridArray :=
    match (indices.map (fun z : ℤ => (z : ℝ))).matmul bases with
    | .error e => .error e
    | .ok L =>
      match ArrayDesign.init (.mat L) name kw with
      | .error e => .error e
      | .ok a => .ok { toArrayDesign := a, elementIndices := indices, bases := bases, d0 := d0 }
  match spec with
  | .d0 (.scalar x) =>
    let d0 := List.replicate indices.ncols x
    if indices.ncols < d0.length then .error .valueError else build (Mat.eyeMul d0) d0
  | .d0 (.vec d0) =>
    if indices.ncols < d0.length then .error .valueError else build (Mat.eyeMul d0) d0
  | .d0 .nd => .error .valueError
  | .bases B =>
    if indices.ncols ≠ B.nrows then .error .valueError else build B (rowNorms B)

/-- `UniformLinearArray.__init__` (model/arrays.py:548-551). -/
noncomputable def ula (n : ℕ) (d0 : D0Arg) (name : Option String) (kw : Kwargs) : Res GridArray :=
  GridArray.init (Mat.col ((List.range n).map fun i : ℕ => (i : ℤ))) (.d0 d0)
    (some (name.getD ("ULA " ++ toString n))) kw

/-- The element indices computed by `NestedArray.__init__` (model/arrays.py:572-575). -/
def nestedIndices (n1 n2 : ℕ) : List ℤ :=
  (List.range n1).map (fun i : ℕ => (i : ℤ)) ++
  (List.range n2).map (fun i : ℕ => ((i : ℤ) + 1) * ((n1 : ℤ) + 1) - 1)

/-- `NestedArray.__init__` (model/arrays.py:569-578). -/
noncomputable def nested (n1 n2 : ℕ) (d0 : D0Arg) (name : Option String) (kw : Kwargs) :
    Res GridArray :=
  GridArray.init (Mat.col (nestedIndices n1 n2)) (.d0 d0)
    (some (name.getD ("Nested (" ++ toString n1 ++ "," ++ toString n2 ++ ")"))) kw

/-- The element indices computed by `CoPrimeArray.__init__` (model/arrays.py:610-628): swap, gcd
test, mode dispatch.  `mode` is compared after `lower()`. Simplification: `m` and `n` are natural
numbers (the code does not reject negative ones). -/
def coprimeIndices (m0 n0 : ℕ) (mode : String) : Res (List ℤ) :=
  let m := if m0 > n0 then n0 else m0
  let n := if m0 > n0 then m0 else n0
  if Nat.gcd m n ≠ 1 then .error .valueError
  else
    let mode := mode.toLower
    if mode = "2m" then
      .ok ((List.range n).map (fun i : ℕ => (i : ℤ) * (m : ℤ)) ++
        (List.range (2 * m - 1)).map (fun i : ℕ => ((i : ℤ) + 1) * (n : ℤ)))
    else if mode = "m" then
      .ok ((List.range n).map (fun i : ℕ => (i : ℤ) * (m : ℤ)) ++
        (List.range (m - 1)).map (fun i : ℕ => ((i : ℤ) + 1) * (n : ℤ)))
    else .error .valueError

/-- `CoPrimeArray.__init__` (model/arrays.py:607-630). The warning is not modelled. -/
noncomputable def coprime (m n : ℕ) (d0 : D0Arg) (mode : String) (name : Option String)
    (kw : Kwargs) : Res GridArray :=
  match coprimeIndices m n mode with
  | .error e => .error e
  | .ok idx =>
    GridArray.init (Mat.col idx) (.d0 d0)
      (some (name.getD ("Co-prime (" ++ toString m ++ "," ++ toString n ++ ")"))) kw

/-- `_MRLA_PRESETS` (model/arrays.py:642-663). -/
def mrlaPresets : List (List ℤ) := [
  [0],
  [0, 1],
  [0, 1, 3],
  [0, 1, 4, 6],
  [0, 1, 4, 7, 9],
  [0, 1, 6, 9, 11, 13],
  [0, 1, 8, 11, 13, 15, 17],
  [0, 1, 4, 10, 16, 18, 21, 23],
  [0, 1, 4, 10, 16, 22, 24, 27, 29],
  [0, 1, 4, 10, 16, 22, 28, 30, 33, 35],
  [0, 1, 6, 14, 22, 30, 32, 34, 37, 39, 41],
  [0, 1, 6, 14, 22, 30, 38, 40, 42, 45, 47, 49],
  [0, 1, 6, 14, 22, 30, 38, 46, 48, 50, 53, 55, 57],
  [0, 1, 6, 14, 22, 30, 38, 46, 54, 56, 58, 61, 63, 65],
  [0, 1, 6, 14, 22, 30, 38, 46, 54, 62, 64, 66, 69, 71, 73],
  [0, 1, 8, 18, 28, 38, 48, 58, 68, 70, 72, 74, 77, 79, 81, 83],
  [0, 1, 8, 18, 28, 38, 48, 58, 68, 78, 80, 82, 84, 87, 89, 91, 93],
  [0, 1, 8, 18, 28, 38, 48, 58, 68, 78, 88, 90, 92, 94, 97, 99, 101, 103],
  [0, 1, 8, 18, 28, 38, 48, 58, 68, 78, 88, 98, 100, 102, 104, 107, 109, 111, 113],
  [0, 1, 10, 22, 34, 46, 58, 70, 82, 94, 106, 108, 110, 112, 114, 117, 119, 121, 123, 125]]

/-- Guard and table lookup of `MinimumRedundancyLinearArray.__init__` (model/arrays.py:683-687):
`n < 1 or n >= len(_MRLA_PRESETS)` raises. -/
def mrlaIndices (n : ℤ) : Res (List ℤ) :=
  if n < 1 ∨ n ≥ (mrlaPresets.length : ℤ) then .error .valueError
  else match mrlaPresets[(n - 1).toNat]? with
    | some l => .ok l
    | none => .error .indexError

/-- `MinimumRedundancyLinearArray.__init__` (model/arrays.py:682-687). -/
noncomputable def mrla (n : ℤ) (d0 : D0Arg) (name : Option String) (kw : Kwargs) : Res GridArray :=
  match mrlaIndices n with
  | .error e => .error e
  | .ok idx =>
    GridArray.init (Mat.col idx) (.d0 d0) (some (name.getD ("MRLA " ++ toString n))) kw

/-- `UniformCircularArray.__init__` (model/arrays.py:701-707).  The keyword arguments are accepted
but not forwarded to `ArrayDesign.__init__`.  `n = 0` raises `ZeroDivisionError` in `2.0 / n`. -/
noncomputable def uca (n : ℕ) (r : ℝ) (name : Option String) (_kw : Kwargs) : Res ArrayDesign :=
  if n = 0 then .error .zeroDivisionError
  else
    let theta := linspace (0 : ℝ) (Real.pi * (2 - 2 / (n : ℝ))) n
    let M : Mat ℝ := ⟨2, theta.map fun t => ![r * Real.cos t, r * Real.sin t]⟩
    ArrayDesign.init (.mat M) (some (name.getD ("UCA " ++ toString n))) {}

/-- `cartesian(np.arange(m), np.arange(n))` (model/arrays.py:733, utils/math.py:58-72) for two axes:
row-major product. The general function is modelled in `Model/MathUtils.lean`. -/
def uraIndices (m n : ℕ) : Mat ℤ :=
  ⟨2, (List.range m).flatMap fun i : ℕ => (List.range n).map fun j : ℕ => ![(i : ℤ), (j : ℤ)]⟩

/-- `UniformRectangularArray.__init__` (model/arrays.py:729-734). -/
noncomputable def ura (m n : ℕ) (d0 : D0Arg) (name : Option String) (kw : Kwargs) : Res GridArray :=
  GridArray.init (uraIndices m n) (.d0 d0)
    (some (name.getD ("URA " ++ toString m ++ "x" ++ toString n))) kw

end Doa
