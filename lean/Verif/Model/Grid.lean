import Verif.Model.Sources
import Verif.Model.MathUtils

/-!
# Model of `doatools/estimation/grid.py`
-/

namespace Doa

/-- The three exported search grid classes.
[grid.py:209, 294, 374] -/
inductive GridKind where
  | ff1
  | ff2
  | nf2
  deriving DecidableEq

/-- The names of the methods of `SearchGrid` marked `@abstractmethod` (grid.py:101, 191). -/
def SearchGrid.abstractMethods : List String := ["_create_source_placement", "create_refined_grid_at"]

/-- The methods defined in the body of each class (grid.py:209-292, 294-372, 374-433). -/
def GridKind.methods : GridKind → List String
  | .ff1 => ["__init__", "_create_source_placement", "create_refined_grid_at"]
  | .ff2 => ["__init__", "_create_source_placement", "create_refined_grid_at"]
  | .nf2 => ["__init__", "_create_source_placement", "create_refined_grids_at"]

/-- `ABC` refuses to instantiate a class with abstract methods left (`TypeError` in
`object.__new__`, before `__init__` runs).
[class header grid.py:7 (`SearchGrid(ABC)`)] -/
def GridKind.instantiable (k : GridKind) : Bool :=
  SearchGrid.abstractMethods.all fun m => k.methods.contains m

/-- One axis of a grid: its values, and whether it is an `(n, 1)` array instead of a 1-D one (this
happens in the multi-segment branch of `FarField1DSearchGrid`, grid.py:267). -/
structure Axis where
  data : List ℝ
  column : Bool

/-- A search grid (grid.py:19-30). `shape` is computed from the axes (grid.py:27); the lazily created
source placement is modelled in `Model/Estimator.lean`. -/
structure SearchGrid where
  kind : GridKind
  axes : List Axis
  axisNames : List String
  units : List String

namespace SearchGrid

/-- `ndim` (grid.py:33-35). -/
def ndim (g : SearchGrid) : ℕ := g.axes.length

/-- `shape` (grid.py:27, 42-49). -/
def shape (g : SearchGrid) : List ℕ := g.axes.map fun a => a.data.length

/-- `size` (grid.py:38-40). -/
def size (g : SearchGrid) : ℕ := g.shape.prod

end SearchGrid

/-- `np.linspace(start, stop, num, endpoint=False)`.
[used in grid.py:264, 270, 349-350, 410-411] -/
noncomputable def linspaceOpen (start stop : ℝ) (num : ℕ) : List ℝ :=
  (List.range num).map fun i : ℕ => start + (i : ℝ) * ((stop - start) / (num : ℝ))

/-- The ways of calling `FarField1DSearchGrid`: with `axes`, with scalars (possibly defaulted), or
with lists. (Mixed scalar/list arguments raise inside numpy and are not modelled; `axes` given by the
user are 1-D arrays.)
[grid.py:250-271] -/
inductive FF1DGridArgs where
  | axes (l : List (List ℝ))
  | uniform (start stop : Option ℝ) (size : ℕ)
  | segments (start stop : List ℝ) (size : List ℕ)

/-- `default_ranges` of the 1-D grid (grid.py:254-258). -/
noncomputable def defaultRange1D (unit : String) : Res (ℝ × ℝ) :=
  if unit = "rad" then .ok (-Real.pi / 2, Real.pi / 2)
  else if unit = "deg" then .ok (-90, 90)
  else if unit = "sin" then .ok (-1, 1)
  else .error .keyError

/-- `if x is None: x = default`, the default being looked up only when needed (grid.py:259-262). -/
def orDefault {α : Type _} : Option α → Res α → Res α
  | some x, _ => .ok x
  | none, d => d

/-- Overwrite a prefix: `locations[0:n] = values` for `n = len(values)`.
[grid.py:270, where `offset` stays 0] -/
def overwritePrefix (l v : List ℝ) : List ℝ := v ++ l.drop v.length

/-- Loop of the multi-segment branch (grid.py:266-270), iterations `k, k+1, ..., k+n-1`.  `offset` is
initialised to 0 and never updated, so every segment is written at the beginning. -/
noncomputable def segmentLoop (start stop : List ℝ) (size : List ℕ) :
    ℕ → ℕ → List ℝ → Res (List ℝ)
  | 0, _, loc => .ok loc
  | n + 1, k, loc =>
    match start[k]?, stop[k]?, size[k]? with
    | some a, some b, some s =>
      segmentLoop start stop size n (k + 1) (overwritePrefix loc (linspaceOpen a b s))
    | _, _, _ => .error .indexError

/-- `FarField1DSearchGrid.__init__` (grid.py:250-271). -/
noncomputable def ff1dGrid (args : FF1DGridArgs) (unit : String) : Res SearchGrid :=
  match args with
  | .axes l => .ok ⟨.ff1, l.map fun x => ⟨x, false⟩, ["DOA"], [unit]⟩
  | .uniform start stop size =>
    match orDefault start ((defaultRange1D unit).map Prod.fst),
      orDefault stop ((defaultRange1D unit).map Prod.snd) with
    | .ok a, .ok b => .ok ⟨.ff1, [⟨linspaceOpen a b size, false⟩], ["DOA"], [unit]⟩
    | .error e, _ => .error e
    | _, .error e => .error e
  | .segments start stop size =>
    match segmentLoop start stop size start.length 0 (List.replicate size.sum 0) with
    | .error e => .error e
    | .ok loc => .ok ⟨.ff1, [⟨loc, true⟩], ["DOA"], [unit]⟩

/-- The ways of calling the 2-D grids; a scalar `size` means `(size, size)`.
[grid.py:333-351, 403-412] -/
inductive Grid2DArgs where
  | axes (l : List (List ℝ))
  | uniform (start stop : Option (ℝ × ℝ)) (size : ℕ × ℕ)

/-- `default_ranges` of the 2-D far-field grid (grid.py:339-342): `(start, stop)` pairs. -/
noncomputable def defaultRange2D (unit : String) : Res ((ℝ × ℝ) × (ℝ × ℝ)) :=
  if unit = "rad" then .ok ((-Real.pi, 0), (Real.pi, Real.pi / 2))
  else if unit = "deg" then .ok ((-180, 0), (180, 90))
  else .error .keyError

/-- `FarField2DSearchGrid.__init__` (grid.py:333-351). -/
noncomputable def ff2dGrid (args : Grid2DArgs) (unit : String) : Res SearchGrid :=
  match args with
  | .axes l => .ok ⟨.ff2, l.map fun x => ⟨x, false⟩, ["Azimuth", "Elevation"], [unit, unit]⟩
  | .uniform start stop size =>
    match orDefault start ((defaultRange2D unit).map Prod.fst),
      orDefault stop ((defaultRange2D unit).map Prod.snd) with
    | .ok a, .ok b =>
      .ok ⟨.ff2, [⟨linspaceOpen a.1 b.1 size.1, false⟩, ⟨linspaceOpen a.2 b.2 size.2, false⟩],
        ["Azimuth", "Elevation"], [unit, unit]⟩
    | .error e, _ => .error e
    | _, .error e => .error e

/-- `NearField2DSearchGrid.__init__` (grid.py:403-412), behind the abstract class check; `start` or
`stop` missing raises `TypeError` (`None` is not subscriptable). -/
noncomputable def nf2dGrid (args : Grid2DArgs) : Res SearchGrid :=
  if ¬ GridKind.nf2.instantiable then .error .typeError
  else match args with
  | .axes l => .ok ⟨.nf2, l.map fun x => ⟨x, false⟩, ["x", "y"], ["m", "m"]⟩
  | .uniform (some a) (some b) size =>
    .ok ⟨.nf2, [⟨linspaceOpen a.1 b.1 size.1, false⟩, ⟨linspaceOpen a.2 b.2 size.2, false⟩],
      ["x", "y"], ["m", "m"]⟩
  | .uniform _ _ _ => .error .typeError

/-- The rows of `cartesian(*axes)` as pairs, when there are two axes.
[used in grid.py:354, 415] -/
noncomputable def pairRows (rows : List (List ℝ)) : List (ℝ × ℝ) :=
  rows.map fun r => (r.getD 0 0, r.getD 1 0)

/-- `_create_source_placement` (grid.py:273-274, 353-354, 414-415). -/
noncomputable def SearchGrid.createPlacement (g : SearchGrid) : Res (Σ k, Sources k) :=
  match g.kind with
  | .ff1 =>
    match g.axes[0]?, g.units[0]? with
    | some a, some u =>
      match FF1D.init (k := a.data.length) (if a.column then .nd else .vec a.data.get) u with
      | .ok s => .ok ⟨_, .ff1 s⟩
      | .error e => .error e
    | _, _ => .error .indexError
  | .ff2 =>
    match cartesian (g.axes.map Axis.data), g.units[0]? with
    | .ok rows, some u =>
      match FF2D.init (k := (pairRows rows).length)
          (if g.axes.length = 2 then .mat (pairRows rows).get else .other) u with
      | .ok s => .ok ⟨_, .ff2 s⟩
      | .error e => .error e
    | .error e, _ => .error e
    | _, none => .error .indexError
  | .nf2 =>
    match cartesian (g.axes.map Axis.data) with
    | .ok rows =>
      match NF2D.init (k := (pairRows rows).length)
          (if g.axes.length = 2 then .mat (pairRows rows).get else .other) with
      | .ok s => .ok ⟨_, .nf s⟩
      | .error e => .error e
    | .error e => .error e

/-- One axis of `create_refined_axes_at` (grid.py:160-167) around index `c`, for `density ≥ 1` and
`span ≥ 1`. Simplification: `c` is a natural number. -/
noncomputable def refineAxis (ax : Axis) (c : ℕ) (density span : ℤ) : Res Axis :=
  let ilb : ℤ := max 0 ((c : ℤ) - span)
  let iub : ℤ := min ((ax.data.length : ℤ) - 1) ((c : ℤ) + span)
  match ax.data[ilb.toNat]?, (if 0 ≤ iub then ax.data[iub.toNat]? else none) with
  | some lb, some ub =>
    let num := (iub - ilb) * density + 1
    if num < 0 then .error .valueError else .ok ⟨linspace lb ub num.toNat, ax.column⟩
  | _, _ => .error .indexError

/-- The loop over the axes.
[grid.py:159-168] -/
noncomputable def refineAxes : List Axis → List ℕ → ℤ → ℤ → Res (List Axis)
  | ax :: axs, c :: cs, density, span =>
    match refineAxis ax c density span with
    | .error e => .error e
    | .ok a =>
      match refineAxes axs cs density span with
      | .error e => .error e
      | .ok l => .ok (a :: l)
  | _, _, _, _ => .ok []

/-- `create_refined_axes_at(coord, density, span)` (grid.py:111-168). -/
noncomputable def SearchGrid.createRefinedAxesAt (g : SearchGrid) (coord : List ℕ)
    (density span : ℤ) : Res (List Axis) :=
  if density < 1 then .error .valueError
  else if span < 1 then .error .valueError
  else if coord.length ≠ g.ndim then .error .valueError
  else refineAxes g.axes coord density span

/-- `create_refined_grid_at(coord, density, span)` (grid.py:276-292, 356-372). The near-field class
does not define it. -/
noncomputable def SearchGrid.createRefinedGridAt (g : SearchGrid) (coord : List ℕ)
    (density span : ℤ) : Res SearchGrid :=
  match g.createRefinedAxesAt coord density span with
  | .error e => .error e
  | .ok axes =>
    match g.kind, g.units[0]? with
    | .ff1, some u => .ok ⟨.ff1, axes, ["DOA"], [u]⟩
    | .ff2, some u => .ok ⟨.ff2, axes, ["Azimuth", "Elevation"], [u, u]⟩
    | .nf2, _ => .error .notImplementedError
    | _, none => .error .indexError

/-- `zip(*coords)`: the tuples `(coords[0][i], coords[1][i], ...)` up to the shortest list.
[grid.py:189] -/
def zipCoords : List (List ℕ) → List (List ℕ)
  | [] => []
  | [c] => c.map fun x => [x]
  | c :: cs => List.zipWith (· :: ·) c (zipCoords cs)

/-- `create_refined_grids_at(*coords, density, span)` (grid.py:170-189). -/
noncomputable def SearchGrid.createRefinedGridsAt (g : SearchGrid) (coords : List (List ℕ))
    (density span : ℤ) : Res (List SearchGrid) :=
  (zipCoords coords).mapM fun c => g.createRefinedGridAt c density span

end Doa
