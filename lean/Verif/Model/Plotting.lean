import Mathlib.Data.Fin.VecNotation
import Verif.Model.Grid
import Verif.Model.Arrays
import Verif.Model.UniqueRows

/-!
# Model of `doatools/plotting/plot_spectrum.py` and `doatools/plotting/plot_array.py`

matplotlib is represented by the list of drawing commands it receives.  Axes objects are numbers;
`cur` is pyplot's current axes (`plt.gca()`), which `plt.plot` and `plt.semilogy` draw on.  Axis
limits, margins, grid lines, colour maps and `plt.show` are not modelled.
-/

namespace Doa

/-- An ndarray of any shape: its shape and its elements in row-major order.
[type of the spectra in plotting/plot_spectrum.py:12-31] -/
structure NdArr where
  shape : List ℕ
  data : List ℝ

/-- The number of elements agrees with the shape (an invariant of every ndarray).
[no code; invariant of numpy] -/
def NdArr.Valid (x : NdArr) : Prop := x.data.length = x.shape.prod

/-- The `sp` argument: an ndarray, a list or tuple of ndarrays, a dictionary from labels to ndarrays
or anything else.
[plotting/plot_spectrum.py:18-25] -/
inductive SpArg where
  | array (x : NdArr)
  | seq (l : List NdArr)
  | dict (d : List (String × NdArr))
  | other

/-- Drawing commands. `curve` is one spectrum (`ax.stem`, `plt.plot` or `plt.semilogy`), `sticks` a
`stem` plot of source locations, `image` an `imshow` (entry `(r, c)` of the matrix, `origin='lower'`,
`extent = (left, right, bottom, top)`, axis labels), `scatter` a scatter plot.
[calls in plotting/plot_spectrum.py:83-209 and plot_array.py:7-87] -/
inductive PlotCmd where
  | curve (axes : ℕ) (stem log : Bool) (x y : List ℝ) (label color : String)
  | sticks (axes : ℕ) (x y : List ℝ) (label color : String)
  | image (axes : ℕ) (nrows ncols : ℕ) (pix : ℕ → ℕ → ℝ) (left right bottom top : ℝ) (log : Bool)
      (xlabel ylabel : String)
  | scatter (axes : ℕ) (points : List (List ℝ)) (label : String)
  | legend (axes : ℕ)
  | warning

/-- The axes a command draws on (`none` for a warning).
[see `PlotCmd`; plot_spectrum.py:83-209] -/
def PlotCmd.target : PlotCmd → Option ℕ
  | .curve a .. => some a
  | .sticks a .. => some a
  | .image a .. => some a
  | .scatter a .. => some a
  | .legend a => some a
  | .warning => none

/-- `_normalize_by_maximum` (plot_spectrum.py:5-10); `x.max()` raises `ValueError` on an empty
array. -/
noncomputable def normalizeByMaximum (x : List ℝ) : Res (List ℝ) :=
  match x.max? with
  | none => .error .valueError
  | some m => if m > 0 then .ok (x.map (· / m)) else .ok x

/-- `_build_spectrum_list` (plot_spectrum.py:12-31). -/
def buildSpectrumList (sp : SpArg) (g : SearchGrid) : Res (List (NdArr × String)) :=
  let check (l : List (NdArr × String)) : Res (List (NdArr × String)) :=
    if l.length = 0 then .error .valueError
    else if l.any fun t => decide (t.1.shape ≠ g.shape) then .error .valueError
    else .ok l
  match sp with
  | .array x => check [(x, "")]
  | .seq l => check (l.map fun s => (s, ""))
  | .dict d => check (d.map fun kv => (kv.2, kv.1))
  | .other => .error .valueError

/-- `color_cycle` (plot_spectrum.py:78). -/
def colorCycle : List String := ["C0", "C1", "C4", "C5", "C6", "C7", "C8", "C9"]

/-- Loop over the spectra (plot_spectrum.py:83-97), starting at index `i`: `ax.stem` draws on `ax`,
`plt.plot` and `plt.semilogy` draw on the current axes. -/
noncomputable def drawSpectra (ax cur : ℕ) (x : List ℝ) (log discrete : Bool) :
    ℕ → List (NdArr × String) → Res Unit × List PlotCmd
  | _, [] => (.ok (), [])
  | i, (s, label) :: rest =>
    match normalizeByMaximum s.data with
    | .error e => (.error e, [])
    | .ok y =>
      let color := colorCycle.getD (i % colorCycle.length) ""
      let cmd := PlotCmd.curve (if discrete then ax else cur) discrete log x y label color
      let out := drawSpectra ax cur x log discrete (i + 1) rest
      (out.1, cmd :: out.2)

/-- `SourcePlacement.units` (model/sources.py:89-91 and the three constructors). -/
def Sources.units {k : ℕ} : Sources k → List String
  | .ff1 s => [s.unit]
  | .ff2 s => [s.unit, s.unit]
  | .nf _ => ["m", "m"]

/-- `SourcePlacement.locations` when it is a 1-D array.
[read in plot_spectrum.py:99-119] -/
noncomputable def Sources.locations1 {k : ℕ} : Sources k → Option (List ℝ)
  | .ff1 s => some (List.ofFn s.loc)
  | _ => none

/-- `SourcePlacement.locations` when it is a `k × 2` array.
[read in plot_spectrum.py:186-206] -/
noncomputable def Sources.locations2 {k : ℕ} : Sources k → Option (List (ℝ × ℝ))
  | .ff1 _ => none
  | .ff2 s => some (List.ofFn s.loc)
  | .nf s => some (List.ofFn s.loc)

/-- The blocks plotting the estimates and the ground truth (plot_spectrum.py:99-119): nothing when
the argument is `None`. `stem` rejects a two-dimensional `x`. -/
noncomputable def drawSticks (ax : ℕ) (g : SearchGrid) (src : Option (Σ k, Sources k))
    (label color : String) : Res Unit × List PlotCmd :=
  match src with
  | none => (.ok (), [])
  | some s =>
    if s.2.units ≠ g.units then (.error .valueError, [])
    else match s.2.locations1 with
      | none => (.error .valueError, [])
      | some x => (.ok (), [.sticks ax x (x.map fun _ => 1) label color])

/-- Sequencing: commands accumulate, an exception stops the program.
[no code; statement sequencing in plot_spectrum.py:33-209] -/
def andThen (a : Res Unit × List PlotCmd) (b : Res Unit × List PlotCmd) : Res Unit × List PlotCmd :=
  match a.1 with
  | .error e => (.error e, a.2)
  | .ok _ => (b.1, a.2 ++ b.2)

/-- `plot_spectrum_1d` (plot_spectrum.py:33-130): outcome and commands issued. -/
noncomputable def plotSpectrum1d (sp : SpArg) (g : SearchGrid) (ax cur : ℕ)
    (estimates truth : Option (Σ k, Sources k)) (log discrete : Bool) : Res Unit × List PlotCmd :=
  match buildSpectrumList sp g, g.axes[0]? with
  | .error e, _ => (.error e, [])
  | .ok _, none => (.error .indexError, [])
  | .ok l, some x =>
    let hasLegend : Bool := l.any (fun t => decide (0 < t.2.length)) || estimates.isSome || truth.isSome
    andThen (drawSpectra ax cur x.data log discrete 0 l) <|
    andThen (drawSticks ax g estimates "Estimates" "C3") <|
    andThen (drawSticks ax g truth "Ground truth" "C2") <|
    (.ok (), if hasLegend then [.legend ax] else [])

/-- The scatter blocks of `plot_spectrum_2d` (plot_spectrum.py:186-206); indexing the columns of a
1-D array raises `IndexError`. -/
noncomputable def drawScatter (ax : ℕ) (g : SearchGrid) (swap : Bool) (src : Option (Σ k, Sources k))
    (label : String) : Res Unit × List PlotCmd :=
  match src with
  | none => (.ok (), [])
  | some s =>
    if s.2.units ≠ g.units then (.error .valueError, [])
    else match s.2.locations2 with
      | none => (.error .indexError, [])
      | some l => (.ok (), [.scatter ax (l.map fun p => if swap then [p.2, p.1] else [p.1, p.2]) label])

/-- `plot_spectrum_2d` (plot_spectrum.py:132-209) for an ndarray `sp`; entry `(i, j)` of an array of
shape `(n0, n1)` is element `i * n1 + j`. The colour bar is not modelled. -/
noncomputable def plotSpectrum2d (sp : NdArr) (g : SearchGrid) (ax : ℕ)
    (estimates truth : Option (Σ k, Sources k)) (log swap : Bool) : Res Unit × List PlotCmd :=
  if sp.shape ≠ g.shape then (.error .valueError, [])
  else
    let ix := if swap then 1 else 0
    let iy := if swap then 0 else 1
    match g.axes[ix]?, g.axes[iy]?, g.axisNames[ix]?, g.axisNames[iy]?, g.units[ix]?, g.units[iy]? with
    | some x, some y, some nx, some ny, some ux, some uy =>
      match x.data.min?, x.data.max?, y.data.min?, y.data.max? with
      | some x0, some x1, some y0, some y1 =>
        let n1 := g.shape.getD 1 0
        let entry (i j : ℕ) : ℝ := sp.data.getD (i * n1 + j) 0
        let pix (r c : ℕ) : ℝ := if swap then entry r c else entry c r
        let hasLegend : Bool := estimates.isSome || truth.isSome
        andThen (.ok (), [.image ax y.data.length x.data.length pix x0 x1 y0 y1 log
          (nx ++ "/" ++ ux) (ny ++ "/" ++ uy)]) <|
        andThen (drawScatter ax g swap estimates "Estimates") <|
        andThen (drawScatter ax g swap truth "Ground truth") <|
        (.ok (), if hasLegend then [.legend ax] else [])
      | _, _, _, _ => (.error .valueError, [])
    | _, _, _, _, _, _ => (.error .indexError, [])

/-- `plot_spectrum` (plot_spectrum.py:211-262): a missing `ax` is replaced by new axes, which become
the current ones; `discrete` and `swap_axes` are passed through as keyword arguments and are
unexpected (`TypeError`) in the other plot function. Returns the axes. For a 2-D grid a list or
dictionary fails in `sp.shape` with `AttributeError`. -/
noncomputable def plotSpectrum (sp : SpArg) (g : SearchGrid) (ax : Option ℕ) (cur fresh : ℕ)
    (estimates truth : Option (Σ k, Sources k)) (log : Bool) (discrete swap : Option Bool) :
    Res ℕ × List PlotCmd :=
  let a := ax.getD fresh
  let c := if ax.isSome then cur else fresh
  let out : Res Unit × List PlotCmd :=
    if g.ndim = 1 then
      if swap.isSome then (.error .typeError, [])
      else plotSpectrum1d sp g a c estimates truth log (discrete.getD false)
    else if g.ndim = 2 then
      if discrete.isSome then (.error .typeError, [])
      else match sp with
        | .array x => plotSpectrum2d x g a estimates truth log (swap.getD false)
        | _ => (.error .attributeError, [])
    else (.error .notImplementedError, [])
  (out.1.map fun _ => a, out.2)

/-- A key used to look something up in the perturbation dictionary: a class or a string.
[plot_array.py:44 and model/arrays.py:166-168] -/
inductive PertKey where
  | cls (k : PertKind)
  | str (s : String)
  deriving DecidableEq

/-- `has_perturbation(ptype)` (model/arrays.py:166-168) for an arbitrary key: `ptype in
self._perturbations`, whose keys are classes (model/arrays.py:197-203). -/
def ArrayDesign.hasPerturbationKey (a : ArrayDesign) (key : PertKey) : Bool :=
  a.perts.keys.any fun k => decide (PertKey.cls k = key)

/-- `actual_ndim` (model/arrays.py:161-164). -/
def ArrayDesign.actualNdim (a : ArrayDesign) : ℕ := a.actualElementLocations.ncols

/-- `_auto_scatter` (plot_array.py:7-20): a second coordinate 0 is added to 1-D points. -/
noncomputable def autoScatter (ax : ℕ) (x : Mat ℝ) (label : String) : Res Unit × List PlotCmd :=
  if x.ncols = 1 then
    (.ok (), [.scatter ax (x.rows.map fun r => List.ofFn r ++ [0]) label])
  else if x.ncols = 2 then (.ok (), [.scatter ax (x.rows.map fun r => List.ofFn r) label])
  else if x.ncols = 3 then (.ok (), [.scatter ax (x.rows.map fun r => List.ofFn r) label])
  else (.error .valueError, [])

/-- `if coarray: element_locations = compute_unique_location_differences(element_locations)`
(plot_array.py:66-67, 72-73) with the default tolerances 0 and 1e-8. -/
noncomputable def plottedLocations (coarray : Bool) (L : Mat ℝ) : Res (Mat ℝ) :=
  if coarray then uniqueLocationDifferences L 0 (1 / 100000000) else .ok L

/-- Locations, possibly turned into differences, then scattered.
[plot_array.py:65-77] -/
noncomputable def scatterLocations (ax : ℕ) (coarray : Bool) (L : Mat ℝ) (label : String) :
    Res Unit × List PlotCmd :=
  match plottedLocations coarray L with
  | .error e => (.error e, [])
  | .ok M => autoScatter ax M label

/-- `_plot_array_impl` (plot_array.py:42-87); `fresh` are the axes created when `ax` is `None`. Axis
labels, aspect and grid lines are not modelled; see `fix3dAspect` for the 3-D limits. -/
noncomputable def plotArrayImpl (a : ArrayDesign) (ax : Option ℕ) (fresh : ℕ)
    (coarray showErrors : Bool) : Res ℕ × List PlotCmd :=
  let missing : Bool := !(a.hasPerturbationKey (.str "location_errors")) && showErrors
  let showErrors : Bool := if missing then false else showErrors
  let t := ax.getD fresh
  let out :=
    andThen (.ok (), if missing then [.warning] else []) <|
    andThen (scatterLocations t coarray a.locations "Nominal locations") <|
    andThen (if showErrors then
        scatterLocations t coarray a.actualElementLocations "Actual locations"
      else (.ok (), [])) <|
    (.ok (), [.legend t])
  (out.1.map fun _ => t, out.2)

/-- `plot_array` (plot_array.py:89-102). -/
noncomputable def plotArray (a : ArrayDesign) (ax : Option ℕ) (fresh : ℕ) (showErrors : Bool) :
    Res ℕ × List PlotCmd := plotArrayImpl a ax fresh false showErrors

/-- `plot_coarray` (plot_array.py:104-117). -/
noncomputable def plotCoarray (a : ArrayDesign) (ax : Option ℕ) (fresh : ℕ) (showErrors : Bool) :
    Res ℕ × List PlotCmd := plotArrayImpl a ax fresh true showErrors

/-- `_fix_3d_aspect` (plot_array.py:22-40): the limits handed to `auto_scale_xyz`, `none` when the
function returns early. -/
noncomputable def fix3dAspect (limits : Fin 3 → ℝ × ℝ) : Option (Fin 3 → ℝ × ℝ) :=
  let ranges : Fin 3 → ℝ := fun i => |(limits i).2 - (limits i).1|
  let maxRange := max (max (ranges 0) (ranges 1)) (ranges 2)
  if maxRange = 0 then none
  else some fun i =>
    if ranges i = 0 then (-maxRange / 2, maxRange / 2)
    else ((limits i).1 * maxRange / ranges i, (limits i).2 * maxRange / ranges i)

end Doa
