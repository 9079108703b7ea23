import Verif.Model.Grid
import Verif.Model.SourceHeap

/-!
# Model of `SpectrumBasedEstimatorBase` (estimation/core.py:49-235)

The estimator is a state machine over a heap of source placements (`Model/SourceHeap.lean`).
Locations are rows: `[x]` for 1-D grids, `[x, y]` for 2-D grids.

* `compute` is `_compute_atom_matrix` (core.py:77-97) as a function of the locations of the
  placement; the array and the wavelength are fixed. Exceptions of `steering_matrix` are not modelled
  here.
* Spectrum values live in any linear order `β` (`inf` included); the flattened array is a list.
* `peakFinder shape sp` is the list of coordinates returned by the peak finder (the code receives the
  transposed data, one index array per axis).
* `argsort` is a parameter: numpy's default sort is not stable.
-/

namespace Doa

/-- Locations of a placement as rows.
[`locations` of model/sources.py:68-76] -/
def Sources.rows {k : ℕ} : Sources k → List (List ℝ)
  | .ff1 s => List.ofFn fun i => [s.loc i]
  | .ff2 s => List.ofFn fun i => [(s.loc i).1, (s.loc i).2]
  | .nf s => List.ofFn fun i => [(s.loc i).1, (s.loc i).2]

/-- The locations of `grid.source_placement`.
[estimation/grid.py:62-79] -/
noncomputable def SearchGrid.placementRows (g : SearchGrid) : Res (List (List ℝ)) :=
  match g.createPlacement with
  | .error e => .error e
  | .ok ⟨_, s⟩ => .ok s.rows

/-- `locations[i] = row` (core.py:229) into a float array, or into an integer array (`intGrid`), where
numpy drops the fractional part (the cast rounds towards zero). -/
noncomputable def storeRow (intGrid : Bool) (row : List ℝ) : List ℝ :=
  if intGrid then row.map fun x => if 0 ≤ x then ((⌊x⌋ : ℤ) : ℝ) else ((⌈x⌉ : ℤ) : ℝ) else row

/-- `SpectrumBasedEstimatorBase.__init__` (core.py:51-75): the immutable part of an estimator.
`intGrid` says that the axes of the search grid are integer arrays (possible through the `axes`
argument, grid.py:252, 336), so that the placements indexed out of it are integer arrays too. -/
structure EstCfg (β Atom : Type) where
  grid : SearchGrid
  compute : List (List ℝ) → Atom
  peakFinder : List ℕ → List β → List (List ℕ)
  argsort : List β → List ℕ
  caching : Bool
  intGrid : Bool := false

/-- The mutable state: location buffers and placements, the `_sources` attribute of the search grid
and the cached atom matrix. Buffer 0 is the buffer of the first axis of the grid.
[estimation/core.py:70-75 and estimation/grid.py:30] -/
structure EstState (Atom : Type) where
  heap : SHeap (List ℝ)
  gridSrc : Option ℕ
  atom : Option Atom

variable {β Atom : Type}

/-- The state right after the constructors.
[estimation/core.py:70-75] -/
def EstCfg.init (cfg : EstCfg β Atom) : EstState Atom :=
  { heap := { bufs := [((cfg.grid.axes.head?.map Axis.data).getD []).map fun x => [x]], objs := [] }
    gridSrc := none
    atom := none }

/-- The search grid as the code sees it: for 1-D grids the axis lives in buffer 0, which the placement
shares (grid.py:273-274 passes `self._axes[0]` without copying). -/
def EstCfg.curGrid (cfg : EstCfg β Atom) (st : EstState Atom) : SearchGrid :=
  match cfg.grid.kind, cfg.grid.axes with
  | .ff1, [a] =>
    { cfg.grid with axes := [⟨((st.heap.bufs[0]?).getD []).map fun r => r.headD 0, a.column⟩] }
  | _, _ => cfg.grid

/-- `search_grid.source_placement` (grid.py:51-79): created on first use, then cached. 1-D placements
share the axis buffer, 2-D placements own the array built by `cartesian`. Returns the reference. -/
noncomputable def EstCfg.gridPlacement (cfg : EstCfg β Atom) (st : EstState Atom) :
    Res ℕ × EstState Atom :=
  match st.gridSrc with
  | some r => (.ok r, st)
  | none =>
    match (cfg.curGrid st).placementRows with
    | .error e => (.error e, st)
    | .ok rows =>
      let unit := (cfg.grid.units[0]?).getD ""
      let heap := match cfg.grid.kind with
        | .ff1 => { st.heap with objs := st.heap.objs ++ [{ buf := 0, unit := unit }] }
        | _ => st.heap.create rows unit
      (.ok st.heap.objs.length, { st with heap := heap, gridSrc := some st.heap.objs.length })

/-- `_get_atom_matrix()` without alternative grid (core.py:99-118). -/
noncomputable def EstCfg.atomMatrix (cfg : EstCfg β Atom) (st : EstState Atom) :
    Res Atom × EstState Atom :=
  match st.atom with
  | some A => (.ok A, st)
  | none =>
    match cfg.gridPlacement st with
    | (.error e, st) => (.error e, st)
    | (.ok r, st) =>
      match st.heap.view r with
      | none => (.error .attributeError, st)
      | some (rows, _) =>
        let A := cfg.compute rows
        (.ok A, if cfg.caching then { st with atom := some A } else st)

/-- `x[-k:]`: the last `k` entries, and everything for `k = 0`.
[used in core.py:179] -/
def lastK {α : Type _} (k : ℕ) (l : List α) : List α := if k = 0 then l else l.drop (l.length - k)

/-- `sp[peak_indices]` (core.py:177); a coordinate outside the spectrum raises `IndexError`. -/
def spectrumAt (shape : List ℕ) (sp : List β) (c : List ℕ) : Res β :=
  match ravelMultiIndex shape c with
  | .error _ => .error .indexError
  | .ok r => match sp[r]? with
    | some v => .ok v
    | none => .error .indexError

/-- Selection of the largest peaks (core.py:167-187): `none` if there are fewer than `k` peaks,
otherwise the sorted flattened indices. -/
def topPeaks (peakFinder : List ℕ → List β → List (List ℕ)) (argsort : List β → List ℕ)
    (shape : List ℕ) (sp : List β) (k : ℕ) : Res (Option (List ℕ)) :=
  let peaks := peakFinder shape sp
  if peaks.length < k then .ok none
  else
    match peaks.mapM (spectrumAt shape sp) with
    | .error e => .error e
    | .ok values =>
      let top := lastK k (argsort values)
      match (top.filterMap fun i => peaks[i]?).mapM (ravelMultiIndex shape) with
      | .error e => .error e
      | .ok flat => .ok (some (flat.mergeSort fun a b => decide (a ≤ b)))

/-- The plateau condition of `scipy.signal.find_peaks(x)[0]` (third-party; documented behaviour: the
middle, rounded down, of every maximal constant run that is strictly higher than both of its
neighbours): the run `l..r` is a flat peak.
[used in core.py:31] -/
def IsFlatPeak [LinearOrder β] (x : List β) (l r : ℕ) : Prop :=
  1 ≤ l ∧ l ≤ r ∧ r + 1 < x.length ∧ ∃ v, (∀ i < x.length, l ≤ i → i ≤ r → x[i]? = some v) ∧
    (∀ w, x[l - 1]? = some w → w < v) ∧ (∀ w, x[r + 1]? = some w → w < v)

open Classical in
/-- `find_peaks_simple` for a 1-D array (core.py:28-31). -/
noncomputable def findPeaks1 [LinearOrder β] (x : List β) : List (List ℕ) :=
  ((List.range x.length).filter fun m => ∃ l r, IsFlatPeak x l r ∧ m = (l + r) / 2).map fun m => [m]

/-- Coordinates within the `3 x 3 x ...` window of `maximum_filter(x, 3)`.
[used in core.py:34] -/
def Adjacent (c d : List ℕ) : Prop := List.Forall₂ (fun i j => i ≤ j + 1 ∧ j ≤ i + 1) c d

open Classical in
/-- `find_peaks_simple` for a multi-dimensional array (core.py:32-35): the coordinates, in row-major
order, where the value equals the maximum over its window (the default boundary mode `reflect`
repeats values of the window, so the window is cut off at the boundary). -/
noncomputable def findPeaksND [LinearOrder β] (shape : List ℕ) (x : List β) : List (List ℕ) :=
  ((List.range shape.prod).map (unravelIdx shape)).filter fun c =>
    ∀ d ∈ (List.range shape.prod).map (unravelIdx shape), Adjacent c d →
      ∀ v w, x[ravelIdx shape d]? = some v → x[ravelIdx shape c]? = some w → v ≤ w

/-- `find_peaks_simple` (core.py:28-35). -/
noncomputable def findPeaksSimple [LinearOrder β] (shape : List ℕ) (x : List β) : List (List ℕ) :=
  if shape.length = 1 then findPeaks1 x else findPeaksND shape x

/-- `sp.argmax()`: the first position of the maximum; `ValueError` for an empty array.
[used in core.py:228] -/
def argmaxIdx [LinearOrder β] (l : List β) : Option ℕ := l.max?.map fun m => l.idxOf m

/-- Body of the inner refinement loop for one subgrid (core.py:224-235): the location of the maximum
and, unless this is the last iteration, the next subgrid. -/
noncomputable def refineOne [LinearOrder β] (sp : List (List ℝ) → List β) (density : ℤ) (last : Bool)
    (g : SearchGrid) : Res (List ℝ × SearchGrid) :=
  match g.placementRows with
  | .error e => .error e
  | .ok rows =>
    match argmaxIdx (sp rows) with
    | none => .error .valueError
    | some i =>
      match rows[i]? with
      | none => .error .indexError
      | some loc =>
        if last then .ok (loc, g)
        else
          match g.createRefinedGridAt (unravelIdx g.shape i) density 1 with
          | .error e => .error e
          | .ok g' => .ok (loc, g')

/-- `for i in range(len(subgrids))` (core.py:223-235): in-place writes to the locations of the
placement `est`. (In the code the write happens before the next subgrid is created; an exception in
between leaves the write in an object nobody can reach.) -/
noncomputable def refinePass [LinearOrder β] (ig : Bool) (sp : List (List ℝ) → List β) (density : ℤ)
    (last : Bool) (est : ℕ) : ℕ → List SearchGrid → SHeap (List ℝ) →
      Res (List SearchGrid) × SHeap (List ℝ)
  | _, [], h => (.ok [], h)
  | i, g :: gs, h =>
    match refineOne sp density last g with
    | .error e => (.error e, h)
    | .ok (loc, g') =>
      match refinePass ig sp density last est (i + 1) gs (h.write est i (storeRow ig loc)) with
      | (.error e, h') => (.error e, h')
      | (.ok gs', h') => (.ok (g' :: gs'), h')

/-- `for r in range(n_iters)` (core.py:222): `n` iterations to go. -/
noncomputable def refineLoop [LinearOrder β] (ig : Bool) (sp : List (List ℝ) → List β) (density : ℤ) (est : ℕ) :
    ℕ → List SearchGrid → SHeap (List ℝ) → Res Unit × SHeap (List ℝ)
  | 0, _, h => (.ok (), h)
  | n + 1, gs, h =>
    match refinePass ig sp density (decide (n = 0)) est 0 gs h with
    | (.error e, h') => (.error e, h')
    | (.ok gs', h') => refineLoop ig sp density est n gs' h'

/-- `_refine_estimates` (core.py:200-235). -/
noncomputable def refineEstimates [LinearOrder β] (ig : Bool) (sp : List (List ℝ) → List β) (grid : SearchGrid)
    (coords : List (List ℕ)) (density : ℤ) (iters est : ℕ) (h : SHeap (List ℝ)) :
    Res Unit × SHeap (List ℝ) :=
  match coords.mapM fun c => grid.createRefinedGridAt c density 1 with
  | .error e => (.error e, h)
  | .ok gs => refineLoop ig sp density est iters gs h

/-- The arguments of `_estimate`.
[core.py:120-121] -/
structure EstArgs (β Atom : Type) where
  fsp : Atom → List β
  k : ℕ
  refine : Bool
  density : ℤ
  iters : ℕ

/-- What `_estimate` returns: `resolved`, the reference of the estimates (`None` if unresolved), and
the spectrum (only handed out with `return_spectrum=True`).
[core.py:170-173, 195-198] -/
structure EstOut (β : Type) where
  resolved : Bool
  est : Option ℕ
  sp : List β

/-- `_estimate` (core.py:120-198). -/
noncomputable def EstCfg.estimate [LinearOrder β] (cfg : EstCfg β Atom) (st : EstState Atom)
    (args : EstArgs β Atom) : Res (EstOut β) × EstState Atom :=
  match cfg.atomMatrix st with
  | (.error e, st) => (.error e, st)
  | (.ok A, st) =>
    let sp := args.fsp A
    let shape := cfg.grid.shape
    if sp.length ≠ shape.prod then (.error .valueError, st)
    else
      match topPeaks cfg.peakFinder cfg.argsort shape sp args.k with
      | .error e => (.error e, st)
      | .ok none => (.ok ⟨false, none, sp⟩, st)
      | .ok (some flat) =>
        match cfg.gridPlacement st with
        | (.error e, st) => (.error e, st)
        | (.ok r, st) =>
          match st.heap.getitem r (.ints (flat.map fun i : ℕ => (i : ℤ))) with
          | (.error e, h) => (.error e, { st with heap := h })
          | (.ok (.item _), h) => (.error .typeError, { st with heap := h })
          | (.ok (.obj est), h) =>
            if args.refine then
              match refineEstimates cfg.intGrid (fun rows => args.fsp (cfg.compute rows)) (cfg.curGrid st)
                  (flat.map (unravelIdx shape)) args.density args.iters est h with
              | (.error e, h') => (.error e, { st with heap := h' })
              | (.ok _, h') => (.ok ⟨true, some est, sp⟩, { st with heap := h' })
            else (.ok ⟨true, some est, sp⟩, { st with heap := h })

/-- What a caller can observe of a result right after the call.
[no code; what core.py:170-198 returns, dereferenced] -/
def EstOut.observe (o : EstOut β) (st : EstState Atom) :
    Bool × Option (Option (List (List ℝ) × String)) × List β :=
  (o.resolved, o.est.map fun r => st.heap.view r, o.sp)

/-- The observable result of an `_estimate` call.
[no code; core.py:120-198 followed by reading the result] -/
noncomputable def EstCfg.observe [LinearOrder β] (cfg : EstCfg β Atom) (st : EstState Atom)
    (args : EstArgs β Atom) : Res (Bool × Option (Option (List (List ℝ) × String)) × List β) :=
  match cfg.estimate st args with
  | (.error e, _) => .error e
  | (.ok o, st') => .ok (o.observe st')

/-- Steps of a program using one estimator: calls, and writes of the user into the locations of the
`n`-th placement returned so far.
[no code; a client of core.py:120-198] -/
inductive EstOp (β Atom : Type) where
  | estimate (args : EstArgs β Atom)
  | userWrite (n i : ℕ) (v : List ℝ)

/-- Run a program; the second component collects the references of the returned placements.
[no code; a client of core.py:120-198] -/
noncomputable def EstCfg.step [LinearOrder β] (cfg : EstCfg β Atom)
    (s : EstState Atom × List ℕ) : EstOp β Atom → EstState Atom × List ℕ
  | .estimate args =>
    match cfg.estimate s.1 args with
    | (.ok ⟨_, some r, _⟩, st') => (st', s.2 ++ [r])
    | (_, st') => (st', s.2)
  | .userWrite n i v =>
    match s.2[n]? with
    | some r => ({ s.1 with heap := s.1.heap.write r i v }, s.2)
    | none => s

/-- Run a program from the initial state.
[no code; a client of core.py:120-198] -/
noncomputable def EstCfg.run [LinearOrder β] (cfg : EstCfg β Atom) (ops : List (EstOp β Atom)) :
    EstState Atom × List ℕ :=
  ops.foldl cfg.step (cfg.init, [])

end Doa
