import Mathlib.Algebra.Order.Ring.Int
import Verif.Py

/-!
# Source placement objects with their location buffers

`SourcePlacement.__getitem__` (model/sources.py:27-61) uses `copy.copy`, which shares the location
buffer, and then replaces it.  Placements and buffers live in a heap.  Rows of a buffer (numbers or
pairs) are of an arbitrary type `α`.
-/

namespace Doa

/-- The argument of `__getitem__`: an integer, a slice `start:stop:step`, a list or 1-D array of
integers, a list or 1-D array of booleans, an array with another number of dimensions, anything else.
(A non-integer scalar is not modelled.)
[model/sources.py:27-58] -/
inductive SKey where
  | scalar (i : ℤ)
  | slice (start stop step : Option ℤ)
  | ints (l : List ℤ)
  | mask (l : List Bool)
  | ndarrayOther
  | other

/-- Python's index normalisation: `-n ≤ i < n`, negative indices count from the end.
[numpy/Python indexing in model/sources.py:47, 52, 56] -/
def pyIndex (n : ℕ) (i : ℤ) : Res ℕ :=
  if 0 ≤ i ∧ i < n then .ok i.toNat
  else if -(n : ℤ) ≤ i ∧ i < 0 then .ok (i + n).toNat
  else .error .indexError

/-- Python's `slice(start, stop, step).indices(n)`, as the list of selected positions.
[Python slicing in model/sources.py:50] -/
def sliceIndices (n : ℕ) (start stop step : Option ℤ) : Res (List ℕ) :=
  let st := step.getD 1
  if st = 0 then .error .valueError
  else
    let lower : ℤ := if st < 0 then -1 else 0
    let upper : ℤ := if st < 0 then (n : ℤ) - 1 else n
    let adjust (v : ℤ) : ℤ := if v < 0 then max (v + n) lower else min v upper
    let a : ℤ := start.elim (if st < 0 then upper else lower) adjust
    let b : ℤ := stop.elim (if st < 0 then lower else upper) adjust
    let len : ℕ := if st < 0 then ((a - b + (-st) - 1) / (-st)).toNat
      else ((b - a + st - 1) / st).toNat
    .ok ((List.range len).map fun t : ℕ => (a + (t : ℤ) * st).toNat)

/-- The positions with a `true` in the mask.
[numpy indexing in model/sources.py:56] -/
def maskIndices (l : List Bool) : List ℕ :=
  (List.range l.length).filter fun i => l.getD i false

/-- The positions selected by a non-scalar key out of `n` (model/sources.py:48-58). -/
def SKey.select (n : ℕ) : SKey → Res (List ℕ)
  | .scalar _ => .error .keyError
  | .slice a b c => sliceIndices n a b c
  | .ints l => l.mapM (pyIndex n)
  | .mask l => if l.length = n then .ok (maskIndices l) else .error .indexError
  | .ndarrayOther => .error .valueError
  | .other => .error .keyError

/-- A placement object.
[model/sources.py:19-21] -/
structure SrcObj where
  buf : ℕ
  unit : String

/-- The heap of placements.
[memory behind model/sources.py:19-61] -/
structure SHeap (α : Type) where
  bufs : List (List α) := []
  objs : List SrcObj := []

/-- What `__getitem__` returns: a location or a reference to a new placement.
[model/sources.py:47, 61] -/
inductive GetRes (α : Type) where
  | item (x : α)
  | obj (r : ℕ)

namespace SHeap
variable {α : Type}

/-- `(locations, units)` of the placement at reference `r`.
[model/sources.py:68-91] -/
def view (h : SHeap α) (r : ℕ) : Option (List α × String) :=
  (h.objs[r]?).bind fun o => (h.bufs[o.buf]?).map fun b => (b, o.unit)

/-- A constructor call with a list (or an array nobody else holds): new buffer, new object.
[model/sources.py:19-21 through the constructors] -/
def create (h : SHeap α) (b : List α) (unit : String) : SHeap α :=
  { bufs := h.bufs ++ [b], objs := h.objs ++ [{ buf := h.bufs.length, unit := unit }] }

/-- `sources[key]` (model/sources.py:45-61). `copy.copy` first shares the buffer, then `_locations` of
the copy is replaced by the (freshly allocated) selection. A scalar key on a placement with 2-D
locations returns a view of a row in numpy; here the value is returned. -/
def getitem (h : SHeap α) (r : ℕ) (key : SKey) : Res (GetRes α) × SHeap α :=
  match h.view r with
  | none => (.error .attributeError, h)
  | some (locs, unit) =>
    match key with
    | .scalar i =>
      match pyIndex locs.length i with
      | .error e => (.error e, h)
      | .ok j =>
        match locs[j]? with
        | some x => (.ok (.item x), h)
        | none => (.error .indexError, h)
    | key =>
      match key.select locs.length with
      | .error e => (.error e, h)
      | .ok idx =>
        (.ok (.obj h.objs.length), h.create (idx.filterMap fun i => locs[i]?) unit)

/-- `sources.locations[i] = v`.
[no code; a client writing into model/sources.py:68-76] -/
def write (h : SHeap α) (r : ℕ) (i : ℕ) (v : α) : SHeap α :=
  match h.objs[r]? with
  | none => h
  | some o => { h with bufs := h.bufs.modify o.buf fun b => b.set i v }

end SHeap

/-- One step of a program using placements.
[no code; a client of model/sources.py:19-91] -/
inductive SrcOp (α : Type) where
  | create (b : List α) (unit : String)
  | getitem (r : ℕ) (key : SKey)
  | write (r : ℕ) (i : ℕ) (v : α)

/-- Execute one step, ignoring exceptions.
[no code; a client of model/sources.py:19-91] -/
def SrcOp.step {α : Type} (h : SHeap α) : SrcOp α → SHeap α
  | .create b u => h.create b u
  | .getitem r key => (h.getitem r key).2
  | .write r i v => h.write r i v

/-- Execute a program.
[no code; a client of model/sources.py:19-91] -/
def SrcOp.run {α : Type} (h : SHeap α) (ops : List (SrcOp α)) : SHeap α := ops.foldl SrcOp.step h

end Doa
