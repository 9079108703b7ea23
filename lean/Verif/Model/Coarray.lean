import Mathlib.Data.List.Sort
import Mathlib.Data.Matrix.Basic
import Mathlib.Data.Complex.BigOperators
import Mathlib.LinearAlgebra.Matrix.ConjTranspose
import Verif.Model.Arrays

/-!
# Model of `doatools/model/coarray.py` and `doatools/estimation/coarray.py`
-/

namespace Doa

/-- `compute_location_differences` (model/coarray.py:5-21):
`D = loc.reshape((1,m,d)) - loc.reshape((m,1,d))`, i.e. `D[p,q] = loc[q] - loc[p]`, flattened
row-major over `(p, q)`. Rows are the elements of the list. -/
def locationDifferences {α : Type _} [Sub α] (loc : List α) : List α :=
  loc.flatMap fun p => loc.map fun q => q - p

/-- The flattened differences of the element indices, `compute_location_differences(..).flatten()`
(model/coarray.py:174). -/
def flatDifferences (indices : Mat ℤ) : List ℤ :=
  (locationDifferences indices.rows).flatMap fun r => List.ofFn r

/-- Loop of `_build_map` (model/coarray.py:173-179): `diff -> [positions]` in insertion order;
`i` is the enumeration counter. -/
def buildMapLoop : PyDict ℤ (List ℕ) → ℕ → List ℤ → PyDict ℤ (List ℕ)
  | d, _, [] => d
  | d, i, x :: xs =>
    match d.get? x with
    | some l => buildMapLoop (d.set x (l ++ [i])) (i + 1) xs
    | none => buildMapLoop (d.set x [i]) (i + 1) xs

/-- A `WeightFunction1D` object (model/coarray.py:46-51, 171-185); `mv` is the cache `_mv`. -/
structure WeightFunction where
  m : ℕ
  mv : Option ℕ
  indexMap : PyDict ℤ (List ℕ)
  differences : List ℤ

/-- `WeightFunction1D.__init__` (model/coarray.py:46-51) for a grid based array; non grid-based
arrays are rejected by the same guard. -/
def WeightFunction.init (a : GridArray) : Res WeightFunction :=
  if a.ndim ≠ 1 then .error .valueError
  else
    let map := buildMapLoop [] 0 (flatDifferences a.elementIndices)
    .ok { m := a.size, mv := none, indexMap := map,
          differences := map.keys.mergeSort (fun x y => decide (x ≤ y)) }

namespace WeightFunction

/-- `weight_of` / `__call__` (model/coarray.py:53-55, 77-82). -/
def weightOf (w : WeightFunction) (diff : ℤ) : ℕ :=
  match w.indexMap.get? diff with
  | some l => l.length
  | none => 0

/-- `indices_of` (model/coarray.py:84-95); the returned list is a copy. -/
def indicesOf (w : WeightFunction) (diff : ℤ) : List ℕ :=
  match w.indexMap.get? diff with
  | some l => l
  | none => []

/-- `__len__` (model/coarray.py:57-59). -/
def len (w : WeightFunction) : ℕ := w.indexMap.length

/-- `weights` (model/coarray.py:69-75). (`KeyError` cannot occur: the differences are the keys.) -/
def weights (w : WeightFunction) : List ℕ := w.differences.map fun x => (w.indicesOf x).length

/-- The `while mv in self._index_map: mv += 1` loop (model/coarray.py:124-126). Terminates because
the dictionary is finite. -/
def countLags (d : PyDict ℤ (List ℕ)) (mv : ℕ) : ℕ :=
  if h : d.contains (mv : ℤ) then countLags d (mv + 1) else mv
termination_by (d.keys.filter fun k => decide ((mv : ℤ) ≤ k)).length
decreasing_by
  have hk : (mv : ℤ) ∈ d.keys := (PyDict.contains_iff d _).1 h
  have hsub : (d.keys.filter fun k => decide (((mv + 1 : ℕ) : ℤ) ≤ k)) =
      (d.keys.filter fun k => decide ((mv : ℤ) ≤ k)).filter
        (fun k => decide (((mv + 1 : ℕ) : ℤ) ≤ k)) := by
    rw [List.filter_filter]
    apply List.filter_congr
    intro x _
    by_cases hx : ((mv + 1 : ℕ) : ℤ) ≤ x
    · have : (mv : ℤ) ≤ x := by push_cast at hx; omega
      simp [hx, this]
    · simp only [hx, decide_false, Bool.false_and]
  rw [hsub]
  apply List.length_filter_lt_length_iff_exists.2
  refine ⟨(mv : ℤ), ?_, ?_⟩
  · simp [List.mem_filter, hk]
  · simp

/-- `get_central_ula_size` (model/coarray.py:97-128): returns the answer and the object with the
updated cache. -/
def centralUlaSize (w : WeightFunction) (excludeNegative : Bool) : ℤ × WeightFunction :=
  let w' : WeightFunction := match w.mv with
    | none => { w with mv := some (countLags w.indexMap 0) }
    | some _ => w
  let mv : ℤ := match w'.mv with | some v => v | none => 0
  (if excludeNegative then mv else mv * 2 - 1, w')

/-- `get_coarray_selection_matrix` (model/coarray.py:130-169) as a list of rows of length `m**2`.
`np.zeros` raises `ValueError` for a negative number of rows (empty array). -/
def selectionMatrix (K : Type _) [Field K] (w : WeightFunction) (excludeNegative : Bool) :
    Res (List (List K)) × WeightFunction :=
  let (mv, w') := w.centralUlaSize true
  let mUla : ℤ := if excludeNegative then mv else 2 * mv - 1
  let first : ℤ := if excludeNegative then 0 else -mv + 1
  if mUla < 0 then (.error .valueError, w')
  else
    (.ok ((List.range mUla.toNat).map fun i : ℕ =>
      let diff := first + (i : ℤ)
      (List.range (w'.m ^ 2)).map fun c : ℕ =>
        if c ∈ w'.indicesOf diff then 1 / ((w'.weightOf diff : ℕ) : K) else 0), w')

end WeightFunction

/-- `vec(x)` (utils/math.py:5-17): stacking the columns. -/
def vecF {α : Type _} {m n : ℕ} (x : Matrix (Fin m) (Fin n) α) : List α :=
  (List.finRange n).flatMap fun j => (List.finRange m).map fun i => x i j

/-- `np.mean` of a list of complex numbers.
[used in estimation/coarray.py:92] -/
noncomputable def meanC (l : List ℂ) : ℂ := l.sum / (l.length : ℂ)

/-- `z` of `CoarrayACMBuilder1D.transform` (estimation/coarray.py:86-92) as a function of the
position `i` (`0 <= i < 2*mv-1`).  Positions handed out by `indices_of` are always inside `r`;
`getD` is only there for totality. -/
noncomputable def virtualObservation (w : WeightFunction) (mv : ℕ) (r : List ℂ) (i : ℕ) : ℂ :=
  meanC ((w.indicesOf ((i : ℤ) - (mv : ℤ) + 1)).map fun k => r.getD k 0)

/-- The two ways of augmenting (estimation/coarray.py:93-103).
'ss': `Ra += outer(z[i:i+mv], conj(z[i:i+mv]))` for `i < mv`, then `Ra /= mv`.
'da': `Ra[:, -(i+1)] = z[i:i+mv]`, i.e. column `c` (with `i = mv-1-c`) is `z[mv-1-c : ]`. -/
noncomputable def augmentSS (mv : ℕ) (z : ℕ → ℂ) : Matrix (Fin mv) (Fin mv) ℂ :=
  fun r c => (∑ i : Fin mv, z (i.1 + r.1) * (starRingEnd ℂ) (z (i.1 + c.1))) / (mv : ℂ)

/-- See `augmentSS`.
[estimation/coarray.py:93-103] -/
def augmentDA (mv : ℕ) (z : ℕ → ℂ) : Matrix (Fin mv) (Fin mv) ℂ :=
  fun r c => z ((mv - 1 - c.1) + r.1)

/-- A dynamically sized square complex matrix.
[type of the argument and result of estimation/coarray.py:57-103] -/
structure SqMat where
  n : ℕ
  val : Matrix (Fin n) (Fin n) ℂ

/-- `CoarrayACMBuilder1D.transform` (estimation/coarray.py:57-103) for a square `m × m` input (the
size guard on the input is part of this definition). `mv = (mc + 1) // 2`; for an array without
elements `mc = -1`, and `np.zeros((mc,))` raises `ValueError`. -/
noncomputable def acmTransform (w : WeightFunction) {m : ℕ} (R : Matrix (Fin m) (Fin m) ℂ)
    (method : String) : Res SqMat × WeightFunction :=
  if m ≠ w.m then (.error .valueError, w)
  else if ¬ (method = "ss" ∨ method = "da") then (.error .valueError, w)
  else
    let (mc, w') := w.centralUlaSize false
    let mv : ℕ := ((mc + 1) / 2).toNat
    let z := virtualObservation w' mv (vecF R)
    if mc < 0 then (.error .valueError, w')
    else if method = "ss" then (.ok ⟨mv, augmentSS mv z⟩, w') else (.ok ⟨mv, augmentDA mv z⟩, w')

/-- `get_virtual_ula` (estimation/coarray.py:42-55): a ULA with the output size and the `d0` array
of the physical array. Without an explicit name, `'Virtual ULA of ' + self._array.name` raises
`TypeError` when the array has no name. -/
noncomputable def virtualUla (a : GridArray) (w : WeightFunction) (name : Option String) :
    Res GridArray :=
  match name, a.name with
  | some s, _ => ula (w.centralUlaSize true).1.toNat (.vec a.d0) (some s) {}
  | none, some s =>
    ula (w.centralUlaSize true).1.toNat (.vec a.d0) (some ("Virtual ULA of " ++ s)) {}
  | none, none => .error .typeError

end Doa
