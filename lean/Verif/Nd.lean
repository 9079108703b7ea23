import Mathlib.Algebra.BigOperators.Fin
import Mathlib.Algebra.Field.Basic
import Verif.Py

/-!
# Dynamically shaped numpy arrays

Only the shapes the modelled code can tell apart are represented.
-/

/-- A 2-D ndarray: the number of columns is kept even when there are no rows. -/
structure Mat (α : Type _) where
  ncols : ℕ
  rows : List (Fin ncols → α)

namespace Mat
variable {α : Type _}

/-- `x.shape[0]`. -/
def nrows (M : Mat α) : ℕ := M.rows.length

/-- Entry `M[i, j]` when both indices are in range, `none` otherwise. -/
def get? (M : Mat α) (i j : ℕ) : Option α :=
  (M.rows[i]?).bind fun r => if h : j < M.ncols then some (r ⟨j, h⟩) else none

/-- Coordinate `j` of row `i`, reading missing coordinates as zero (a sensor of a linear array has
`y = z = 0`). -/
def at0 [Zero α] (M : Mat α) (i j : ℕ) : α := (M.get? i j).getD 0

/-- `np.array(l).reshape((-1, 1))`: a single column. -/
def col (l : List α) : Mat α := ⟨1, l.map fun x _ => x⟩

/-- `np.eye(n) * d` for a 1-D `d` of length `n`. -/
def eyeMul [MulZeroOneClass α] (d : List α) : Mat α :=
  ⟨d.length, List.ofFn fun i : Fin d.length => fun j => (if i = j then 1 else 0) * d[j]⟩

/-- `A @ B` for 2-D operands; numpy raises `ValueError` on a mismatch of the inner dimensions. -/
def matmul [NonUnitalNonAssocSemiring α] (A B : Mat α) : Res (Mat α) :=
  if h : A.ncols = B.nrows then
    .ok ⟨B.ncols, A.rows.map fun r j => ∑ k : Fin A.ncols, r k * (B.rows[k.1]'(h ▸ k.2 : k.1 < B.nrows)) j⟩
  else .error .valueError

/-- Elementwise conversion (`astype`). -/
def map {β : Type _} (f : α → β) (M : Mat α) : Mat β := ⟨M.ncols, M.rows.map fun r j => f (r j)⟩

end Mat

/-- An ndarray as passed to a constructor: number of dimensions plus contents where the code looks
at them.  Arrays with three or more dimensions are only ever rejected by the modelled code. -/
inductive Nd (α : Type _) where
  | scalar (x : α)
  | vec (l : List α)
  | mat (M : Mat α)
  | tensor

/-- `np.linspace(start, stop, num)` (endpoint included): `start + i * (stop - start) / (num - 1)`;
for `num = 1` the only point is `start`. -/
def linspace {K : Type _} [Field K] (start stop : K) (num : ℕ) : List K :=
  (List.range num).map fun i : ℕ => start + (i : K) * ((stop - start) / ((num - 1 : ℕ) : K))
