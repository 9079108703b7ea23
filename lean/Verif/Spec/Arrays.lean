import Verif.Model.Arrays

/-!
# Vocabulary for statements about array constructors
-/

namespace Doa.Spec

/-- The grid arguments fit together: a scalar spacing always fits, a spacing list or a basis
matrix must have one entry/row per index column; the resulting space has at most 3 dimensions. -/
def GridArgsMatch (idx : Mat ℤ) : GridSpec → Prop
  | .d0 (.scalar _) => idx.ncols ≤ 3
  | .d0 (.vec l) => l.length = idx.ncols ∧ idx.ncols ≤ 3
  | .d0 .nd => False
  | .bases B => B.nrows = idx.ncols ∧ B.ncols ≤ 3

/-- The basis vectors `v_k` described by the arguments: rows of `bases`, or `d0[k]` times the
`k`-th unit vector. Coordinate `j` of basis vector `k`. -/
def basisCoord (spec : GridSpec) (k j : ℕ) : ℝ :=
  match spec with
  | .d0 (.scalar x) => if k = j then x else 0
  | .d0 (.vec l) => if k = j then l.getD k 0 else 0
  | .d0 .nd => 0
  | .bases B => B.at0 k j

/-- Dimension of the space spanned by the grid arguments. -/
def gridDim (idx : Mat ℤ) : GridSpec → ℕ
  | .bases B => B.ncols
  | _ => idx.ncols

end Doa.Spec
