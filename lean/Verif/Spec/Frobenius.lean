import Mathlib.Data.Complex.Basic
import Mathlib.Analysis.Complex.Norm
import Mathlib.LinearAlgebra.Matrix.ConjTranspose

/-!
# Distance of matrices
-/

namespace Doa.Spec

/-- The square of the Frobenius norm: the sum of the squared magnitudes of the entries. -/
noncomputable def frobSq {m n : ℕ} (M : Matrix (Fin m) (Fin n) ℂ) : ℝ := ∑ i, ∑ j, ‖M i j‖ ^ 2

end Doa.Spec
