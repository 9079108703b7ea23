import Mathlib.Data.Matrix.Mul
import Mathlib.LinearAlgebra.Matrix.ConjTranspose
import Mathlib.Analysis.Complex.Basic

/-! # Vocabulary for statements about subspace methods -/

namespace Doa.Spec

open Matrix

variable {m k : ℕ}

/-- The covariance model with a general source covariance `P`. -/
noncomputable def covModel (A : Matrix (Fin m) (Fin k) ℂ) (P : Matrix (Fin k) (Fin k) ℂ) (σ : ℝ) :
    Matrix (Fin m) (Fin m) ℂ :=
  A * P * Aᴴ + (σ : ℂ) • (1 : Matrix (Fin m) (Fin m) ℂ)

/-- The vector `[1, z, z², ...]` of length `m`: the steering vector of a ULA with phase factor `z`. -/
def ulaVec (m : ℕ) (z : ℂ) : Fin m → ℂ := fun i => z ^ i.1

/-- The matrix whose columns are `ulaVec m (z c)`. -/
def ulaMat (m : ℕ) (z : Fin k → ℂ) : Matrix (Fin m) (Fin k) ℂ := fun i c => z c ^ i.1

end Doa.Spec
