import Mathlib.LinearAlgebra.Matrix.NonsingularInverse
import Mathlib.Data.Matrix.Basis
import Mathlib.Analysis.Complex.Basic

/-! # Vocabulary for the error covariance of coarray MUSIC -/

namespace Doa.Spec

open Matrix

variable {m v k : ℕ}

/-- Second-order statistics of the sample covariance `R̂` of circular Gaussian snapshots with covariance `R`:
one snapshot `y` gives the deviation `δ = y yᴴ - R` with `E[conj(δ r c) δ r' c'] = R c c' * R r' r`. For linear
functionals `f`, `g` of the deviation this is `E[conj(f δ) (g δ)]`; for `n` independent snapshots it is divided by
`n`. -/
noncomputable def snapshotCov (R : Matrix (Fin m) (Fin m) ℂ) (f g : Matrix (Fin m) (Fin m) ℂ → ℂ) : ℂ :=
  ∑ r, ∑ c, ∑ r', ∑ c', star (f (single r c 1)) * g (single r' c' 1) * (R c c' * R r' r)

/-- The left inverse `(Aᴴ A)⁻¹ Aᴴ`. -/
noncomputable def leftInv (A : Matrix (Fin v) (Fin k) ℂ) : Matrix (Fin k) (Fin v) ℂ := (Aᴴ * A)⁻¹ * Aᴴ

/-- The projection onto the orthogonal complement of the columns of `A`. -/
noncomputable def complProj (A : Matrix (Fin v) (Fin k) ℂ) : Matrix (Fin v) (Fin v) ℂ := 1 - A * leftInv A

/-- The first-order error of the `i`-th DOA estimate of MUSIC when the covariance handed to it deviates by `T`:
`A` holds the steering vectors of the (virtual) array, `D` their derivatives, `p` the source powers. -/
noncomputable def musicError (A D : Matrix (Fin v) (Fin k) ℂ) (p : Fin k → ℝ) (i : Fin k) (T : Matrix (Fin v) (Fin v) ℂ) : ℂ :=
  (leftInv A *ᵥ (T *ᵥ (complProj A *ᵥ D.col i))) i /
    ((p i : ℂ) * ((star (complProj A *ᵥ D.col i) ⬝ᵥ (complProj A *ᵥ D.col i)).re : ℂ))

end Doa.Spec
