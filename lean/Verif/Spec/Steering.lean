import Mathlib.Data.Matrix.Diagonal
import Mathlib.Data.Matrix.Mul
import Verif.Model.Steering

/-! # Vocabulary for statements about steering matrices -/

namespace Doa.Spec
open Complex Matrix

/-- The matrix by which a perturbation multiplies the steering matrix from the left. -/
noncomputable def factor (m : ℕ) : Perturbation → Matrix (Fin m) (Fin m) ℂ
  | .gain g _ => Matrix.diagonal fun i => 1 + ((g.getD i 0 : ℝ) : ℂ)
  | .phase g _ => Matrix.diagonal fun i => Complex.exp (I * ((g.getD i 0 : ℝ) : ℂ))
  | .coupling C _ => Matrix.of fun i j => C.at0 i j
  | _ => 1

/-- The product of all factors, the perturbation added first acting first. -/
noncomputable def totalFactor (m : ℕ) (ps : List Perturbation) : Matrix (Fin m) (Fin m) ℂ :=
  ps.foldl (fun F p => factor m p * F) 1

/-- The ideal steering matrix `exp(j D)` of a phase delay matrix, with rows renumbered to `m`. -/
noncomputable def ideal {m' m k : ℕ} (h : m' = m) (D : Fin m' → Fin k → ℝ) :
    Matrix (Fin m) (Fin k) ℂ :=
  fun i c => Complex.exp (I * ((D (Fin.cast h.symm i) c : ℝ) : ℂ))

/-- Its derivative matrix `exp(j D) * (j DD)`. -/
noncomputable def idealDeriv {m' m k : ℕ} (h : m' = m) (D DD : Fin m' → Fin k → ℝ) :
    Matrix (Fin m) (Fin k) ℂ :=
  fun i c => Complex.exp (I * ((D (Fin.cast h.symm i) c : ℝ) : ℂ)) *
    (I * ((DD (Fin.cast h.symm i) c : ℝ) : ℂ))

/-- Entry `(i, c)` of block `l` of the steering matrix a call returns (0 if it raises). -/
noncomputable def entryOf {n m k : ℕ} (r : Res (Steering n m k)) (l : Fin n) (i : Fin m)
    (c : Fin k) : ℂ :=
  match r with
  | .ok s => s.A l i c
  | .error _ => 0

/-- `L'` is `L` with every sensor moved by `t`. -/
def Translated (L L' : Mat ℝ) (t : ℕ → ℝ) : Prop :=
  L'.nrows = L.nrows ∧ L'.ncols = L.ncols ∧
  ∀ i j, i < L.nrows → j < L.ncols → L'.at0 i j = L.at0 i j + t j

/-- `L'` is `L` with zero columns appended. -/
def Padded (L L' : Mat ℝ) : Prop :=
  L'.nrows = L.nrows ∧ L.ncols ≤ L'.ncols ∧ ∀ i j, i < L.nrows → L'.at0 i j = L.at0 i j

end Doa.Spec
