import Mathlib.Data.Matrix.Basis
import Mathlib.Analysis.Matrix.Spectrum
import Mathlib.LinearAlgebra.Matrix.NonsingularInverse
import Mathlib.Logic.Equiv.Fin.Basic
import Verif.Py

/-!
# Model of `doatools/utils/math.py`: `vec`, `khatri_rao`, `projm`, `cartesian`

Exact complex arithmetic. `unique_rows` is in `Model/UniqueRows.lean`; `randcn` draws random numbers
and is modelled in `Model/Signals.lean` through the drawn arrays.
-/

namespace Doa

open Matrix

/-! ## Flattened indices -/

/-- `np.ravel_multi_index` for one coordinate in C order: the flat index of `coord` in an array of
the given shape, `coord[0] * (d_1 d_2 ...) + coord[1] * (d_2 ...) + ...`.
[used in estimation/core.py:186] -/
def ravelIdx : List ℕ → List ℕ → ℕ
  | _ :: ns, i :: is => i * ns.prod + ravelIdx ns is
  | _, _ => 0

/-- `np.ravel_multi_index` with its checks: wrong arity or an index out of range raises
`ValueError`.
[used in estimation/core.py:186] -/
def ravelMultiIndex (shape coord : List ℕ) : Res ℕ :=
  if shape.length = coord.length ∧ (shape.zip coord).all (fun p => decide (p.2 < p.1)) then
    .ok (ravelIdx shape coord)
  else .error .valueError

/-- `np.unravel_index` for one flat index in C order.
[used in estimation/core.py:192, 234] -/
def unravelIdx : List ℕ → ℕ → List ℕ
  | [], _ => []
  | _ :: ns, r => r / ns.prod :: unravelIdx ns (r % ns.prod)

/-- `cartesian(*xi)` (utils/math.py:58-72). `np.meshgrid(..., indexing='ij')` builds, for every
axis `j`, the array of shape `(len(x1), ..., len(xd))` with entries `xj[i_j]`; `flatten` reads it in
C order, i.e. at the coordinate `unravel(r)` for `r = 0, 1, ...`; `vstack(...).T` collects one column
per axis. Without arguments `vstack` raises `ValueError`. -/
def cartesian {α : Type _} [Zero α] (axes : List (List α)) : Res (List (List α)) :=
  match axes with
  | [] => .error .valueError
  | _ :: _ =>
    let shape := axes.map List.length
    .ok ((List.range shape.prod).map fun r =>
      List.zipWith (fun x i => x.getD i 0) axes (unravelIdx shape r))

/-! ## Matrices -/

/-- `vec(x)` (utils/math.py:5-17): `reshape((-1, 1), order='F')`, the columns stacked. -/
def vec {α : Type _} {m n : ℕ} (x : Matrix (Fin m) (Fin n) α) : Fin (n * m) → α :=
  fun r => x (finProdFinEquiv.symm r).2 (finProdFinEquiv.symm r).1

/-- `np.outer(a, b).flatten()` (utils/math.py:36), C order. -/
def outerFlat {n1 n2 : ℕ} (a : Fin n1 → ℂ) (b : Fin n2 → ℂ) : Fin (n1 * n2) → ℂ :=
  fun r => a (finProdFinEquiv.symm r).1 * b (finProdFinEquiv.symm r).2

/-- `khatri_rao(a, b)` (utils/math.py:27-37): the columns of a zero matrix are overwritten one by
one. -/
def khatriRao {n1 k1 n2 k2 : ℕ} (a : Matrix (Fin n1) (Fin k1) ℂ) (b : Matrix (Fin n2) (Fin k2) ℂ) :
    Res (Matrix (Fin (n1 * n2)) (Fin k1) ℂ) :=
  if h : k1 ≠ k2 then .error .valueError
  else
    .ok ((List.finRange k1).foldl
      (fun c i => c.updateCol i
        (outerFlat (fun r => a r i) (fun r => b r (Fin.cast (not_not.1 h) i)))) 0)

/-- `np.linalg.solve(M, B)` in exact arithmetic: `LinAlgError` for a singular matrix.
[used in utils/math.py:39-56, performance/crb.py:67, 71, performance/mse.py:66, 70] -/
noncomputable def npSolve {𝕜 : Type _} [RCLike 𝕜] {n k : ℕ} (M : Matrix (Fin n) (Fin n) 𝕜)
    (B : Matrix (Fin n) (Fin k) 𝕜) : Res (Matrix (Fin n) (Fin k) 𝕜) :=
  open Classical in
  if IsUnit M.det then .ok (M⁻¹ * B) else .error .linAlgError

/-- `np.linalg.pinv(A)` in exact arithmetic (no cutoff of small singular values): the Moore-Penrose
inverse, written through the eigendecomposition `Aᴴ A = U diag(λ) Uᴴ` as
`U diag(λ⁺) Uᴴ Aᴴ`.
[used in utils/math.py:39-56, performance/mse.py:152] -/
noncomputable def npPinv {𝕜 : Type _} [RCLike 𝕜] {m k : ℕ} (A : Matrix (Fin m) (Fin k) 𝕜) :
    Matrix (Fin k) (Fin m) 𝕜 :=
  let hA := isHermitian_conjTranspose_mul_self A
  (hA.eigenvectorUnitary : Matrix (Fin k) (Fin k) 𝕜) *
    diagonal (fun i => ((hA.eigenvalues i)⁻¹ : 𝕜)) *
    (hA.eigenvectorUnitary : Matrix (Fin k) (Fin k) 𝕜)ᴴ * Aᴴ

/-- `projm(A, use_pinv)` (utils/math.py:39-56). For real matrices (`𝕜 = ℝ`) the conjugate transpose
is the transpose, which is the other branch of the code. -/
noncomputable def projm {𝕜 : Type _} [RCLike 𝕜] {m k : ℕ} (A : Matrix (Fin m) (Fin k) 𝕜)
    (usePinv : Bool) : Res (Matrix (Fin m) (Fin m) 𝕜) :=
  if usePinv then .ok (A * npPinv A)
  else
    match npSolve (Aᴴ * A) Aᴴ with
    | .error e => .error e
    | .ok X => .ok (A * X)

end Doa
