import Mathlib.LinearAlgebra.Matrix.Charpoly.Basic
import Mathlib.LinearAlgebra.Matrix.Charpoly.Eigs
import Mathlib.Analysis.SpecialFunctions.Pow.Real
import Verif.Model.Subspace
import Verif.Model.MathUtils

/-!
# Model of `Esprit1D` (estimation/esprit.py)

`np.linalg.eigh` and `np.linalg.eigvals` are parameters constrained by their contracts; arithmetic is
exact.  `Es1` and `Es2` are overlapping *views* of the eigenvector buffer, and the row weights are
applied to both views in place, so the model keeps one buffer.
-/

namespace Doa

open Matrix

/-- `get_default_row_weights(m)` (estimation/esprit.py:5-20), before the final `np.sqrt`. -/
noncomputable def rawRowWeights (m : ℕ) : List ℝ :=
  let w := (List.range (m / 2)).foldl
    (fun w i => (w.set i (i + 1 : ℝ)).set (m - i - 1) (i + 1 : ℝ)) (List.replicate m (0 : ℝ))
  if m % 2 = 1 then w.set (m / 2) ((m + 1 : ℝ) / 2) else w

/-- `get_default_row_weights(m)` (esprit.py:5-20). -/
noncomputable def getDefaultRowWeights (m : ℕ) : List ℝ := (rawRowWeights m).map Real.sqrt

/-- The argument `row_weights`: a string, a real vector, an ndarray that is not 1-D, or something
else.
[estimation/esprit.py:104-115] -/
inductive RowWeights where
  | str (s : String)
  | vec (w : List ℝ)
  | ndarrayOther
  | other

/-- Resolution of `row_weights` (esprit.py:104-115); `none` is Python's `None`. -/
noncomputable def resolveWeights (rw : RowWeights) (mReduced : ℕ) : Res (Option (List ℝ)) :=
  match rw with
  | .str s =>
    if s = "none" then .ok none
    else if s = "default" then .ok (some (getDefaultRowWeights mReduced))
    else .error .valueError
  | .vec w => if w.length ≠ mReduced then .error .valueError else .ok (some w)
  | .ndarrayOther => .error .valueError
  | .other => .error .valueError

/-- `buf[start:start+len(w), :] *= w[:, np.newaxis]`, in place (esprit.py:124-125). -/
noncomputable def scaleRows {m k : ℕ} (buf : Matrix (Fin m) (Fin k) ℂ) (start : ℕ) (w : List ℝ) :
    Matrix (Fin m) (Fin k) ℂ := fun r c =>
  if start ≤ r.1 then
    match w[r.1 - start]? with
    | some x => buf r c * (x : ℂ)
    | none => buf r c
  else buf r c

/-- The buffer `E[:, -k:]` for `1 ≤ k ≤ m` (esprit.py:117-118). -/
def signalCols {m k : ℕ} (E : Matrix (Fin m) (Fin m) ℂ) (hk : k ≤ m) : Matrix (Fin m) (Fin k) ℂ :=
  fun r c => E r ⟨m - k + c.1, by omega⟩

/-- The buffer after the two in-place multiplications (esprit.py:123-125). -/
noncomputable def applyWeights {m k : ℕ} (buf : Matrix (Fin m) (Fin k) ℂ) (d : ℕ) (rw : Option (List ℝ)) :
    Matrix (Fin m) (Fin k) ℂ :=
  match rw with
  | none => buf
  | some w => scaleRows (scaleRows buf 0 w) d w

/-- The view `Es[:-d, :]` (esprit.py:120). -/
def es1View {m k : ℕ} (buf : Matrix (Fin m) (Fin k) ℂ) (d : ℕ) : Matrix (Fin (m - d)) (Fin k) ℂ :=
  fun r c => buf ⟨r.1, by omega⟩ c

/-- The view `Es[d:, :]` (esprit.py:121). -/
def es2View {m k : ℕ} (buf : Matrix (Fin m) (Fin k) ℂ) (d : ℕ) : Matrix (Fin (m - d)) (Fin k) ℂ :=
  fun r c => buf ⟨r.1 + d, by omega⟩ c

/-- `np.hstack((Es1, Es2))` (esprit.py:129). -/
def hstack2 {n k : ℕ} (a b : Matrix (Fin n) (Fin k) ℂ) : Matrix (Fin n) (Fin (k + k)) ℂ :=
  fun i j => Fin.addCases (a i) (b i) j

/-- Total least squares (esprit.py:127-136). -/
noncomputable def phiTLS (eigh : Eigh) {n k : ℕ} (a b : Matrix (Fin n) (Fin k) ℂ) :
    Res (Matrix (Fin k) (Fin k) ℂ) :=
  let C := hstack2 a b
  let V : Matrix (Fin (k + k)) (Fin (k + k)) ℂ := fun i j => (eigh.run (Cᴴ * C)).2 i j.rev
  let V12 : Matrix (Fin k) (Fin k) ℂ := fun i j => V (Fin.castAdd k i) (Fin.natAdd k j)
  let V22 : Matrix (Fin k) (Fin k) ℂ := fun i j => V (Fin.natAdd k i) (Fin.natAdd k j)
  match npSolve V22ᵀ V12ᵀ with
  | .error e => .error e
  | .ok X => .ok (-Xᵀ)

/-- Least squares (esprit.py:137-140). -/
noncomputable def phiLS {n k : ℕ} (a b : Matrix (Fin n) (Fin k) ℂ) : Res (Matrix (Fin k) (Fin k) ℂ) :=
  npSolve (aᴴ * a) (aᴴ * b)

/-- An implementation of `np.linalg.eigvals` satisfying its contract: the eigenvalues with algebraic
multiplicity, in some order.
[used in estimation/esprit.py:144] -/
structure NpEigvals where
  run : ∀ {n : ℕ}, Matrix (Fin n) (Fin n) ℂ → Fin n → ℂ
  spec : ∀ {n : ℕ} (M : Matrix (Fin n) (Fin n) ℂ),
    Multiset.map (run M) Finset.univ.val = M.charpoly.roots

/-- `Esprit1D(wavelength).estimate(R, k, d0, displacement, formulation, row_weights, unit)`
(esprit.py:39-145) for a square `R` and `k ≥ 1`; `resolved` is always `True` and not modelled.
(For `k = 0` the code reads `E[:, -0:]`, all columns; not modelled.) -/
noncomputable def espritEstimate (eigh : Eigh) (eigvals : NpEigvals) (wavelength : ℝ) {m : ℕ}
    (R : Matrix (Fin m) (Fin m) ℂ) (k : ℕ) (d0 : Option ℝ) (displacement : ℤ) (formulation : String)
    (rowWeights : RowWeights) (unit : String) : Res (FF1D k) :=
  if displacement < 1 then .error .valueError
  else
    match ensureNResolvable k ((m : ℤ) - displacement) with
    | .error e => .error e
    | .ok _ =>
      let d := d0.getD (wavelength / 2)
      let disp := displacement.toNat
      match resolveWeights rowWeights (m - disp) with
      | .error e => .error e
      | .ok w =>
        if hk : k ≤ m then
          let buf := applyWeights (signalCols (eigh.run R).2 hk) disp w
          let phi :=
            if formulation = "tls" then phiTLS eigh (es1View buf disp) (es2View buf disp)
            else if formulation = "ls" then phiLS (es1View buf disp) (es2View buf disp)
            else .error .valueError
          match phi with
          | .error e => .error e
          | .ok Phi => FF1D.fromZ (eigvals.run Phi) wavelength (d * (disp : ℝ)) unit
        else .error .valueError

end Doa
