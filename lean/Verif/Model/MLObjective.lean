import Mathlib.LinearAlgebra.Matrix.PosDef
import Mathlib.Analysis.SpecialFunctions.Log.Basic
import Verif.Model.Subspace
import Verif.Model.MathUtils
import Verif.Model.Esprit

/-!
# Model of the ML objectives (estimation/ml.py:8-16, 240-258, 299-305, 336-362)

Exact arithmetic. `np.linalg.slogdet` is `(det/|det|, log|det|)`.
-/

namespace Doa

open Matrix

/-- `CMLEstimator._eval_nll` for the steering matrix `A` (ml.py:303-305). -/
noncomputable def cmlObjective {m k : ℕ} (A : Matrix (Fin m) (Fin k) ℂ) (R : Matrix (Fin m) (Fin m) ℂ) : Res ℝ :=
  match projm A true with
  | .error e => .error e
  | .ok PA => .ok (trace ((1 - PA) * R)).re

/-- `WSFEstimator._prepare_m` (ml.py:336-350) for `1 ≤ k ≤ m` (for `k = 0` the slices `[-0:]` and
`[:-0]` select everything and nothing; not modelled).
A vanishing signal eigenvalue gives NaN in numpy and the weight 0 here. -/
noncomputable def wsfM (eigh : Eigh) {m : ℕ} (R : Matrix (Fin m) (Fin m) ℂ) {k : ℕ} (hk : k ≤ m) :
    Matrix (Fin m) (Fin m) ℂ :=
  let v := (eigh.run R).1
  let Es := signalCols (eigh.run R).2 hk
  let vs : Fin k → ℝ := fun c => v ⟨m - k + c.1, by omega⟩
  let sigmaEst := (∑ j : Fin (m - k), v ⟨j.1, by omega⟩) / ((m : ℝ) - (k : ℝ))
  let w : Fin k → ℝ := fun c => (vs c - sigmaEst) * (vs c - sigmaEst) / vs c
  (Matrix.of fun i c => Es i c * (w c : ℂ)) * Esᴴ

/-- `WSFEstimator._eval_nll` (ml.py:359-362). -/
noncomputable def wsfObjective {m k : ℕ} (A : Matrix (Fin m) (Fin k) ℂ) (M : Matrix (Fin m) (Fin m) ℂ) : Res ℝ :=
  match projm A true with
  | .error e => .error e
  | .ok PA => .ok (trace ((1 - PA) * M)).re

/-- `AMLEstimator._eval_nll` (ml.py:243-258) for `k` sources. After `H += H^H; H *= 0.5` the determinant
is real, and `sgn <= 0` (numpy compares the real part first) means that it is not positive. -/
noncomputable def amlObjective {m k : ℕ} (A : Matrix (Fin m) (Fin k) ℂ) (R : Matrix (Fin m) (Fin m) ℂ) :
    Res (WithTop ℝ) :=
  match projm A true with
  | .error e => .error e
  | .ok PA =>
    let PPA := 1 - PA
    let H := PA * R * PA + (trace (PPA * R) / ((m : ℂ) - (k : ℂ))) • PPA
    let H' := (1 / 2 : ℂ) • (H + Hᴴ)
    if H'.det.re ≤ 0 then .ok ⊤ else .ok ((Real.log ‖H'.det‖ : ℝ) : WithTop ℝ)

/-- `f_nll_stouc(R, array, sources, wavelength, p, sigma)` (ml.py:8-16) for the steering matrix `A`; the
result is complex-typed. `sgn < 0` is only meaningful for a real determinant. -/
noncomputable def nllStouc {m k : ℕ} (R : Matrix (Fin m) (Fin m) ℂ) (A : Matrix (Fin m) (Fin k) ℂ)
    (p : Fin k → ℝ) (sigma : ℝ) : Res (WithTop ℂ) :=
  let S := (Matrix.of fun i c => A i c * (p c : ℂ)) * Aᴴ + (sigma : ℂ) • (1 : Matrix (Fin m) (Fin m) ℂ)
  if S.det.re < 0 ∨ S.det = 0 ∨ Real.log ‖S.det‖ < 0 then .ok ⊤
  else
    match npSolve S R with
    | .error e => .error e
    | .ok X => .ok (((Real.log ‖S.det‖ : ℝ) + trace X : ℂ) : WithTop ℂ)

/-- `_eval_steering_matrix_from_x` followed by the objective, for far-field 1-D sources and a
scalar-output element (ml.py:135-146): known perturbations only. -/
noncomputable def mlEval {V : Type} (a : ArrayDesign) (l : Fin a.element.outputSize) (wl : ℝ) {k : ℕ}
    (obj : Matrix (Fin a.size) (Fin k) ℂ → Res V) (s : FF1D k) : Res V :=
  match steering a (.ff1 s) wl false "known" with
  | .error e => .error e
  | .ok S => obj (S.A l)

end Doa
