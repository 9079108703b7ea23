import Verif.Model.ML
import Verif.Model.MLObjective

/-!
# Model of complete ML estimation calls for far-field 1-D sources (estimation/ml.py)

Joins the working state of `Verif/Model/ML.lean` and the objectives of `Verif/Model/MLObjective.lean`: what `estimate` of the three
estimators does when `sources0` is a `FarField1DSourcePlacement`.
-/

namespace Doa

open Matrix

/-- The placement seen by `steering_matrix`: the working array `self._estimates.locations` with one column.
[ml.py:143-146] -/
def rowsFF1 (rows : List LocRow) (u : String) : FF1D rows.length :=
  ⟨fun c => (rows.get c).coords.headD 0, u⟩

/-- A real objective value as seen by the optimizer.
[ml.py:110] -/
def liftVal : Res ℝ → Res (WithTop ℝ)
  | .error e => .error e
  | .ok v => .ok (v : WithTop ℝ)

/-- `CMLEstimator(array, wavelength).estimate(R, sources0)` (ml.py:110-119, 148-203, 299-305). -/
noncomputable def cmlCall (a : ArrayDesign) (l : Fin a.element.outputSize) (wl : ℝ) (R : Matrix (Fin a.size) (Fin a.size) ℂ)
    (opt : List ℝ → List (EReal × EReal) → Optimizer) : MLCall :=
  ⟨[a.size, a.size], .ff1, .ok (), fun rows u => liftVal (mlEval a l wl (fun B => cmlObjective B R) (rowsFF1 rows u)), opt⟩

/-- `AMLEstimator(array, wavelength).estimate(R, sources0)` (ml.py:110-119, 148-203, 240-258). -/
noncomputable def amlCall (a : ArrayDesign) (l : Fin a.element.outputSize) (wl : ℝ) (R : Matrix (Fin a.size) (Fin a.size) ℂ)
    (opt : List ℝ → List (EReal × EReal) → Optimizer) : MLCall :=
  ⟨[a.size, a.size], .ff1, .ok (), fun rows u => mlEval a l wl (fun B => amlObjective B R) (rowsFF1 rows u), opt⟩

/-- `WSFEstimator(array, wavelength).estimate(R, sources0)` (ml.py:336-362, 148-203) for `k ≤ m` sources: the matrix `M` is computed once
from `R` and the number of sources, before the optimization starts. -/
noncomputable def wsfCall (eigh : Eigh) (a : ArrayDesign) (l : Fin a.element.outputSize) (wl : ℝ) (R : Matrix (Fin a.size) (Fin a.size) ℂ)
    {k : ℕ} (hk : k ≤ a.size) (opt : List ℝ → List (EReal × EReal) → Optimizer) : MLCall :=
  let M := wsfM eigh R hk
  ⟨[a.size, a.size], .ff1, .ok (), fun rows u => liftVal (mlEval a l wl (fun B => wsfObjective B M) (rowsFF1 rows u)), opt⟩

end Doa
