import Mathlib.Analysis.SpecialFunctions.Trigonometric.Basic
import Mathlib.Analysis.Complex.Basic
import Mathlib.Data.Matrix.Mul
import Verif.Py
import Verif.Model.Steering

/-!
# Model of `doatools/model/signals.py`, `doatools/model/snapshots.py` and `utils/math.py:randcn`

The pseudo random numbers drawn by a call are arguments of the model function, so a theorem for all draws
holds for every seed and every state of the generator.
-/

namespace Doa

open Matrix

/-- A complex matrix of any shape.
[arrays of model/signals.py and model/snapshots.py:46-56] -/
structure CMat where
  (r c : ℕ)
  A : Matrix (Fin r) (Fin c) ℂ

/-- `randcn((r, n))` (utils/math.py:74-87) from the results `im`, `re` of the first and the second call of
`np.random.randn`. -/
noncomputable def randcn {r n : ℕ} (im re : Matrix (Fin r) (Fin n) ℝ) : Matrix (Fin r) (Fin n) ℂ :=
  let x : Matrix (Fin r) (Fin n) ℂ := Matrix.of fun i t => Complex.I * (im i t : ℂ)
  let x := Matrix.of fun i t => x i t + (re i t : ℂ)
  Matrix.of fun i t => x i t * (Real.sqrt (1 / 2) : ℂ)

/-- The argument `C` of `ComplexStochasticSignal`: a scalar, a list, or an array with one, two or another
number of dimensions.
[model/signals.py:47-69] -/
inductive CovArg where
  | scalar (c : ℝ)
  | list (c : List ℝ)
  | vector (c : List ℝ)
  | matrix (C : CMat)
  | nd (ndim : ℕ)

/-- The attribute `_C2` together with the branch that created `_generator`.
[model/signals.py:51-64] -/
inductive StoGen (dim : ℕ) where
  | scalar (c2 : ℝ)
  | vector (c2 : Fin dim → ℝ)
  | matrix (C2 : Matrix (Fin dim) (Fin dim) ℂ)

/-- `scipy.linalg.sqrtm`.
[used in model/signals.py:63] -/
abbrev Sqrtm := ∀ {k : ℕ}, Matrix (Fin k) (Fin k) ℂ → Matrix (Fin k) (Fin k) ℂ

/-- `ComplexStochasticSignal.__init__` (model/signals.py:47-70). `np.sqrt` of a negative number gives NaN
with a warning, which is not modelled (`Real.sqrt` is zero there); a list has no attribute `ndim`. -/
noncomputable def stoInit (sqrtm : Sqrtm) (dim : ℕ) (C : CovArg) : Res (StoGen dim) :=
  match C with
  | .scalar c => .ok (.scalar (Real.sqrt c))
  | .list _ => .error .attributeError
  | .vector c =>
    if c.length ≠ dim then .error .valueError
    else .ok (.vector fun i => Real.sqrt (c.getD i 0))
  | .matrix C =>
    if h : C.r ≠ dim ∨ C.c ≠ dim then .error .valueError
    else .ok (.matrix (sqrtm (C.A.submatrix (Fin.cast (not_not.1 (not_or.1 h).1).symm)
      (Fin.cast (not_not.1 (not_or.1 h).2).symm))))
  | .nd _ => .error .valueError

/-- `ComplexStochasticSignal.emit(n)` (model/signals.py:76-77 and the lambdas in lines 51, 57, 63). -/
noncomputable def StoGen.emit {dim : ℕ} (g : StoGen dim) (n : ℕ) (im re : Matrix (Fin dim) (Fin n) ℝ) :
    Matrix (Fin dim) (Fin n) ℂ :=
  match g with
  | .scalar c2 => Matrix.of fun i t => (c2 : ℂ) * randcn im re i t
  | .vector c2 => Matrix.of fun i t => (c2 i : ℂ) * randcn im re i t
  | .matrix C2 => C2 * randcn im re

/-- The argument `amplitudes` of `RandomPhaseSignal`: a Python float, a Python integer, a list or an array
(given by its elements in C order; its shape is irrelevant).
[model/signals.py:93-100] -/
inductive AmpArg where
  | float (a : ℝ)
  | int (a : ℤ)
  | list (a : List ℝ)
  | array (a : List ℝ)

/-- The attribute `_amplitudes`: a `(dim, 1)` array, or the one dimensional array made by `np.full`.
[model/signals.py:96, 100] -/
inductive AmpAttr (dim : ℕ) where
  | column (a : Fin dim → ℝ)
  | flat2 (a : Fin 2 → ℝ)

/-- `RandomPhaseSignal.__init__` (model/signals.py:93-100). `np.full(amplitudes, (dim, 1))` takes the
amplitude as *shape* and `(dim, 1)` as fill value: a float is not a shape (`TypeError`), an integer `a` is
the shape `(a,)`, to which the fill value of shape `(2,)` can be broadcast only for `a = 2`. -/
noncomputable def phaseInit (dim : ℕ) (amplitudes : AmpArg) : Res (AmpAttr dim) :=
  match amplitudes with
  | .float _ => .error .typeError
  | .int a => if a = 2 then .ok (.flat2 ![(dim : ℝ), 1]) else .error .valueError
  | .list _ => .error .attributeError
  | .array a =>
    if a.length ≠ dim then .error .valueError
    else .ok (.column fun i => a.getD i 0)

/-- `RandomPhaseSignal.emit(n)` (model/signals.py:106-110) with numpy broadcasting of the product. -/
noncomputable def AmpAttr.emit {dim : ℕ} (g : AmpAttr dim) (n : ℕ) (phases : Matrix (Fin dim) (Fin n) ℝ) : Res CMat :=
  let c : Matrix (Fin dim) (Fin n) ℂ := Matrix.of fun i t => (Real.sin (phases i t) : ℂ) * Complex.I
  let c : Matrix (Fin dim) (Fin n) ℂ := Matrix.of fun i t => c i t + (Real.cos (phases i t) : ℂ)
  match g with
  | .column a => .ok ⟨dim, n, Matrix.of fun i t => (a i : ℂ) * c i t⟩
  | .flat2 a =>
    if h : n = 2 then .ok ⟨dim, 2, Matrix.of fun i t => (a t : ℂ) * c i (Fin.cast h.symm t)⟩
    else if h : n = 1 then .ok ⟨dim, 2, Matrix.of fun i t => (a t : ℂ) * c i (Fin.cast h.symm 0)⟩
    else .error .valueError

/-- `np.broadcast_to(N, (m, n))`, as done by `Y += N` for `Y` with rows `m` and columns `n`.
[model/snapshots.py:51] -/
def CMat.broadcastTo (N : CMat) (m n : ℕ) : Res (Matrix (Fin m) (Fin n) ℂ) :=
  if h : (N.r = m ∨ N.r = 1) ∧ (N.c = n ∨ N.c = 1) then
    .ok (Matrix.of fun i t => N.A
      ⟨if N.r = m then i else 0, by
        rcases h.1 with h1 | h1 <;> split <;> first | omega | (have := i.2; omega)⟩
      ⟨if N.c = n then t else 0, by
        rcases h.2 with h1 | h1 <;> split <;> first | omega | (have := t.2; omega)⟩)
  else .error .valueError

/-- `get_narrowband_snapshots(array, sources, wavelength, source_signal, noise_signal, n_snapshots,
return_covariance)` (model/snapshots.py:46-56), snapshots and covariance. `S` and `N` are the results of the two calls of `emit`.
`steering_matrix` is called with `flatten=True`, so there is one row per output of each sensor, the rows of output 0 first.
For `n_snapshots = 0` the covariance is NaN in NumPy and zero here. -/
noncomputable def getNarrowbandSnapshots {k : ℕ} (a : ArrayDesign) (src : Sources k) (wl : ℝ) (S : Res CMat)
    (N : Option (Res CMat)) (nSnapshots : ℕ) :
    Res (Σ n, Matrix (Fin (a.element.outputSize * a.size)) (Fin n) ℂ ×
      Matrix (Fin (a.element.outputSize * a.size)) (Fin (a.element.outputSize * a.size)) ℂ) :=
  match steering a src wl false "all" with
  | .error e => .error e
  | .ok out =>
    match S with
    | .error e => .error e
    | .ok S =>
      if h : S.r = k then
        let Y : Matrix (Fin (a.element.outputSize * a.size)) (Fin S.c) ℂ := out.flat * S.A.submatrix (Fin.cast h.symm) id
        let cov : Matrix (Fin (a.element.outputSize * a.size)) (Fin S.c) ℂ →
            Matrix (Fin (a.element.outputSize * a.size)) (Fin (a.element.outputSize * a.size)) ℂ :=
          fun Y => (nSnapshots : ℂ)⁻¹ • (Y * Yᴴ)
        match N with
        | none => .ok ⟨S.c, Y, cov Y⟩
        | some (.error e) => .error e
        | some (.ok N) =>
          match N.broadcastTo (a.element.outputSize * a.size) S.c with
          | .error e => .error e
          | .ok N => .ok ⟨S.c, Y + N, cov (Y + N)⟩
      else .error .valueError

/-- The result of `get_narrowband_snapshots` (model/snapshots.py:46-56), output by output: `Y l` are the rows of output `l` of the
sensors and `R l` is the block of the covariance matrix that belongs to them. For scalar elements (`l = 0`) these are the whole
snapshots and the whole covariance matrix. -/
noncomputable def getSnapshots {k : ℕ} (a : ArrayDesign) (src : Sources k) (wl : ℝ) (S : Res CMat)
    (N : Option (Res CMat)) (nSnapshots : ℕ) :
    Res (Σ n, (Fin a.element.outputSize → Matrix (Fin a.size) (Fin n) ℂ) ×
      (Fin a.element.outputSize → Matrix (Fin a.size) (Fin a.size) ℂ)) :=
  match getNarrowbandSnapshots a src wl S N nSnapshots with
  | .error e => .error e
  | .ok ⟨n, Y, R⟩ => .ok ⟨n, fun l => Y.submatrix (fun i => finProdFinEquiv (l, i)) id,
      fun l => R.submatrix (fun i => finProdFinEquiv (l, i)) fun i => finProdFinEquiv (l, i)⟩

end Doa
