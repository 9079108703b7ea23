import Verif.Model.Subspace
import Verif.Model.Steering

/-!
# Model of the grid-based estimators on arrays of vector sensors

The other models of the estimators describe scalar elements. For elements with several outputs `steering_matrix` flattens its result
(model/arrays.py:278, 437-438), so the atom matrix has one row per output of each sensor. The definitions here follow the shapes of
the arrays from the call of `estimate` to the first value of the spectrum.
-/

namespace Doa

/-- The estimators with an `f_sp` made of matrix products.
[estimation/beamforming.py, estimation/music.py, estimation/min_norm.py] -/
inductive GridMethod where
  | bartlett | mvdr | music | minNorm

/-- Number of rows of the atom matrix: `steering_matrix(...)` with `flatten=True`.
[estimation/core.py:93-97, model/arrays.py:437-438] -/
def ArrayDesign.atomRows (a : ArrayDesign) : ℕ := a.element.outputSize * a.size

/-- `X * Y` of two arrays with `p` and `q` rows and the same number of columns: the rows agree or one of them is broadcast.
[estimation/beamforming.py:17, 32] -/
def rowsBroadcast (p q : ℕ) : Res Unit := if p = q ∨ p = 1 ∨ q = 1 then .ok () else .error .valueError

/-- Shapes in `f_sp(A)` for `R` of shape `(r, c)` and `A` with `p` rows: `A.conj() * (R @ A)` (beamforming.py:17),
`A.conj() * lstsq(R, A)[0]` (beamforming.py:32; `lstsq` raises `LinAlgError` unless `R` and `A` have as many rows),
`eigh(R)` followed by `En.T.conj() @ A` (music.py:93-94, 26) or `d @ A` (min_norm.py:73-80). -/
def GridMethod.spectrumShapes (meth : GridMethod) (r c p : ℕ) : Res Unit :=
  match meth with
  | .bartlett => if c ≠ p then .error .valueError else rowsBroadcast p r
  | .mvdr => if r ≠ p then .error .linAlgError else rowsBroadcast p c
  | .music => if r ≠ c then .error .linAlgError else if r ≠ p then .error .valueError else .ok ()
  | .minNorm => if r ≠ c then .error .linAlgError else if r ≠ p then .error .valueError else .ok ()

/-- `ensure_n_resolvable_sources(k, array.size - 1)`, called by MUSIC and Min-Norm only.
[music.py:92, min_norm.py:72] -/
def GridMethod.checkSources (meth : GridMethod) (k size : ℕ) : Res Unit :=
  match meth with
  | .bartlett => .ok ()
  | .mvdr => .ok ()
  | .music => ensureNResolvable k ((size : ℤ) - 1)
  | .minNorm => ensureNResolvable k ((size : ℤ) - 1)

/-- Guards and shapes of `estimate(R, k)` up to the first evaluation of the spectrum, for `R` of shape `(r, c)`.
[beamforming.py:96-97, 160-161, music.py:91-94, min_norm.py:71-81] -/
def GridMethod.start (meth : GridMethod) (a : ArrayDesign) (r c k : ℕ) : Res Unit :=
  match ensureCovarianceSize [r, c] a.size with
  | .error e => .error e
  | .ok _ =>
    match meth.checkSources k a.size with
    | .error e => .error e
    | .ok _ => meth.spectrumShapes r c a.atomRows

end Doa
