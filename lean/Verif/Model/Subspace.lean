import Mathlib.Data.Matrix.Basic
import Mathlib.LinearAlgebra.Matrix.ConjTranspose
import Mathlib.Analysis.Complex.Basic
import Verif.Model.Estimator
import Verif.Model.Steering

/-!
# Model of the subspace methods: guards, noise subspace, MUSIC, Min-Norm

`np.linalg.eigh` is a parameter constrained by its documented contract (`IsEigh`): ascending
eigenvalues and *some* orthonormal eigenvectors.
-/

namespace Doa

open Matrix

/-- `ensure_covariance_size(R, array)` (estimation/core.py:8-18) as a function of `R.shape` and
`array.size`. The second comparison in the code is `R.shape[0]` again. -/
def ensureCovarianceSize (shape : List ℕ) (size : ℕ) : Res Unit :=
  if shape.length ≠ 2 then .error .valueError
  else if shape[0]? ≠ some size ∨ shape[0]? ≠ some size then .error .valueError
  else .ok ()

/-- `ensure_n_resolvable_sources(k, max_k)` (core.py:20-26). -/
def ensureNResolvable (k maxK : ℤ) : Res Unit :=
  if k > maxK then .error .valueError else .ok ()

/-- Contract of `w, E = np.linalg.eigh(R)` for Hermitian `R`.
[used in estimation/core.py:45] -/
structure IsEigh {m : ℕ} (R : Matrix (Fin m) (Fin m) ℂ) (w : Fin m → ℝ)
    (E : Matrix (Fin m) (Fin m) ℂ) : Prop where
  mono : Monotone w
  orth : Eᴴ * E = 1
  eig : R * E = E * Matrix.diagonal fun j => (w j : ℂ)

/-- An implementation of `np.linalg.eigh` satisfying its contract. (For non-Hermitian matrices, of
which numpy reads only the lower triangle, nothing is assumed.)
[used in estimation/core.py:45] -/
structure Eigh where
  run : ∀ {n : ℕ}, Matrix (Fin n) (Fin n) ℂ → (Fin n → ℝ) × Matrix (Fin n) (Fin n) ℂ
  spec : ∀ {n : ℕ} (R : Matrix (Fin n) (Fin n) ℂ), R.IsHermitian → IsEigh R (run R).1 (run R).2

/-- Number of columns of `E[:, :-k]`: `m - k`, but none for `k = 0`, because `-0 = 0`.
[core.py:47] -/
def noiseDim (m k : ℕ) : ℕ := if k = 0 then 0 else m - k

theorem noiseDim_le (m k : ℕ) : noiseDim m k ≤ m := by unfold noiseDim; split <;> omega

/-- `E[:, :-k]` (core.py:37-47). -/
def noiseCols {m : ℕ} (E : Matrix (Fin m) (Fin m) ℂ) (k : ℕ) : Matrix (Fin m) (Fin (noiseDim m k)) ℂ :=
  fun i j => E i (Fin.castLE (noiseDim_le m k) j)

/-- `get_noise_subspace(R, k)` (core.py:37-47). -/
def getNoiseSubspace (eigh : Eigh) {m : ℕ} (R : Matrix (Fin m) (Fin m) ℂ) (k : ℕ) :
    Matrix (Fin m) (Fin (noiseDim m k)) ℂ := noiseCols (eigh.run R).2 k

open Classical in
/-- `np.reciprocal` on a nonnegative float: `inf` for 0.
[used in estimation/music.py:27] -/
noncomputable def npRecip (x : ℝ) : WithTop ℝ := if x = 0 then ⊤ else ((1 / x : ℝ) : WithTop ℝ)

/-- One entry of `np.sum(v * v.conj(), axis=0).real` with `v = En.T.conj() @ A`
(estimation/music.py:26-27). -/
noncomputable def musicDenom {m d : ℕ} (En : Matrix (Fin m) (Fin d) ℂ) (a : Fin m → ℂ) : ℝ :=
  (∑ j, (Enᴴ *ᵥ a) j * star ((Enᴴ *ᵥ a) j)).re

/-- `f_music(A, En)` (music.py:9-27); the atom matrix is the list of its columns. -/
noncomputable def fMusic {m d : ℕ} (En : Matrix (Fin m) (Fin d) ℂ) (A : List (Fin m → ℂ)) :
    List (WithTop ℝ) := A.map fun a => npRecip (musicDenom En a)

/-- Keyword arguments of `estimate`.
[keyword arguments passed through estimation/music.py:53, 94] -/
structure EstKw where
  refine : Bool := false
  density : ℤ := 10
  iters : ℕ := 3

/-- The checks and the `f_sp` argument shared by `MUSIC.estimate` and `MinNorm.estimate`
(music.py:91-94, min_norm.py:71-75), for `R` of shape `(r, c)` and `k : int` with `k ≥ 0`.
`np.linalg.eigh` raises `LinAlgError` for a non-square matrix. -/
noncomputable def subspaceArgs (eigh : Eigh) {m r c : ℕ}
    (fsp : {d : ℕ} → Matrix (Fin m) (Fin d) ℂ → List (Fin m → ℂ) → List (WithTop ℝ))
    (R : Matrix (Fin r) (Fin c) ℂ) (k : ℕ) (kw : EstKw) :
    Res (EstArgs (WithTop ℝ) (List (Fin m → ℂ))) :=
  match ensureCovarianceSize [r, c] m with
  | .error e => .error e
  | .ok _ =>
    match ensureNResolvable k ((m : ℤ) - 1) with
    | .error e => .error e
    | .ok _ =>
      if h : r = c ∧ r = m then
        .ok ⟨fsp (getNoiseSubspace eigh (R.submatrix (Fin.cast h.2.symm) (Fin.cast (h.2.symm.trans h.1))) k),
          k, kw.refine, kw.density, kw.iters⟩
      else .error .linAlgError

/-- `MUSIC.estimate` (music.py:53-94). -/
noncomputable def musicEstimate (eigh : Eigh) {m r c : ℕ}
    (cfg : EstCfg (WithTop ℝ) (List (Fin m → ℂ))) (st : EstState (List (Fin m → ℂ)))
    (R : Matrix (Fin r) (Fin c) ℂ) (k : ℕ) (kw : EstKw) :
    Res (EstOut (WithTop ℝ)) × EstState (List (Fin m → ℂ)) :=
  match subspaceArgs (m := m) eigh (fun En => fMusic En) R k kw with
  | .error e => (.error e, st)
  | .ok args => cfg.estimate st args

/-- `c = En[0, :]`, `w = c.conj() / norm(c)**2`, `En @ w` (min_norm.py:76-78): the vector whose
conjugate is `d`. For an array without elements (`m = 0`) `En[0, :]` raises; not modelled.
For `c = 0` numpy divides by zero and the spectrum is NaN; the vector is 0 here. -/
noncomputable def minNormVec {m d : ℕ} [NeZero m] (En : Matrix (Fin m) (Fin d) ℂ) : Fin m → ℂ :=
  En *ᵥ fun j => star (En 0 j) / ((∑ l, ‖En 0 l‖ ^ 2 : ℝ) : ℂ)

/-- One entry of `abs_squared(d @ A)` (min_norm.py:80). -/
noncomputable def minNormDenom {m d : ℕ} [NeZero m] (En : Matrix (Fin m) (Fin d) ℂ) (a : Fin m → ℂ) : ℝ :=
  ‖(star (minNormVec En)) ⬝ᵥ a‖ ^ 2

/-- The Min-Norm spectrum (min_norm.py:80). -/
noncomputable def fMinNorm {m d : ℕ} [NeZero m] (En : Matrix (Fin m) (Fin d) ℂ)
    (A : List (Fin m → ℂ)) : List (WithTop ℝ) := A.map fun a => npRecip (minNormDenom En a)

/-- `MinNorm.estimate` (min_norm.py:33-81). -/
noncomputable def minNormEstimate (eigh : Eigh) {m r c : ℕ} [NeZero m]
    (cfg : EstCfg (WithTop ℝ) (List (Fin m → ℂ))) (st : EstState (List (Fin m → ℂ)))
    (R : Matrix (Fin r) (Fin c) ℂ) (k : ℕ) (kw : EstKw) :
    Res (EstOut (WithTop ℝ)) × EstState (List (Fin m → ℂ)) :=
  match subspaceArgs (m := m) eigh (fun En => fMinNorm En) R k kw with
  | .error e => (.error e, st)
  | .ok args => cfg.estimate st args

/-- `_compute_atom_matrix` (core.py:77-97) for a 1-D far-field grid in unit `u`: the columns of the
steering matrix, for elements with scalar output (`l` is the only block). A raised exception is
represented by zero columns; it does not occur for arrays whose known perturbations fit. -/
noncomputable def atomColumns1D (a : ArrayDesign) (l : Fin a.element.outputSize) (wavelength : ℝ)
    (u : String) (rows : List (List ℝ)) : List (Fin a.size → ℂ) :=
  let r := steering a (.ff1 ⟨fun c : Fin rows.length => (rows.get c).headD 0, u⟩) wavelength false
    "known"
  List.ofFn fun c => fun i =>
    match r with
    | .ok S => S.A l i c
    | .error _ => 0

end Doa
