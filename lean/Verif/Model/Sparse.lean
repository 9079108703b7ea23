import Verif.Model.L1lsq
import Verif.Model.Estimator
import Verif.Model.Subspace
import Verif.Model.MathUtils

/-!
# Model of `doatools/estimation/sparse.py`

Atom matrices are lists of columns, as in `Model/Subspace.lean`.
-/

namespace Doa

open Matrix

/-- `np.vstack((x.real, x.imag))` for one column.
[sparse.py:80-99] -/
def stackReIm {n : ℕ} (v : Fin n → ℂ) : Fin (n + n) → ℝ :=
  Fin.append (fun i => (v i).re) (fun i => (v i).im)

/-- The matrix with the given columns.
[no code; atoms of core.py:94-97 stored as columns] -/
def ofCols {m : ℕ} {α : Type} (cols : List (Fin m → α)) : Matrix (Fin m) (Fin cols.length) α :=
  Matrix.of fun i c => cols.get c i

/-- `SparseCovarianceMatching._compute_atom_matrix` (sparse.py:80-89) from the columns of the steering
matrix: `khatri_rao(A.conj(), A)`, then `hstack` with `vec(eye)` unless the noise is known, then `vstack` of
real and imaginary parts. -/
noncomputable def scmAtoms {m : ℕ} (noiseKnown : Bool) (cols : List (Fin m → ℂ)) : List (Fin (m * m + m * m) → ℝ) :=
  let A := ofCols cols
  match khatriRao (A.map star) A with
  | .error _ => []
  | .ok Phi =>
    let Phi := List.ofFn fun c => Phi.col c
    let Phi := if !noiseKnown then Phi ++ [vec (1 : Matrix (Fin m) (Fin m) ℂ)] else Phi
    Phi.map stackReIm

/-- The problem object created by `SparseCovarianceMatching.__init__` (sparse.py:66-78): `2 m^2` equations
and one unknown per grid point, plus one for the noise variance if it is not known; nonnegative. -/
noncomputable def scmInit (m : ℕ) (gridSize : ℕ) (cvx noiseKnown : Bool) (formulation : String) :
    Res (L1Problem (m * m + m * m) (if !noiseKnown then gridSize + 1 else gridSize)) :=
  l1Init _ _ cvx formulation true

/-- `_get_sparse_spectrum` (sparse.py:91-99). -/
noncomputable def scmSpectrum {m K : ℕ} (p : L1Problem (m * m + m * m) K) (sv : CvxSolver (Fin K → ℝ))
    (st : L1Params (m * m + m * m) K × sv.S) (noiseKnown : Bool) {r c : ℕ}
    (Phi : List (Fin (m * m + m * m) → ℝ)) (R : Matrix (Fin r) (Fin c) ℂ) (l : ℝ) :
    Res (List ℝ) × (L1Params (m * m + m * m) K × sv.S) :=
  match p.solve sv st (ofCols Phi) (stackReIm (vec R)) l with
  | (.error e, st) => (.error e, st)
  | (.ok sol, st) => (.ok (if !noiseKnown then (List.ofFn sol).dropLast else List.ofFn sol), st)

/-- `R - np.eye(m) * sigma` (sparse.py:162) with broadcasting: a column is broadcast, other shapes raise
`ValueError`. The row count has been checked before. -/
noncomputable def subNoise {m r c : ℕ} (R : Matrix (Fin r) (Fin c) ℂ) (sigma : ℝ) : Res (Matrix (Fin m) (Fin m) ℂ) :=
  if h : r = m ∧ c = m then
    .ok (R.submatrix (Fin.cast h.1.symm) (Fin.cast h.2.symm) - (sigma : ℂ) • (1 : Matrix (Fin m) (Fin m) ℂ))
  else if h : r = m ∧ c = 1 then
    .ok (Matrix.of (fun i _ => R (Fin.cast h.1.symm i) (Fin.cast h.2.symm 0)) - (sigma : ℂ) • (1 : Matrix (Fin m) (Fin m) ℂ))
  else .error .valueError

/-- `SparseCovarianceMatching.estimate` (sparse.py:101-164). `refineGiven` says whether
`'refine_estimates'` is among the keyword arguments. `_estimate` gets the atom matrix and calls `f_sp` once with it;
here the outcome of this call is computed first and its value handed to `_estimate`, which starts from the
same state. -/
noncomputable def scmEstimate {m K r c : ℕ} (cfg : EstCfg ℝ (List (Fin (m * m + m * m) → ℝ)))
    (p : L1Problem (m * m + m * m) K) (sv : CvxSolver (Fin K → ℝ)) (noiseKnown : Bool)
    (st : EstState (List (Fin (m * m + m * m) → ℝ))) (ps : L1Params (m * m + m * m) K × sv.S)
    (R : Matrix (Fin r) (Fin c) ℂ) (k : ℕ) (l : ℝ) (sigma : Option ℝ) (refineGiven : Bool) :
    Res (EstOut ℝ) × EstState (List (Fin (m * m + m * m) → ℝ)) × (L1Params (m * m + m * m) K × sv.S) :=
  if refineGiven then (.error .valueError, st, ps)
  else
    match ensureCovarianceSize [r, c] m with
    | .error e => (.error e, st, ps)
    | .ok _ =>
      let go : (r' c' : ℕ) → Matrix (Fin r') (Fin c') ℂ →
          Res (EstOut ℝ) × EstState (List (Fin (m * m + m * m) → ℝ)) × (L1Params (m * m + m * m) K × sv.S) :=
        fun _ _ R' =>
          match cfg.atomMatrix st with
          | (.error e, st') => (.error e, st', ps)
          | (.ok Phi, st') =>
            match scmSpectrum p sv ps noiseKnown Phi R' l with
            | (.error e, ps) => (.error e, st', ps)
            | (.ok sp, ps) =>
              match cfg.estimate st ⟨fun _ => sp, k, false, 10, 3⟩ with
              | (o, st) => (o, st, ps)
      if noiseKnown then
        match sigma with
        | none => (.error .valueError, st, ps)
        | some sg =>
          match subNoise (m := m) R sg with
          | .error e => (.error e, st, ps)
          | .ok R' => go _ _ R'
      else go _ _ R

/-- `GroupSparseEstimator.estimate` (sparse.py:231-274); the spectrum consists of the row norms of `X`
(sparse.py:227-229). -/
noncomputable def groupSparseEstimate {m K n r c : ℕ} (cfg : EstCfg ℝ (List (Fin m → ℂ)))
    (sv : CvxSolver (Matrix (Fin K) (Fin n) ℂ)) (st : EstState (List (Fin m → ℂ))) (ps : L21Params m K n × sv.S)
    (Y : Matrix (Fin r) (Fin c) ℂ) (k : ℕ) (l : ℝ) (refineGiven : Bool) :
    Res (EstOut ℝ) × EstState (List (Fin m → ℂ)) × (L21Params m K n × sv.S) :=
  if refineGiven then (.error .valueError, st, ps)
  else if r ≠ m then (.error .valueError, st, ps)
  else if c ≠ n then (.error .valueError, st, ps)
  else
    match cfg.atomMatrix st with
    | (.error e, st') => (.error e, st', ps)
    | (.ok A, st') =>
      match l21Solve sv ps (ofCols A) Y l with
      | (.error e, ps) => (.error e, st', ps)
      | (.ok X, ps) =>
        match cfg.estimate st ⟨fun _ => List.ofFn fun i => vecNorm (X i), k, false, 10, 3⟩ with
        | (o, st) => (o, st, ps)

end Doa
