import Mathlib.Data.Matrix.Mul
import Mathlib.Analysis.Complex.Basic
import Mathlib.Analysis.SpecialFunctions.Pow.NNReal
import Verif.Py

/-!
# Model of `doatools/optim/l1lsq.py`

CVXPY is a parameter. A solver has an arbitrary internal state (warm starts, caches of the compiled
problem, options) and may raise, report any status, or report `'optimal'` with some minimizer of the
problem it was given (`CvxSolver.spec`; exact optimality is an idealisation of the solver tolerance).
Parameters of the problem are mutable and survive between calls.
-/

namespace Doa

open Matrix

/-- What `problem.solve(**kwargs)` can do: raise, or set `problem.status` and the value of the variable.
[optim/l1lsq.py:114-118] -/
inductive SolveOutcome (X : Type) where
  | raised (e : PyErr)
  | finished (status : String) (x : X)

/-- A convex solver: `run s obj cons` minimizes `obj` subject to `cons` in solver state `s`.
[called in optim/l1lsq.py:114, 189] -/
structure CvxSolver (X : Type) where
  S : Type
  run : S → (X → ℝ) → List (X → Prop) → SolveOutcome X × S
  spec : ∀ s obj cons x s', run s obj cons = (.finished "optimal" x, s') →
    (∀ c ∈ cons, c x) ∧ ∀ y, (∀ c ∈ cons, c y) → obj x ≤ obj y

/-- `cvx.norm1`.
[l1lsq.py:80, 84, 86] -/
def norm1 {k : ℕ} (x : Fin k → ℝ) : ℝ := ∑ i, |x i|

/-- `cvx.sum_squares`.
[l1lsq.py:80, 83] -/
def sumSquares {m : ℕ} (v : Fin m → ℝ) : ℝ := ∑ i, v i ^ 2

/-- The immutable part of `L1RegularizedLeastSquaresProblem`: objective and constraints as functions of
the parameters `A`, `b`, `l` and the variable `x`.
[l1lsq.py:70-100] -/
structure L1Problem (m k : ℕ) where
  obj : Matrix (Fin m) (Fin k) ℝ → (Fin m → ℝ) → ℝ → (Fin k → ℝ) → ℝ
  cons : List (Matrix (Fin m) (Fin k) ℝ → (Fin m → ℝ) → ℝ → (Fin k → ℝ) → Prop)

/-- The parameter values, `None` before the first assignment.
[l1lsq.py:74-76, 111-113] -/
structure L1Params (m k : ℕ) where
  A : Option (Matrix (Fin m) (Fin k) ℝ) := none
  b : Option (Fin m → ℝ) := none
  l : Option ℝ := none

/-- `L1RegularizedLeastSquaresProblem.__init__` (l1lsq.py:70-100). `cvx` is `cvx_available`. -/
noncomputable def l1Init (m k : ℕ) (cvx : Bool) (formulation : String := "penalizedl1") (nonnegative : Bool := false) :
    Res (L1Problem m k) :=
  if !cvx then .error .runtimeError
  else
    let nn : List (Matrix (Fin m) (Fin k) ℝ → (Fin m → ℝ) → ℝ → (Fin k → ℝ) → Prop) :=
      if nonnegative then [fun _ _ _ x => ∀ i, 0 ≤ x i] else []
    if formulation = "penalizedl1" then
      .ok ⟨fun A b l x => 0.5 * sumSquares (A *ᵥ x - b) + l * norm1 x, [] ++ nn⟩
    else if formulation = "constrainedl1" then
      .ok ⟨fun A b _ x => sumSquares (A *ᵥ x - b), [fun _ _ l x => norm1 x ≤ l] ++ nn⟩
    else if formulation = "constrainedl2" then
      .ok ⟨fun _ _ _ x => norm1 x, [fun A b l x => Real.sqrt (sumSquares (A *ᵥ x - b)) ≤ l] ++ nn⟩
    else .error .valueError

/-- `L1RegularizedLeastSquaresProblem.solve` (l1lsq.py:102-118). The assignments to the parameters happen
one after the other; each validates the shape, and `l` must not be negative (`ValueError`). The result is
the flattened array (it has shape `(k, 1)` on success and `(k,)` on failure). -/
noncomputable def L1Problem.solve {m k : ℕ} (p : L1Problem m k) (sv : CvxSolver (Fin k → ℝ)) (st : L1Params m k × sv.S)
    {r c n : ℕ} (A : Matrix (Fin r) (Fin c) ℝ) (b : Fin n → ℝ) (l : ℝ) :
    Res (Fin k → ℝ) × (L1Params m k × sv.S) :=
  open Classical in
  if hA : r = m ∧ c = k then
    let st := ({ st.1 with A := some (A.submatrix (Fin.cast hA.1.symm) (Fin.cast hA.2.symm)) }, st.2)
    if hb : n = m then
      let st := ({ st.1 with b := some (fun i => b (Fin.cast hb.symm i)) }, st.2)
      if 0 ≤ l then
        let st := ({ st.1 with l := some l }, st.2)
        match st.1.A, st.1.b, st.1.l with
        | some A, some b, some l =>
          match sv.run st.2 (p.obj A b l) (p.cons.map fun c => c A b l) with
          | (.raised e, s) => (.error e, (st.1, s))
          | (.finished status x, s) => (.ok (if status ≠ "optimal" then 0 else x), (st.1, s))
        | _, _, _ => (.error .valueError, st)
      else (.error .valueError, st)
    else (.error .valueError, st)
  else (.error .valueError, st)

/-- A call of `solve` with its arguments.
[l1lsq.py:102] -/
structure L1Call where
  (r c n : ℕ)
  A : Matrix (Fin r) (Fin c) ℝ
  b : Fin n → ℝ
  l : ℝ

/-- The state of a problem object after a history of calls.
[no code; a client of l1lsq.py:102-118] -/
noncomputable def L1Problem.run {m k : ℕ} (p : L1Problem m k) (sv : CvxSolver (Fin k → ℝ)) (s0 : sv.S) (calls : List L1Call) :
    L1Params m k × sv.S :=
  calls.foldl (fun st q => (p.solve sv st q.A q.b q.l).2) ({}, s0)

/-- Frobenius norm, `cvx.norm(X, 'fro')`.
[l1lsq.py:169] -/
noncomputable def froNorm {m n : ℕ} (X : Matrix (Fin m) (Fin n) ℂ) : ℝ := Real.sqrt (∑ i, ∑ j, ‖X i j‖ ^ 2)

/-- `cvx.norm(v, 2)`; also `np.linalg.norm(v, ord=2)`.
[l1lsq.py:87, 170; estimation/sparse.py:229] -/
noncomputable def vecNorm {n : ℕ} (v : Fin n → ℂ) : ℝ := Real.sqrt (∑ j, ‖v j‖ ^ 2)

/-- The parameters of `L21RegularizedLeastSquaresProblem`.
[l1lsq.py:160-162, 186-188] -/
structure L21Params (m k n : ℕ) where
  A : Option (Matrix (Fin m) (Fin k) ℂ) := none
  B : Option (Matrix (Fin m) (Fin n) ℂ) := none
  l : Option ℝ := none

/-- The objective of `L21RegularizedLeastSquaresProblem` (l1lsq.py:156-175) with `complex=True`;
`cvx.norm(X.T, 2, axis=0)` is the vector of the norms of the columns of `X.T`. -/
noncomputable def l21Obj {m k n : ℕ} (A : Matrix (Fin m) (Fin k) ℂ) (B : Matrix (Fin m) (Fin n) ℂ) (l : ℝ)
    (X : Matrix (Fin k) (Fin n) ℂ) : ℝ :=
  0.5 * froNorm (A * X - B) ^ 2 + l * ∑ i, vecNorm fun j => Xᵀ j i

/-- `L21RegularizedLeastSquaresProblem.solve` (l1lsq.py:177-193). -/
noncomputable def l21Solve {m k n : ℕ} (sv : CvxSolver (Matrix (Fin k) (Fin n) ℂ)) (st : L21Params m k n × sv.S)
    {r c r' c' : ℕ} (A : Matrix (Fin r) (Fin c) ℂ) (B : Matrix (Fin r') (Fin c') ℂ) (l : ℝ) :
    Res (Matrix (Fin k) (Fin n) ℂ) × (L21Params m k n × sv.S) :=
  open Classical in
  if hA : r = m ∧ c = k then
    let st := ({ st.1 with A := some (A.submatrix (Fin.cast hA.1.symm) (Fin.cast hA.2.symm)) }, st.2)
    if hB : r' = m ∧ c' = n then
      let st := ({ st.1 with B := some (B.submatrix (Fin.cast hB.1.symm) (Fin.cast hB.2.symm)) }, st.2)
      if 0 ≤ l then
        let st := ({ st.1 with l := some l }, st.2)
        match st.1.A, st.1.B, st.1.l with
        | some A, some B, some l =>
          match sv.run st.2 (l21Obj A B l) [] with
          | (.raised e, s) => (.error e, (st.1, s))
          | (.finished status X, s) => (.ok (if status ≠ "optimal" then 0 else X), (st.1, s))
        | _, _, _ => (.error .valueError, st)
      else (.error .valueError, st)
    else (.error .valueError, st)
  else (.error .valueError, st)

end Doa
