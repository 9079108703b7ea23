import Mathlib.Analysis.SpecialFunctions.Pow.Real
import Mathlib.Data.EReal.Operations
import Verif.Model.Subspace

/-!
# Model of estimation/source_number.py

Real arithmetic without rounding, with infinities and NaN in `aic` and `mdl` where a division by zero or a
logarithm makes them appear.
-/

namespace Doa

/-- The argument `x` of the detectors: a 0-d array, a 1-D vector of eigenvalues or a covariance
matrix (`x.ndim > 1`; stacks of matrices are not modelled).
[argument of source_number.py:23, 47, 69] -/
inductive EigInput where
  | scalar (x : ℝ)
  | vec (l : List ℝ)
  | mat (m : ℕ) (R : Matrix (Fin m) (Fin m) ℂ)

/-- `np.linalg.eigvalsh` as a function; contract `IsEigvalsh`.
[used in source_number.py:40, 62, 82] -/
structure EigvalshFn where
  run : (m : ℕ) → Matrix (Fin m) (Fin m) ℂ → Fin m → ℝ

/-- Contract of `np.linalg.eigvalsh`: for Hermitian matrices, the eigenvalues in ascending order.
[used in source_number.py:40, 62, 82] -/
def EigvalshFn.Spec (f : EigvalshFn) : Prop :=
  ∀ m (R : Matrix (Fin m) (Fin m) ℂ), R.IsHermitian → ∃ E, IsEigh R (f.run m R) E

/-- `np.argmin`: the first position of the minimum; `none` for an empty array (`ValueError`).
[used in source_number.py:45, 67, 96] -/
def argminIdx [LinearOrder β] (l : List β) : Option ℕ := l.min?.map fun m => l.idxOf m

/-- A double without rounding: a real number, plus or minus infinity (`EReal`), or NaN (`none`). Used where
divisions by zero and logarithms of zero matter. [values in source_number.py:21, 44, 66] -/
abbrev NpFloat := Option EReal

/-- `np.argmin` on doubles: the first NaN if there is one, otherwise the first position of the minimum;
`none` for an empty array (`ValueError`). [used in source_number.py:45, 67] -/
noncomputable def npArgmin (l : List NpFloat) : Option ℕ :=
  if none ∈ l then some (l.idxOf none) else argminIdx (l.map fun x => x.getD 0)

/-- `a / b` for numpy doubles: `x/0` is an infinity and `0/0` is NaN (no exception).
[used in source_number.py:21] -/
noncomputable def npDiv (a b : ℝ) : NpFloat :=
  if b = 0 then (if a = 0 then none else if 0 < a then some ⊤ else some ⊥) else some ((a / b : ℝ) : EReal)

/-- `math.log`: `ValueError` for zero, negative numbers and `-inf`; `log(inf) = inf`, `log(nan) = nan`.
[used in source_number.py:21, 66] -/
noncomputable def mathLog : NpFloat → Res NpFloat
  | none => .ok none
  | some x => if x = ⊤ then .ok (some ⊤) else if x ≤ 0 then .error .valueError else .ok (some ((Real.log x.toReal : ℝ) : EReal))

/-- `c * x` for an integer `c ≥ 0`: `0 * inf` is NaN. [used in source_number.py:21] -/
noncomputable def npScale (c : ℝ) : NpFloat → NpFloat
  | none => none
  | some x => if c = 0 ∧ (x = ⊤ ∨ x = ⊥) then none else some ((c : EReal) * x)

/-- `p**(1./d)` for a numpy double: NaN for a negative `p` unless the exponent is `1`.
[used in source_number.py:21] -/
noncomputable def npRoot (p : ℝ) (d : ℕ) : Option ℝ :=
  if p < 0 ∧ d ≠ 1 then none else some (p ^ (1 / (d : ℝ)))

/-- `ld_stat(l, n_sources, n_snapshots)` on a 1-D vector (source_number.py:18-21), for at most as many sources
as eigenvalues (with equality `1./diff` fails; the loops below never get there). -/
noncomputable def ldStat (l : List ℝ) (i : ℕ) (N : ℕ) : Res NpFloat :=
  let diff := l.length - i
  if diff = 0 then .error .zeroDivisionError
  else
    let l' := l.take diff
    (mathLog ((npRoot l'.prod diff).bind fun r => npDiv (l'.sum / (diff : ℝ)) r)).bind fun v =>
      .ok (npScale ((N : ℝ) * (diff : ℝ)) v)

/-- `x + c` for a finite number `c`. [used in source_number.py:44, 66] -/
noncomputable def npAdd (x : NpFloat) (c : ℝ) : NpFloat := x.map fun y => y + (c : EReal)

/-- `np.argmin(ld)`: the end of `aic` and `mdl` (source_number.py:45, 67). -/
noncomputable def argminRes (r : Res (List NpFloat)) : Res ℕ :=
  r.bind fun ld => match npArgmin ld with
    | none => .error .valueError
    | some i => .ok i

/-- The loop of `aic` followed by `np.argmin` (source_number.py:41-45). -/
noncomputable def aicVec (l : List ℝ) (N : ℕ) : Res ℕ :=
  let n := l.length
  argminRes ((List.range n).mapM fun i =>
    (ldStat l i N).bind fun v => .ok (npAdd v ((i : ℝ) * (2 * (n : ℝ) - (i : ℝ)))))

/-- `aic(x, n_snapshots)` (source_number.py:23-45). A 0-d array fails in `ld_stat` (line 16). -/
noncomputable def aic (f : EigvalshFn) (x : EigInput) (N : ℕ) : Res ℕ :=
  match x with
  | .scalar _ => .error .valueError
  | .vec l => aicVec l N
  | .mat m R => aicVec (List.ofFn (f.run m R)) N

/-- The loop of `mdl` followed by `np.argmin` (source_number.py:63-67); `log(0)` raises `ValueError`. -/
noncomputable def mdlVec (l : List ℝ) (N : ℕ) : Res ℕ :=
  let n := l.length
  argminRes ((List.range n).mapM fun i =>
    (ldStat l i N).bind fun v =>
      if N = 0 then .error .valueError
      else .ok (npAdd v ((1 / 2) * ((i : ℝ) * (2 * (n : ℝ) - (i : ℝ)) + 1) * Real.log N)))

/-- `mdl(x, n_snapshots)` (source_number.py:47-67). -/
noncomputable def mdl (f : EigvalshFn) (x : EigInput) (N : ℕ) : Res ℕ :=
  match x with
  | .scalar _ => .error .valueError
  | .vec l => mdlVec l N
  | .mat m R => mdlVec (List.ofFn (f.run m R)) N

/-- `np.var`: the mean squared deviation from the mean.
[used in source_number.py:89] -/
noncomputable def npVar (l : List ℝ) : ℝ :=
  let μ := l.sum / (l.length : ℝ)
  (l.map fun x => (x - μ) ^ 2).sum / (l.length : ℝ)

/-- `np.finfo(np.float_).eps` (source_number.py:92). -/
noncomputable def floatEps : ℝ := 1 / 2 ^ 52

/-- The body of `sorte` after the eigenvalues are known (source_number.py:84-96). -/
noncomputable def sorteVec (l : List ℝ) : Res ℕ :=
  let x := l.reverse
  let n := x.length
  if n < 4 then .error .valueError
  else
    let diffs := List.zipWith (fun a b => a - b) (x.take (n - 1)) (x.drop 1)
    let sigmas := (List.range (n - 1)).map fun k => npVar (diffs.drop k)
    let s : List (WithTop ℝ) := (List.range (n - 2)).map fun k =>
      if |sigmas.getD k 0| < floatEps then ⊤
      else ((sigmas.getD (k + 1) 0 / sigmas.getD k 0 : ℝ) : WithTop ℝ)
    match argminIdx (s.take (s.length - 1)) with
    | none => .error .valueError
    | some i => .ok (i + 1)

/-- `sorte(x)` (source_number.py:69-96). A 0-d array cannot be sliced (line 84). -/
noncomputable def sorte (f : EigvalshFn) (x : EigInput) : Res ℕ :=
  match x with
  | .scalar _ => .error .indexError
  | .vec l => sorteVec l
  | .mat m R => sorteVec (List.ofFn (f.run m R))

end Doa
