import Mathlib.Algebra.Polynomial.Roots
import Mathlib.Analysis.Complex.Polynomial.Basic
import Verif.Model.Subspace

/-!
# Model of `RootMUSIC1D` (estimation/music.py:96-188)

`np.roots` is a parameter constrained by its contract (`IsNpRoots`); `np.argsort` is a parameter as in
`Model/Estimator.lean`. Arithmetic is exact.
-/

namespace Doa

open Matrix Polynomial

/-- `C = En @ En.T.conj()` (music.py:152). -/
noncomputable def noiseProjector {m d : ℕ} (En : Matrix (Fin m) (Fin d) ℂ) : Matrix (Fin m) (Fin m) ℂ :=
  En * Enᴴ

/-- `np.sum(np.diag(C, i))` for `i ≥ 0`: entries `C[j, j + i]`.
[music.py:154-156] -/
noncomputable def diagSum {m : ℕ} (C : Matrix (Fin m) (Fin m) ℂ) (i : ℕ) : ℂ :=
  ((List.range (m - i)).map fun j =>
    if h : j + i < m then C ⟨j, by omega⟩ ⟨j + i, h⟩ else 0).sum

/-- The coefficient vector handed to `np.roots` (music.py:153-156):
`hstack((coeff[::-1], trace, coeff.conj()))` with `coeff[i-1] = sum(diag(C, i))`. -/
noncomputable def rootCoeffs {m : ℕ} (C : Matrix (Fin m) (Fin m) ℂ) : List ℂ :=
  let coeff := (List.range (m - 1)).map fun i => diagSum C (i + 1)
  coeff.reverse ++ [diagSum C 0] ++ coeff.map star

/-- The polynomial that `np.roots` reads off a coefficient vector: highest power first.
[used in music.py:158] -/
noncomputable def polyOf : List ℂ → ℂ[X]
  | [] => 0
  | c :: cs => Polynomial.C c * X ^ cs.length + polyOf cs

/-- Contract of `np.roots(coeff)`: all roots with multiplicity, in some order (none for the zero
vector).
[used in music.py:158] -/
def IsNpRoots (coeff z : List ℂ) : Prop := (z : Multiset ℂ) = (polyOf coeff).roots

/-- An implementation of `np.roots` satisfying its contract.
[used in music.py:158] -/
structure NpRoots where
  run : List ℂ → List ℂ
  spec : ∀ c, IsNpRoots c (run c)

open Classical in
/-- The inner loop (music.py:171-178): the first unmasked index other than `i` at minimal distance;
`none` is `idx = -1`. -/
noncomputable def closestIdx {n : ℕ} (z : Fin n → ℂ) (mask : Fin n → Bool) (i : Fin n) : Option (Fin n) :=
  (List.finRange n).foldl (fun acc j =>
    if j ≠ i ∧ mask j = true then
      match acc with
      | none => some j
      | some j' => if ‖z i - z j‖ < ‖z i - z j'‖ then some j else some j'
    else acc) none

open Classical in
/-- Body of the outer loop (music.py:163-181). -/
noncomputable def maskStep {n : ℕ} (z : Fin n → ℂ) (mask : Fin n → Bool) (i : Fin n) : Res (Fin n → Bool) :=
  if 1 < ‖z i‖ then .ok (Function.update mask i false)
  else if ‖z i‖ = 1 then
    match closestIdx z mask i with
    | none => .error .runtimeError
    | some j => .ok (Function.update mask j false)
  else .ok mask

/-- A loop over indices with a body that may raise.
[music.py:163] -/
def forLoop {α σ : Type _} (body : σ → α → Res σ) : List α → σ → Res σ
  | [], s => .ok s
  | a :: as, s =>
    match body s a with
    | .error e => .error e
    | .ok s' => forLoop body as s'

/-- The mask after the outer loop (music.py:161-181). -/
noncomputable def rootMask {n : ℕ} (z : Fin n → ℂ) : Res (Fin n → Bool) :=
  forLoop (maskStep z) (List.finRange n) fun _ => true

/-- Root selection (music.py:158-188): `none` is "fewer than `k` roots". -/
noncomputable def selectRoots (argsort : List ℝ → List ℕ) (z : List ℂ) (k : ℕ) : Res (Option (List ℂ)) :=
  match rootMask z.get with
  | .error e => .error e
  | .ok mask =>
    let zs := ((List.finRange z.length).filter fun j => mask j).map z.get
    let sorted := argsort (zs.map fun x => 1 - ‖x‖)
    if zs.length < k then .ok none
    else .ok (some ((sorted.take k).filterMap fun i => zs[i]?))

/-- `RootMUSIC1D.estimate(R, k, d0, unit)` (music.py:116-188) for a 2-D `R` of shape `(r, c)`; `none`
in the result is `(False, None)`. -/
noncomputable def rootMusicEstimate (eigh : Eigh) (roots : NpRoots) (argsort : List ℝ → List ℕ)
    (wavelength : ℝ) {r c : ℕ} (R : Matrix (Fin r) (Fin c) ℂ) (k : ℕ) (d0 : Option ℝ)
    (unit : String) : Res (Option (FF1D k)) :=
  if h : r = c then
    match ensureNResolvable k ((r : ℤ) - 1) with
    | .error e => .error e
    | .ok _ =>
      let d := d0.getD (wavelength / 2)
      let En := getNoiseSubspace eigh (R.submatrix id (Fin.cast h)) k
      let z := roots.run (rootCoeffs (noiseProjector En))
      match selectRoots argsort z k with
      | .error e => .error e
      | .ok none => .ok none
      | .ok (some zs) =>
        match FF1D.fromZ (fun i : Fin k => zs.getD i 0) wavelength d unit with
        | .error e => .error e
        | .ok s => .ok (some s)
  else .error .valueError

end Doa
