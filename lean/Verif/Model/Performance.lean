import Mathlib.LinearAlgebra.Matrix.Hadamard
import Mathlib.Data.Matrix.Block
import Verif.Model.Signals
import Verif.Model.MathUtils
import Verif.Model.Coarray
import Verif.Model.Subspace

/-!
# Model of `doatools/performance/{utils,crb,mse}.py`

Exact arithmetic; `np.linalg.solve` and `np.linalg.inv` raise `LinAlgError` exactly for singular matrices.
Array elements with more than one output lead to three dimensional steering arrays, which are not
modelled here (`steerPair` reports them as `ValueError`). `sigma` and `n_snapshots` are not checked by the code.
-/

namespace Doa

open Matrix

/-- The power argument: a scalar, a list of numbers, or an array with one, two or another number of
dimensions. (Lists of lists are not modelled.)
[argument of performance/utils.py:3-43] -/
inductive PowerArg where
  | scalar (p : ℝ)
  | list (p : List ℝ)
  | vector (p : List ℝ)
  | matrix (P : CMat)
  | nd (ndim : ℕ)

/-- `unify_p_to_matrix(p, k)` (performance/utils.py:3-23). -/
noncomputable def unifyPToMatrix (p : PowerArg) (k : ℕ) : Res (Matrix (Fin k) (Fin k) ℂ) :=
  let diagOf : List ℝ → Res (Matrix (Fin k) (Fin k) ℂ) := fun p =>
    if p.length ≠ k then .error .valueError
    else .ok (Matrix.diagonal fun i => ((p.getD i.1 0 : ℝ) : ℂ))
  match p with
  | .scalar p => .ok (Matrix.of fun i j => if i = j then (p : ℂ) else (0 : Matrix (Fin k) (Fin k) ℂ) i j)
  | .list p => diagOf p
  | .vector p => diagOf p
  | .matrix P =>
    if h : P.r ≠ k ∨ P.c ≠ k then .error .valueError
    else .ok (P.A.submatrix (Fin.cast (not_not.1 (not_or.1 h).1).symm) (Fin.cast (not_not.1 (not_or.1 h).2).symm))
  | .nd _ => .error .valueError

/-- `unify_p_to_vector(p, k)` (performance/utils.py:25-43). -/
noncomputable def unifyPToVector (p : PowerArg) (k : ℕ) : Res (Fin k → ℂ) :=
  let vecOf : List ℝ → Res (Fin k → ℂ) := fun p =>
    if p.length ≠ k then .error .valueError else .ok fun i => ((p.getD i.1 0 : ℝ) : ℂ)
  match p with
  | .scalar p => .ok fun _ => (p : ℂ)
  | .list p => vecOf p
  | .vector p => vecOf p
  | .matrix P =>
    if h : P.r ≠ k ∨ P.c ≠ k then .error .valueError
    else .ok fun i => P.A (Fin.cast (not_not.1 (not_or.1 h).1).symm i) (Fin.cast (not_not.1 (not_or.1 h).2).symm i)
  | .nd _ => .error .valueError

/-- The value returned by `reduce_output_matrix`.
[performance/utils.py:45-59] -/
inductive CovOut (k : ℕ) where
  | full (C : Matrix (Fin k) (Fin k) ℝ)
  | diag (d : Fin k → ℝ)
  | mean (x : ℝ)

/-- `reduce_output_matrix(x, mode)` (performance/utils.py:45-59); the mean over zero sources is NaN in
numpy and 0 here. -/
noncomputable def reduceOutput {k : ℕ} (x : Matrix (Fin k) (Fin k) ℝ) (mode : String) : Res (CovOut k) :=
  if mode = "full" then .ok (.full x)
  else if mode = "diag" then .ok (.diag fun i => x i i)
  else if mode = "mean_diag" then if k = 0 then .error .returnsNaN else .ok (.mean ((∑ i, x i i) / k))
  else .error .valueError

/-- `np.linalg.inv`.
[used in performance/crb.py:72, 140, 211, 231] -/
noncomputable def npInv {𝕜 ι : Type} [RCLike 𝕜] [Fintype ι] [DecidableEq ι] (M : Matrix ι ι 𝕜) : Res (Matrix ι ι 𝕜) :=
  open Classical in
  if IsUnit M.det then .ok M⁻¹ else .error .linAlgError

/-- `A, D = array.steering_matrix(sources, wavelength, True, perturbations)` for 1-D sources.
[performance/crb.py:61, 134, 207; performance/mse.py:61, 137] -/
noncomputable def steerPair {k : ℕ} (a : ArrayDesign) (src : Sources k) (wl : ℝ) (mode : String) :
    Res (Matrix (Fin a.size) (Fin k) ℂ × Matrix (Fin a.size) (Fin k) ℂ) :=
  match steering a src wl true mode with
  | .error e => .error e
  | .ok out =>
    if h : a.element.outputSize = 1 then
      match out.DA with
      | [D] => .ok (out.A ⟨0, by omega⟩, D ⟨0, by omega⟩)
      | _ => .error .valueError
    else .error .valueError

/-- `isinstance(sources, FarField1DSourcePlacement)`.
[performance/crb.py:57, 128, 201; performance/mse.py:55, 117] -/
def Sources.isFF1 {k : ℕ} : Sources k → Bool
  | .ff1 _ => true
  | _ => false

/-- `X.real`.
[used in performance/crb.py:71, 140; performance/mse.py:74, 160] -/
def reMat {ι κ : Type} (X : Matrix ι κ ℂ) : Matrix ι κ ℝ := Matrix.of fun i j => (X i j).re

/-- `0.5 * (CRB + CRB.T)`.
[performance/crb.py:73, 141, 232] -/
noncomputable def symPart {k : ℕ} (C : Matrix (Fin k) (Fin k) ℝ) : Matrix (Fin k) (Fin k) ℝ :=
  Matrix.of fun i j => 0.5 * (C i j + C j i)

/-- The numerical part of `crb_sto_farfield_1d` (performance/crb.py:62-73). `sigma / n_snapshots` raises `ZeroDivisionError` for no snapshots. -/
noncomputable def crbStoCore {m k : ℕ} (A D : Matrix (Fin m) (Fin k) ℂ) (P : Matrix (Fin k) (Fin k) ℂ) (sigma : ℝ) (n : ℕ) :
    Res (Matrix (Fin k) (Fin k) ℝ) :=
  let R := A * P * Aᴴ + (sigma : ℂ) • (1 : Matrix (Fin m) (Fin m) ℂ)
  match npSolve (Aᴴ * A) Aᴴ with
  | .error e => .error e
  | .ok X =>
    let PA := A * X
    let H := Dᴴ * (1 - PA) * D
    match npSolve R A with
    | .error e => .error e
    | .ok RA =>
      let C := reMat (H ⊙ (P * (Aᴴ * RA) * P)ᵀ)
      match npInv C with
      | .error e => .error e
      | .ok C => if n = 0 then .error .zeroDivisionError else .ok (symPart ((sigma / n / 2) • C))

/-- `crb_sto_farfield_1d` (performance/crb.py:6-73). -/
noncomputable def crbSto {k : ℕ} (a : ArrayDesign) (src : Sources k) (wl : ℝ) (p : PowerArg) (sigma : ℝ) (n : ℕ)
    (mode : String) : Res (CovOut k) :=
  if !src.isFF1 then .error .valueError
  else
    match unifyPToMatrix p k with
    | .error e => .error e
    | .ok P =>
      match steerPair a src wl "all" with
      | .error e => .error e
      | .ok (A, D) =>
        match crbStoCore A D P sigma n with
        | .error e => .error e
        | .ok C => reduceOutput C mode

/-- The numerical part of `crb_det_farfield_1d` (performance/crb.py:135-141). -/
noncomputable def crbDetCore {m k : ℕ} (A D : Matrix (Fin m) (Fin k) ℂ) (P : Matrix (Fin k) (Fin k) ℂ) (sigma : ℝ) (n : ℕ) :
    Res (Matrix (Fin k) (Fin k) ℝ) :=
  match projm A false with
  | .error e => .error e
  | .ok PA =>
    let H := Dᴴ * (1 - PA) * D
    match npInv (reMat (H ⊙ Pᵀ)) with
    | .error e => .error e
    | .ok C => if n = 0 then .error .zeroDivisionError else .ok (symPart ((sigma / n / 2) • C))

/-- `crb_det_farfield_1d` (performance/crb.py:75-141). Scalars and lists have no attribute `ndim`. -/
noncomputable def crbDet {k : ℕ} (a : ArrayDesign) (src : Sources k) (wl : ℝ) (P : PowerArg) (sigma : ℝ) (n : ℕ)
    (mode : String) : Res (CovOut k) :=
  if !src.isFF1 then .error .valueError
  else
    match P with
    | .scalar _ => .error .attributeError
    | .list _ => .error .attributeError
    | .vector _ => .error .valueError
    | .nd _ => .error .valueError
    | .matrix P =>
      if h : P.r ≠ k ∨ P.c ≠ k then .error .valueError
      else
        match steerPair a src wl "all" with
        | .error e => .error e
        | .ok (A, D) =>
          match crbDetCore A D (P.A.submatrix (Fin.cast (not_not.1 (not_or.1 h).1).symm)
              (Fin.cast (not_not.1 (not_or.1 h).2).symm)) sigma n with
          | .error e => .error e
          | .ok C => reduceOutput C mode

/-- `A * p` for a matrix and a vector: columns are scaled.
[performance/crb.py:210; performance/mse.py:134, 138] -/
def scaleCols {m k : ℕ} (A : Matrix (Fin m) (Fin k) ℂ) (p : Fin k → ℂ) : Matrix (Fin m) (Fin k) ℂ :=
  Matrix.of fun i c => A i c * p c

/-- The matrix `FIM` assembled by `crb_stouc_farfield_1d` (performance/crb.py:213-230) from the
symmetrised inverse `Ri` of `R`; the indices are the DOAs, the powers and the noise variance. -/
noncomputable def stoucFim {m k : ℕ} (A DA : Matrix (Fin m) (Fin k) ℂ) (p : Fin k → ℂ) (Ri : Matrix (Fin m) (Fin m) ℂ) :
    Matrix (Fin k ⊕ (Fin k ⊕ Unit)) (Fin k ⊕ (Fin k ⊕ Unit)) ℝ :=
  let DRD := DAᴴ * Ri * DA
  let DRA := DAᴴ * Ri * A
  let ARD := Aᴴ * Ri * DA
  let ARA := Aᴴ * Ri * A
  let PP : Matrix (Fin k) (Fin k) ℂ := Matrix.of fun i j => p i * p j
  let tt : Matrix (Fin k) (Fin k) ℝ := (2 : ℝ) • reMat ((DRDᵀ ⊙ ARA + DRA.map star ⊙ ARD) ⊙ PP)
  let pp : Matrix (Fin k) (Fin k) ℝ := reMat (ARAᴴ ⊙ ARA)
  let Ri2 := Ri * Ri
  let ss : ℝ := (Ri2.trace).re
  let tp : Matrix (Fin k) (Fin k) ℝ := (2 : ℝ) • reMat (DRA.map star ⊙ Matrix.of fun i j => p i * ARA i j)
  let ts : Matrix (Fin k) Unit ℝ := Matrix.of fun c _ => 2 * (p c * ∑ i, star (DA i c) * (Ri2 * A) i c).re
  let ps : Matrix (Fin k) Unit ℝ := Matrix.of fun c _ => (∑ i, star (A i c) * (Ri2 * A) i c).re
  Matrix.fromBlocks tt (Matrix.of fun i => Sum.elim (tp i) (ts i))
    (Matrix.of fun r j => Sum.elim (fun r => tp j r) (fun r => ts j r) r)
    (Matrix.fromBlocks pp ps psᵀ (Matrix.of fun _ _ => ss))

/-- The numerical part of `crb_stouc_farfield_1d` (performance/crb.py:208-232). -/
noncomputable def crbStoucCore {m k : ℕ} (A DA : Matrix (Fin m) (Fin k) ℂ) (p : Fin k → ℂ) (sigma : ℝ) (n : ℕ) :
    Res (Matrix (Fin k) (Fin k) ℝ) :=
  let R := scaleCols A p * Aᴴ + (sigma : ℂ) • (1 : Matrix (Fin m) (Fin m) ℂ)
  match npInv R with
  | .error e => .error e
  | .ok Ri =>
    let Ri := (0.5 : ℂ) • (Ri + Riᴴ)
    match npInv (stoucFim A DA p Ri) with
    | .error e => .error e
    | .ok F => if n = 0 then .error .returnsNaN else .ok (symPart ((n : ℝ)⁻¹ • F.toBlocks₁₁))

/-- `crb_stouc_farfield_1d` (performance/crb.py:143-232). -/
noncomputable def crbStouc {k : ℕ} (a : ArrayDesign) (src : Sources k) (wl : ℝ) (p : PowerArg) (sigma : ℝ) (n : ℕ)
    (mode : String) : Res (CovOut k) :=
  if !src.isFF1 then .error .valueError
  else
    match unifyPToVector p k with
    | .error e => .error e
    | .ok p =>
      match steerPair a src wl "all" with
      | .error e => .error e
      | .ok (A, D) =>
        match crbStoucCore A D p sigma n with
        | .error e => .error e
        | .ok C => reduceOutput C mode

open Classical in
/-- The numerical part of `ecov_music_1d` (performance/mse.py:62-74). `np.reciprocal` of a vanishing diagonal entry of `H` is infinite and
the product with the vanishing entry of `H` NaN. (An unknown `return_mode` would then raise `ValueError` instead.) -/
noncomputable def ecovMusicCore {m k : ℕ} (A D : Matrix (Fin m) (Fin k) ℂ) (P : Matrix (Fin k) (Fin k) ℂ) (sigma : ℝ) (n : ℕ) :
    Res (Matrix (Fin k) (Fin k) ℝ) :=
  let AHA := Aᴴ * A
  match npSolve AHA Aᴴ with
  | .error e => .error e
  | .ok X =>
    let H := Dᴴ * (1 - A * X) * D
    match npInv P with
    | .error e => .error e
    | .ok Pinv =>
      match npSolve AHA Pinv with
      | .error e => .error e
      | .ok Y =>
        let B := Pinv * (1 + (sigma : ℂ) • Y)
        let h : Fin k → ℝ := fun i => ((H i i).re)⁻¹
        if n = 0 then .error .zeroDivisionError
        else if ∃ i, (H i i).re = 0 then .error .returnsNaN
        else .ok ((sigma / 2 / n) • (reMat (H ⊙ Bᵀ) ⊙ Matrix.of fun i j => h i * h j))

/-- `ecov_music_1d` (performance/mse.py:7-75). -/
noncomputable def ecovMusic {k : ℕ} (a : ArrayDesign) (src : Sources k) (wl : ℝ) (P : PowerArg) (sigma : ℝ) (n : ℕ)
    (perturbations mode : String) : Res (CovOut k) :=
  if !src.isFF1 then .error .valueError
  else if k ≥ a.size then .error .valueError
  else
    match unifyPToMatrix P k with
    | .error e => .error e
    | .ok P =>
      match steerPair a src wl perturbations with
      | .error e => .error e
      | .ok (A, D) =>
        match ecovMusicCore A D P sigma n with
        | .error e => .error e
        | .ok C => reduceOutput C mode

/-- The subarray selection matrix `G` (performance/mse.py:139-143). -/
def subarraySelection (mv : ℕ) : Matrix (Fin (mv * mv)) (Fin (2 * mv - 1)) ℂ :=
  Matrix.of fun r c =>
    if (c.1 : ℤ) = mv - (finProdFinEquiv.symm r).1.1 + (finProdFinEquiv.symm r).2.1 - 1 then 1 else 0

/-- The numerical part of `ecov_coarray_music_1d` (performance/mse.py:134-160): `A` steers the physical
array, `Av` and `DAv` the virtual one, `F` is the coarray selection matrix. -/
noncomputable def ecovCoarrayCore (eigh : Eigh) {m k mv : ℕ} (A : Matrix (Fin m) (Fin k) ℂ) (p : Fin k → ℂ) (sigma : ℝ) (n : ℕ)
    (Av DAv : Matrix (Fin mv) (Fin k) ℂ) (F : Matrix (Fin (2 * mv - 1)) (Fin (m * m)) ℂ) : Matrix (Fin k) (Fin k) ℝ :=
  let R := scaleCols A p * Aᴴ + (sigma : ℂ) • (1 : Matrix (Fin m) (Fin m) ℂ)
  let Rss := scaleCols Av p * Avᴴ + (sigma : ℂ) • (1 : Matrix (Fin mv) (Fin mv) ℂ)
  let En := noiseCols (eigh.run Rss).2 k
  let projEn := En * Enᴴ
  let GFT := (subarraySelection mv * F)ᵀ
  let pinvAv := npPinv Av
  let Xi : Matrix (Fin (m * m)) (Fin k) ℂ := Matrix.of fun r c =>
    let alpha : Fin mv → ℂ := fun j => -pinvAv c j / p c
    let beta : Fin mv → ℂ := projEn *ᵥ fun i => DAv i c
    let gamma : ℝ := (star beta ⬝ᵥ beta).re
    (GFT *ᵥ outerFlat beta alpha) r / gamma
  let K : Matrix (Fin (m * m)) (Fin (m * m)) ℂ := Matrix.of fun r c =>
    R (finProdFinEquiv.symm r).1 (finProdFinEquiv.symm c).1 * Rᵀ (finProdFinEquiv.symm r).2 (finProdFinEquiv.symm c).2
  (n : ℝ)⁻¹ • reMat (Xiᴴ * K * Xi)

/-- When `ecov_coarray_music_1d` divides by zero: no snapshots, a source without power, or a derivative of a steering vector without a
component in the noise subspace (performance/mse.py:154-160). Numpy then returns NaN or infinities. (Without sources, `k = 0`, nothing is divided; this
case is left out. An unknown `return_mode` would raise `ValueError` instead.) -/
def ecovCoarrayNaN (eigh : Eigh) {k mv : ℕ} (p : Fin k → ℂ) (sigma : ℝ) (n : ℕ) (Av DAv : Matrix (Fin mv) (Fin k) ℂ) : Prop :=
  let Rss := scaleCols Av p * Avᴴ + (sigma : ℂ) • (1 : Matrix (Fin mv) (Fin mv) ℂ)
  let En := noiseCols (eigh.run Rss).2 k
  let projEn := En * Enᴴ
  n = 0 ∨ ∃ c, p c = 0 ∨
    let beta : Fin mv → ℂ := projEn *ᵥ fun i => DAv i c
    (star beta ⬝ᵥ beta).re = 0

open Classical in
/-- `ecov_coarray_music_1d` (performance/mse.py:77-161). The code builds the virtual ULA with spacing
`wavelength / 2.0`; `spacing` stands for this value. -/
noncomputable def ecovCoarrayWith (eigh : Eigh) (spacing : ℝ) {k : ℕ} (a : GridArray) (src : Sources k) (wl : ℝ) (p : PowerArg)
    (sigma : ℝ) (n : ℕ) (mode : String) : Res (CovOut k) :=
  if !src.isFF1 then .error .valueError
  else if a.toArrayDesign.isPerturbed then .error .valueError
  else
    match unifyPToVector p k with
    | .error e => .error e
    | .ok p =>
      match WeightFunction.init a with
      | .error e => .error e
      | .ok wf =>
        match (wf.selectionMatrix ℂ false).1 with
        | .error e => .error e
        | .ok F =>
          let mv := (F.length + 1) / 2
          if k ≥ mv then .error .valueError
          else
            match steering a.toArrayDesign src wl false "all" with
            | .error e => .error e
            | .ok out =>
              match ula mv (.scalar spacing) none {} with
              | .error e => .error e
              | .ok v =>
                match steerPair v.toArrayDesign src wl "all" with
                | .error e => .error e
                | .ok (Av, DAv) =>
                  if h : a.toArrayDesign.element.outputSize = 1 then
                    let A := out.A ⟨0, by omega⟩
                    let F : Matrix (Fin (2 * v.toArrayDesign.size - 1)) (Fin (a.toArrayDesign.size * a.toArrayDesign.size)) ℂ :=
                      Matrix.of fun i c => (F.getD i.1 []).getD c.1 0
                    if ecovCoarrayNaN eigh p sigma n Av DAv then .error .returnsNaN
                    else reduceOutput (ecovCoarrayCore eigh A p sigma n Av DAv F) mode
                  else .error .valueError

/-- `ecov_coarray_music_1d` (performance/mse.py:77-161). -/
noncomputable def ecovCoarray (eigh : Eigh) {k : ℕ} (a : GridArray) (src : Sources k) (wl : ℝ) (p : PowerArg)
    (sigma : ℝ) (n : ℕ) (mode : String) : Res (CovOut k) :=
  ecovCoarrayWith eigh (wl / 2) a src wl p sigma n mode

end Doa
