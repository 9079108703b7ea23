import Mathlib.LinearAlgebra.Matrix.PosDef
import Verif.Model.Subspace
import Verif.Model.MathUtils

/-!
# Model of the beamformers (estimation/beamforming.py)

`np.linalg.lstsq(R, A, None)[0]` is the minimum-norm least-squares solution `pinv(R) @ A`, in exact
arithmetic (no cutoff of small singular values).
-/

namespace Doa

open Matrix

/-- One entry of `np.sum(A.conj() * (R @ A), axis=0)`, before `.real` (beamforming.py:17). -/
noncomputable def bartlettRaw {m : ℕ} (R : Matrix (Fin m) (Fin m) ℂ) (a : Fin m → ℂ) : ℂ :=
  ∑ i, star (a i) * (R *ᵥ a) i

/-- `f_bartlett(A, R)` (beamforming.py:4-17); `A` is the list of its columns. -/
noncomputable def fBartlett {m : ℕ} (R : Matrix (Fin m) (Fin m) ℂ) (A : List (Fin m → ℂ)) : List ℝ :=
  A.map fun a => (bartlettRaw R a).re

/-- One entry of `np.sum(A.conj() * np.linalg.lstsq(R, A, None)[0], axis=0)`, before `.real`
(beamforming.py:32). -/
noncomputable def mvdrRaw {m : ℕ} (R : Matrix (Fin m) (Fin m) ℂ) (a : Fin m → ℂ) : ℂ :=
  ∑ i, star (a i) * (npPinv R *ᵥ a) i

/-- `f_mvdr(A, R)` (beamforming.py:19-32). -/
noncomputable def fMvdr {m : ℕ} (R : Matrix (Fin m) (Fin m) ℂ) (A : List (Fin m → ℂ)) :
    List (WithTop ℝ) := A.map fun a => npRecip (mvdrRaw R a).re

/-- The checks shared by `BartlettBeamformer.estimate` and `MVDRBeamformer.estimate`
(beamforming.py:96-97, 160-161) for `R` of shape `(r, c)`. There is no check of `k`. A non-square `R`
passes the size check; the matrix product (or `lstsq`) then raises as soon as the spectrum is
evaluated: `ValueError` for `R @ A`, `LinAlgError` or a shape `ValueError` for MVDR (modelled as
`ValueError`). -/
noncomputable def beamArgs {m r c : ℕ} {V : Type} (fsp : Matrix (Fin m) (Fin m) ℂ → List (Fin m → ℂ) → List V)
    (R : Matrix (Fin r) (Fin c) ℂ) (k : ℕ) (kw : EstKw) : Res (EstArgs V (List (Fin m → ℂ))) :=
  match ensureCovarianceSize [r, c] m with
  | .error e => .error e
  | .ok _ =>
    if h : r = c ∧ r = m then
      .ok ⟨fsp (R.submatrix (Fin.cast h.2.symm) (Fin.cast (h.2.symm.trans h.1))), k, kw.refine, kw.density,
        kw.iters⟩
    else .error .valueError

/-- `BartlettBeamformer.estimate` (beamforming.py:58-97). -/
noncomputable def bartlettEstimate {m r c : ℕ} (cfg : EstCfg ℝ (List (Fin m → ℂ)))
    (st : EstState (List (Fin m → ℂ))) (R : Matrix (Fin r) (Fin c) ℂ) (k : ℕ) (kw : EstKw) :
    Res (EstOut ℝ) × EstState (List (Fin m → ℂ)) :=
  match beamArgs (m := m) fBartlett R k kw with
  | .error e => (.error e, st)
  | .ok args => cfg.estimate st args

/-- `MVDRBeamformer.estimate` (beamforming.py:121-161). -/
noncomputable def mvdrEstimate {m r c : ℕ} (cfg : EstCfg (WithTop ℝ) (List (Fin m → ℂ)))
    (st : EstState (List (Fin m → ℂ))) (R : Matrix (Fin r) (Fin c) ℂ) (k : ℕ) (kw : EstKw) :
    Res (EstOut (WithTop ℝ)) × EstState (List (Fin m → ℂ)) :=
  match beamArgs (m := m) fMvdr R k kw with
  | .error e => (.error e, st)
  | .ok args => cfg.estimate st args

end Doa
