import Mathlib.Data.Matrix.Mul
import Verif.Model.Arrays
import Verif.Model.Sources

/-! # Model of `ArrayDesign.steering_matrix` (model/arrays.py:278-442) -/

namespace Doa

open Complex

/-- A steering matrix (one `m × k` block per output of the array element; a single block for scalar
elements) with its derivative matrices. `flatten=True` stacks the blocks (`flat`).
[result of model/arrays.py:436-442] -/
structure Steering (n m k : ℕ) where
  A : Fin n → Matrix (Fin m) (Fin k) ℂ
  DA : List (Fin n → Matrix (Fin m) (Fin k) ℂ)

/-- `A.reshape((-1, sources.size))` (model/arrays.py:437-438): row `l*m + i` is row `i` of block `l`. -/
def Steering.flat {n m k : ℕ} (s : Steering n m k) : Matrix (Fin (n * m)) (Fin k) ℂ :=
  fun r c => s.A (finProdFinEquiv.symm r).1 (finProdFinEquiv.symm r).2 c

/-- The map applied to every matrix by `perturb_steering_matrix`, or an exception: GainErrors
(model/perturbations.py:193-222), PhaseErrors (249-280), MutualCoupling (306-333), identity otherwise
(62-124).  Broadcasting of length-one vectors is not modelled (sizes agree in every reachable array,
see C09); a non-square coupling matrix fails in `C @ A`. -/
noncomputable def Perturbation.rowMap (p : Perturbation) (m k : ℕ) :
    Res (Matrix (Fin m) (Fin k) ℂ → Matrix (Fin m) (Fin k) ℂ) :=
  match p with
  | .gain g _ =>
    if g.length = m then .ok fun X i c => (1 + (g.getD i 0 : ℝ) : ℂ) * X i c
    else .error .valueError
  | .phase g _ =>
    if g.length = m then .ok fun X i c => Complex.exp (I * (g.getD i 0 : ℝ)) * X i c
    else .error .valueError
  | .coupling C _ =>
    if C.nrows = m ∧ C.ncols = m then .ok fun X i c => ∑ j : Fin m, C.at0 i j * X j c
    else .error .valueError
  | _ => .ok fun X => X

/-- `p.perturb_steering_matrix(A, DA)`: the same map is applied to `A` and to every matrix of `DA`.
[model/perturbations.py:62-124, 193-222, 249-280, 306-333] -/
noncomputable def Perturbation.perturbSteering {n m k : ℕ} (p : Perturbation)
    (s : Steering n m k) : Res (Steering n m k) :=
  match p.rowMap m k with
  | .error e => .error e
  | .ok f => .ok { A := fun l => f (s.A l), DA := s.DA.map fun X l => f (X l) }

/-- The filter on the perturbation list (model/arrays.py:394-401). -/
def ArrayDesign.filterPerturbations (a : ArrayDesign) (mode : String) : Res (List Perturbation) :=
  if mode = "all" then .ok a.perts.values
  else if mode = "known" then .ok (a.perts.values.filter fun p => p.isKnown)
  else if mode = "none" then .ok []
  else .error .valueError

/-- The loop `for p in perturb_list: A, DA = p.perturb_steering_matrix(A, DA)`
(model/arrays.py:434-435). -/
noncomputable def perturbLoop {n m k : ℕ} : List Perturbation → Steering n m k →
    Res (Steering n m k)
  | [], s => .ok s
  | p :: ps, s =>
    match p.perturbSteering s with
    | .error e => .error e
    | .ok s' => perturbLoop ps s'

/-- `S = element.calc_spatial_response(r, az, el)` (model/arrays.py:424-432) as an
`n × m × k` tensor; for far-field sources the response of the single reference `zeros((1,1))` is
broadcast over the sensors. Isotropic scalar elements skip this step. -/
noncomputable def spatialResponse {k : ℕ} (el : Element) (src : Sources k) (L : Mat ℝ) (m : ℕ) :
    Res (Fin el.outputSize → Matrix (Fin m) (Fin k) ℂ) :=
  match el with
  | .isotropicScalar => .ok fun _ _ _ => 1
  | .custom _ resp =>
    if src.isFarField then
      match src.sphericalCoords ⟨1, [![0]]⟩ with
      | .error e => .error e
      | .ok t => .ok fun l _ c => resp l (t 0 c).1 (t 0 c).2.1 (t 0 c).2.2
    else
      match src.sphericalCoords L with
      | .error e => .error e
      | .ok t => .ok fun l i c => resp l (t i c).1 (t i c).2.1 (t i c).2.2

/-- `steering_matrix` after the perturbation list has been filtered (model/arrays.py:403-442), for
element `el`, nominal locations `locs` and the perturbations `ps`.  `A = exp(1j*T)`,
`DA = A * (1j*X)`.  The actual locations always have as many rows as `locs` (the other branch cannot
be reached, see C13). -/
noncomputable def steerWith {k : ℕ} (el : Element) (locs : Mat ℝ) (ps : List Perturbation)
    (src : Sources k) (wavelength : ℝ) (computeDerivatives : Bool) :
    Res (Steering el.outputSize locs.nrows k) :=
  if (!el.isIsotropic || !el.isScalar) && computeDerivatives then
    .error .runtimeError
  else
    let L := ps.foldl (fun l p => p.perturbSensorLocations l) locs
    match src.phaseDelay L wavelength computeDerivatives with
    | .error e => .error e
    | .ok T =>
      if h : L.nrows = locs.nrows then
        let A : Matrix (Fin locs.nrows) (Fin k) ℂ := fun i c =>
          Complex.exp (I * (T.D (Fin.cast h.symm i) c : ℝ))
        let DA : List (Matrix (Fin locs.nrows) (Fin k) ℂ) := T.DD.map fun X i c =>
          A i c * (I * (X (Fin.cast h.symm i) c : ℝ))
        match spatialResponse el src L locs.nrows with
        | .error e => .error e
        | .ok S =>
          let s0 : Steering el.outputSize locs.nrows k :=
            { A := fun l i c => S l i c * A i c, DA := DA.map fun X _ => X }
          perturbLoop ps s0
      else .error .valueError

/-- `steering_matrix` (model/arrays.py:393-442): filter the perturbations by mode, then `steerWith`. -/
noncomputable def steering {k : ℕ} (a : ArrayDesign) (src : Sources k) (wavelength : ℝ)
    (computeDerivatives : Bool) (mode : String) : Res (Steering a.element.outputSize a.size k) :=
  match a.filterPerturbations mode with
  | .error e => .error e
  | .ok ps => steerWith a.element a.locations ps src wavelength computeDerivatives

end Doa
