import Verif.Model.Subspace

/-! # The atom matrix of a two-dimensional far-field grid (estimation/core.py:77-97) -/

namespace Doa

/-- `_compute_atom_matrix` (core.py:77-97) for a 2-D far-field grid in unit `u`: the columns of the
steering matrix of `grid.source_placement`, whose rows are `[azimuth, elevation]`, for elements with
scalar output (`l` is the only block). A raised exception is represented by zero columns; it does not
occur for arrays whose known perturbations fit. -/
noncomputable def atomColumns2D (a : ArrayDesign) (l : Fin a.element.outputSize) (wavelength : ℝ)
    (u : String) (rows : List (List ℝ)) : List (Fin a.size → ℂ) :=
  let r := steering a (.ff2 ⟨fun c : Fin rows.length => ((rows.get c).getD 0 0, (rows.get c).getD 1 0), u⟩)
    wavelength false "known"
  List.ofFn fun c => fun i =>
    match r with
    | .ok S => S.A l i c
    | .error _ => 0

end Doa
