import Verif.Model.Arrays

/-! # Vocabulary for perturbation bookkeeping (C09-C13) -/

namespace Doa.Spec

/-- A perturbation fits an array of `size` elements: one row/entry per element, and gain, phase and
coupling errors only for elements with a scalar output. -/
def Fits (size : ℕ) (el : Element) : Perturbation → Prop
  | .base _ => False
  | .location err _ => err.nrows = size
  | .gain g _ => el.outputSize = 1 ∧ g.length = size
  | .phase g _ => el.outputSize = 1 ∧ g.length = size
  | .coupling C _ => el.outputSize = 1 ∧ C.nrows = size

/-- The bookkeeping invariant: at most one perturbation of each type, and every one fits. -/
def WellPerturbed (a : ArrayDesign) : Prop :=
  (a.perturbations.map Perturbation.kind).Nodup ∧
  (∀ p ∈ a.perturbations, Fits a.size a.element p) ∧
  ∀ k p, a.perts.get? k = some p ↔ (p ∈ a.perturbations ∧ p.kind = k)

/-- The last perturbation of type `k` in a list. -/
def lastOfKind (ps : List Perturbation) (k : PertKind) : Option Perturbation :=
  ps.reverse.find? fun p => p.kind = k

end Doa.Spec
