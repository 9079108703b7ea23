import Verif.Model.Steering

/-! # Vocabulary for statements about performance bounds -/

namespace Doa.Spec

/-- `array.steering_matrix(sources, wavelength, True, perturbations=mode)` returns the steering matrix `A` and exactly one
derivative matrix `D` (scalar array elements, one unknown per source). -/
def Steers {k : ℕ} (a : ArrayDesign) (src : Sources k) (wl : ℝ) (mode : String) (A D : Matrix (Fin a.size) (Fin k) ℂ) : Prop :=
  ∃ out DA, steering a src wl true mode = .ok out ∧ a.element.outputSize = 1 ∧ out.DA = [DA] ∧ (∀ l, out.A l = A) ∧ ∀ l, DA l = D

end Doa.Spec
