import Verif.Model.Arrays

/-!
# Specification: the same sensors, moved as a whole and numbered differently
-/

namespace Doa.Spec

open Doa

/-- `p'` describes the same errors as `p` when the sensor numbered `i` in the new numbering is the sensor `σ i` of the old one. -/
def Renumbered {m' m : ℕ} (σ : Fin m' ≃ Fin m) : Perturbation → Perturbation → Prop
  | .base k, .base k' => k' = k
  | .location e k, .location e' k' =>
    k' = k ∧ e.nrows = m ∧ e'.nrows = m' ∧ e'.ncols = e.ncols ∧ ∀ (i : Fin m') (j : ℕ), e'.at0 i j = e.at0 (σ i) j
  | .gain g k, .gain g' k' => k' = k ∧ g.length = m ∧ g'.length = m' ∧ ∀ i : Fin m', g'.getD i 0 = g.getD (σ i) 0
  | .phase g k, .phase g' k' => k' = k ∧ g.length = m ∧ g'.length = m' ∧ ∀ i : Fin m', g'.getD i 0 = g.getD (σ i) 0
  | .coupling C k, .coupling C' k' =>
    k' = k ∧ C.nrows = m ∧ C.ncols = m ∧ C'.nrows = m' ∧ C'.ncols = m' ∧ ∀ i j : Fin m', C'.at0 i j = C.at0 (σ i) (σ j)
  | _, _ => False

/-- The array `a'` has the elements and sensors of `a`, moved by `t` as a whole and numbered differently: sensor `i` of `a'` is sensor
`σ i` of `a`, with the errors of that sensor. -/
structure Rearranged (a a' : ArrayDesign) (σ : Fin a'.size ≃ Fin a.size) (t : ℕ → ℝ) : Prop where
  element : a'.element = a.element
  ndim : a'.ndim = a.ndim
  locations : ∀ (i : Fin a'.size) (j : ℕ), j < a.ndim → a'.locations.at0 i j = a.locations.at0 (σ i) j + t j
  perts : List.Forall₂ (Renumbered σ) a.perts.values a'.perts.values

end Doa.Spec
