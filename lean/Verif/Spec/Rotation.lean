import Mathlib.Analysis.SpecialFunctions.Trigonometric.Basic
import Verif.Spec.Sources
import Verif.Spec.Steering

/-!
# Arrays turned and mirrored in the xy-plane

Angles are measured from the y-axis towards the x-axis, as the broadside angles of `FarField1DSourcePlacement` are. For `ε = 1` and
`φ` the plane is turned by `φ` in this sense; for `ε = -1` it is first mirrored at the y-axis, which turns angles `α` into `-α`.
-/

namespace Doa.Spec

/-- `L'` contains the points `L`, mirrored at the y-axis if `ε = -1` and turned by `φ`. Both have one to three columns; missing
coordinates are zero (so that a 1-D array may be turned into a 2-D one). -/
structure Turned (ε φ : ℝ) (L L' : Mat ℝ) : Prop where
  sign : ε = 1 ∨ ε = -1
  rows : L'.nrows = L.nrows
  cols : 1 ≤ L.ncols ∧ L.ncols ≤ 3 ∧ 1 ≤ L'.ncols ∧ L'.ncols ≤ 3
  x : ∀ i, i < L.nrows → L'.at0 i 0 = Real.cos φ * (ε * L.at0 i 0) + Real.sin φ * L.at0 i 1
  y : ∀ i, i < L.nrows → L'.at0 i 1 = -Real.sin φ * (ε * L.at0 i 0) + Real.cos φ * L.at0 i 1
  z : ∀ i, i < L.nrows → L'.at0 i 2 = L.at0 i 2

/-- Turning an array turns the location errors with it and leaves the other perturbations as they are. -/
inductive TurnedPert (ε φ : ℝ) : Perturbation → Perturbation → Prop
  | location {err err' : Mat ℝ} (known : Bool) (h : Turned ε φ err err') : TurnedPert ε φ (.location err known) (.location err' known)
  | other {p : Perturbation} (h : ∀ err known, p ≠ .location err known) : TurnedPert ε φ p p

/-- `a'` is the array `a`, mirrored if `ε = -1` and turned by `φ`, with all its perturbations. -/
structure TurnedArray (ε φ : ℝ) (a a' : ArrayDesign) : Prop where
  element : a'.element = a.element
  locations : Turned ε φ a.locations a'.locations
  perts : List.Forall₂ (fun p p' => TurnedPert ε φ p.2 p'.2) a.perts a'.perts

/-- Azimuth and elevation in radians. -/
noncomputable def anglesOf (u : String) (p : ℝ × ℝ) : ℝ × ℝ :=
  if u = "deg" then (p.1 * Real.pi / 180, p.2 * Real.pi / 180) else p

/-- `src'` are the sources `src`, mirrored if `ε = -1` and turned by `φ`. The broadside angles of 1-D sources may be in any unit
and must stay within the field of view; azimuths, which are measured from the x-axis towards the y-axis, are determined up to full
turns; near-field sources are points of the plane. -/
inductive TurnedSources {k : ℕ} (ε φ : ℝ) : Sources k → Sources k → Prop
  | ff1 {s s' : FF1D k} (hv : Valid1D s) (hv' : Valid1D s')
      (h : ∀ c, angleOf s'.unit (s'.loc c) = ε * angleOf s.unit (s.loc c) + φ) : TurnedSources ε φ (.ff1 s) (.ff1 s')
  | ff2 {s s' : FF2D k}
      (haz : ∀ c, ∃ n : ℤ, Real.pi / 2 - (anglesOf s'.unit (s'.loc c)).1 =
        ε * (Real.pi / 2 - (anglesOf s.unit (s.loc c)).1) + φ + n * (2 * Real.pi))
      (hel : ∀ c, (anglesOf s'.unit (s'.loc c)).2 = (anglesOf s.unit (s.loc c)).2) : TurnedSources ε φ (.ff2 s) (.ff2 s')
  | nf {s s' : NF2D k}
      (h : ∀ c, s'.loc c = (Real.cos φ * (ε * (s.loc c).1) + Real.sin φ * (s.loc c).2,
        -Real.sin φ * (ε * (s.loc c).1) + Real.cos φ * (s.loc c).2)) : TurnedSources ε φ (.nf s) (.nf s')

end Doa.Spec
