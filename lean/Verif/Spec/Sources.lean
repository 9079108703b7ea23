import Mathlib.Analysis.SpecialFunctions.Trigonometric.Inverse
import Verif.Model.Sources

/-! # Vocabulary for statements about source placements -/

namespace Doa.Spec

/-- The three units of a 1-D far-field placement. -/
def Unit1D (u : String) : Prop := u = "rad" ∨ u = "deg" ∨ u = "sin"

/-- The two units of a 2-D far-field placement. -/
def Unit2D (u : String) : Prop := u = "rad" ∨ u = "deg"

/-- The documented closed range of a broadside angle in each unit. -/
def InRange1D (u : String) (x : ℝ) : Prop :=
  (u = "rad" ∧ -(Real.pi / 2) ≤ x ∧ x ≤ Real.pi / 2) ∨ (u = "deg" ∧ -90 ≤ x ∧ x ≤ 90) ∨
  (u = "sin" ∧ -1 ≤ x ∧ x ≤ 1)

/-- The documented closed ranges of azimuth and elevation. -/
def InRange2D (u : String) (p : ℝ × ℝ) : Prop :=
  (u = "rad" ∧ -Real.pi ≤ p.1 ∧ p.1 ≤ Real.pi ∧ -(Real.pi / 2) ≤ p.2 ∧ p.2 ≤ Real.pi / 2) ∨
  (u = "deg" ∧ -180 ≤ p.1 ∧ p.1 ≤ 180 ∧ -90 ≤ p.2 ∧ p.2 ≤ 90)

/-- A 1-D placement that is valid in its unit. -/
def Valid1D {k : ℕ} (s : FF1D k) : Prop := Unit1D s.unit ∧ ∀ i, InRange1D s.unit (s.loc i)

/-- A 2-D placement that is valid in its unit. -/
def Valid2D {k : ℕ} (s : FF2D k) : Prop := Unit2D s.unit ∧ ∀ i, InRange2D s.unit (s.loc i)

/-- The broadside angle in radians denoted by `x` in unit `u`. -/
noncomputable def angleOf (u : String) (x : ℝ) : ℝ :=
  if u = "deg" then x * Real.pi / 180 else if u = "sin" then Real.arcsin x else x

/-- The representation in unit `u` of the broadside angle `t` (radians). -/
noncomputable def reprIn (u : String) (t : ℝ) : ℝ :=
  if u = "deg" then t * 180 / Real.pi else if u = "sin" then Real.sin t else t

end Doa.Spec
