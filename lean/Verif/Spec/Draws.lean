import Verif.Model.Signals
import Mathlib.MeasureTheory.Function.L2Space

/-!
# A simulated experiment
-/

namespace Doa.Spec

open Matrix MeasureTheory

/-- The real numbers drawn for one snapshot of `k` sources and `m` sensors: imaginary (`true`) and real parts of the source
signals and of the noise. -/
abbrev SnapshotDraw (k m : ℕ) := (Bool × Fin k) ⊕ (Bool × Fin m) → ℝ

/-- What `get_narrowband_snapshots(..., n, return_covariance=True)` returns when the generators `g1` (sources) and `g2` (noise) draw the
numbers `d`. -/
noncomputable def experiment {k : ℕ} (a : ArrayDesign) (src : Sources k) (wl : ℝ) (g1 : StoGen k) (g2 : StoGen a.size)
    (n : ℕ) (d : Fin n → SnapshotDraw k a.size) :=
  getSnapshots a src wl
    (.ok ⟨k, n, g1.emit n (Matrix.of fun i t => d t (.inl (true, i))) (Matrix.of fun i t => d t (.inl (false, i)))⟩)
    (some (.ok ⟨a.size, n, g2.emit n (Matrix.of fun i t => d t (.inr (true, i))) (Matrix.of fun i t => d t (.inr (false, i)))⟩)) n

/-- A distribution of the numbers drawn with mean zero and variance one, such as the standard normal
distribution of `np.random.randn`. -/
structure UnitLaw (ν : Measure ℝ) : Prop where
  memLp : MemLp id 2 ν
  mean : ∫ x, x ∂ν = 0
  variance : ∫ x, x ^ 2 ∂ν = 1

end Doa.Spec
