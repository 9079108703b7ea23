import Mathlib.Analysis.SpecialFunctions.Log.Basic

/-! # The documented information criteria (Van Trees, Optimum Array Processing, sec. 7.8) -/

namespace Doa.Spec

open Finset

/-- The eigenvalue at ascending position `j`. -/
def eigAt (l : List ℝ) (j : ℕ) : ℝ := l.getD j 0

/-- Log-likelihood ratio for `i` sources: `N (m-i) (log of the arithmetic mean of the m-i smallest
eigenvalues minus log of their geometric mean)`. -/
noncomputable def likelihood (l : List ℝ) (N i : ℕ) : ℝ :=
  (N : ℝ) * ((l.length - i : ℕ) *
    Real.log ((∑ j ∈ range (l.length - i), eigAt l j) / (l.length - i : ℕ)) -
    ∑ j ∈ range (l.length - i), Real.log (eigAt l j))

/-- AIC(i). -/
noncomputable def aicCriterion (l : List ℝ) (N i : ℕ) : ℝ :=
  likelihood l N i + i * (2 * l.length - i)

/-- MDL(i). -/
noncomputable def mdlCriterion (l : List ℝ) (N i : ℕ) : ℝ :=
  likelihood l N i + (1 / 2) * (i * (2 * l.length - i) + 1) * Real.log N

/-- `l` is an ideal eigenvalue list for `k` sources: ascending positive values, the `m - k` smallest
ones equal to the noise level `σ`. -/
structure IdealNoise (l : List ℝ) (k : ℕ) (σ : ℝ) : Prop where
  lt : k < l.length
  pos : 0 < σ
  noise : ∀ j < l.length - k, eigAt l j = σ
  above : ∀ j < l.length, l.length - k ≤ j → σ ≤ eigAt l j

end Doa.Spec
