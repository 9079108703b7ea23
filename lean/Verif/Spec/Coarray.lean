import Mathlib.Data.Fintype.Card
import Mathlib.Data.Fintype.Prod
import Mathlib.Algebra.BigOperators.Group.Finset.Basic
import Mathlib.Data.Complex.Basic
import Verif.Model.Arrays

/-!
# Vocabulary for statements about difference coarrays
-/

namespace Doa.Spec

/-- The ordered pairs `(i, j)` of elements whose difference `l[i] - l[j]` is `d`. -/
def pairs (l : List ℤ) (d : ℤ) : Finset (Fin l.length × Fin l.length) :=
  Finset.univ.filter fun p => l[p.1] - l[p.2] = d

/-- Number of ordered pairs of elements with difference `d`. -/
def pairCount (l : List ℤ) (d : ℤ) : ℕ := (pairs l d).card

/-- `d` occurs as a difference of two elements. -/
def IsLag (l : List ℤ) (d : ℤ) : Prop := ∃ i j : Fin l.length, l[i] - l[j] = d

/-- The average of `R` over the element pairs with difference `d`. -/
noncomputable def pairAverage (l : List ℤ) (R : Fin l.length → Fin l.length → ℂ) (d : ℤ) : ℂ :=
  (∑ p ∈ pairs l d, R p.1 p.2) / (pairCount l d : ℂ)

/-- `a` is a one-dimensional grid-based array with integer element positions `l` (in units of
`d0`): one index column, one coordinate. -/
def Is1DGrid (a : GridArray) (l : List ℤ) : Prop :=
  a.elementIndices = Mat.col l ∧ a.ndim = 1 ∧ a.size = l.length

/-- `v` is the size of the largest hole-free central segment: the lags `-(v-1), ..., v-1` are all
present and this fails for `v + 1`. -/
def IsCentralSize (l : List ℤ) (v : ℕ) : Prop :=
  (∀ d : ℤ, |d| < v → IsLag l d) ∧ ¬ (∀ d : ℤ, |d| < v + 1 → IsLag l d)

end Doa.Spec
