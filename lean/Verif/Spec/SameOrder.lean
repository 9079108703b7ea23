import Mathlib.Order.Basic

/-!
# Specification: lists that order their positions in the same way
-/

namespace Doa.Spec

variable {β γ : Type}

/-- Two lists of values compare in the same way at every pair of positions: whatever can be decided by
comparing entries (peaks, maxima, sorting) comes out the same. -/
def SameOrder [LE β] [LE γ] (xs : List β) (ys : List γ) : Prop :=
  xs.length = ys.length ∧ ∀ (i j : ℕ) (a b : β) (c d : γ), xs[i]? = some a → xs[j]? = some b →
    ys[i]? = some c → ys[j]? = some d → (a ≤ b ↔ c ≤ d)

end Doa.Spec
