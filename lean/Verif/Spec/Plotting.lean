import Verif.Model.Plotting

/-!
# Vocabulary for statements about plots
-/

namespace Doa.Spec
open Doa

/-- The `i`-th spectrum described by the `sp` argument is `s`, with the given label: a single array
or the entries of a list are unlabelled, the entries of a dictionary are labelled by their keys. -/
def IsSpectrum (sp : SpArg) (i : ℕ) (s : NdArr) (label : String) : Prop :=
  match sp with
  | .array x => i = 0 ∧ s = x ∧ label = ""
  | .seq l => l[i]? = some s ∧ label = ""
  | .dict d => d[i]? = some (label, s)
  | .other => False

/-- The interval covered by cell number `c` when `[lo, hi]` is divided into `n` equal cells, which is
how an image with `n` columns (rows) fills its horizontal (vertical) extent. -/
def InCell (lo hi : ℝ) (n c : ℕ) (v : ℝ) : Prop :=
  lo + c * ((hi - lo) / n) ≤ v ∧ v ≤ lo + (c + 1) * ((hi - lo) / n)

/-- The sources have the units `us` (one per coordinate) and are at the points `l`; near-field coordinates are in metres. -/
inductive Placed : (Σ k, Sources k) → List String → List (List ℝ) → Prop
  | ff1 {k : ℕ} (s : FF1D k) : Placed ⟨k, .ff1 s⟩ [s.unit] (List.ofFn fun c => [s.loc c])
  | ff2 {k : ℕ} (s : FF2D k) : Placed ⟨k, .ff2 s⟩ [s.unit, s.unit] (List.ofFn fun c => [(s.loc c).1, (s.loc c).2])
  | nf {k : ℕ} (s : NF2D k) : Placed ⟨k, .nf s⟩ ["m", "m"] (List.ofFn fun c => [(s.loc c).1, (s.loc c).2])

end Doa.Spec
