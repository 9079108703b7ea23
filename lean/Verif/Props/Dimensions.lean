import Verif.Model.Plotting
import Verif.Props.Bookkeeping
import Verif.Props.Steering

/-!
# C91: the reported sizes are those of the data
-/

namespace Doa.Props

open Doa Doa.Spec

/-- **C91** (dimensions). After any history of operations on array objects: `actual_ndim` is the larger of `ndim` and the number of columns of
the location errors if there are any, and `ndim` otherwise; copies, perturbed or not, keep `size`, `ndim` and `output_size`. -/
theorem C91_dimensions_partial (ops : List ArrOp) (r : ℕ) (a : ArrayDesign) (h : (Heap.run {} ops).view r = some a) :
    (∀ err known, Perturbation.location err known ∈ a.perturbations → a.actualNdim = max a.ndim err.ncols) ∧
    ((∀ err known, Perturbation.location err known ∉ a.perturbations) → a.actualNdim = a.ndim) ∧
    (∀ ps nm r', ((Heap.run {} ops).perturbedCopy r ps nm).1 = .ok r' → ∃ b, ((Heap.run {} ops).perturbedCopy r ps nm).2.view r' = some b ∧
      b.size = a.size ∧ b.ndim = a.ndim ∧ b.outputSize = a.outputSize) ∧
    ∀ nm, ∃ r' b, ((Heap.run {} ops).freeCopy r nm).1 = .ok r' ∧ ((Heap.run {} ops).freeCopy r nm).2.view r' = some b ∧
      b.size = a.size ∧ b.ndim = a.ndim ∧ b.outputSize = a.outputSize ∧ b.actualNdim = a.ndim := by
  obtain ⟨_, h2, h3⟩ := C13_actual_locations a (C09_invariant ops r a h)
  refine ⟨fun err kn hm => (h2 err kn hm).1, fun hm => ?_, fun ps nm r' hr => ?_, fun nm => ?_⟩
  · unfold ArrayDesign.actualNdim
    rw [h3 hm]
    rfl
  · obtain ⟨_, c2, _⟩ := C10_copy _ r a h ps nm
    obtain ⟨l, b, -, g2, -, g3, g4, -⟩ := c2 r' hr
    refine ⟨b, g2, ?_, ?_, ?_⟩ <;> simp only [ArrayDesign.size, ArrayDesign.ndim, ArrayDesign.outputSize, g3, g4]
  · obtain ⟨_, _, r', b, g1, g2, g3, g4, g5, -⟩ := C10_copy _ r a h (.list []) nm
    refine ⟨r', b, g1, g2, ?_, ?_, ?_, ?_⟩
    all_goals try simp only [ArrayDesign.size, ArrayDesign.ndim, ArrayDesign.outputSize, g4, g5]
    unfold ArrayDesign.actualNdim ArrayDesign.actualElementLocations
    have : b.perts.values = [] := g3
    rw [this, List.foldl_nil, g4]

/-- **C91** (output size). For arrays of scalar sensors `output_size` is the number of values measured per snapshot, which is the
number of entries of each column of the steering matrix. -/
theorem C91_output_size_partial (a : ArrayDesign) (hs : a.element.isScalar = true) :
    a.outputSize = Fintype.card (Fin a.element.outputSize × Fin a.size) := by
  have h1 : a.element.outputSize = 1 := by simpa [Element.isScalar] using hs
  rw [Fintype.card_prod, Fintype.card_fin, Fintype.card_fin, h1, one_mul]
  rfl

/-- **C91** (violated for vector sensors). "For vector sensor arrays, the output size is greater than the array size": it is not. For every
non-empty array of vector sensors `output_size` is the number of sensors, less than the number of measured values. -/
theorem C91_vector_sensors_violated (M : Mat ℝ) (hM : 1 ≤ M.nrows ∧ M.ncols ≤ 3) (n : ℕ) (hn : 2 ≤ n) (resp : Fin n → Option ℝ → ℝ → ℝ → ℂ)
    (nm : Option String) :
    ∃ a, ArrayDesign.init (.mat M) nm ⟨[], .custom n resp⟩ = .ok a ∧ a.element.outputSize = n ∧ a.size = M.nrows ∧ ¬ a.size < a.outputSize ∧
      a.outputSize < Fintype.card (Fin a.element.outputSize × Fin a.size) := by
  refine ⟨⟨M, nm, .custom n resp, []⟩, ?_, rfl, rfl, lt_irrefl _, ?_⟩
  · unfold ArrayDesign.init
    dsimp only
    rw [if_neg (by omega)]
    rfl
  · rw [Fintype.card_prod, Fintype.card_fin, Fintype.card_fin]
    show M.nrows < n * M.nrows
    nlinarith [hM.1]

/-- Non-vacuity: a linear array with 2-D location errors has two actual dimensions. -/
example : ∃ ops r a, (Heap.run {} ops).view r = some a ∧ a.ndim = 1 ∧ a.actualNdim = 2 ∧ a.outputSize = 2 := by
  refine ⟨[.construct (.vec [0, 1]) none .isotropicScalar (.list [.location ⟨2, [fun _ => 0, fun _ => 1]⟩ true])], 0, _, rfl, rfl, ?_, rfl⟩
  rfl

end Doa.Props
