import Mathlib.Data.Real.Basic
import Mathlib.Order.PiLex
import Mathlib.Data.List.FinRange
import Verif.Model.Coarray

/-!
# Model of `unique_rows` (utils/math.py:89-162) and of `compute_unique_location_differences`

Entries are real numbers (no NaN, no infinities), `x[i, :]` is `row i`.
-/

namespace Doa

/-- `np.all(np.abs(cur_row - x[kk, :]) <= tol)` (utils/math.py:144). -/
def rowsClose {m : ℕ} (tol : ℝ) (r s : Fin m → ℝ) : Prop := ∀ l, |r l - s l| ≤ tol

open Classical in
/-- Body of the inner loop (utils/math.py:141-150) on the state `(processed, next_ii)`;
`next_ii = -1` is `none`. -/
noncomputable def uniqueScanStep {n m : ℕ} (row : Fin n → Fin m → ℝ) (tol : ℝ) (ii : Fin n)
    (st : (Fin n → Bool) × Option (Fin n)) (kk : Fin n) : (Fin n → Bool) × Option (Fin n) :=
  if st.1 kk then st
  else if rowsClose tol (row ii) (row kk) then (Function.update st.1 kk true, st.2)
  else match st.2 with
    | none => (st.1, some kk)
    | some j => (st.1, some j)

/-- The inner loop `for kk in range(ii + 1, n)` (utils/math.py:141-150), starting from
`next_ii = -1`. -/
noncomputable def uniqueScan {n m : ℕ} (row : Fin n → Fin m → ℝ) (tol : ℝ) (ii : Fin n)
    (processed : Fin n → Bool) : (Fin n → Bool) × Option (Fin n) :=
  ((List.finRange n).filter fun k => decide (ii < k)).foldl (uniqueScanStep row tol ii)
    (processed, none)

/-- The only indices the inner loop can hand to the next round lie beyond `ii`. -/
theorem uniqueScan_next_gt {n m : ℕ} (row : Fin n → Fin m → ℝ) (tol : ℝ) (ii : Fin n)
    (processed : Fin n → Bool) (j : Fin n) (h : (uniqueScan row tol ii processed).2 = some j) :
    ii < j := by
  have key : ∀ (L : List (Fin n)) (st : (Fin n → Bool) × Option (Fin n)),
      (∀ k ∈ L, ii < k) → (∀ j ∈ st.2, ii < j) →
      ∀ j ∈ (L.foldl (uniqueScanStep row tol ii) st).2, ii < j := by
    intro L
    induction L with
    | nil => intro st _ h; exact h
    | cons k L ih =>
      intro st hL hst
      rw [List.foldl_cons]
      apply ih
      · exact fun k hk => hL k (List.mem_cons_of_mem _ hk)
      · unfold uniqueScanStep
        split
        · exact hst
        · split
          · exact hst
          · split
            · intro j hj
              simp only [Option.mem_some_iff] at hj
              exact hj ▸ hL k (List.mem_cons_self ..)
            · intro j hj
              exact hst j (by rw [‹st.2 = _›]; exact hj)
  exact key _ _ (by simp) (by simp) j h

/-- The loop `while ii >= 0` (utils/math.py:137-151): the list appended to `unique_indices`. -/
noncomputable def uniqueLoop {n m : ℕ} (row : Fin n → Fin m → ℝ) (tol : ℝ) (ii : Fin n)
    (processed : Fin n → Bool) : List (Fin n) :=
  ii :: match _h : (uniqueScan row tol ii processed).2 with
    | none => []
    | some j => uniqueLoop row tol j (uniqueScan row tol ii processed).1
termination_by n - ii.1
decreasing_by
  have := uniqueScan_next_gt row tol ii processed j _h
  have h1 : ii.1 < j.1 := this
  have := j.2
  omega

/-- `np.lexsort(np.flipud(y.T))` (utils/math.py:155): the stable permutation sorting the rows
lexicographically, the first column being the primary key. -/
noncomputable def lexSortIdx {m : ℕ} (y : List (Fin m → ℝ)) : List (Fin y.length) :=
  open Classical in
  (List.finRange y.length).mergeSort fun i j => decide (toLex (y.get i) ≤ toLex (y.get j))

/-- All entries of a matrix, row by row.
[used in utils/math.py:130] -/
def _root_.Mat.entries {α : Type _} (x : Mat α) : List α := x.rows.flatMap List.ofFn

/-- `unique_rows(x, atol, rtol, return_index=True, sort)` (utils/math.py:89-162). The model returns
the pair `(y, indices)`; without `return_index` the code returns `y` only. For a matrix without rows
the index array of the code is empty with a float dtype and two dimensions; here it is the empty
list. `np.nanmin` raises `ValueError` on a matrix with rows but no columns. -/
noncomputable def uniqueRows (x : Nd ℝ) (atol rtol : ℝ) (sort : Bool) : Res (Mat ℝ × List ℕ) :=
  match x with
  | .scalar _ => .error .valueError
  | .vec _ => .error .valueError
  | .tensor => .error .valueError
  | .mat x =>
    if h : x.rows.length = 0 then .ok (x, [])
    else
      match x.entries.min?, x.entries.max? with
      | some xmin, some xmax =>
        let tol := atol + rtol * max |xmin| |xmax|
        let u := uniqueLoop x.rows.get tol ⟨0, Nat.pos_of_ne_zero h⟩ (fun _ => false)
        let y := u.map x.rows.get
        if sort then
          let indices := lexSortIdx y
          .ok (⟨x.ncols, indices.map y.get⟩,
            indices.map fun i : Fin y.length => (u.get (Fin.cast (List.length_map _) i)).1)
        else .ok (⟨x.ncols, y⟩, u.map Fin.val)
      | _, _ => .error .valueError

/-- `compute_unique_location_differences` (model/coarray.py:23-32). -/
noncomputable def uniqueLocationDifferences (locations : Mat ℝ) (atol rtol : ℝ) : Res (Mat ℝ) :=
  match uniqueRows (.mat ⟨locations.ncols, locationDifferences locations.rows⟩) atol rtol false with
  | .ok (y, _) => .ok y
  | .error e => .error e

end Doa
