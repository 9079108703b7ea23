import Mathlib.Data.Matrix.Basic
import Mathlib.Analysis.Complex.Basic
import Verif.Py

/-!
# Model of `spatial_smooth` and `l1_svd` (estimation/preprocessing.py)

`spatial_smooth` updates a copy in place, so the model keeps a heap of 2-D buffers and views into
them. Arithmetic is exact; integer dtypes (for which `Rf /= l` raises) are not modelled.
-/

namespace Doa

/-- A heap of 2-D buffers.
[memory behind preprocessing.py:32-35] -/
structure MatHeap where
  next : ℕ
  data : ℕ → ℕ → ℕ → ℂ

/-- A 2-D view: buffer, offset and shape.
[numpy views in preprocessing.py:32-34] -/
structure MatView where
  id : ℕ
  off : ℕ × ℕ
  shape : ℕ × ℕ

namespace MatHeap

/-- Entry `v[i, j]`.
[numpy indexing in preprocessing.py:32-34] -/
def read (h : MatHeap) (v : MatView) (i j : ℕ) : ℂ := h.data v.id (v.off.1 + i) (v.off.2 + j)

/-- A fresh buffer holding `f`.
[`copy()` in preprocessing.py:32] -/
def alloc (h : MatHeap) (shape : ℕ × ℕ) (f : ℕ → ℕ → ℂ) : MatHeap × MatView :=
  (⟨h.next + 1, fun b => if b = h.next then f else h.data b⟩, ⟨h.next, (0, 0), shape⟩)

/-- In-place elementwise update of the entries of a view.
[`+=` and `/=` in preprocessing.py:34-35] -/
def write (h : MatHeap) (v : MatView) (f : ℕ → ℕ → ℂ) : MatHeap :=
  ⟨h.next, fun b r c =>
    if b = v.id ∧ v.off.1 ≤ r ∧ r < v.off.1 + v.shape.1 ∧ v.off.2 ≤ c ∧ c < v.off.2 + v.shape.2 then
      f (r - v.off.1) (c - v.off.2)
    else h.data b r c⟩

end MatHeap

/-- `v[i:i+n, i:i+n]` for `i + n` within the shape.
[preprocessing.py:32, 34] -/
def MatView.diagBlock (v : MatView) (i n : ℕ) : MatView := ⟨v.id, (v.off.1 + i, v.off.2 + i), (n, n)⟩

/-- `Rf += R[i:i+n, i:i+n]` (preprocessing.py:33-34). -/
def smoothStep (R : MatView) (n : ℕ) (Rf : MatView) (h : MatHeap) (i : ℕ) : MatHeap :=
  h.write Rf fun r c => h.read Rf r c + h.read (R.diagBlock i n) r c

/-- The forward pass (preprocessing.py:31-35): `Rf = R[:n, :n].copy()`, the loop
`for i in range(1, l): Rf += R[i:i+n, i:i+n]` and `Rf /= l`, with `n = m - l + 1`. -/
noncomputable def smoothForward (h : MatHeap) (R : MatView) (l n : ℕ) : MatHeap × MatView :=
  let a := h.alloc (n, n) fun r c => h.read (R.diagBlock 0 n) r c
  let h2 := ((List.range (l - 1)).map (· + 1)).foldl (smoothStep R n a.2) a.1
  (h2.write a.2 fun r c => h2.read a.2 r c / (l : ℂ), a.2)

/-- `spatial_smooth(R, l, fb)` (preprocessing.py:3-43) for a square float `R`; `isComplex` is
`np.iscomplexobj(R)`. Returns the new heap and the returned array. -/
noncomputable def spatialSmooth (h : MatHeap) (R : MatView) (l : ℤ) (fb isComplex : Bool) :
    Res (MatHeap × MatView) :=
  let m : ℤ := R.shape.1
  if l < 1 ∨ l > m then .error .valueError
  else
    let n := (m - l + 1).toNat
    let f := smoothForward h R l.toNat n
    if !fb then .ok f
    else if isComplex then
      .ok (f.1.alloc (n, n) fun r c =>
        (1 / 2 : ℂ) * (f.1.read f.2 r c + star (f.1.read f.2 (n - 1 - r) (n - 1 - c))))
    else
      .ok (f.1.alloc (n, n) fun r c =>
        (1 / 2 : ℂ) * (f.1.read f.2 r c + f.1.read f.2 (n - 1 - r) (n - 1 - c)))

open Matrix in
/-- Contract of `U, s, Vh = np.linalg.svd(y, full_matrices=False)` for an `m × n` matrix, with
`p = min m n`.
[used in preprocessing.py:99] -/
structure IsSvd {m n p : ℕ} (y : Matrix (Fin m) (Fin n) ℂ) (U : Matrix (Fin m) (Fin p) ℂ) (s : Fin p → ℝ)
    (Vh : Matrix (Fin p) (Fin n) ℂ) : Prop where
  dim : p = min m n
  left : Uᴴ * U = 1
  right : Vh * Vhᴴ = 1
  nonneg : ∀ i, 0 ≤ s i
  anti : Antitone s
  eq : y = U * diagonal (fun i => (s i : ℂ)) * Vh

/-- `U[:, :k] * s[:k]` (preprocessing.py:99-100): the first `min k p` columns. -/
noncomputable def l1Svd {m p : ℕ} (U : Matrix (Fin m) (Fin p) ℂ) (s : Fin p → ℝ) (k : ℕ) :
    Matrix (Fin m) (Fin (min k p)) ℂ :=
  fun i j => U i ⟨j.1, by omega⟩ * (s ⟨j.1, by omega⟩ : ℂ)

end Doa
