import Verif.Model.Preprocessing
import Verif.Spec.Subspace
import Verif.Lemmas.Subspace
import Mathlib.LinearAlgebra.Matrix.PosDef
import Mathlib.Analysis.Matrix.Order

/-!
# Spatial smoothing and `l1_svd`: C49, C66
-/

namespace Doa.Props

open Doa Matrix Doa.Spec
open scoped ComplexOrder

/-- The content of a square view as a matrix. -/
def viewMat (h : MatHeap) (v : MatView) (n : ℕ) : Matrix (Fin n) (Fin n) ℂ := fun i j => h.read v i.1 j.1

/-- The view lives in an allocated buffer. -/
def ViewOk (h : MatHeap) (v : MatView) : Prop := v.id < h.next

/-- Mean of the `l` diagonal blocks of size `n` (specification). -/
noncomputable def blockMean (l n : ℕ) (R : ℕ → ℕ → ℂ) : Matrix (Fin n) (Fin n) ℂ :=
  fun i j => (∑ s ∈ Finset.range l, R (s + i.1) (s + j.1)) / (l : ℂ)

theorem smooth_loop (R : MatView) (n : ℕ) (Rf : MatView) (hne : R.id ≠ Rf.id) (hoff : Rf.off = (0, 0))
    (hsh : Rf.shape = (n, n)) : ∀ (q : ℕ) (h : MatHeap),
    let h' := ((List.range q).map (· + 1)).foldl (smoothStep R n Rf) h
    h'.next = h.next ∧ (∀ b, b ≠ Rf.id → h'.data b = h.data b) ∧
    ∀ i < n, ∀ j < n, h'.read Rf i j =
      h.read Rf i j + ∑ s ∈ Finset.range q, h.read R (s + 1 + i) (s + 1 + j) := by
  intro q
  induction q with
  | zero => intro h; simp
  | succ q ih =>
    intro h
    obtain ⟨h1, h2, h3⟩ := ih h
    simp only [List.range_succ, List.map_append, List.map_cons, List.map_nil, List.foldl_append,
      List.foldl_cons, List.foldl_nil]
    set h' := ((List.range q).map (· + 1)).foldl (smoothStep R n Rf) h with hh'
    refine ⟨h1, fun b hb => ?_, fun i hi j hj => ?_⟩
    · funext r c
      simp only [smoothStep, MatHeap.write]
      rw [if_neg (by tauto), h2 b hb]
    · simp only [smoothStep, MatHeap.write, MatHeap.read, hoff, hsh]
      rw [if_pos ⟨trivial, by omega, by omega, by omega, by omega⟩]
      have h4 := h3 i hi j hj
      simp only [MatHeap.read, hoff] at h4
      simp only [Nat.zero_add, Nat.sub_zero] at h4 ⊢
      rw [h4, Finset.sum_range_succ, add_assoc]
      congr 2
      rw [h2 _ (by simpa [MatView.diagBlock] using hne)]
      simp only [MatView.diagBlock]
      congr 1 <;> omega

/-- The forward pass. -/
theorem smoothForward_spec (h : MatHeap) (R : MatView) (hR : ViewOk h R) (l n : ℕ) (hl : 1 ≤ l) :
    (∀ b < h.next, (smoothForward h R l n).1.data b = h.data b) ∧
    (smoothForward h R l n).1.next = h.next + 1 ∧
    (smoothForward h R l n).2 = ⟨h.next, (0, 0), (n, n)⟩ ∧
    ∀ i j : Fin n, (smoothForward h R l n).1.read (smoothForward h R l n).2 i.1 j.1 =
      blockMean l n (h.read R) i j := by
  unfold smoothForward
  simp only [MatHeap.alloc]
  set Rf : MatView := ⟨h.next, (0, 0), (n, n)⟩ with hRf
  set h1 : MatHeap := ⟨h.next + 1, fun b => if b = h.next then fun r c => h.read (R.diagBlock 0 n) r c
    else h.data b⟩ with hh1
  have hRid : R.id ≠ h.next := Nat.ne_of_lt hR
  obtain ⟨e1, e2, e3⟩ := smooth_loop R n Rf hRid rfl rfl (l - 1) h1
  set h2 := ((List.range (l - 1)).map (· + 1)).foldl (smoothStep R n Rf) h1 with hh2
  refine ⟨fun b hb => ?_, e1, trivial, fun i j => ?_⟩
  · funext r c
    simp only [MatHeap.write, hRf]
    rw [if_neg (by omega), e2 b (by simp only [hRf]; omega)]
    simp only [hh1]
    rw [if_neg (by omega)]
  · have hi := i.2
    have hj := j.2
    have e4 := e3 i.1 hi j.1 hj
    simp only [MatHeap.write, MatHeap.read, hRf] at e4 ⊢
    rw [if_pos ⟨trivial, by omega, by omega, by omega, by omega⟩]
    simp only [Nat.zero_add, Nat.sub_zero] at e4 ⊢
    rw [e4, blockMean]
    congr 1
    obtain ⟨p, rfl⟩ : ∃ p, l = p + 1 := ⟨l - 1, by omega⟩
    rw [Nat.add_sub_cancel, Finset.sum_range_succ', add_comm]
    congr 1
    · refine Finset.sum_congr rfl fun s _ => ?_
      simp only [hh1]
      rw [if_neg hRid]
      rfl
    · simp only [hh1, if_true, MatHeap.read, MatView.diagBlock]
      congr 1 <;> omega

/-- Everything `spatial_smooth` does, in terms of the buffers. -/
theorem spatialSmooth_spec (h : MatHeap) (R : MatView) (hR : ViewOk h R) (m : ℕ) (hsh : R.shape = (m, m))
    (l : ℕ) (hl : 1 ≤ l) (hlm : l ≤ m) (fb cplx : Bool) :
    ∃ h' v, spatialSmooth h R l fb cplx = .ok (h', v) ∧
      (∀ b < h.next, h'.data b = h.data b) ∧ h.next ≤ v.id ∧ ViewOk h' v ∧
      v.shape = (m - l + 1, m - l + 1) ∧
      viewMat h' v (m - l + 1) =
        if fb then
          (1 / 2 : ℂ) • (blockMean l (m - l + 1) (h.read R) + Matrix.of fun i j : Fin (m - l + 1) =>
            (if cplx then star else id) (blockMean l (m - l + 1) (h.read R) i.rev j.rev))
        else blockMean l (m - l + 1) (h.read R) := by
  unfold spatialSmooth
  simp only [hsh]
  rw [if_neg (by omega)]
  have hn : ((m : ℤ) - l + 1).toNat = m - l + 1 := by omega
  simp only [hn, Int.toNat_natCast]
  set n := m - l + 1 with hndef
  obtain ⟨f1, f2, f3, f4⟩ := smoothForward_spec h R hR l n hl
  set f := smoothForward h R l n with hf
  have hrev : ∀ i : Fin n, n - 1 - i.1 = i.rev.1 := fun i => by rw [Fin.val_rev]; omega
  cases fb with
  | false =>
    simp only [Bool.not_false, if_true]
    refine ⟨f.1, f.2, rfl, f1, by rw [f3], ?_, by rw [f3], ?_⟩
    · unfold ViewOk
      rw [f2, f3]
      exact Nat.lt_succ_self _
    · ext i j
      exact f4 i j
  | true =>
    have hrd : ∀ (g : ℕ → ℕ → ℂ) (i j : ℕ),
        (f.1.alloc (n, n) g).1.read (f.1.alloc (n, n) g).2 i j = g i j := by
      intro g i j
      simp [MatHeap.read, MatHeap.alloc]
    have hfr : ∀ (g : ℕ → ℕ → ℂ) b, b < h.next → (f.1.alloc (n, n) g).1.data b = h.data b := by
      intro g b hb
      simp only [MatHeap.alloc]
      rw [if_neg (by omega), f1 b hb]
    simp only [Bool.not_true, Bool.false_eq_true, if_false, if_true]
    cases cplx with
    | true =>
      simp only [if_true]
      refine ⟨_, _, rfl, hfr _, by simp only; omega, by simp [ViewOk], rfl, ?_⟩
      ext i j
      refine (hrd _ i.1 j.1).trans ?_
      rw [f4, hrev, hrev, f4]
      rfl
    | false =>
      simp only [Bool.false_eq_true, if_false]
      refine ⟨_, _, rfl, hfr _, by simp only; omega, by simp [ViewOk], rfl, ?_⟩
      ext i j
      refine (hrd _ i.1 j.1).trans ?_
      rw [f4, hrev, hrev, f4]
      rfl

/-- **C49** (guard). `spatial_smooth` raises `ValueError` iff `l < 1` or `l > m`. -/
theorem C49_guard (h : MatHeap) (R : MatView) (hR : ViewOk h R) (m : ℕ) (hsh : R.shape = (m, m)) (l : ℤ)
    (fb cplx : Bool) :
    (spatialSmooth h R l fb cplx = .error .valueError ↔ l < 1 ∨ (m : ℤ) < l) ∧
    ∀ e, spatialSmooth h R l fb cplx = .error e → e = .valueError := by
  by_cases hl : l < 1 ∨ (m : ℤ) < l
  · have h1 : spatialSmooth h R l fb cplx = .error .valueError := by
      unfold spatialSmooth
      simp only [hsh]
      rw [if_pos (by omega)]
    rw [h1]
    exact ⟨⟨fun _ => hl, fun _ => rfl⟩, fun e he => (Except.error.inj he).symm⟩
  · obtain ⟨q, rfl⟩ : ∃ q : ℕ, l = q := ⟨l.toNat, by omega⟩
    obtain ⟨h', v, h1, _⟩ := spatialSmooth_spec h R hR m hsh q (by omega) (by omega) fb cplx
    rw [h1]
    exact ⟨⟨fun h => (by simp at h), fun h => absurd h hl⟩, fun e he => by simp at he⟩

/-- **C49** (value and purity). The returned `(m - l + 1)`-square matrix is the mean of the `l`
diagonal blocks (`fb=False`), or its average with its conjugated flip (`fb=True`). No existing buffer
changes, in particular not `R`, and the result lives in a new buffer. (For a real dtype, the code does
not conjugate; the hypothesis says that then the entries are real.) -/
theorem C49_smooth (h : MatHeap) (R : MatView) (hR : ViewOk h R) (m : ℕ) (hsh : R.shape = (m, m))
    (l : ℕ) (hl : 1 ≤ l) (hlm : l ≤ m) (fb cplx : Bool)
    (hreal : cplx = false → ∀ i j, (h.read R i j).im = 0) :
    ∃ h' v, spatialSmooth h R l fb cplx = .ok (h', v) ∧ v.shape = (m - l + 1, m - l + 1) ∧
      (∀ b < h.next, h'.data b = h.data b) ∧ h.next ≤ v.id ∧
      ∀ i j : Fin (m - l + 1), h'.read v i.1 j.1 =
        if fb then
          ((∑ s ∈ Finset.range l, h.read R (s + i.1) (s + j.1)) / (l : ℂ) +
            star ((∑ s ∈ Finset.range l, h.read R (s + (m - l - i.1)) (s + (m - l - j.1))) / (l : ℂ))) / 2
        else (∑ s ∈ Finset.range l, h.read R (s + i.1) (s + j.1)) / (l : ℂ) := by
  obtain ⟨h', v, h1, h2, h3, h4, h5, h6⟩ := spatialSmooth_spec h R hR m hsh l hl hlm fb cplx
  refine ⟨h', v, h1, h5, h2, h3, fun i j => ?_⟩
  have h7 := congrFun (congrFun h6 i) j
  refine h7.trans ?_
  cases fb with
  | false => rfl
  | true =>
    have hr : ∀ i : Fin (m - l + 1), i.rev.1 = m - l - i.1 := fun i => by rw [Fin.val_rev]; omega
    have hc : (if cplx then star else id) (blockMean l (m - l + 1) (h.read R) i.rev j.rev) =
        star (blockMean l (m - l + 1) (h.read R) i.rev j.rev) := by
      cases cplx with
      | true => rfl
      | false =>
        simp only [Bool.false_eq_true, if_false, id_eq]
        rw [Complex.star_def, Complex.conj_eq_iff_im.2]
        have h0 := hreal rfl
        simp only [blockMean]
        rw [show (l : ℂ) = ((l : ℝ) : ℂ) by push_cast; rfl, Complex.div_ofReal_im, Complex.im_sum]
        simp [h0]
    simp only [if_true, Matrix.smul_apply, Matrix.add_apply, Matrix.of_apply, hc, smul_eq_mul]
    simp only [blockMean, hr]
    ring

/-- The mean of the diagonal blocks as a sum of principal submatrices. -/
theorem blockMean_eq (h : MatHeap) (R : MatView) {m l n : ℕ} (hn : n + l = m + 1) :
    blockMean l n (h.read R) = (1 / (l : ℂ)) • ∑ s : Fin l, (viewMat h R m).submatrix
      (fun i : Fin n => (⟨s.1 + i.1, by omega⟩ : Fin m)) (fun i : Fin n => (⟨s.1 + i.1, by omega⟩ : Fin m)) := by
  ext i j
  rw [Matrix.smul_apply, Matrix.sum_apply, blockMean, Finset.sum_range, smul_eq_mul, div_eq_inv_mul, one_div]
  rfl

/-- **C49** (structure). Hermitian symmetry and positive semidefiniteness of `R` are inherited by the
result, with and without `fb`; with `fb=True` the result is centro-Hermitian; for a Toeplitz `R` and
`fb=False` the result is the leading block of `R`. -/
theorem C49_structure (h : MatHeap) (R : MatView) (hR : ViewOk h R) (m : ℕ) (hsh : R.shape = (m, m))
    (l : ℕ) (hl : 1 ≤ l) (hlm : l ≤ m) (fb cplx : Bool)
    (hreal : cplx = false → ∀ i j, (h.read R i j).im = 0) :
    ∃ h' v, spatialSmooth h R l fb cplx = .ok (h', v) ∧
      ((viewMat h R m).IsHermitian → (viewMat h' v (m - l + 1)).IsHermitian) ∧
      ((viewMat h R m).PosSemidef → (viewMat h' v (m - l + 1)).PosSemidef) ∧
      (fb = true → ∀ i j : Fin (m - l + 1), viewMat h' v (m - l + 1) i j =
        star (viewMat h' v (m - l + 1) i.rev j.rev)) ∧
      (fb = false → (∀ i j : ℕ, i + 1 < m → j + 1 < m → h.read R (i + 1) (j + 1) = h.read R i j) →
        ∀ i j : Fin (m - l + 1), h'.read v i.1 j.1 = h.read R i.1 j.1) := by
  obtain ⟨h', v, h1, h2, h3, h4, h5, h6⟩ := spatialSmooth_spec h R hR m hsh l hl hlm fb cplx
  set n := m - l + 1 with hn
  set B := blockMean l n (h.read R) with hB
  have hBe := blockMean_eq h R (m := m) (l := l) (n := n) (by omega)
  rw [← hB] at hBe
  have hl0 : (l : ℂ) ≠ 0 := by exact_mod_cast (by omega : l ≠ 0)
  -- the result with the conjugation made explicit
  have hres : viewMat h' v n = if fb then (1 / 2 : ℂ) • (B + (Bᴴᵀ).submatrix Fin.rev Fin.rev) else B := by
    rw [h6]
    cases fb with
    | false => rfl
    | true =>
      simp only [if_true]
      congr 2
      ext i j
      simp only [Matrix.of_apply, Matrix.submatrix_apply, Matrix.transpose_apply, conjTranspose_apply]
      cases cplx with
      | true => rfl
      | false =>
        simp only [Bool.false_eq_true, if_false, id_eq]
        rw [Complex.star_def]
        symm
        rw [Complex.conj_eq_iff_im]
        have h0 := hreal rfl
        rw [hB, blockMean, show (l : ℂ) = ((l : ℝ) : ℂ) by push_cast; rfl, Complex.div_ofReal_im, Complex.im_sum]
        simp [h0]
  have hhalf : star (1 / 2 : ℂ) = 1 / 2 := by
    rw [Complex.star_def, show (1 / 2 : ℂ) = ((1 / 2 : ℝ) : ℂ) by push_cast; rfl, Complex.conj_ofReal]
  have hBherm : (viewMat h R m).IsHermitian → B.IsHermitian := by
    intro hH
    rw [hBe, IsHermitian, conjTranspose_smul, conjTranspose_sum]
    congr 1
    · rw [Complex.star_def, map_div₀, map_one, Complex.conj_natCast]
    · refine Finset.sum_congr rfl fun s _ => ?_
      rw [conjTranspose_submatrix, hH.eq]
  have hBpsd : (viewMat h R m).PosSemidef → B.PosSemidef := by
    intro hH
    rw [hBe]
    refine PosSemidef.smul (posSemidef_sum _ fun s _ => hH.submatrix _) ?_
    rw [show (1 / (l : ℂ)) = ((1 / (l : ℝ) : ℝ) : ℂ) by push_cast; rfl, Complex.zero_le_real]
    positivity
  refine ⟨h', v, h1, fun hH => ?_, fun hH => ?_, fun hf i j => ?_, fun hf hT i j => ?_⟩
  · have hb := hBherm hH
    rw [hres]
    cases fb with
    | false => exact hb
    | true =>
      simp only [if_true]
      rw [IsHermitian, conjTranspose_smul, hhalf, conjTranspose_add, hb.eq, conjTranspose_submatrix]
      congr 3
      ext i j
      exact congrFun (congrFun hb.eq j) i
  · have hb := hBpsd hH
    rw [hres]
    cases fb with
    | false => exact hb
    | true =>
      simp only [if_true]
      refine PosSemidef.smul (hb.add ?_) ?_
      · rw [hb.1.eq]
        exact hb.transpose.submatrix _
      · rw [show (1 / 2 : ℂ) = ((1 / 2 : ℝ) : ℂ) by push_cast; rfl, Complex.zero_le_real]
        norm_num
  · rw [hres, hf]
    simp only [if_true, Matrix.smul_apply, Matrix.add_apply, Matrix.submatrix_apply, Matrix.transpose_apply,
      conjTranspose_apply, smul_eq_mul, Fin.rev_rev, star_mul', star_add, star_star, hhalf]
    ring
  · have h7 := congrFun (congrFun hres i) j
    rw [hf] at h7
    refine h7.trans ?_
    simp only [Bool.false_eq_true, if_false]
    have h8 : ∀ s < l, h.read R (s + i.1) (s + j.1) = h.read R i.1 j.1 := by
      intro s
      induction s with
      | zero => intro _; simp
      | succ s ih =>
        intro hs
        rw [← ih (by omega), ← hT (s + i.1) (s + j.1) (by omega) (by omega)]
        congr 1 <;> omega
    rw [hB, blockMean, Finset.sum_congr rfl fun s hs => h8 s (Finset.mem_range.1 hs), Finset.sum_const,
      Finset.card_range, nsmul_eq_mul]
    field_simp

/-- The source covariance after forward smoothing with `l` subarrays. -/
noncomputable def smoothedSourceCov {k : ℕ} (l : ℕ) (z : Fin k → ℂ) (P : Matrix (Fin k) (Fin k) ℂ) :
    Matrix (Fin k) (Fin k) ℂ :=
  fun a b => (∑ s ∈ Finset.range l, z a ^ s * P a b * star (z b ^ s)) / (l : ℂ)

theorem smoothedSourceCov_eq {k : ℕ} (l : ℕ) (z : Fin k → ℂ) (P : Matrix (Fin k) (Fin k) ℂ) :
    smoothedSourceCov l z P = (1 / (l : ℂ)) • ∑ s : Fin l,
      (diagonal fun c => z c ^ s.1) * P * (diagonal fun c => z c ^ s.1)ᴴ := by
  ext a b
  rw [Matrix.smul_apply, Matrix.sum_apply, smoothedSourceCov, Finset.sum_range, smul_eq_mul, div_eq_inv_mul,
    one_div]
  congr 1
  refine Finset.sum_congr rfl fun s _ => ?_
  rw [diagonal_conjTranspose, mul_diagonal, diagonal_mul]
  rfl

/-- **C49** (decorrelation). For the exact covariance `A P Aᴴ + σ I` of a ULA of `m` sensors with
distinct phase factors and an arbitrary, possibly singular (coherent sources) positive semidefinite
source covariance `P` with positive powers, forward smoothing with `l ≥ k` subarrays gives the
covariance of a ULA of `m - l + 1` sensors with the same sources and noise, whose source covariance is
positive definite: the sources are decorrelated, and the results on subspace methods apply. -/
theorem C49_decorrelates (h : MatHeap) (R : MatView) (hR : ViewOk h R) (m : ℕ) (hsh : R.shape = (m, m))
    {k : ℕ} {z : Fin k → ℂ} (hz : Function.Injective z)
    {P : Matrix (Fin k) (Fin k) ℂ} (hP : P.PosSemidef) (hpow : ∀ c, P c c ≠ 0) (σ : ℝ)
    (hcov : viewMat h R m = covModel (ulaMat m z) P σ)
    (l : ℕ) (hl : 1 ≤ l) (hlm : l ≤ m) (hkl : k ≤ l) (cplx : Bool) :
    ∃ h' v, spatialSmooth h R l false cplx = .ok (h', v) ∧
      viewMat h' v (m - l + 1) = covModel (ulaMat (m - l + 1) z) (smoothedSourceCov l z P) σ ∧
      (smoothedSourceCov l z P).PosDef := by
  obtain ⟨h', v, h1, h2, h3, h4, h5, h6⟩ := spatialSmooth_spec h R hR m hsh l hl hlm false cplx
  have hl0 : (l : ℂ) ≠ 0 := by exact_mod_cast (by omega : l ≠ 0)
  refine ⟨h', v, h1, ?_, ?_⟩
  · rw [h6]
    simp only [Bool.false_eq_true, if_false]
    set n := m - l + 1 with hn
    rw [blockMean_eq h R (m := m) (l := l) (n := n) (by omega), hcov]
    have hblock : ∀ s : Fin l, (covModel (ulaMat m z) P σ).submatrix
        (fun i : Fin n => (⟨s.1 + i.1, by omega⟩ : Fin m)) (fun i : Fin n => (⟨s.1 + i.1, by omega⟩ : Fin m)) =
        ulaMat n z * ((diagonal fun c => z c ^ s.1) * P * (diagonal fun c => z c ^ s.1)ᴴ) * (ulaMat n z)ᴴ +
          (σ : ℂ) • 1 := by
      intro s
      ext i j
      simp only [covModel, submatrix_apply, Matrix.add_apply, Matrix.smul_apply, Matrix.one_apply]
      congr 1
      · simp only [Matrix.mul_apply (N := (ulaMat _ z)ᴴ), Matrix.mul_apply (M := ulaMat _ z), ulaMat,
          conjTranspose_apply, diagonal_conjTranspose, mul_diagonal, diagonal_mul]
        refine Finset.sum_congr rfl fun b _ => ?_
        rw [Finset.sum_mul, Finset.sum_mul]
        refine Finset.sum_congr rfl fun a _ => ?_
        simp only [Pi.star_apply]
        rw [pow_add, pow_add, star_mul']
        ring
      · congr 1
        simp only [Nat.add_left_cancel_iff, Fin.ext_iff]
    simp only [hblock]
    rw [Finset.sum_add_distrib, Finset.sum_const, Finset.card_univ, Fintype.card_fin, covModel, smul_add,
      smoothedSourceCov_eq]
    congr 1
    · rw [← Matrix.sum_mul, ← Matrix.mul_sum, Matrix.mul_smul, Matrix.smul_mul]
    · rw [← Nat.cast_smul_eq_nsmul ℂ, smul_smul, one_div, inv_mul_cancel₀ hl0, one_smul]
  · set D : Fin l → Matrix (Fin k) (Fin k) ℂ := fun s => diagonal fun c => z c ^ s.1 with hD
    have hq : ∀ x : Fin k → ℂ, star x ⬝ᵥ smoothedSourceCov l z P *ᵥ x =
        (1 / (l : ℂ)) * ∑ s : Fin l, star ((D s)ᴴ *ᵥ x) ⬝ᵥ P *ᵥ ((D s)ᴴ *ᵥ x) := by
      intro x
      rw [smoothedSourceCov_eq, smul_mulVec, dotProduct_smul, smul_eq_mul, sum_mulVec, dotProduct_sum]
      congr 1
      refine Finset.sum_congr rfl fun s _ => ?_
      rw [star_mulVec, conjTranspose_conjTranspose, ← dotProduct_mulVec, mulVec_mulVec, mulVec_mulVec,
        Matrix.mul_assoc]
    have hnn : ∀ (x : Fin k → ℂ) (s : Fin l), 0 ≤ star ((D s)ᴴ *ᵥ x) ⬝ᵥ P *ᵥ ((D s)ᴴ *ᵥ x) :=
      fun x s => hP.dotProduct_mulVec_nonneg _
    have hlpos : (0 : ℂ) < 1 / (l : ℂ) := by
      rw [show (1 / (l : ℂ)) = ((1 / (l : ℝ) : ℝ) : ℂ) by push_cast; rfl, Complex.zero_lt_real]
      positivity
    refine PosDef.of_dotProduct_mulVec_pos ?_ fun x hx => ?_
    · ext a b
      rw [conjTranspose_apply, smoothedSourceCov, smoothedSourceCov, star_div₀, star_sum, star_natCast]
      congr 1
      refine Finset.sum_congr rfl fun s _ => ?_
      have := congrFun (congrFun hP.1.eq a) b
      rw [conjTranspose_apply] at this
      rw [star_mul', star_mul', star_star, this]
      ring
    · rw [hq]
      refine mul_pos hlpos (lt_of_le_of_ne (Finset.sum_nonneg fun s _ => hnn x s) fun h0 => hx ?_)
      have h7 := (Finset.sum_eq_zero_iff_of_nonneg fun s _ => hnn x s).1 h0.symm
      have h8 : ∀ s : Fin l, P *ᵥ ((D s)ᴴ *ᵥ x) = 0 := fun s =>
        (hP.dotProduct_mulVec_zero_iff _).1 (h7 s (Finset.mem_univ _))
      funext c
      have h9 : (fun b => P c b * x b) = (0 : Fin k → ℂ) := by
        refine eq_zero_of_forall_pow_sum_mul_pow_eq_zero (f := fun b => star (z b))
          (fun a b hab => hz (star_injective hab)) fun i => ?_
        have h10 := congrFun (h8 ⟨i.1, by omega⟩) c
        rw [mulVec, dotProduct] at h10
        refine Eq.trans (Finset.sum_congr rfl fun b _ => ?_) h10
        simp only [hD]
        rw [diagonal_conjTranspose, mulVec_diagonal, Pi.star_apply, star_pow]; ring
      exact (mul_eq_zero.1 (congrFun h9 c)).resolve_left (hpow c)

/-- Non-vacuity: two fully coherent sources (`P` of rank one) seen by four sensors; two subarrays
decorrelate them. -/
example : ∃ (h : MatHeap) (R : MatView) (P : Matrix (Fin 2) (Fin 2) ℂ), ViewOk h R ∧ P.det = 0 ∧
    viewMat h R 4 = covModel (ulaMat 4 ![1, Complex.I]) P 1 ∧
    ∃ h' v, spatialSmooth h R 2 false true = .ok (h', v) ∧
      ∃ P', P'.PosDef ∧ viewMat h' v 3 = covModel (ulaMat 3 ![1, Complex.I]) P' 1 := by
  set M := covModel (ulaMat 4 ![1, Complex.I]) (Matrix.of fun _ _ : Fin 2 => (1 : ℂ)) 1 with hM
  set h : MatHeap := ⟨1, fun _ r c => if hr : r < 4 ∧ c < 4 then M ⟨r, hr.1⟩ ⟨c, hr.2⟩ else 0⟩ with hh
  have hPs : (Matrix.of fun _ _ : Fin 2 => (1 : ℂ)).PosSemidef := by
    have : (Matrix.of fun _ _ : Fin 2 => (1 : ℂ)) =
        (Matrix.of fun _ _ => 1 : Matrix (Fin 1) (Fin 2) ℂ)ᴴ * (Matrix.of fun _ _ => 1 : Matrix (Fin 1) (Fin 2) ℂ) := by
      ext i j; simp [Matrix.mul_apply]
    rw [this]
    exact posSemidef_conjTranspose_mul_self _
  have hv : viewMat h ⟨0, (0, 0), (4, 4)⟩ 4 = M := by
    ext i j
    simp [viewMat, MatHeap.read, hh]
  obtain ⟨h', v, h1, h2, h3⟩ := C49_decorrelates h ⟨0, (0, 0), (4, 4)⟩ (by simp [ViewOk, hh]) 4 rfl
    (z := ![1, Complex.I]) (by
      intro a b hab
      fin_cases a <;> fin_cases b <;> simp_all [Complex.ext_iff]) hPs (by simp) 1 hv 2 (by norm_num) (by norm_num)
    (by norm_num) true
  exact ⟨h, _, _, by simp [ViewOk, hh], by simp [det_fin_two], hv, h', v, h1, _, h3, h2⟩

/-! ### C66 -/

/-- The first `min k p` right singular vectors, as columns. -/
def rightVectors {n p : ℕ} (Vh : Matrix (Fin p) (Fin n) ℂ) (k : ℕ) : Matrix (Fin n) (Fin (min k p)) ℂ :=
  fun i j => star (Vh ⟨j.1, by omega⟩ i)

/-- **C66**. `l1_svd(y, k)` is `y V T_k`, where the columns of `V T_k` are orthonormal right singular
vectors; so a measurement model `y = A x + n` is turned into `A (x V T_k) + n V T_k`. If `y` has rank
at most `k`, nothing is lost: the reduced data has the same sample covariance. -/
theorem C66_l1_svd {m n p k : ℕ} {y : Matrix (Fin m) (Fin n) ℂ} {U : Matrix (Fin m) (Fin p) ℂ} {s : Fin p → ℝ}
    {Vh : Matrix (Fin p) (Fin n) ℂ} (h : IsSvd y U s Vh) :
    l1Svd U s k = y * rightVectors Vh k ∧
    (rightVectors Vh k)ᴴ * rightVectors Vh k = 1 ∧
    (∀ {q : ℕ} (A : Matrix (Fin m) (Fin q) ℂ) (x : Matrix (Fin q) (Fin n) ℂ) (N : Matrix (Fin m) (Fin n) ℂ),
      y = A * x + N → l1Svd U s k = A * (x * rightVectors Vh k) + N * rightVectors Vh k) ∧
    (y.rank ≤ k → l1Svd U s k * (l1Svd U s k)ᴴ = y * yᴴ) := by
  have hV : ∀ (i : Fin p) (j : Fin (min k p)), (Vh * rightVectors Vh k) i j =
      if i.1 = j.1 then 1 else 0 := by
    intro i j
    have h1 := congrFun (congrFun h.right i) ⟨j.1, by omega⟩
    rw [one_apply] at h1
    simp only [Fin.ext_iff] at h1
    rw [← h1]
    rfl
  have h1 : l1Svd U s k = y * rightVectors Vh k := by
    rw [h.eq, Matrix.mul_assoc]
    ext i j
    rw [Matrix.mul_apply]
    simp only [hV, mul_diagonal]
    rw [Finset.sum_eq_single ⟨j.1, by omega⟩]
    · simp [l1Svd]
    · intro b _ hb
      rw [if_neg (fun e => hb (Fin.ext e)), mul_zero]
    · simp
  refine ⟨h1, ?_, ?_, ?_⟩
  · ext i j
    have h2 := hV ⟨i.1, by omega⟩ j
    rw [one_apply]
    simp only [Fin.ext_iff]
    rw [← h2, Matrix.mul_apply, Matrix.mul_apply]
    refine Finset.sum_congr rfl fun c _ => ?_
    rw [conjTranspose_apply, rightVectors, star_star]
  · intro q A x N hy
    rw [h1, hy, Matrix.add_mul, Matrix.mul_assoc]
  · intro hr
    have hs : ∀ j : Fin p, k ≤ j.1 → s j = 0 := by
      intro j hj
      by_contra hne
      have hpos : 0 < s j := lt_of_le_of_ne (h.nonneg j) (Ne.symm hne)
      have hd : (diagonal fun i => (s i : ℂ)).rank ≤ k := by
        have : diagonal (fun i => (s i : ℂ)) = Uᴴ * y * Vhᴴ := by
          rw [h.eq]
          have : Uᴴ * (U * diagonal (fun i => (s i : ℂ)) * Vh) * Vhᴴ =
              (Uᴴ * U) * diagonal (fun i => (s i : ℂ)) * (Vh * Vhᴴ) := by simp only [Matrix.mul_assoc]
          rw [this, h.left, h.right, Matrix.one_mul, Matrix.mul_one]
        rw [this]
        exact (rank_mul_le_left _ _).trans ((rank_mul_le_right _ _).trans hr)
      rw [rank_diagonal] at hd
      have hc : (Finset.Iic j).card ≤ Fintype.card {i // (s i : ℂ) ≠ 0} := by
        rw [Fintype.card_subtype]
        apply Finset.card_le_card
        intro i hi
        rw [Finset.mem_filter]
        refine ⟨Finset.mem_univ _, ?_⟩
        have := h.anti (Finset.mem_Iic.1 hi)
        exact_mod_cast (lt_of_lt_of_le hpos this).ne'
      rw [Fin.card_Iic] at hc
      omega
    have hyy : y * yᴴ = U * diagonal (fun i => (s i : ℂ) ^ 2) * Uᴴ := by
      rw [h.eq, conjTranspose_mul, conjTranspose_mul, diagonal_conjTranspose]
      have e : U * diagonal (fun i => (s i : ℂ)) * Vh * (Vhᴴ * (diagonal (star fun i => (s i : ℂ)) * Uᴴ)) =
          U * (diagonal (fun i => (s i : ℂ)) * (Vh * Vhᴴ) * diagonal (star fun i => (s i : ℂ))) * Uᴴ := by
        simp only [Matrix.mul_assoc]
      rw [e, h.right, Matrix.mul_one, diagonal_mul_diagonal]
      congr 3
      funext i
      rw [Pi.star_apply, Complex.star_def, Complex.conj_ofReal, sq]
    rw [hyy]
    ext a b
    rw [Matrix.mul_apply, Matrix.mul_apply]
    simp only [mul_diagonal, conjTranspose_apply]
    have hsplit : ∑ i : Fin p, U a i * (s i : ℂ) ^ 2 * star (U b i) =
        ∑ i ∈ (Finset.univ.filter fun i : Fin p => i.1 < k), U a i * (s i : ℂ) ^ 2 * star (U b i) := by
      symm
      apply Finset.sum_subset (Finset.subset_univ _)
      intro i _ hi
      rw [Finset.mem_filter, not_and] at hi
      rw [hs i (not_lt.1 (hi (Finset.mem_univ _)))]
      simp
    rw [hsplit]
    refine Finset.sum_bij (fun (j : Fin (min k p)) _ => (⟨j.1, by omega⟩ : Fin p)) ?_ ?_ ?_ ?_
    · intro j _
      have := j.2
      simp only [Finset.mem_filter, Finset.mem_univ, true_and]
      omega
    · intro i _ j _ hij
      exact Fin.ext (Fin.mk.inj hij)
    · intro i hi
      rw [Finset.mem_filter] at hi
      exact ⟨⟨i.1, by have := i.2; omega⟩, Finset.mem_univ _, rfl⟩
    · intro j _
      simp only [l1Svd, Complex.star_def, map_mul, Complex.conj_ofReal]
      ring

/-- Non-vacuity: the thin SVD of a `2 × 1` matrix of rank one. -/
example : IsSvd (m := 2) (n := 1) (p := 1) !![(2 : ℂ); 0] !![(1 : ℂ); 0] (fun _ => 2) !![(1 : ℂ)] :=
  ⟨rfl, by ext i j; fin_cases i; fin_cases j; simp [Matrix.mul_apply],
    by ext i j; fin_cases i; fin_cases j; simp [Matrix.mul_apply], fun _ => by norm_num,
    fun _ _ _ => le_rfl, by ext i j; fin_cases i <;> fin_cases j <;> simp [Matrix.mul_apply, Matrix.diagonal, Matrix.vecHead]⟩

end Doa.Props
