import Verif.Lemmas.EigenGap
import Verif.Spec.Frobenius

/-!
# Perturbation of the noise subspace

The Davis-Kahan bound in the Frobenius norm: the projector onto the eigenvectors of the `q` least
eigenvalues moves by at most twice the change of the matrix divided by the gap.
-/

namespace Doa
open Matrix Spec

variable {m : ℕ}

theorem frobSq_nonneg {n : ℕ} (M : Matrix (Fin m) (Fin n) ℂ) : 0 ≤ frobSq M :=
  Finset.sum_nonneg fun _ _ => Finset.sum_nonneg fun _ _ => by positivity

theorem frobSq_trace {n : ℕ} (M : Matrix (Fin m) (Fin n) ℂ) : frobSq M = (trace (M * Mᴴ)).re := by
  simp only [frobSq, trace, diag_apply, mul_apply, conjTranspose_apply, Complex.re_sum]
  refine Finset.sum_congr rfl fun i _ => Finset.sum_congr rfl fun j _ => ?_
  rw [Complex.star_def, Complex.mul_conj, Complex.ofReal_re, Complex.normSq_eq_norm_sq]

/-- Cauchy-Schwarz for the trace of a product. -/
theorem trace_mul_sq_le {n : ℕ} (X : Matrix (Fin m) (Fin n) ℂ) (Y : Matrix (Fin n) (Fin m) ℂ) :
    ‖trace (X * Y)‖ ^ 2 ≤ frobSq X * frobSq Y := by
  have h1 : ‖trace (X * Y)‖ ≤ ∑ p : Fin m × Fin n, ‖X p.1 p.2‖ * ‖Y p.2 p.1‖ := by
    simp only [trace, diag_apply, mul_apply]
    rw [Fintype.sum_prod_type]
    refine (norm_sum_le _ _).trans (Finset.sum_le_sum fun i _ => (norm_sum_le _ _).trans (Finset.sum_le_sum fun j _ => ?_))
    rw [norm_mul]
  have h2 := Finset.sum_mul_sq_le_sq_mul_sq Finset.univ (fun p : Fin m × Fin n => ‖X p.1 p.2‖) fun p => ‖Y p.2 p.1‖
  have h3 : ∑ p : Fin m × Fin n, ‖X p.1 p.2‖ ^ 2 = frobSq X := by
    rw [Fintype.sum_prod_type]; rfl
  have h4 : ∑ p : Fin m × Fin n, ‖Y p.2 p.1‖ ^ 2 = frobSq Y := by
    rw [Fintype.sum_prod_type, Finset.sum_comm]; rfl
  rw [h3, h4] at h2
  exact (pow_le_pow_left₀ (norm_nonneg _) h1 2).trans h2

/-- A matrix entry, and a form, is bounded by the norm of the matrix. -/
theorem form_sq_le (M : Matrix (Fin m) (Fin m) ℂ) (a : Fin m → ℂ) :
    ‖star a ⬝ᵥ M *ᵥ a‖ ^ 2 ≤ frobSq M * (∑ i, ‖a i‖ ^ 2) ^ 2 := by
  have h : star a ⬝ᵥ M *ᵥ a = trace (M * vecMulVec a (star a)) := by
    rw [mul_vecMulVec, trace_vecMulVec, dotProduct_comm]
  rw [h]
  refine (trace_mul_sq_le _ _).trans (le_of_eq ?_)
  congr 1
  simp only [frobSq, vecMulVec_apply, norm_mul, mul_pow, Pi.star_apply, norm_star]
  rw [sq (∑ i, ‖a i‖ ^ 2), Finset.sum_mul_sum]

/-- The traces of `R` against the projector onto the span of `q` orthonormal vectors. -/
theorem trace_lowProj {R E E' : Matrix (Fin m) (Fin m) ℂ} {w : Fin m → ℝ} (h : IsEigh R w E) (q : ℕ) :
    (trace (R * lowProj E' q)).re = ∑ i, w i * ∑ j : Fin m, if j.1 < q then ‖(Eᴴ * E') i j‖ ^ 2 else 0 := by
  have hR : R = E * diagonal (fun j => (w j : ℂ)) * Eᴴ := by
    rw [← h.eig, Matrix.mul_assoc, h.orth', Matrix.mul_one]
  set D : Matrix (Fin m) (Fin m) ℂ := diagonal (fun i : Fin m => if i.1 < q then (1 : ℂ) else 0) with hD
  have : trace (R * lowProj E' q) = trace (diagonal (fun j => (w j : ℂ)) * (Eᴴ * E' * D * (Eᴴ * E')ᴴ)) := by
    rw [lowProj, ← hD, hR, conjTranspose_mul, conjTranspose_conjTranspose]
    simp only [Matrix.mul_assoc]
    rw [trace_mul_comm]
    simp only [Matrix.mul_assoc]
  rw [this, trace, Complex.re_sum]
  refine Finset.sum_congr rfl fun i _ => ?_
  rw [diag_apply, diagonal_mul, mul_apply, Complex.re_ofReal_mul, Complex.re_sum]
  congr 1
  refine Finset.sum_congr rfl fun j _ => ?_
  rw [hD, mul_diagonal, conjTranspose_apply]
  split_ifs
  · rw [mul_one, Complex.star_def, Complex.mul_conj, Complex.ofReal_re, Complex.normSq_eq_norm_sq]
  · simp

theorem lowProj_mul_self {E : Matrix (Fin m) (Fin m) ℂ} (hE : Eᴴ * E = 1) (q : ℕ) :
    lowProj E q * lowProj E q = lowProj E q := by
  unfold lowProj
  set D : Matrix (Fin m) (Fin m) ℂ := diagonal (fun i : Fin m => if i.1 < q then (1 : ℂ) else 0) with hD
  have hDD : D * D = D := by
    rw [hD, diagonal_mul_diagonal]
    congr 1; funext i; split_ifs <;> simp
  calc E * D * Eᴴ * (E * D * Eᴴ) = E * D * (Eᴴ * E) * D * Eᴴ := by simp only [Matrix.mul_assoc]
    _ = E * (D * D) * Eᴴ := by rw [hE, Matrix.mul_one]; simp only [Matrix.mul_assoc]
    _ = _ := by rw [hDD]

theorem lowProj_hermitian (E : Matrix (Fin m) (Fin m) ℂ) (q : ℕ) : (lowProj E q)ᴴ = lowProj E q := by
  unfold lowProj
  rw [conjTranspose_mul, conjTranspose_mul, conjTranspose_conjTranspose, diagonal_conjTranspose, Matrix.mul_assoc]
  congr 3
  funext i
  simp only [Pi.star_apply]
  split_ifs <;> simp

theorem sum_row_unitary {F : Matrix (Fin m) (Fin m) ℂ} (hF : F * Fᴴ = 1) (i : Fin m) : ∑ j, ‖F i j‖ ^ 2 = 1 := by
  have := congrFun (congrFun hF i) i
  rw [mul_apply, one_apply_eq] at this
  have h2 := congrArg Complex.re this
  rw [Complex.re_sum, Complex.one_re] at h2
  rw [← h2]
  refine Finset.sum_congr rfl fun j _ => ?_
  rw [conjTranspose_apply, Complex.star_def, Complex.mul_conj, Complex.ofReal_re, Complex.normSq_eq_norm_sq]

theorem sum_col_unitary {F : Matrix (Fin m) (Fin m) ℂ} (hF : Fᴴ * F = 1) (j : Fin m) : ∑ i, ‖F i j‖ ^ 2 = 1 := by
  have h := sum_row_unitary (F := Fᴴ) (by rw [conjTranspose_conjTranspose, hF]) j
  rw [← h]
  exact Finset.sum_congr rfl fun i _ => by rw [conjTranspose_apply, norm_star]

/-- The eigenvectors of the least eigenvalues minimise the trace; moving away from them costs the gap. -/
theorem IsEigh.trace_gap {R E E' : Matrix (Fin m) (Fin m) ℂ} {w : Fin m → ℝ} (h : IsEigh R w E) (hE' : E'ᴴ * E' = 1)
    {q : ℕ} {c g : ℝ} (hlo : ∀ i : Fin m, i.1 < q → w i ≤ c) (hhi : ∀ i : Fin m, q ≤ i.1 → c + g ≤ w i) :
    g / 2 * frobSq (lowProj E' q - lowProj E q) ≤ (trace (R * lowProj E' q)).re - (trace (R * lowProj E q)).re := by
  have hEE' : E' * E'ᴴ = 1 := mul_eq_one_comm.1 hE'
  set F := Eᴴ * E' with hF
  have hFF : F * Fᴴ = 1 := by
    rw [hF, conjTranspose_mul, conjTranspose_conjTranspose, Matrix.mul_assoc, ← Matrix.mul_assoc E', hEE', Matrix.one_mul, h.orth]
  have hFF' : Fᴴ * F = 1 := mul_eq_one_comm.1 hFF
  set p : Fin m → ℝ := fun i => ∑ j : Fin m, if j.1 < q then ‖F i j‖ ^ 2 else 0 with hp
  set u : Fin m → ℝ := fun i => if i.1 < q then 1 else 0 with hu
  have hp0 : ∀ i, 0 ≤ p i := fun i => Finset.sum_nonneg fun j _ => by split_ifs <;> positivity
  have hp1 : ∀ i, p i ≤ 1 := fun i => by
    rw [← sum_row_unitary hFF i]
    exact Finset.sum_le_sum fun j _ => by split_ifs <;> first | exact le_rfl | positivity
  have hsum : ∑ i, p i = ∑ i, u i := by
    rw [hp, Finset.sum_comm]
    refine Finset.sum_congr rfl fun j _ => ?_
    by_cases hj : j.1 < q
    · simp only [hj, if_true, hu]; exact sum_col_unitary hFF' j
    · simp [hj, hu]
  -- the two traces
  have t1 : (trace (R * lowProj E' q)).re = ∑ i, w i * p i := trace_lowProj h q
  have tone : ∀ i, (∑ j : Fin m, if j.1 < q then ‖(Eᴴ * E) i j‖ ^ 2 else 0) = u i := by
    intro i
    rw [h.orth]
    rw [Finset.sum_eq_single i]
    · simp [hu]
    · intro j _ hj; simp [one_apply_ne hj.symm]
    · simp
  have t2 : (trace (R * lowProj E q)).re = ∑ i, w i * u i := by
    rw [trace_lowProj h q]
    exact Finset.sum_congr rfl fun i _ => by rw [tone i]
  -- the distance of the projectors
  have hdist : frobSq (lowProj E' q - lowProj E q) = 2 * (∑ i, u i - ∑ i, u i * p i) := by
    have e1 : (trace (lowProj E q * lowProj E' q)).re = ∑ i, u i * p i := by
      have : trace (lowProj E q * lowProj E' q) =
          trace (diagonal (fun i : Fin m => ((u i : ℝ) : ℂ)) * (F * diagonal (fun i : Fin m => if i.1 < q then (1 : ℂ) else 0) * Fᴴ)) := by
        have hdu : (diagonal (fun i : Fin m => ((u i : ℝ) : ℂ)) : Matrix (Fin m) (Fin m) ℂ) =
            diagonal (fun i : Fin m => if i.1 < q then (1 : ℂ) else 0) := by
          congr 1; funext i; simp only [hu]; split_ifs <;> simp
        rw [hdu, lowProj, lowProj, hF, conjTranspose_mul, conjTranspose_conjTranspose]
        simp only [Matrix.mul_assoc]
        rw [trace_mul_comm]
        simp only [Matrix.mul_assoc]
      rw [this, trace, Complex.re_sum]
      refine Finset.sum_congr rfl fun i _ => ?_
      rw [diag_apply, diagonal_mul, mul_apply, Complex.re_ofReal_mul, Complex.re_sum]
      congr 1
      refine Finset.sum_congr rfl fun j _ => ?_
      rw [mul_diagonal, conjTranspose_apply]
      split_ifs
      · rw [mul_one, Complex.star_def, Complex.mul_conj, Complex.ofReal_re, Complex.normSq_eq_norm_sq]
      · simp
    have etr : ∀ {G : Matrix (Fin m) (Fin m) ℂ}, Gᴴ * G = 1 → (trace (lowProj G q)).re = ∑ i, u i := by
      intro G hG
      rw [lowProj, trace_mul_comm, ← Matrix.mul_assoc, hG, Matrix.one_mul, trace_diagonal, Complex.re_sum]
      exact Finset.sum_congr rfl fun i _ => by simp only [hu]; split_ifs <;> simp
    rw [frobSq_trace, conjTranspose_sub, lowProj_hermitian, lowProj_hermitian, Matrix.sub_mul, Matrix.mul_sub,
      Matrix.mul_sub, lowProj_mul_self hE', lowProj_mul_self h.orth, trace_sub, trace_sub, trace_sub,
      trace_mul_comm (lowProj E' q), Complex.sub_re, Complex.sub_re, Complex.sub_re, e1, etr hE', etr h.orth]
    ring
  rw [t1, t2, hdist]
  have hz : ∑ i, w i * p i - ∑ i, w i * u i = ∑ i, (w i - c) * (p i - u i) := by
    have : ∑ i, (w i - c) * (p i - u i) = (∑ i, w i * p i - ∑ i, w i * u i) - c * (∑ i, p i - ∑ i, u i) := by
      rw [mul_sub, Finset.mul_sum, Finset.mul_sum, ← Finset.sum_sub_distrib, ← Finset.sum_sub_distrib, ← Finset.sum_sub_distrib]
      exact Finset.sum_congr rfl fun i _ => by ring
    rw [this, hsum]; ring
  rw [hz]
  have hl : g / 2 * (2 * (∑ i, u i - ∑ i, u i * p i)) = ∑ i, g * ((1 - u i) * p i) := by
    rw [← hsum]
    have : g / 2 * (2 * (∑ i, p i - ∑ i, u i * p i)) = g * (∑ i, p i - ∑ i, u i * p i) := by ring
    rw [this, ← Finset.sum_sub_distrib, Finset.mul_sum]
    exact Finset.sum_congr rfl fun i _ => by ring
  rw [hl]
  refine Finset.sum_le_sum fun i _ => ?_
  by_cases hi : i.1 < q
  · have h1 : u i = 1 := by simp [hu, hi]
    rw [h1]
    have := mul_nonneg (sub_nonneg.2 (hlo i hi)) (sub_nonneg.2 (hp1 i))
    nlinarith
  · have h0 : u i = 0 := by simp [hu, hi]
    rw [h0]
    have := mul_le_mul_of_nonneg_right (hhi i (by omega)) (hp0 i)
    nlinarith

/-- **Davis-Kahan.** -/
theorem davis_kahan {R R' E E' : Matrix (Fin m) (Fin m) ℂ} {w w' : Fin m → ℝ} (h : IsEigh R w E) (h' : IsEigh R' w' E')
    {q : ℕ} {g : ℝ} (hg : 0 ≤ g) (hgap : ∀ i j : Fin m, i.1 < q → q ≤ j.1 → w i + g ≤ w j) :
    g ^ 2 * frobSq (lowProj E' q - lowProj E q) ≤ 4 * frobSq (R' - R) := by
  have split : ∀ {v : Fin m → ℝ} {g : ℝ}, Monotone v → (∀ i j : Fin m, i.1 < q → q ≤ j.1 → v i + g ≤ v j) →
      ∃ c, (∀ i : Fin m, i.1 < q → v i ≤ c) ∧ ∀ i : Fin m, q ≤ i.1 → c + g ≤ v i := by
    intro v g hv hvg
    by_cases hq : q < m
    · refine ⟨v ⟨q, hq⟩ - g, fun i hi => ?_, fun i hi => ?_⟩
      · have := hvg i ⟨q, hq⟩ hi le_rfl; linarith
      · have := hv (show (⟨q, hq⟩ : Fin m) ≤ i from hi); linarith
    · by_cases hm : m = 0
      · subst hm; exact ⟨0, fun i => i.elim0, fun i => i.elim0⟩
      · refine ⟨v ⟨m - 1, by omega⟩, fun i _ => hv (show i ≤ (⟨m - 1, by omega⟩ : Fin m) by
          have := i.2; show i.1 ≤ m - 1; omega), fun i hi => ?_⟩
        have := i.2; omega
  obtain ⟨c, hc1, hc2⟩ := split h.mono hgap
  obtain ⟨c', hc1', hc2'⟩ := split (g := 0) h'.mono fun i j hi hj => by
    rw [add_zero]; exact h'.mono (show i ≤ j from (by show i.1 ≤ j.1; omega))
  have k1 := h.trace_gap h'.orth hc1 hc2
  have k2 := h'.trace_gap h.orth hc1' hc2'
  rw [zero_div, zero_mul] at k2
  set x := frobSq (lowProj E' q - lowProj E q) with hx
  have hx0 : 0 ≤ x := frobSq_nonneg _
  have hy0 : 0 ≤ frobSq (R' - R) := frobSq_nonneg _
  have k3 : g / 2 * x ≤ ‖trace ((R' - R) * (lowProj E' q - lowProj E q))‖ := by
    have e : (trace ((R' - R) * (lowProj E' q - lowProj E q))).re =
        ((trace (R' * lowProj E' q)).re - (trace (R' * lowProj E q)).re) -
        ((trace (R * lowProj E' q)).re - (trace (R * lowProj E q)).re) := by
      rw [Matrix.sub_mul, Matrix.mul_sub, Matrix.mul_sub, trace_sub, trace_sub, trace_sub, Complex.sub_re, Complex.sub_re, Complex.sub_re]
    have := (neg_le_abs _).trans (Complex.abs_re_le_norm (trace ((R' - R) * (lowProj E' q - lowProj E q))))
    rw [e] at this
    linarith
  have k4 := trace_mul_sq_le (R' - R) (lowProj E' q - lowProj E q)
  rw [← hx] at k4
  have k5 := (pow_le_pow_left₀ (by positivity) k3 2).trans k4
  by_cases hxp : x = 0
  · rw [hxp]; simpa using hy0
  · have hxp : 0 < x := lt_of_le_of_ne hx0 (Ne.symm hxp)
    have : x * (g ^ 2 * x) ≤ x * (4 * frobSq (R' - R)) := by nlinarith
    exact le_of_mul_le_mul_left this hxp

/-- The smallest gap is positive. -/
theorem HasGap.size {R E : Matrix (Fin m) (Fin m) ℂ} {w : Fin m → ℝ} {q : ℕ} (hg : HasGap R q) (h : IsEigh R w E) :
    ∃ g > 0, ∀ i j : Fin m, i.1 < q → q ≤ j.1 → w i + g ≤ w j := by
  have hw := hg.of h
  by_cases hq : 0 < q ∧ q < m
  · refine ⟨w ⟨q, hq.2⟩ - w ⟨q - 1, by omega⟩, sub_pos.2 (hw _ _ (show q - 1 < q by omega) le_rfl), fun i j hi hj => ?_⟩
    have h1 := h.mono (show i ≤ (⟨q - 1, by omega⟩ : Fin m) from (by show i.1 ≤ q - 1; omega))
    have h2 := h.mono (show (⟨q, hq.2⟩ : Fin m) ≤ j from hj)
    linarith
  · refine ⟨1, one_pos, fun i j hi hj => ?_⟩
    have := j.2; omega

end Doa
