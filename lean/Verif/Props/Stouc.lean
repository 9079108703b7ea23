import Verif.Props.CrbUla

/-!
# The bound for uncorrelated sources: C59
-/

namespace Doa.Props

open Doa Doa.Spec Matrix
open scoped ComplexOrder

variable {m k : ℕ}

/-- The parameters of the model with uncorrelated sources: DOAs, powers, noise variance. -/
abbrev StoucParam (k : ℕ) : Type := Fin k ⊕ (Fin k ⊕ Unit)

/-- The derivative of `A diag(q) Aᴴ + σ I` with respect to one parameter, as a special case of the directional
derivative `covVelocity` (see `covVelocity_hasDerivAt`). -/
noncomputable def stoucDeriv (A D : Matrix (Fin m) (Fin k) ℂ) (q : Fin k → ℝ) : StoucParam k → Matrix (Fin m) (Fin m) ℂ
  | .inl i => covVelocity A D (cdiag q) (Pi.single i 1) 0 0
  | .inr (.inl i) => covVelocity A D (cdiag q) 0 (diagonal (Pi.single i 1)) 0
  | .inr (.inr _) => covVelocity A D (cdiag q) 0 0 1

/-- The Fisher information matrix of one snapshot of a circular complex Gaussian vector with covariance `R`
(Slepian-Bangs formula). -/
noncomputable def stoucFisher (A D : Matrix (Fin m) (Fin k) ℂ) (q : Fin k → ℝ) (σ : ℝ) : Matrix (StoucParam k) (StoucParam k) ℝ :=
  Matrix.of fun x y =>
    ((A * cdiag q * Aᴴ + (σ : ℂ) • (1 : Matrix (Fin m) (Fin m) ℂ))⁻¹ * stoucDeriv A D q x *
      (A * cdiag q * Aᴴ + (σ : ℂ) • (1 : Matrix (Fin m) (Fin m) ℂ))⁻¹ * stoucDeriv A D q y).trace.re

/-! ### Rank one derivatives -/

theorem col_outer (X Y : Matrix (Fin m) (Fin k) ℂ) (q : Fin k → ℝ) (i : Fin k) :
    X * cdiag (Pi.single i 1) * cdiag q * Yᴴ = (q i : ℂ) • vecMulVec (X.col i) (star (Y.col i)) := by
  ext r s
  rw [Matrix.mul_apply, Matrix.smul_apply, vecMulVec_apply]
  unfold cdiag
  simp only [mul_diagonal, conjTranspose_apply, Pi.star_apply, Matrix.col_apply, smul_eq_mul]
  rw [Finset.sum_eq_single i]
  · simp only [Pi.single_eq_same, Complex.ofReal_one, mul_one]; ring
  · intro j _ hj
    rw [Pi.single_eq_of_ne hj]; simp
  · intro h; exact absurd (Finset.mem_univ i) h

theorem col_outer' (X Y : Matrix (Fin m) (Fin k) ℂ) (q : Fin k → ℝ) (i : Fin k) :
    X * cdiag q * cdiag (Pi.single i 1) * Yᴴ = (q i : ℂ) • vecMulVec (X.col i) (star (Y.col i)) := by
  rw [← col_outer]
  congr 1
  rw [Matrix.mul_assoc, Matrix.mul_assoc]
  congr 1
  unfold cdiag
  rw [diagonal_mul_diagonal, diagonal_mul_diagonal]
  congr 1
  funext j
  ring

theorem stoucDeriv_doa (A D : Matrix (Fin m) (Fin k) ℂ) (q : Fin k → ℝ) (i : Fin k) :
    stoucDeriv A D q (.inl i) = (q i : ℂ) • (vecMulVec (D.col i) (star (A.col i)) + vecMulVec (A.col i) (star (D.col i))) := by
  show covVelocity A D (cdiag q) (Pi.single i 1) 0 0 = _
  unfold covVelocity
  rw [col_outer, col_outer', Matrix.mul_zero, Matrix.zero_mul, Complex.ofReal_zero, zero_smul, add_zero, add_zero, smul_add]

theorem stoucDeriv_power (A D : Matrix (Fin m) (Fin k) ℂ) (q : Fin k → ℝ) (i : Fin k) :
    stoucDeriv A D q (.inr (.inl i)) = vecMulVec (A.col i) (star (A.col i)) := by
  have h0 : (cdiag (0 : Fin k → ℝ)) = 0 := by unfold cdiag; simp
  show covVelocity A D (cdiag q) 0 (diagonal (Pi.single i 1)) 0 = _
  unfold covVelocity
  rw [h0]
  simp only [Matrix.mul_zero, Matrix.zero_mul, Complex.ofReal_zero, zero_smul, add_zero, zero_add]
  have := col_outer A A (fun _ => 1) i
  have h1 : cdiag (fun _ : Fin k => (1 : ℝ)) = 1 := by unfold cdiag; simp
  rw [h1, Matrix.mul_one, Complex.ofReal_one, one_smul] at this
  rw [← this]
  congr 2
  unfold cdiag
  congr 1
  funext j
  by_cases h : j = i
  · subst h; simp
  · rw [Pi.single_eq_of_ne h, Pi.single_eq_of_ne h]; simp

theorem stoucDeriv_noise (A D : Matrix (Fin m) (Fin k) ℂ) (q : Fin k → ℝ) (u : Unit) :
    stoucDeriv A D q (.inr (.inr u)) = 1 := by
  have h0 : (cdiag (0 : Fin k → ℝ)) = 0 := by unfold cdiag; simp
  show covVelocity A D (cdiag q) 0 0 1 = _
  unfold covVelocity
  rw [h0]
  simp

theorem trace_mul_outer (M : Matrix (Fin m) (Fin m) ℂ) (x y : Fin m → ℂ) :
    (M * vecMulVec x (star y)).trace = star y ⬝ᵥ M *ᵥ x := by
  rw [mul_vecMulVec]
  simp only [trace, diag_apply, vecMulVec_apply, dotProduct]
  exact Finset.sum_congr rfl fun i _ => mul_comm _ _

theorem trace_outer (W : Matrix (Fin m) (Fin m) ℂ) (u v x y : Fin m → ℂ) :
    (W * vecMulVec u (star v) * W * vecMulVec x (star y)).trace = (star y ⬝ᵥ W *ᵥ u) * (star v ⬝ᵥ W *ᵥ x) := by
  rw [trace_mul_outer, Matrix.mul_assoc, ← mulVec_mulVec, ← mulVec_mulVec, vecMulVec_mulVec]
  simp only [mulVec_smul, dotProduct_smul]
  rfl

/-- Entries of `Xᴴ W Y`. -/
theorem sandwich_apply (W : Matrix (Fin m) (Fin m) ℂ) (X Y : Matrix (Fin m) (Fin k) ℂ) (i j : Fin k) :
    (Xᴴ * W * Y) i j = star (X.col i) ⬝ᵥ W *ᵥ Y.col j := by
  rw [Matrix.mul_assoc]
  rfl

theorem sandwich_conj {W : Matrix (Fin m) (Fin m) ℂ} (hW : Wᴴ = W) (x y : Fin m → ℂ) :
    star (star x ⬝ᵥ W *ᵥ y) = star y ⬝ᵥ W *ᵥ x := by
  rw [star_dotProduct, star_star, star_mulVec, hW, dotProduct_mulVec]

theorem stouc_cov (A : Matrix (Fin m) (Fin k) ℂ) (q : Fin k → ℝ) :
    scaleCols A (fun c => (q c : ℂ)) * Aᴴ = A * cdiag q * Aᴴ := by
  congr 1
  ext i c
  unfold cdiag
  rw [mul_diagonal]
  rfl

theorem stoucRi_eq (A : Matrix (Fin m) (Fin k) ℂ) (q : Fin k → ℝ) (σ : ℝ) :
    stoucRi A (fun c => (q c : ℂ)) σ = (A * cdiag q * Aᴴ + (σ : ℂ) • (1 : Matrix (Fin m) (Fin m) ℂ))⁻¹ ∧
    (stoucRi A (fun c => (q c : ℂ)) σ)ᴴ = stoucRi A (fun c => (q c : ℂ)) σ := by
  unfold stoucRi
  rw [stouc_cov]
  have h : ((A * cdiag q * Aᴴ + (σ : ℂ) • (1 : Matrix (Fin m) (Fin m) ℂ))⁻¹)ᴴ =
      (A * cdiag q * Aᴴ + (σ : ℂ) • (1 : Matrix (Fin m) (Fin m) ℂ))⁻¹ := by
    rw [conjTranspose_nonsing_inv]
    congr 1
    simp only [conjTranspose_add, conjTranspose_mul, conjTranspose_conjTranspose, cdiag_herm, conjTranspose_smul, conjTranspose_one,
      Complex.star_def, Complex.conj_ofReal, Matrix.mul_assoc]
  have h2 : (0.5 : ℂ) • ((A * cdiag q * Aᴴ + (σ : ℂ) • (1 : Matrix (Fin m) (Fin m) ℂ))⁻¹ +
      (A * cdiag q * Aᴴ + (σ : ℂ) • (1 : Matrix (Fin m) (Fin m) ℂ))⁻¹) =
      (A * cdiag q * Aᴴ + (σ : ℂ) • (1 : Matrix (Fin m) (Fin m) ℂ))⁻¹ := by
    rw [← two_smul ℂ, smul_smul]
    norm_num
  rw [h, h2]
  exact ⟨rfl, h⟩

/-- **C59** (partial). For real powers, every entry of the matrix inverted by `crb_stouc_farfield_1d` except
those of a pair of powers is the entry of the Fisher information matrix of the model. The entry of the powers
`i`, `j` is the real part of the square of `g = a_iᴴ R⁻¹ a_j`, where the Fisher information is `|g|²`; the two
agree exactly if `g` is real. What is missing: the equality for pairs of powers, which fails (`C59_violated`). -/
theorem C59_information_partial (A D : Matrix (Fin m) (Fin k) ℂ) (q : Fin k → ℝ) (σ : ℝ) :
    (∀ x y, (∀ i j, ¬ (x = .inr (.inl i) ∧ y = .inr (.inl j))) →
      stoucFim A D (fun c => (q c : ℂ)) (stoucRi A (fun c => (q c : ℂ)) σ) x y = stoucFisher A D q σ x y) ∧
    ∀ i j, ∃ g : ℂ, g = (Aᴴ * (A * cdiag q * Aᴴ + (σ : ℂ) • (1 : Matrix (Fin m) (Fin m) ℂ))⁻¹ * A) i j ∧
      stoucFim A D (fun c => (q c : ℂ)) (stoucRi A (fun c => (q c : ℂ)) σ) (.inr (.inl i)) (.inr (.inl j)) = (g ^ 2).re ∧
      stoucFisher A D q σ (.inr (.inl i)) (.inr (.inl j)) = ‖g‖ ^ 2 ∧
      ((g ^ 2).re = ‖g‖ ^ 2 ↔ g.im = 0) := by
  obtain ⟨hRi, hRh⟩ := stoucRi_eq A q σ
  unfold stoucFisher
  rw [← hRi]
  set W := stoucRi A (fun c => (q c : ℂ)) σ with hW
  have hc := fun x y => sandwich_conj hRh x y
  -- abbreviations for the bilinear forms
  have conj_re : ∀ x y u v : Fin m → ℂ, ((star x ⬝ᵥ W *ᵥ y) * (star u ⬝ᵥ W *ᵥ v)).re =
      ((star y ⬝ᵥ W *ᵥ x) * (star v ⬝ᵥ W *ᵥ u)).re := by
    intro x y u v
    rw [← hc y x, ← hc v u, ← star_mul', Complex.star_def, Complex.conj_re]
  have hW2 : ∀ x y : Fin m → ℂ, star x ⬝ᵥ (W * W) *ᵥ y = star (star y ⬝ᵥ (W * W) *ᵥ x) := by
    intro x y
    rw [sandwich_conj (W := W * W) (by rw [conjTranspose_mul, hRh])]
  -- traces
  have t1 : ∀ i : Fin k, (W * (vecMulVec (D.col i) (star (A.col i)) + vecMulVec (A.col i) (star (D.col i))) * W).trace =
      star (A.col i) ⬝ᵥ (W * W) *ᵥ D.col i + star (D.col i) ⬝ᵥ (W * W) *ᵥ A.col i := by
    intro i
    rw [Matrix.trace_mul_comm, ← Matrix.mul_assoc, Matrix.mul_add, trace_add, trace_mul_outer, trace_mul_outer]
  have t2 : ∀ i : Fin k, (W * vecMulVec (A.col i) (star (A.col i)) * W).trace = star (A.col i) ⬝ᵥ (W * W) *ᵥ A.col i := by
    intro i
    rw [Matrix.trace_mul_comm, ← Matrix.mul_assoc, trace_mul_outer]
  have sum_dot : ∀ (X : Matrix (Fin m) (Fin k) ℂ) (c : Fin k), ∑ i, star (X i c) * (W * W * A) i c = star (X.col c) ⬝ᵥ (W * W) *ᵥ A.col c := by
    intro X c
    rfl
  have ts : ∀ (i : Fin k), 2 * ((q i : ℂ) * ∑ r, star (D r i) * (W * W * A) r i).re =
      (W * (q i : ℂ) • (vecMulVec (D.col i) (star (A.col i)) + vecMulVec (A.col i) (star (D.col i))) * W * 1).trace.re := by
    intro i
    rw [sum_dot, Matrix.mul_one, Matrix.mul_smul, Matrix.smul_mul, trace_smul, t1, smul_eq_mul, hW2 (A.col i), Complex.re_ofReal_mul,
      Complex.re_ofReal_mul, Complex.add_re, Complex.star_def, Complex.conj_re]
    ring
  have tp : ∀ i j : Fin k, 2 * (star (star (D.col i) ⬝ᵥ W *ᵥ A.col j) * ((q i : ℂ) * (star (A.col i) ⬝ᵥ W *ᵥ A.col j))).re =
      (W * (q i : ℂ) • (vecMulVec (D.col i) (star (A.col i)) + vecMulVec (A.col i) (star (D.col i))) * W *
        vecMulVec (A.col j) (star (A.col j))).trace.re := by
    intro i j
    rw [Matrix.mul_smul, Matrix.smul_mul, Matrix.smul_mul, trace_smul, Matrix.mul_add, Matrix.add_mul, Matrix.add_mul, trace_add,
      trace_outer, trace_outer, smul_eq_mul, Complex.re_ofReal_mul, Complex.add_re, hc,
      conj_re (A.col j) (A.col i) (D.col i) (A.col j),
      show (star (A.col j) ⬝ᵥ W *ᵥ D.col i) * ((q i : ℂ) * (star (A.col i) ⬝ᵥ W *ᵥ A.col j)) =
        (q i : ℂ) * ((star (A.col j) ⬝ᵥ W *ᵥ D.col i) * (star (A.col i) ⬝ᵥ W *ᵥ A.col j)) by ring, Complex.re_ofReal_mul,
      mul_comm (star (A.col i) ⬝ᵥ W *ᵥ A.col j) (star (A.col j) ⬝ᵥ W *ᵥ D.col i)]
    ring
  have swap : ∀ x y, (W * stoucDeriv A D q x * W * stoucDeriv A D q y).trace = (W * stoucDeriv A D q y * W * stoucDeriv A D q x).trace := by
    intro x y
    rw [Matrix.mul_assoc (W * stoucDeriv A D q x), Matrix.trace_mul_comm, ← Matrix.mul_assoc]
  have ps : ∀ i : Fin k, (∑ r, star (A r i) * (W * W * A) r i).re =
      (W * vecMulVec (A.col i) (star (A.col i)) * W * 1).trace.re := by
    intro i
    rw [sum_dot, Matrix.mul_one, t2]
  constructor
  · rintro (i | i | u) (j | j | w) hxy
    · -- DOA, DOA
      simp only [of_apply, stoucDeriv_doa]
      show 2 * (((Dᴴ * W * D) j i * (Aᴴ * W * A) i j + star ((Dᴴ * W * A) i j) * (Aᴴ * W * D) i j) * ((q i : ℂ) * (q j : ℂ))).re = _
      rw [sandwich_apply, sandwich_apply, sandwich_apply, sandwich_apply, hc]
      simp only [Matrix.mul_smul, Matrix.smul_mul, trace_smul, Matrix.mul_add, Matrix.add_mul, trace_add, trace_outer, smul_eq_mul]
      have e1 := conj_re (A.col j) (A.col i) (D.col i) (D.col j)
      have e2 := conj_re (D.col j) (A.col i) (D.col i) (A.col j)
      rw [show (q j : ℂ) * ((q i : ℂ) * (star (A.col j) ⬝ᵥ W *ᵥ D.col i * star (A.col i) ⬝ᵥ W *ᵥ D.col j +
            star (A.col j) ⬝ᵥ W *ᵥ A.col i * star (D.col i) ⬝ᵥ W *ᵥ D.col j) + (q i : ℂ) *
            (star (D.col j) ⬝ᵥ W *ᵥ D.col i * star (A.col i) ⬝ᵥ W *ᵥ A.col j +
            star (D.col j) ⬝ᵥ W *ᵥ A.col i * star (D.col i) ⬝ᵥ W *ᵥ A.col j)) =
          ((q i * q j : ℝ) : ℂ) * (star (A.col j) ⬝ᵥ W *ᵥ D.col i * star (A.col i) ⬝ᵥ W *ᵥ D.col j +
            star (A.col j) ⬝ᵥ W *ᵥ A.col i * star (D.col i) ⬝ᵥ W *ᵥ D.col j +
            (star (D.col j) ⬝ᵥ W *ᵥ D.col i * star (A.col i) ⬝ᵥ W *ᵥ A.col j +
            star (D.col j) ⬝ᵥ W *ᵥ A.col i * star (D.col i) ⬝ᵥ W *ᵥ A.col j)) by push_cast; ring,
        Complex.re_ofReal_mul, Complex.add_re, Complex.add_re, Complex.add_re, e1, e2,
        show ∀ z : ℂ, z * ((q i : ℂ) * (q j : ℂ)) = ((q i * q j : ℝ) : ℂ) * z from fun z => by push_cast; ring,
        Complex.re_ofReal_mul, Complex.add_re,
        mul_comm (star (A.col i) ⬝ᵥ W *ᵥ A.col j) (star (D.col j) ⬝ᵥ W *ᵥ D.col i),
        mul_comm (star (A.col i) ⬝ᵥ W *ᵥ D.col j) (star (A.col j) ⬝ᵥ W *ᵥ D.col i)]
      ring
    · simp only [of_apply, stoucDeriv_doa, stoucDeriv_power]
      show 2 * (star ((Dᴴ * W * A) i j) * ((q i : ℂ) * (Aᴴ * W * A) i j)).re = _
      rw [sandwich_apply, sandwich_apply]
      exact tp i j
    · simp only [of_apply, stoucDeriv_doa, stoucDeriv_noise]
      exact ts i
    · rw [of_apply, swap]
      simp only [stoucDeriv_doa, stoucDeriv_power]
      show 2 * (star ((Dᴴ * W * A) j i) * ((q j : ℂ) * (Aᴴ * W * A) j i)).re = _
      rw [sandwich_apply, sandwich_apply]
      exact tp j i
    · exact absurd ⟨rfl, rfl⟩ (hxy i j)
    · simp only [of_apply, stoucDeriv_power, stoucDeriv_noise]
      exact ps i
    · rw [of_apply, swap]
      simp only [stoucDeriv_doa, stoucDeriv_noise]
      exact ts j
    · rw [of_apply, swap]
      simp only [stoucDeriv_power, stoucDeriv_noise]
      exact ps j
    · simp only [of_apply, stoucDeriv_noise, Matrix.mul_one]
      rfl
  · intro i j
    refine ⟨_, rfl, ?_, ?_, ?_⟩
    · show (star ((Aᴴ * W * A) j i) * (Aᴴ * W * A) i j).re = _
      rw [sandwich_apply, sandwich_apply, hc, sq]
    · simp only [of_apply, stoucDeriv_power]
      rw [trace_outer, sandwich_apply, ← hc (A.col i) (A.col j), Complex.star_def, ← Complex.normSq_eq_conj_mul_self, Complex.ofReal_re,
        Complex.normSq_eq_norm_sq]
    · generalize (Aᴴ * W * A) i j = g
      rw [← Complex.normSq_eq_norm_sq, sq, Complex.mul_re, Complex.normSq_apply]
      constructor
      · intro h; nlinarith [h]
      · intro h; rw [h]; ring

/-- The covariance bound for uncorrelated sources: the DOA block of the inverse Fisher information of `n` snapshots. -/
noncomputable def stoucBound (A D : Matrix (Fin m) (Fin k) ℂ) (q : Fin k → ℝ) (σ : ℝ) (n : ℕ) : Matrix (Fin k) (Fin k) ℝ :=
  (((n : ℝ) • stoucFisher A D q σ)⁻¹).toBlocks₁₁

theorem stoucFisher_symm (A D : Matrix (Fin m) (Fin k) ℂ) (q : Fin k → ℝ) (σ : ℝ) : (stoucFisher A D q σ).IsHermitian := by
  ext x y
  rw [conjTranspose_apply, star_trivial]
  simp only [stoucFisher, of_apply]
  rw [Matrix.mul_assoc (_ * stoucDeriv A D q y), Matrix.trace_mul_comm, ← Matrix.mul_assoc]

/-- **C59** (partial: real cross terms). If all `a_iᴴ R⁻¹ a_j` are real, the inverted matrix is the Fisher
information matrix, and a returned matrix is the Cramér-Rao bound of the DOAs. -/
theorem C59_real_partial (a : ArrayDesign) (src : Sources k) (wl : ℝ) {p : PowerArg} {P : Matrix (Fin k) (Fin k) ℂ}
    (hp : PowerDenotes k p P) {q : Fin k → ℝ} (hq : ∀ i, P i i = q i) (σ : ℝ) {n : ℕ} (hn : 1 ≤ n)
    {A D : Matrix (Fin a.size) (Fin k) ℂ} (hs : Spec.Steers a src wl "all" A D)
    (hreal : ∀ i j, ((Aᴴ * (A * cdiag q * Aᴴ + (σ : ℂ) • (1 : Matrix (Fin a.size) (Fin a.size) ℂ))⁻¹ * A) i j).im = 0)
    (C : Matrix (Fin k) (Fin k) ℝ) (h : crbStouc a src wl p σ n "full" = .ok (.full C)) :
    C = stoucBound A D q σ n := by
  rw [steers_iff] at hs
  obtain ⟨_, P', A', D', h1, h2, h3⟩ := crbStouc_full_iff.1 h
  rw [hs] at h2
  cases h2
  cases powerDenotes_unique hp h1
  have hq' : (fun i => P i i) = fun i => (q i : ℂ) := funext hq
  rw [hq'] at h3
  have := crbStoucCore_n h3
  obtain ⟨_, g2, rfl⟩ := crbStoucCore_iff.1 h3
  obtain ⟨c1, c2⟩ := C59_information_partial A D q σ
  have hF : stoucFim A D (fun c => (q c : ℂ)) (stoucRi A (fun c => (q c : ℂ)) σ) = stoucFisher A D q σ := by
    ext x y
    by_cases hxy : ∃ i j, x = .inr (.inl i) ∧ y = .inr (.inl j)
    · obtain ⟨i, j, rfl, rfl⟩ := hxy
      obtain ⟨g, hg, e1, e2, e3⟩ := c2 i j
      rw [e1, e2, e3, hg]
      exact hreal i j
    · push Not at hxy
      exact c1 x y fun i j ⟨h1, h2⟩ => hxy i j h1 h2
  rw [hF] at g2 ⊢
  have hn0 : (n : ℝ) ≠ 0 := by positivity
  have hinv : ((n : ℝ) • stoucFisher A D q σ)⁻¹ = (n : ℝ)⁻¹ • (stoucFisher A D q σ)⁻¹ := by
    refine inv_eq_right_inv ?_
    rw [Matrix.smul_mul, Matrix.mul_smul, smul_smul, mul_nonsing_inv _ g2, mul_inv_cancel₀ hn0, one_smul]
  unfold stoucBound
  rw [hinv, symPart_smul]
  have hh : ((stoucFisher A D q σ)⁻¹).IsHermitian := (stoucFisher_symm A D q σ).inv
  have : ((stoucFisher A D q σ)⁻¹.toBlocks₁₁).IsHermitian := by
    ext i j
    exact congrFun (congrFun hh.eq (.inl i)) (.inl j)
  rw [symPart_of_symm this]
  rfl

/-- **C59** (partial: one source). For a single source the returned value is the Cramér-Rao bound, for every
array, power, noise variance and number of snapshots. -/
theorem C59_single_partial (a : ArrayDesign) (src : Sources 1) (wl : ℝ) {p : PowerArg} {q : ℝ}
    (hp : PowerDenotes 1 p (Matrix.of fun _ _ => (q : ℂ))) (σ : ℝ) {n : ℕ} (hn : 1 ≤ n)
    {A D : Matrix (Fin a.size) (Fin 1) ℂ} (hs : Spec.Steers a src wl "all" A D)
    (C : Matrix (Fin 1) (Fin 1) ℝ) (h : crbStouc a src wl p σ n "full" = .ok (.full C)) :
    C = stoucBound A D (fun _ => q) σ n := by
  refine C59_real_partial a src wl hp (fun i => rfl) σ hn hs (fun i j => ?_) C h
  obtain ⟨h1, h2⟩ := stoucRi_eq A (fun _ => q) σ
  rw [← h1]
  have : (Aᴴ * stoucRi A (fun _ => (q : ℂ)) σ * A)ᴴ = Aᴴ * stoucRi A (fun _ => (q : ℂ)) σ * A := by
    rw [conjTranspose_mul, conjTranspose_mul, conjTranspose_conjTranspose, h2, Matrix.mul_assoc]
  have h3 := congrFun (congrFun this i) j
  rw [conjTranspose_apply, Subsingleton.elim j i] at h3
  rw [Subsingleton.elim j i]
  exact Complex.conj_eq_iff_im.1 h3

/-! ### A counterexample -/

/-- The matrix with off-diagonal power entry `g` (in units of 1/225). -/
noncomputable def exampleF (g t : ℝ) : Matrix (StoucParam 2) (StoucParam 2) ℝ :=
  (1 / 225 : ℝ) • Matrix.fromBlocks !![316 * t ^ 2, -136 * t ^ 2; -136 * t ^ 2, 316 * t ^ 2]
    (Matrix.of fun i => Sum.elim (!![-44 * t, 16 * t; -16 * t, 44 * t] i) (fun _ => ![-32 * t, 32 * t] i))
    (Matrix.of fun r j => Sum.elim (fun r => !![-44 * t, 16 * t; -16 * t, 44 * t] j r) (fun _ => ![-32 * t, 32 * t] j) r)
    (Matrix.fromBlocks !![121, g; g, 121] (Matrix.of fun _ _ => 43) (Matrix.of fun _ _ => 43) (Matrix.of fun _ _ => 259))

/-- The steering matrix of the example. -/
noncomputable def exA : Matrix (Fin 3) (Fin 2) ℂ := !![⟨1, 0⟩, ⟨1, 0⟩; ⟨1, 0⟩, ⟨0, 1⟩; ⟨1, 0⟩, ⟨-1, 0⟩]
/-- The derivative matrix of the example, without the factor `t`. -/
noncomputable def exD : Matrix (Fin 3) (Fin 2) ℂ := !![⟨0, 0⟩, ⟨0, 0⟩; ⟨0, 1⟩, ⟨-1, 0⟩; ⟨0, 2⟩, ⟨0, -2⟩]
/-- The inverse covariance matrix of the example. -/
noncomputable def exW : Matrix (Fin 3) (Fin 3) ℂ := !![⟨7/15, 0⟩, ⟨-1/5, 1/5⟩, ⟨0, -2/15⟩; ⟨-1/5, -1/5⟩, ⟨3/5, 0⟩, ⟨-1/5, 1/5⟩; ⟨0, 2/15⟩, ⟨-1/5, -1/5⟩, ⟨7/15, 0⟩]

theorem exA_eq : ulaMat 3 ![1, Complex.I] = exA := by
  ext i j
  fin_cases i <;> fin_cases j <;> simp [exA, ulaMat, Complex.ext_iff]

theorem exD_eq (t : ℝ) : ulaDeriv 3 ![1, Complex.I] (fun _ => Complex.I * ((t : ℝ) : ℂ)) = (t : ℂ) • exD := by
  ext i j
  fin_cases i <;> fin_cases j <;> simp [exD, ulaDeriv, Complex.ext_iff, Matrix.smul_apply] <;> ring

theorem exW_eq : stoucRi (ulaMat 3 ![1, Complex.I]) (fun _ => ((1 : ℝ) : ℂ)) 1 = exW := by
  rw [(stoucRi_eq _ (fun _ => 1) 1).1]
  refine inv_eq_right_inv ?_
  ext i j
  fin_cases i <;> fin_cases j <;>
    simp [exW, Matrix.mul_apply, Fin.sum_univ_three, Fin.sum_univ_two, cdiag, ulaMat, Matrix.one_apply, Complex.ext_iff] <;> norm_num

theorem exWA : exW * exA = !![⟨4/15, 1/15⟩, ⟨4/15, -1/15⟩; ⟨1/5, 0⟩, ⟨0, 1/5⟩; ⟨4/15, -1/15⟩, ⟨-4/15, -1/15⟩] := by
  skip
  ext i j
  fin_cases i <;> fin_cases j <;> simp [exA, exD, exW, Matrix.mul_apply, Fin.sum_univ_three, Complex.ext_iff] <;> norm_num

theorem exWD : exW * exD = !![⟨1/15, -1/5⟩, ⟨-1/15, -1/5⟩; ⟨-2/5, 1/5⟩, ⟨-1/5, 2/5⟩; ⟨1/5, 11/15⟩, ⟨1/5, -11/15⟩] := by
  skip
  ext i j
  fin_cases i <;> fin_cases j <;> simp [exA, exD, exW, Matrix.mul_apply, Fin.sum_univ_three, Complex.ext_iff] <;> norm_num

theorem exW2A : exW * (exW * exA) = !![⟨17/225, 8/225⟩, ⟨17/225, -8/225⟩; ⟨1/25, 0⟩, ⟨0, 1/25⟩; ⟨17/225, -8/225⟩, ⟨-17/225, -8/225⟩] := by
  rw [exWA]
  ext i j
  fin_cases i <;> fin_cases j <;> simp [exA, exD, exW, Matrix.mul_apply, Fin.sum_univ_three, Complex.ext_iff] <;> norm_num

theorem exARA : exAᴴ * exW * exA = !![⟨11/15, 0⟩, ⟨0, 1/15⟩; ⟨0, -1/15⟩, ⟨11/15, 0⟩] := by
  rw [Matrix.mul_assoc, exWA]
  ext i j
  fin_cases i <;> fin_cases j <;> simp [exA, exD, Matrix.mul_apply, Fin.sum_univ_three, Complex.ext_iff] <;> norm_num

theorem exDRA : exDᴴ * exW * exA = !![⟨-2/15, -11/15⟩, ⟨1/15, 8/15⟩; ⟨-1/15, 8/15⟩, ⟨2/15, -11/15⟩] := by
  rw [Matrix.mul_assoc, exWA]
  ext i j
  fin_cases i <;> fin_cases j <;> simp [exA, exD, Matrix.mul_apply, Fin.sum_univ_three, Complex.ext_iff] <;> norm_num

theorem exDRD : exDᴴ * exW * exD = !![⟨5/3, 0⟩, ⟨-16/15, -1/5⟩; ⟨-16/15, 1/5⟩, ⟨5/3, 0⟩] := by
  rw [Matrix.mul_assoc, exWD]
  ext i j
  fin_cases i <;> fin_cases j <;> simp [exA, exD, Matrix.mul_apply, Fin.sum_univ_three, Complex.ext_iff] <;> norm_num

theorem exARD : exAᴴ * exW * exD = !![⟨-2/15, 11/15⟩, ⟨-1/15, -8/15⟩; ⟨1/15, -8/15⟩, ⟨2/15, 11/15⟩] := by
  rw [Matrix.mul_assoc, exWD]
  ext i j
  fin_cases i <;> fin_cases j <;> simp [exA, exD, Matrix.mul_apply, Fin.sum_univ_three, Complex.ext_iff] <;> norm_num

theorem exTr : (exW * exW).trace.re = 259 / 225 := by
  simp [trace, Fin.sum_univ_three, Matrix.mul_apply, exW]
  norm_num

theorem stouc_example_fim (t : ℝ) :
    stoucFim (ulaMat 3 ![1, Complex.I]) (ulaDeriv 3 ![1, Complex.I] fun _ => Complex.I * ((t : ℝ) : ℂ)) (fun _ => ((1 : ℝ) : ℂ))
      (stoucRi (ulaMat 3 ![1, Complex.I]) (fun _ => ((1 : ℝ) : ℂ)) 1) = exampleF (-1) t := by
  have hst : star (t : ℂ) = t := Complex.conj_ofReal t
  rw [exW_eq, exA_eq, exD_eq]
  unfold stoucFim
  simp only [conjTranspose_smul, Matrix.smul_mul, Matrix.mul_smul, exARA, exDRA, exDRD, exARD, exTr, hst, Matrix.mul_assoc exW exW exA, exW2A]
  unfold exampleF
  ext x y
  rcases x with i | i | u <;> rcases y with j | j | w <;> try fin_cases i
  all_goals try fin_cases j
  all_goals simp [reMat_apply, hadamard_apply, Matrix.smul_apply, Fin.sum_univ_three, exA, exD]
  all_goals ring

/-- The inverse of `exampleF (-1)`. -/
noncomputable def exInvCode (t : ℝ) : Matrix (StoucParam 2) (StoucParam 2) ℝ :=
  Matrix.fromBlocks !![2287885/2282148 / t ^ 2, 562075/1141074 / t ^ 2; 562075/1141074 / t ^ 2, 2287885/2282148 / t ^ 2]
    (Matrix.of fun i => Sum.elim (!![51925/126786 / t, -20650/63393 / t; 20650/63393 / t, -51925/126786 / t] i) (fun _ => ![3295/67122 / t, -3295/67122 / t] i))
    (Matrix.of fun r j => Sum.elim (fun r => !![51925/126786 / t, -20650/63393 / t; 20650/63393 / t, -51925/126786 / t] j r)
      (fun _ => ![3295/67122 / t, -3295/67122 / t] j) r)
    (Matrix.fromBlocks !![91875/42262, -675/21131; -675/21131, 91875/42262] (Matrix.of fun _ _ => -2575/7458)
      (Matrix.of fun _ _ => -2575/7458) (Matrix.of fun _ _ => 33410/33561))

theorem exInvCode_mul {t : ℝ} (ht : t ≠ 0) : exampleF (-1) t * exInvCode t = 1 := by
  ext x y
  rw [Matrix.mul_apply, Fintype.sum_sum_type, Fintype.sum_sum_type, Fin.sum_univ_two, Fin.sum_univ_two, Fintype.sum_unique]
  unfold exampleF exInvCode
  rcases x with i | i | u <;> rcases y with j | j | w <;> try fin_cases i
  all_goals try fin_cases j
  all_goals simp [Matrix.smul_apply, Matrix.one_apply]
  all_goals field_simp
  all_goals norm_num

/-- The inverse of `exampleF (1)`. -/
noncomputable def exInvTrue (t : ℝ) : Matrix (StoucParam 2) (StoucParam 2) ℝ :=
  Matrix.fromBlocks !![611/608 / t ^ 2, 301/608 / t ^ 2; 301/608 / t ^ 2, 611/608 / t ^ 2]
    (Matrix.of fun i => Sum.elim (!![253/608 / t, -203/608 / t; 203/608 / t, -253/608 / t] i) (fun _ => ![15/304 / t, -15/304 / t] i))
    (Matrix.of fun r j => Sum.elim (fun r => !![253/608 / t, -203/608 / t; 203/608 / t, -253/608 / t] j r)
      (fun _ => ![15/304 / t, -15/304 / t] j) r)
    (Matrix.fromBlocks !![1323/608, -45/608; -45/608, 1323/608] (Matrix.of fun _ _ => -103/304)
      (Matrix.of fun _ _ => -103/304) (Matrix.of fun _ _ => 151/152))

theorem exInvTrue_mul {t : ℝ} (ht : t ≠ 0) : exampleF (1) t * exInvTrue t = 1 := by
  ext x y
  rw [Matrix.mul_apply, Fintype.sum_sum_type, Fintype.sum_sum_type, Fin.sum_univ_two, Fin.sum_univ_two, Fintype.sum_unique]
  unfold exampleF exInvTrue
  rcases x with i | i | u <;> rcases y with j | j | w <;> try fin_cases i
  all_goals try fin_cases j
  all_goals simp [Matrix.smul_apply, Matrix.one_apply]
  all_goals field_simp
  all_goals norm_num

theorem stouc_example_fisher (t : ℝ) :
    stoucFisher (ulaMat 3 ![1, Complex.I]) (ulaDeriv 3 ![1, Complex.I] fun _ => Complex.I * ((t : ℝ) : ℂ)) (fun _ => 1) 1 =
      exampleF 1 t := by
  obtain ⟨c1, c2⟩ := C59_information_partial (ulaMat 3 ![1, Complex.I])
    (ulaDeriv 3 ![1, Complex.I] fun _ => Complex.I * ((t : ℝ) : ℂ)) (fun _ => 1) 1
  rw [stouc_example_fim t] at c1 c2
  ext x y
  by_cases hxy : ∃ i j, x = .inr (.inl i) ∧ y = .inr (.inl j)
  · obtain ⟨i, j, rfl, rfl⟩ := hxy
    obtain ⟨g, hg, e1, e2, -⟩ := c2 i j
    have hW := exW_eq
    rw [(stoucRi_eq _ (fun _ => 1) 1).1] at hW
    rw [hW, exA_eq, exARA] at hg
    rw [e2, hg, ← Complex.normSq_eq_norm_sq, Complex.normSq_apply]
    fin_cases i <;> fin_cases j <;> simp [exampleF, Matrix.smul_apply] <;> norm_num
  · push Not at hxy
    rw [← c1 x y fun i j ⟨h1, h2⟩ => hxy i j h1 h2]
    unfold exampleF
    rcases x with i | i | u <;> rcases y with j | j | w <;> first | rfl | exact absurd rfl (hxy i j rfl)

theorem stouc_example_core {m : ℕ} (hm : m = 3) {t : ℝ} (ht : t ≠ 0) :
    ∃ C, crbStoucCore (ulaMat m ![1, Complex.I]) (ulaDeriv m ![1, Complex.I] fun _ => Complex.I * ((t : ℝ) : ℂ))
        (fun _ => ((1 : ℝ) : ℂ)) 1 1 = .ok C ∧ C 0 0 = 2287885 / 2282148 / t ^ 2 ∧
      stoucBound (ulaMat m ![1, Complex.I]) (ulaDeriv m ![1, Complex.I] fun _ => Complex.I * ((t : ℝ) : ℂ)) (fun _ => 1) 1 1 0 0 =
        611 / 608 / t ^ 2 := by
  subst hm
  have hu : IsUnit (exampleF (-1) t).det := by
    have := congrArg Matrix.det (exInvCode_mul ht)
    rw [det_mul, det_one] at this
    exact IsUnit.of_mul_eq_one _ this
  refine ⟨_, crbStoucCore_iff.2 ⟨?_, ?_, rfl⟩, ?_, ?_⟩
  · have h1 : (A : Matrix (Fin 3) (Fin 2) ℂ) → ((scaleCols A fun _ => ((1 : ℝ) : ℂ)) * Aᴴ + ((1 : ℝ) : ℂ) • (1 : Matrix (Fin 3) (Fin 3) ℂ)).PosDef := by
      intro A
      rw [stouc_cov A fun _ => 1]
      have hc : cdiag (fun _ : Fin 2 => (1 : ℝ)) = 1 := by unfold cdiag; simp
      rw [hc, Matrix.mul_one, Complex.ofReal_one, one_smul]
      exact PosDef.posSemidef_add (posSemidef_self_mul_conjTranspose A) PosDef.one
    exact ((Matrix.isUnit_iff_isUnit_det _).1 (h1 _).isUnit)
  · rw [stouc_example_fim]; exact hu
  · rw [stouc_example_fim, inv_eq_right_inv (exInvCode_mul ht)]
    simp [symPart, exInvCode, Matrix.smul_apply]
    ring
  · unfold stoucBound
    rw [stouc_example_fisher, Nat.cast_one, one_smul, inv_eq_right_inv (exInvTrue_mul ht)]
    simp [exInvTrue]

/-- Steering matrix and derivative matrix of the example scene. -/
theorem example_steerPair {a : GridArray} (ha : ula 3 (.scalar (1 / 2)) none {} = .ok a) :
    steerPair a.toArrayDesign (.ff1 (⟨![0, 1 / 2], "sin"⟩ : FF1D 2)) 1 "all" = .ok
      (ulaMat _ ![1, Complex.I], ulaDeriv _ ![1, Complex.I] fun _ => Complex.I * ((Real.pi : ℝ) : ℂ)) := by
  have hst := ula_steerPair ha _ exampleScene.valid 1 "all" (by simp)
  have hz : (fun c => phaseFactor (1 / 2) 1 "sin" ((![0, 1 / 2] : Fin 2 → ℝ) c)) = ![1, Complex.I] := by
    have h0 : Real.sin (angleOf "sin" (1 / 2)) = 1 / 2 := by
      rw [angleOf, if_neg (by decide), if_pos rfl, Real.sin_arcsin] <;> norm_num
    have h1 : Real.sin (angleOf "sin" 0) = 0 := by
      rw [angleOf, if_neg (by decide), if_pos rfl, Real.sin_arcsin] <;> norm_num
    funext c
    fin_cases c
    · show phaseFactor (1 / 2) 1 "sin" 0 = 1
      unfold phaseFactor
      rw [h1]; simp
    · show phaseFactor (1 / 2) 1 "sin" (1 / 2) = Complex.I
      unfold phaseFactor
      rw [h0]
      have : (Complex.I * ((2 * Real.pi * (1 / 2) / 1 * (1 / 2) : ℝ) : ℂ)) = (Real.pi : ℂ) / 2 * Complex.I := by
        push_cast; ring
      rw [this, Complex.exp_pi_div_two_mul_I]
  have hw : (fun c => Complex.I * ((2 * Real.pi * (1 / 2) / 1 * sineRate "sin" ((![0, 1 / 2] : Fin 2 → ℝ) c) : ℝ) : ℂ)) =
      fun _ => Complex.I * ((Real.pi : ℝ) : ℂ) := by
    funext c
    unfold sineRate
    rw [if_pos rfl]
    congr 2
    ring
  simp only [hz, hw] at hst
  exact hst

/-- **C59** is violated in general: for two unit-power sources at sines 0 and 1/2 on a half-wavelength ULA with
three sensors and unit noise variance, the value returned for the first DOA is strictly smaller than the
Cramér-Rao bound, the corresponding entry of the inverse Fisher information. -/
theorem C59_violated :
    ∃ a, ula 3 (.scalar (1 / 2)) none {} = .ok a ∧
    ∃ A D C, Spec.Steers a.toArrayDesign (.ff1 (⟨![0, 1 / 2], "sin"⟩ : FF1D 2)) 1 "all" A D ∧
      crbStouc a.toArrayDesign (.ff1 (⟨![0, 1 / 2], "sin"⟩ : FF1D 2)) 1 (.scalar 1) 1 1 "full" = .ok (.full C) ∧
      C 0 0 = 2287885 / 2282148 / Real.pi ^ 2 ∧
      stoucBound A D (fun _ => 1) 1 1 0 0 = 611 / 608 / Real.pi ^ 2 ∧
      C 0 0 < stoucBound A D (fun _ => 1) 1 1 0 0 := by
  obtain ⟨a, ha⟩ := ula_ok 3 (1 / 2) none
  have hst := example_steerPair ha
  obtain ⟨C, c1, c2, c3⟩ := stouc_example_core (C01_ula_geometry 3 (1 / 2) none {} a ha).1 Real.pi_ne_zero
  refine ⟨a, ha, _, _, C, steers_iff.2 hst, crbStouc_full_iff.2 ⟨rfl, _, _, _, rfl, hst, ?_⟩, c2, c3, ?_⟩
  · have : (fun i : Fin 2 => (Matrix.diagonal fun _ : Fin 2 => ((1 : ℝ) : ℂ)) i i) = fun _ => ((1 : ℝ) : ℂ) := by
      funext i; exact diagonal_apply_eq _ _
    rw [this]
    exact c1
  · rw [c2, c3]
    have := Real.pi_pos
    exact div_lt_div_of_pos_right (by norm_num) (by positivity)

end Doa.Props
