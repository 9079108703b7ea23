import Verif.Props.Subspace
import Mathlib.Algebra.Polynomial.Div

/-!
# C44: the extraneous zeros of the Min-Norm polynomial, and Min-Norm end to end
-/

namespace Doa.Props

open Doa Doa.Spec Matrix Polynomial
open scoped ComplexOrder

variable {m k : ℕ}

/-- Squared norm of the coefficients of `(1 - c X) F`. -/
theorem filter_norm (f : ℕ → ℂ) (M : ℕ) (hM : f M = 0) (c : ℂ) :
    ‖f 0‖ ^ 2 + ∑ i ∈ Finset.range M, ‖f (i + 1) - c * f i‖ ^ 2 =
      (∑ i ∈ Finset.range M, ‖f i‖ ^ 2) * (1 + ‖c‖ ^ 2) -
        2 * (star c * ∑ i ∈ Finset.range M, f (i + 1) * star (f i)).re := by
  have h1 : ∑ i ∈ Finset.range M, ‖f (i + 1)‖ ^ 2 + ‖f 0‖ ^ 2 = ∑ i ∈ Finset.range M, ‖f i‖ ^ 2 := by
    have := Finset.sum_range_succ' (fun i => ‖f i‖ ^ 2) M
    rw [← this, Finset.sum_range_succ, hM]
    simp
  have h2 : ∀ i, ‖f (i + 1) - c * f i‖ ^ 2 = ‖f (i + 1)‖ ^ 2 + ‖c‖ ^ 2 * ‖f i‖ ^ 2 - 2 * (star c * (f (i + 1) * star (f i))).re := by
    intro i
    rw [← Complex.normSq_eq_norm_sq, Complex.normSq_sub, Complex.normSq_mul, Complex.normSq_eq_norm_sq, Complex.normSq_eq_norm_sq,
      Complex.normSq_eq_norm_sq]
    congr 3
    rw [map_mul, Complex.star_def]
    ring
  rw [Finset.sum_congr rfl fun i _ => h2 i, Finset.sum_sub_distrib, Finset.sum_add_distrib, ← Finset.mul_sum, ← Finset.mul_sum,
    Finset.mul_sum (a := star c), Complex.re_sum]
  linarith

theorem corr_lt (f : ℕ → ℂ) (M : ℕ) (hM : f M = 0) (h0 : f 0 = 1) :
    ‖∑ i ∈ Finset.range M, f (i + 1) * star (f i)‖ + 1 / 2 ≤ ∑ i ∈ Finset.range M, ‖f i‖ ^ 2 := by
  have h1 : ∑ i ∈ Finset.range M, ‖f (i + 1)‖ ^ 2 + ‖f 0‖ ^ 2 = ∑ i ∈ Finset.range M, ‖f i‖ ^ 2 := by
    have := Finset.sum_range_succ' (fun i => ‖f i‖ ^ 2) M
    rw [← this, Finset.sum_range_succ, hM]
    simp
  have h2 : ‖∑ i ∈ Finset.range M, f (i + 1) * star (f i)‖ ≤ ∑ i ∈ Finset.range M, (‖f (i + 1)‖ ^ 2 + ‖f i‖ ^ 2) / 2 := by
    refine (norm_sum_le _ _).trans (Finset.sum_le_sum fun i _ => ?_)
    rw [norm_mul, norm_star]
    nlinarith [sq_nonneg (‖f (i + 1)‖ - ‖f i‖)]
  rw [← Finset.sum_div, Finset.sum_add_distrib] at h2
  rw [h0] at h1
  simp at h1
  linarith

/-- The zeros of a shortest vector with first entry 1 that annihilates the ULA vectors of `z`: all others lie outside the unit circle. -/
theorem extraneous_zero [NeZero m] {z : Fin k → ℂ} {v : Fin m → ℂ} (hv0 : v 0 = 1)
    (hvz : ∀ c, star v ⬝ᵥ ulaVec m (z c) = 0)
    (hmin : ∀ w : Fin m → ℂ, w 0 = 1 → (∀ c, star w ⬝ᵥ ulaVec m (z c) = 0) → ∑ i, ‖v i‖ ^ 2 ≤ ∑ i, ‖w i‖ ^ 2)
    {ζ : ℂ} (hζ : star v ⬝ᵥ ulaVec m ζ = 0) (hne : ∀ c, ζ ≠ z c) : 1 < ‖ζ‖ := by
  obtain ⟨M, rfl⟩ : ∃ M, m = M + 1 := ⟨m - 1, by have := NeZero.pos m; omega⟩
  -- polynomials with fewer than `m` coefficients and vectors
  have hev : ∀ (p : ℂ[X]), p.natDegree < M + 1 → ∀ x : ℂ,
      star (fun i : Fin (M + 1) => star (p.coeff i.1)) ⬝ᵥ ulaVec (M + 1) x = p.eval x := by
    intro p hp x
    rw [eval_eq_sum_range' hp, Finset.sum_range]
    simp [dotProduct, ulaVec]
  set p : ℂ[X] := ∑ i : Fin (M + 1), C (star (v i)) * X ^ i.1 with hp
  have hpc : ∀ i : Fin (M + 1), p.coeff i.1 = star (v i) := by
    intro i
    rw [hp, finsetSum_coeff]
    rw [Finset.sum_eq_single i]
    · simp
    · intro j _ hj
      rw [coeff_C_mul, coeff_X_pow, if_neg (fun h => hj (Fin.ext h.symm)), mul_zero]
    · simp
  have hpd : p.natDegree < M + 1 := by
    rw [Nat.lt_succ_iff, hp]
    refine natDegree_sum_le_of_forall_le _ _ fun i _ => (natDegree_C_mul_X_pow_le _ _).trans (by omega)
  have hpv : (fun i : Fin (M + 1) => star (p.coeff i.1)) = v := by
    funext i; rw [hpc, star_star]
  have hpe : ∀ x, star v ⬝ᵥ ulaVec (M + 1) x = p.eval x := fun x => by rw [← hev p hpd x, hpv]
  rw [hpe] at hζ
  have hp0 : p.coeff 0 = 1 := by
    have := hpc 0
    rw [hv0] at this
    simpa using this
  have hpne : p ≠ 0 := by rintro h; rw [h] at hp0; simp at hp0
  have hζ0 : ζ ≠ 0 := by
    rintro rfl
    rw [← coeff_zero_eq_eval_zero, hp0] at hζ
    exact one_ne_zero hζ
  obtain ⟨q, hq⟩ := dvd_iff_isRoot.2 (show p.IsRoot ζ from hζ)
  have hqne : q ≠ 0 := by rintro rfl; rw [mul_zero] at hq; exact hpne hq
  have hqd : q.natDegree + 1 ≤ M := by
    have : p.natDegree = 1 + q.natDegree := by
      rw [hq, natDegree_mul (X_sub_C_ne_zero ζ) hqne, natDegree_X_sub_C]
    omega
  obtain ⟨F, hF⟩ : ∃ F : ℂ[X], F = C (-ζ) * q := ⟨_, rfl⟩
  have hFd : F.natDegree + 1 ≤ M := by
    have := natDegree_C_mul_le (-ζ) q
    rw [← hF] at this
    omega
  have hF0 : F.coeff 0 = 1 := by
    have : p.coeff 0 = -ζ * q.coeff 0 := by
      rw [hq, sub_mul, coeff_sub, coeff_C_mul]; simp
    rw [hF, coeff_C_mul, ← this, hp0]
  have hFM : F.coeff M = 0 := coeff_eq_zero_of_natDegree_lt (by omega)
  have hFz : ∀ c, F.eval (z c) = 0 := by
    intro c
    have h1 := hvz c
    rw [hpe, hq, eval_mul, eval_sub, eval_X, eval_C] at h1
    rcases mul_eq_zero.1 h1 with h2 | h2
    · exact absurd (sub_eq_zero.1 h2).symm (hne c)
    · rw [hF, eval_mul, h2, mul_zero]
  have hpF : p = (1 - C (1 / ζ) * X) * F := by
    rw [hq, hF, ← mul_assoc]
    congr 1
    rw [sub_mul, one_mul, show C (1 / ζ) * X * C (-ζ) = C (1 / ζ * -ζ) * X by rw [C_mul]; ring, one_div, mul_neg,
      inv_mul_cancel₀ hζ0]
    simp only [map_neg, map_one]
    ring
  -- the coefficients of `(1 - c X) F`
  have hcz : ∀ c : ℂ, ((1 - C c * X) * F).coeff 0 = F.coeff 0 := by
    intro c
    rw [sub_mul, one_mul, coeff_sub, mul_assoc, coeff_C_mul]; simp
  have hcs : ∀ (c : ℂ) (i : ℕ), ((1 - C c * X) * F).coeff (i + 1) = F.coeff (i + 1) - c * F.coeff i := by
    intro c i
    rw [sub_mul, one_mul, coeff_sub, mul_assoc, coeff_C_mul, coeff_X_mul]
  have hdeg : ∀ c : ℂ, ((1 - C c * X) * F).natDegree < M + 1 := by
    intro c
    have h1 : (1 - C c * X : ℂ[X]).natDegree ≤ 1 := by
      refine (natDegree_sub_le _ _).trans ?_
      simp only [natDegree_one, zero_le, max_eq_right]
      refine (natDegree_C_mul_le _ _).trans ?_
      exact natDegree_X_le
    have := natDegree_mul_le (p := (1 - C c * X : ℂ[X])) (q := F)
    omega
  have hnorm : ∀ c : ℂ, ∑ i : Fin (M + 1), ‖star (((1 - C c * X) * F).coeff i.1)‖ ^ 2 =
      ‖F.coeff 0‖ ^ 2 + ∑ i ∈ Finset.range M, ‖F.coeff (i + 1) - c * F.coeff i‖ ^ 2 := by
    intro c
    simp only [norm_star]
    have h0 := Finset.sum_range (n := M + 1) fun i => ‖((1 - C c * X) * F).coeff i‖ ^ 2
    rw [← h0, Finset.sum_range_succ', hcz, add_comm]
    simp only [hcs]
  set N : ℝ := ∑ i ∈ Finset.range M, ‖F.coeff i‖ ^ 2 with hN
  set r : ℂ := ∑ i ∈ Finset.range M, F.coeff (i + 1) * star (F.coeff i) with hr
  have hlt : ‖r‖ + 1 / 2 ≤ N := corr_lt _ M hFM hF0
  have hNpos : 0 < N := by linarith [norm_nonneg r]
  have hmain : ∀ c : ℂ, N * (1 + ‖(1 / ζ : ℂ)‖ ^ 2) - 2 * (star (1 / ζ : ℂ) * r).re ≤ N * (1 + ‖c‖ ^ 2) - 2 * (star c * r).re := by
    intro c
    have h1 := hmin (fun i => star (((1 - C c * X) * F).coeff i.1)) (by
      show star (((1 - C c * X) * F).coeff 0) = 1
      rw [hcz, hF0, star_one]) (fun e => by rw [hev _ (hdeg c), eval_mul, hFz, mul_zero])
    rw [hnorm, filter_norm _ M hFM] at h1
    have h2 : ∑ i, ‖v i‖ ^ 2 = ∑ i : Fin (M + 1), ‖star (((1 - C (1 / ζ) * X) * F).coeff i.1)‖ ^ 2 := by
      rw [← hpF]
      refine Finset.sum_congr rfl fun i _ => ?_
      rw [hpc, star_star]
    rw [h2, hnorm, filter_norm _ M hFM] at h1
    exact h1
  have h3 := hmain (r / (N : ℂ))
  have hNc : (N : ℂ) ≠ 0 := Complex.ofReal_ne_zero.2 hNpos.ne'
  -- complete the square
  have h4 : ‖(1 / ζ : ℂ) - r / N‖ ^ 2 = ‖(1 / ζ : ℂ)‖ ^ 2 + ‖r / (N : ℂ)‖ ^ 2 - 2 * (star (1 / ζ : ℂ) * r).re / N := by
    rw [← Complex.normSq_eq_norm_sq, Complex.normSq_sub, Complex.normSq_eq_norm_sq, Complex.normSq_eq_norm_sq]
    congr 1
    rw [mul_div_assoc]
    congr 1
    have : (1 / ζ : ℂ) * (starRingEnd ℂ) (r / (N : ℂ)) = star (star (1 / ζ : ℂ) * r) / (N : ℂ) := by
      rw [map_div₀, Complex.conj_ofReal, star_mul', star_star, Complex.star_def, mul_div_assoc]
    rw [this, Complex.div_ofReal_re, Complex.star_def, Complex.conj_re]
  have h5 : (star (r / (N : ℂ)) * r).re = N * ‖r / (N : ℂ)‖ ^ 2 := by
    rw [star_div₀, Complex.star_def, Complex.conj_ofReal, div_mul_eq_mul_div, Complex.div_ofReal_re,
      ← Complex.normSq_eq_conj_mul_self, Complex.ofReal_re, norm_div, Complex.norm_real, Real.norm_of_nonneg hNpos.le, div_pow,
      Complex.normSq_eq_norm_sq]
    field_simp
  rw [h5] at h3
  have h6 : ‖(1 / ζ : ℂ) - r / N‖ ^ 2 ≤ 0 := by
    rw [h4]
    have h7 : N * (‖(1 / ζ : ℂ)‖ ^ 2 + ‖r / (N : ℂ)‖ ^ 2 - 2 * (star (1 / ζ : ℂ) * r).re / N) ≤ 0 := by
      have : N * (2 * (star (1 / ζ : ℂ) * r).re / N) = 2 * (star (1 / ζ : ℂ) * r).re := by field_simp
      nlinarith
    by_contra h8
    push Not at h8
    nlinarith [mul_pos hNpos h8]
  have h7 : (1 / ζ : ℂ) = r / N := by
    have : ‖(1 / ζ : ℂ) - r / N‖ = 0 := by
      have := le_antisymm h6 (by positivity)
      exact pow_eq_zero_iff (two_ne_zero) |>.1 this
    exact sub_eq_zero.1 (norm_eq_zero.1 this)
  have h8 : ‖(1 / ζ : ℂ)‖ < 1 := by
    rw [h7, norm_div, Complex.norm_real, Real.norm_of_nonneg hNpos.le, div_lt_one hNpos]
    linarith
  rw [norm_div, norm_one, div_lt_one (norm_pos_iff.2 hζ0)] at h8
  exact h8

/-- The noise subspace of an exact covariance consists of all vectors orthogonal to the sources. -/
theorem noise_range (eigh : Eigh) {A : Matrix (Fin m) (Fin k) ℂ} {P : Matrix (Fin k) (Fin k) ℂ} {σ : ℝ} (hk : 1 ≤ k)
    (hA : Function.Injective A.mulVec) (hP : P.PosDef) (w : Fin m → ℂ) :
    (∃ x, w = getNoiseSubspace eigh (covModel A P σ) k *ᵥ x) ↔ Aᴴ *ᵥ w = 0 := by
  obtain ⟨_, h1, h2⟩ := C43_noise_subspace eigh (σ := σ) hk hA hP
  generalize getNoiseSubspace eigh (covModel A P σ) k = En at h1 h2 ⊢
  have hEA : Enᴴ * A = 0 := by
    ext i c
    have := congrFun ((h2 (A *ᵥ Pi.single c 1)).2 ⟨_, rfl⟩) i
    rw [mulVec_mulVec, mulVec_single_one] at this
    exact this
  have hAE : Aᴴ * En = 0 := by
    have := congrArg conjTranspose hEA
    rwa [conjTranspose_mul, conjTranspose_conjTranspose, conjTranspose_zero] at this
  constructor
  · rintro ⟨x, rfl⟩
    rw [mulVec_mulVec, hAE, zero_mulVec]
  · intro hw
    refine ⟨Enᴴ *ᵥ w, ?_⟩
    set e := w - En *ᵥ (Enᴴ *ᵥ w) with he
    have h3 : Enᴴ *ᵥ e = 0 := by
      rw [he, mulVec_sub, mulVec_mulVec, h1, one_mulVec, sub_self]
    obtain ⟨y, hy⟩ := (h2 e).1 h3
    have h4 : Aᴴ *ᵥ e = 0 := by
      rw [he, mulVec_sub, hw, mulVec_mulVec, hAE, zero_mulVec, sub_self]
    have h5 : star e ⬝ᵥ e = 0 := by
      conv_lhs => rw [hy]
      rw [star_mulVec, ← dotProduct_mulVec, ← hy, h4, dotProduct_zero]
    exact sub_eq_zero.1 (dotProduct_star_self_eq_zero.1 h5)

theorem ula_dot {w : Fin m → ℂ} {z : Fin k → ℂ} : (ulaMat m z)ᴴ *ᵥ w = 0 ↔ ∀ c, star w ⬝ᵥ ulaVec m (z c) = 0 := by
  have h : ∀ c, ((ulaMat m z)ᴴ *ᵥ w) c = star (star w ⬝ᵥ ulaVec m (z c)) := by
    intro c
    rw [star_dotProduct, star_star]
    rfl
  constructor
  · intro h0 c
    have := h c
    rw [h0] at this
    exact star_eq_zero.1 this.symm
  · intro h0
    funext c
    rw [h, h0, star_zero]
    rfl

/-- **C44** (extraneous zeros). With the exact covariance of `1 ≤ k < m` sources on a ULA, every complex number `ζ` at which the
Min-Norm denominator vanishes is either one of the phase factors of the sources or lies outside the unit circle. So on the unit
circle, i.e. for all directions, the Min-Norm spectrum is infinite at the sources and finite and positive everywhere else: Min-Norm
has no spurious peaks of infinite height. -/
theorem C44_no_spurious [NeZero m] (eigh : Eigh) {z : Fin k → ℂ} (hz : Function.Injective z) (hz0 : ∀ c, z c ≠ 0)
    {P : Matrix (Fin k) (Fin k) ℂ} {σ : ℝ} (hk : 1 ≤ k) (hkm : k < m) (hP : P.PosDef) :
    (∀ ζ, minNormDenom (getNoiseSubspace eigh (covModel (ulaMat m z) P σ) k) (ulaVec m ζ) = 0 → (∃ c, ζ = z c) ∨ 1 < ‖ζ‖) ∧
    ∀ (atoms : List (Fin m → ℂ)) (j : ℕ) (ζ : ℂ), atoms[j]? = some (ulaVec m ζ) → ‖ζ‖ = 1 →
      ((∃ c, ζ = z c) → (fMinNorm (getNoiseSubspace eigh (covModel (ulaMat m z) P σ) k) atoms)[j]? = some ⊤) ∧
      ((¬ ∃ c, ζ = z c) → ∃ y : ℝ, 0 < y ∧
        (fMinNorm (getNoiseSubspace eigh (covModel (ulaMat m z) P σ) k) atoms)[j]? = some (y : WithTop ℝ)) := by
  have hA := ulaMat_injective hz hkm.le
  have hrow := C44_first_row_ula eigh hz hz0 (σ := σ) hk hkm hP
  obtain ⟨_, h1, h2⟩ := C43_noise_subspace eigh (σ := σ) hk hA hP
  have hran := noise_range eigh (σ := σ) hk hA hP
  generalize getNoiseSubspace eigh (covModel (ulaMat m z) P σ) k = En at h1 h2 hrow hran ⊢
  obtain ⟨g1, g2, g3, g4⟩ := C44_min_norm_vector En h1 hrow
  have hden : ∀ ζ, minNormDenom En (ulaVec m ζ) = 0 ↔ star (minNormVec En) ⬝ᵥ ulaVec m ζ = 0 := by
    intro ζ
    unfold minNormDenom
    rw [pow_eq_zero_iff two_ne_zero, norm_eq_zero]
  have hmain : ∀ ζ, minNormDenom En (ulaVec m ζ) = 0 → (∃ c, ζ = z c) ∨ 1 < ‖ζ‖ := by
    intro ζ h0
    by_cases hc : ∃ c, ζ = z c
    · exact Or.inl hc
    · push Not at hc
      refine Or.inr (extraneous_zero (z := z) g2 (ula_dot.1 ((hran _).1 g1)) ?_ ((hden ζ).1 h0) hc)
      intro w hw0 hw
      exact g3 w ((hran w).2 (ula_dot.2 hw)) hw0
  refine ⟨hmain, fun atoms j ζ hj hζ => ⟨?_, ?_⟩⟩
  · rintro ⟨c, rfl⟩
    have h3 := (hden (z c)).2 (ula_dot.1 ((hran _).1 g1) c)
    simp [fMinNorm, hj, npRecip, h3]
  · intro hc
    have h3 : minNormDenom En (ulaVec m ζ) ≠ 0 := by
      intro h0
      rcases hmain ζ h0 with h | h
      · exact hc h
      · linarith
    have h4 : 0 ≤ minNormDenom En (ulaVec m ζ) := by unfold minNormDenom; positivity
    refine ⟨1 / minNormDenom En (ulaVec m ζ), ?_, by simp [fMinNorm, hj, npRecip, h3]⟩
    have := lt_of_le_of_ne h4 (Ne.symm h3)
    positivity

/-- A spectrum that is infinite at interior, non-adjacent grid points and nowhere else makes an estimator with the default peak finder
return exactly these points, in every state the estimator can reach. -/
theorem recovers_of_top (cfg : EstCfg (WithTop ℝ) (List (Fin m → ℂ)))
    {x : List ℝ} {names : List String} {u : String}
    (hg : cfg.grid = ⟨.ff1, [⟨x, false⟩], names, [u]⟩) (hu : Unit1D u) (hx : ∀ v ∈ x, InRange1D u v)
    (hpf : cfg.peakFinder = findPeaksSimple) (hsort : IsArgsort cfg.argsort)
    (s : ℝ → Fin m → ℂ)
    (hcomp : ∀ rows, (∀ r ∈ rows, InRange1D u (r.headD 0)) →
      cfg.compute rows = rows.map fun r => s (r.headD 0))
    (idx : Fin k → ℕ) (hsep : ∀ c e, c < e → idx c + 1 < idx e) (h1 : ∀ c, 1 ≤ idx c)
    (h2 : ∀ c, idx c + 1 < x.length) (hk : 1 ≤ k)
    (F : List (Fin m → ℂ) → List (WithTop ℝ)) (hl : (F (x.map s)).length = x.length)
    (htop : ∀ j, j < x.length → ((F (x.map s))[j]? = some ⊤ ↔ ∃ c, j = idx c))
    (ops : List (EstOp (WithTop ℝ) (List (Fin m → ℂ)))) :
    ∃ o st', cfg.estimate (cfg.run ops).1 ⟨F, k, false, 10, 3⟩ = (.ok o, st') ∧
      o.observe st' = (true, some (some (List.ofFn fun c => [x.getD (idx c) 0], u)), F (x.map s)) := by
  have hvalid : ValidGrid cfg.grid := Or.inl ⟨x, names, u, hg, hu, hx⟩
  obtain ⟨rows, hr1, hr2⟩ := C37_largest_peaks cfg hvalid hsort ops ⟨F, k, false, 10, 3⟩ hk rfl
  rw [rows_1d hg hu hx, Except.ok.injEq] at hr1
  have hsh : cfg.grid.shape = [x.length] := by rw [hg]; rfl
  have hcr : cfg.compute rows = x.map s := by
    rw [hcomp rows (by
      rw [← hr1]
      intro r hr
      obtain ⟨v, hv, rfl⟩ := List.mem_map.1 hr
      exact hx v hv), ← hr1]
    simp [List.map_map, Function.comp_def]
  have hlen : (F (x.map s)).length = cfg.grid.shape.prod := by
    rw [hl, hsh]; simp
  obtain ⟨hd1, hd2⟩ := C37_default_peak_finder cfg.grid.shape (F (x.map s)) hlen
  obtain ⟨hf, ht⟩ := hr2 (F (x.map s)) (by rw [hcr]) hlen (by rw [hpf]; exact hd1)
    (by rw [hpf]; exact hd2)
  have hkle : k ≤ (findPeaksSimple [x.length] (F (x.map s))).length := by
    by_contra hlt
    have hmono : StrictMono idx := fun c e h => by have := hsep c e h; omega
    have hnd : (List.ofFn fun c => [idx c]).Nodup := by
      rw [List.nodup_ofFn]
      intro c e h
      exact hmono.injective (by simpa using h)
    have hs : (List.ofFn fun c => [idx c]).Subperm (findPeaksSimple [x.length] (F (x.map s))) := by
      refine List.subperm_of_subset hnd ?_
      intro i hi
      obtain ⟨c, rfl⟩ := List.mem_ofFn.1 hi
      exact infinite_is_peak _ hl idx hsep h1 h2 htop c
    have := hs.length_le
    simp at this
    omega
  obtain ⟨flat, hflat, hobs⟩ := ht (by rw [hpf, hsh]; exact hkle)
  rw [hpf, hsh] at hflat
  have hfl := top_peaks_unique _ hl idx hsep h1 h2 htop flat hflat
  unfold EstCfg.observe at hobs
  cases hest : cfg.estimate (cfg.run ops).1 ⟨F, k, false, 10, 3⟩ with
  | mk r st' =>
    rw [hest] at hobs
    cases r with
    | error e => simp at hobs
    | ok o =>
      simp only [Except.ok.injEq] at hobs
      refine ⟨o, st', rfl, ?_⟩
      rw [hobs, hfl, hg]
      simp only [SearchGrid.shape, List.map_cons, List.map_nil, List.map_ofFn, Function.comp_def]
      congr 5
      refine congrArg List.ofFn (funext fun c => ?_)
      have hidx : idx c < x.length := by have := h2 c; omega
      have : unravelIdx [x.length] (idx c) = [idx c] := by
        simp [unravelIdx]
      rw [this]
      simp [gridPoint]

/-- **C44** (ULA, end to end). `MinNorm(ula, wavelength, grid)` with the exact covariance of `k < n` sources on interior, non-adjacent
points of a grid free of grating lobes returns `resolved = True` and exactly the sources, for every array size, spacing, unit, source
covariance, noise variance, choice of eigenvectors and history of earlier calls. -/
theorem C44_min_norm_ula (eigh : Eigh) {n : ℕ} {d wl : ℝ} (hd : 0 < d) (hwl : 0 < wl)
    {name : Option String} {a : GridArray} (ha : ula n (.scalar d) name {} = .ok a) [NeZero a.size]
    (l : Fin a.element.outputSize) (cfg : EstCfg (WithTop ℝ) (List (Fin a.size → ℂ)))
    {x : List ℝ} {names : List String} {u : String}
    (hg : cfg.grid = ⟨.ff1, [⟨x, false⟩], names, [u]⟩) (hu : Unit1D u) (hx : ∀ v ∈ x, InRange1D u v)
    (hnd : x.Nodup)
    (hamb : ∀ v ∈ x, ∀ w ∈ x, d * |Real.sin (angleOf u v) - Real.sin (angleOf u w)| < wl)
    (hpf : cfg.peakFinder = findPeaksSimple) (hsort : IsArgsort cfg.argsort)
    (hcomp : cfg.compute = atomColumns1D a.toArrayDesign l wl u)
    (src : FF1D k) (hsu : src.unit = u) (idx : Fin k → ℕ)
    (hidx : ∀ c, x[idx c]? = some (src.loc c))
    (hsep : ∀ c e, c < e → idx c + 1 < idx e) (h1 : ∀ c, 1 ≤ idx c)
    (h2 : ∀ c, idx c + 1 < x.length) (hk : 1 ≤ k) (hkn : k < n)
    {P : Matrix (Fin k) (Fin k) ℂ} (hP : P.PosDef) (σ : ℝ)
    (ops : List (EstOp (WithTop ℝ) (List (Fin a.size → ℂ)))) :
    ∃ S, steering a.toArrayDesign (.ff1 src) wl false "all" = .ok S ∧
      ∃ o st', minNormEstimate eigh cfg (cfg.run ops).1 (covModel (S.A l) P σ) k {} = (.ok o, st') ∧
        ∃ sp, o.observe st' = (true, some (some (List.ofFn fun c => [src.loc c], u)), sp) := by
  have : NeZero wl := ⟨hwl.ne'⟩
  have hsize := (C01_ula_geometry n d name {} a ha).1
  have hsx : ∀ c, src.loc c ∈ x := fun c => List.mem_of_getElem? (hidx c)
  have hgd : ∀ c, x.getD (idx c) 0 = src.loc c := fun c => by
    rw [List.getD_eq_getElem?_getD, hidx c]; rfl
  obtain ⟨S, hS, hSv⟩ := ula_steering ha src ⟨hsu ▸ hu, fun c => hsu ▸ hx _ (hsx c)⟩ wl "all" (by simp)
  refine ⟨S, hS, ?_⟩
  have hSm : S.A l = ulaMat a.size fun c => phaseFactor d wl u (src.loc c) := by
    funext i c
    rw [hSv, hsu]; rfl
  have hloc : Function.Injective src.loc := by
    intro c e h
    have h3 : idx c = idx e := by
      obtain ⟨hc1, hc2⟩ := List.getElem?_eq_some_iff.1 (hidx c)
      obtain ⟨he1, he2⟩ := List.getElem?_eq_some_iff.1 (hidx e)
      exact (List.Nodup.getElem_inj_iff hnd).1 (by rw [hc2, he2, h])
    rcases lt_trichotomy c e with h' | h' | h'
    · have := hsep c e h'; omega
    · exact h'
    · have := hsep e c h'; omega
  have hz : Function.Injective fun c => phaseFactor d wl u (src.loc c) := by
    intro c e h
    exact hloc (phaseFactor_inj hd hwl (hx _ (hsx c)) (hx _ (hsx e)) (hamb _ (hsx c) _ (hsx e)) h)
  have hn1 : ∀ y, ‖phaseFactor d wl u y‖ = 1 := fun y => by
    simp only [phaseFactor]
    rw [mul_comm, Complex.norm_exp_ofReal_mul_I]
  have hka : k < a.size := by
    have : a.size = n := hsize
    omega
  rw [hSm]
  obtain ⟨-, hsp⟩ := C44_no_spurious eigh hz (fun c h0 => by
    have := hn1 (src.loc c)
    simp only [h0, norm_zero] at this
    exact one_ne_zero this.symm) (σ := σ) hk hka hP
  have hargs := subspaceArgs_ok eigh (fun En => fMinNorm En)
    (covModel (ulaMat a.size fun c => phaseFactor d wl u (src.loc c)) P σ) k {} hka
  obtain ⟨o, st', e1, e2⟩ := recovers_of_top cfg hg hu hx hpf hsort (fun v => ulaVec a.size (phaseFactor d wl u v)) (by
      intro rows hr
      rw [hcomp, ula_atoms ha l wl u hu rows hr]) idx hsep h1 h2 hk
    (fMinNorm (getNoiseSubspace eigh (covModel (ulaMat a.size fun c => phaseFactor d wl u (src.loc c)) P σ) k))
    (by simp [fMinNorm]) (by
      intro j hj
      have hjx : x.getD j 0 ∈ x := by
        rw [List.getD_eq_getElem?_getD, List.getElem?_eq_getElem hj]
        exact List.getElem_mem hj
      have hjs : (x.map fun v => ulaVec a.size (phaseFactor d wl u v))[j]? = some (ulaVec a.size (phaseFactor d wl u (x.getD j 0))) := by
        simp [List.getElem?_eq_getElem hj, List.getD_eq_getElem?_getD]
      obtain ⟨t1, t2⟩ := hsp _ j _ hjs (hn1 _)
      constructor
      · intro htop
        by_contra hc
        obtain ⟨y, _, hy⟩ := t2 (by
          rintro ⟨c, hcz⟩
          refine hc ⟨c, ?_⟩
          have h3 := phaseFactor_inj hd hwl (hx _ hjx) (hx _ (hsx c)) (hamb _ hjx _ (hsx c)) hcz
          obtain ⟨hc1, hc2⟩ := List.getElem?_eq_some_iff.1 (hidx c)
          rw [List.getD_eq_getElem?_getD, List.getElem?_eq_getElem hj, Option.getD_some, ← hc2] at h3
          exact (List.Nodup.getElem_inj_iff hnd).1 h3)
        rw [htop, Option.some.injEq] at hy
        exact WithTop.coe_ne_top hy.symm
      · rintro ⟨c, rfl⟩
        exact t1 ⟨c, by rw [hgd]⟩) ops
  simp only [hgd] at e2
  refine ⟨o, st', ?_, _, e2⟩
  unfold minNormEstimate
  rw [hargs]
  exact e1

/-- The hypotheses hold for two sources at `sin θ = ±0.5` and three sensors at half wavelength spacing. -/
example (eigh : Eigh) : ∃ (a : GridArray) (_ : NeZero a.size) (S : Steering a.element.outputSize a.size 2)
    (i : Fin a.element.outputSize) (cfg : EstCfg (WithTop ℝ) (List (Fin a.size → ℂ))) (o : _) (st' : _),
    steering a.toArrayDesign (.ff1 ⟨![-0.5, 0.5], "sin"⟩) 1 false "all" = .ok S ∧
    minNormEstimate eigh cfg cfg.init (covModel (S.A i) 1 1) 2 {} = (.ok o, st') ∧
    ∃ sp, o.observe st' = (true, some (some ([[-0.5], [0.5]], "sin")), sp) := by
  obtain ⟨a, ha⟩ := ula_ok 3 (1 / 2) none
  have hla : 0 < a.element.outputSize := by rw [(gridInit_spec ha).2.2.1]; decide
  have hrg : ∀ y ∈ ([-0.8, -0.5, 0, 0.5, 0.8] : List ℝ), -0.8 ≤ y ∧ y ≤ 0.8 := by
    intro y hy
    simp only [List.mem_cons, List.not_mem_nil, or_false] at hy
    rcases hy with rfl | rfl | rfl | rfl | rfl <;> norm_num
  have hsin : ∀ y ∈ ([-0.8, -0.5, 0, 0.5, 0.8] : List ℝ), Real.sin (angleOf "sin" y) = y := by
    intro y hy
    have := hrg y hy
    simp only [angleOf, String.reduceEq, if_false, if_true]
    exact Real.sin_arcsin (by linarith [this.1]) (by linarith [this.2])
  have hx : ∀ y ∈ ([-0.8, -0.5, 0, 0.5, 0.8] : List ℝ), InRange1D "sin" y := fun y hy =>
    Or.inr (Or.inr ⟨rfl, by linarith [(hrg y hy).1], by linarith [(hrg y hy).2]⟩)
  have hsa : a.size = 3 := (C01_ula_geometry 3 _ _ _ a ha).1
  haveI : NeZero a.size := ⟨by omega⟩
  obtain ⟨S, hS, o, st', ho, sp, hsp⟩ := C44_min_norm_ula (k := 2) eigh (by norm_num) (by norm_num) ha ⟨0, hla⟩
    ⟨⟨.ff1, [⟨[-0.8, -0.5, 0, 0.5, 0.8], false⟩], [], ["sin"]⟩, atomColumns1D a.toArrayDesign ⟨0, hla⟩ 1 "sin", findPeaksSimple,
      stableArgsort, true, false⟩ rfl (Or.inr (Or.inr rfl)) hx (by norm_num)
    (by
      intro y hy z hz
      rw [hsin y hy, hsin z hz]
      have h1 := hrg y hy
      have h2 := hrg z hz
      have : |y - z| ≤ 1.6 := by rw [abs_le]; constructor <;> linarith [h1.1, h1.2, h2.1, h2.2]
      linarith) rfl stableArgsort_isArgsort rfl
    ⟨![-0.5, 0.5], "sin"⟩ rfl ![1, 3] (by intro c; fin_cases c <;> rfl) (by decide) (by decide) (by decide) (by norm_num) (by norm_num)
    PosDef.one 1 []
  exact ⟨a, inferInstance, S, _, _, o, st', hS, ho, sp, hsp⟩

end Doa.Props
