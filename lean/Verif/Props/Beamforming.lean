import Verif.Model.Beamforming
import Verif.Model.Preprocessing
import Verif.Spec.Subspace
import Verif.Lemmas.MathUtils
import Verif.Lemmas.Subspace

/-!
# Beamformer spectra: C48
-/

namespace Doa.Props

open Doa Matrix Doa.Spec
open scoped ComplexOrder

variable {m : ℕ}

theorem bartlettRaw_eq (R : Matrix (Fin m) (Fin m) ℂ) (a : Fin m → ℂ) :
    bartlettRaw R a = star a ⬝ᵥ R *ᵥ a := rfl

theorem npPinv_inv {R : Matrix (Fin m) (Fin m) ℂ} (hR : IsUnit R.det) : npPinv R = R⁻¹ := by
  have h := mul_npPinv_mul R
  have h1 : R * npPinv R = 1 := by
    have h2 := congrArg (fun M => M * R⁻¹) h
    simpa [Matrix.mul_assoc, mul_nonsing_inv _ hR] using h2
  exact (inv_eq_right_inv h1).symm

theorem mvdrRaw_eq {R : Matrix (Fin m) (Fin m) ℂ} (hR : R.PosDef) (a : Fin m → ℂ) :
    mvdrRaw R a = star a ⬝ᵥ R⁻¹ *ᵥ a := by
  unfold mvdrRaw
  rw [npPinv_inv ((isUnit_iff_isUnit_det _).1 hR.isUnit)]
  rfl

/-- **C48** (Bartlett). For positive semidefinite `R` every entry of `f_bartlett(A, R)` is the
nonnegative number `aᴴ R a`: taking `.real` drops nothing. -/
theorem C48_bartlett {R : Matrix (Fin m) (Fin m) ℂ} (hR : R.PosSemidef) (A : List (Fin m → ℂ)) :
    (fBartlett R A).length = A.length ∧
    ∀ (c : ℕ) (a : Fin m → ℂ), A[c]? = some a → ∃ y : ℝ, (fBartlett R A)[c]? = some y ∧ 0 ≤ y ∧
      (y : ℂ) = star a ⬝ᵥ R *ᵥ a := by
  refine ⟨by simp [fBartlett], fun c a h => ⟨(bartlettRaw R a).re, by rw [fBartlett, List.getElem?_map, h]; rfl, ?_, ?_⟩⟩
  · rw [bartlettRaw_eq]
    exact (Complex.le_def.1 (hR.dotProduct_mulVec_nonneg a)).1
  · rw [bartlettRaw_eq]
    exact (Complex.eq_re_of_ofReal_le (r := 0) (by exact_mod_cast hR.dotProduct_mulVec_nonneg a)).symm

/-- **C48** (MVDR). For positive definite `R` and a non-zero steering vector `a` the entry of
`f_mvdr(A, R)` is the positive finite number `1 / (aᴴ R⁻¹ a)`; it is the least output power `wᴴ R w` of
a beamformer with `wᴴ a = 1`, and so at most `aᴴ R a / ‖a‖⁴`, the normalised Bartlett output. -/
theorem C48_mvdr {R : Matrix (Fin m) (Fin m) ℂ} (hR : R.PosDef) (A : List (Fin m → ℂ)) :
    (fMvdr R A).length = A.length ∧
    ∀ (c : ℕ) (a : Fin m → ℂ), A[c]? = some a → a ≠ 0 → ∃ y : ℝ, (fMvdr R A)[c]? = some (y : WithTop ℝ) ∧
      0 < y ∧ (y : ℂ) * (star a ⬝ᵥ R⁻¹ *ᵥ a) = 1 ∧
      (∀ w : Fin m → ℂ, star w ⬝ᵥ a = 1 → y ≤ (star w ⬝ᵥ R *ᵥ w).re) ∧
      (∃ w : Fin m → ℂ, star w ⬝ᵥ a = 1 ∧ (star w ⬝ᵥ R *ᵥ w).re = y) ∧
      y ≤ (star a ⬝ᵥ R *ᵥ a).re / (∑ i, ‖a i‖ ^ 2) ^ 2 := by
  refine ⟨by simp [fMvdr], fun c a h ha => ?_⟩
  have hdet : IsUnit R.det := (isUnit_iff_isUnit_det _).1 hR.isUnit
  have hpos := hR.inv.dotProduct_mulVec_pos ha
  obtain ⟨q, hq⟩ : ∃ q : ℝ, star a ⬝ᵥ R⁻¹ *ᵥ a = q :=
    ⟨_, Complex.eq_re_of_ofReal_le (r := 0) (by exact_mod_cast hpos.le)⟩
  have hq0 : 0 < q := by rw [hq] at hpos; exact_mod_cast hpos
  have hqC : (q : ℂ) ≠ 0 := by exact_mod_cast hq0.ne'
  have hflip : ∀ v w : Fin m → ℂ, star v ⬝ᵥ R *ᵥ w = star (R *ᵥ v) ⬝ᵥ w := by
    intro v w
    rw [star_mulVec, hR.1.eq, ← dotProduct_mulVec]
  set v : Fin m → ℂ := (q : ℂ)⁻¹ • (R⁻¹ *ᵥ a) with hv
  have hRv : R *ᵥ v = (q : ℂ)⁻¹ • a := by
    rw [hv, mulVec_smul, mulVec_mulVec, mul_nonsing_inv _ hdet, one_mulVec]
  have hsq : star ((q : ℂ)⁻¹) = (q : ℂ)⁻¹ := by
    rw [Complex.star_def, map_inv₀, Complex.conj_ofReal]
  have hva : star v ⬝ᵥ a = 1 := by
    rw [hv, star_smul, smul_dotProduct, star_dotProduct, hq, Complex.star_def, Complex.conj_ofReal, smul_eq_mul,
      ← Complex.star_def, hsq, inv_mul_cancel₀ hqC]
  have hvv : star v ⬝ᵥ R *ᵥ v = (q : ℂ)⁻¹ := by
    rw [hRv, dotProduct_smul, hva, smul_eq_mul, mul_one]
  have hmin : ∀ w : Fin m → ℂ, star w ⬝ᵥ a = 1 → 1 / q ≤ (star w ⬝ᵥ R *ᵥ w).re := by
    intro w hw
    have h1 := hR.posSemidef.dotProduct_mulVec_nonneg (w - v)
    have haw : star a ⬝ᵥ w = 1 := by rw [star_dotProduct, hw, star_one]
    have h2 : star (w - v) ⬝ᵥ R *ᵥ (w - v) = star w ⬝ᵥ R *ᵥ w - (q : ℂ)⁻¹ := by
      rw [mulVec_sub, star_sub, sub_dotProduct, dotProduct_sub, dotProduct_sub, hvv, hRv, dotProduct_smul, hw,
        hflip v w, hRv, star_smul, smul_dotProduct, haw, hsq]
      simp
    rw [h2] at h1
    have h3 := (Complex.le_def.1 h1).1
    rw [Complex.sub_re, ← Complex.ofReal_inv, Complex.ofReal_re, Complex.zero_re] at h3
    rw [one_div]; linarith
  refine ⟨1 / q, ?_, by positivity, ?_, hmin, ⟨v, hva, ?_⟩, ?_⟩
  · rw [fMvdr, List.getElem?_map, h]
    simp only [Option.map_some, mvdrRaw_eq hR, hq, Complex.ofReal_re, npRecip, if_neg hq0.ne']
  · rw [hq, ← Complex.ofReal_mul, one_div, inv_mul_cancel₀ hq0.ne', Complex.ofReal_one]
  · rw [hvv, ← Complex.ofReal_inv, Complex.ofReal_re, one_div]
  · set N : ℝ := ∑ i, ‖a i‖ ^ 2 with hN
    have haa : star a ⬝ᵥ a = (N : ℂ) := by
      rw [hN]
      simp only [dotProduct, Pi.star_apply, Complex.ofReal_sum]
      refine Finset.sum_congr rfl fun i _ => ?_
      rw [Complex.star_def, mul_comm, Complex.mul_conj, Complex.normSq_eq_norm_sq]
    have hN0 : N ≠ 0 := by
      intro h0
      apply ha
      rw [h0, Complex.ofReal_zero] at haa
      exact dotProduct_star_self_eq_zero.1 haa
    have hNC : (N : ℂ) ≠ 0 := by exact_mod_cast hN0
    have h3 := hmin ((N : ℂ)⁻¹ • a) (by
      rw [star_smul, smul_dotProduct, haa, Complex.star_def, map_inv₀, Complex.conj_ofReal, smul_eq_mul,
        inv_mul_cancel₀ hNC])
    rw [mulVec_smul, dotProduct_smul, star_smul, smul_dotProduct, Complex.star_def, map_inv₀,
      Complex.conj_ofReal, smul_eq_mul, smul_eq_mul, ← Complex.ofReal_inv, Complex.re_ofReal_mul,
      Complex.re_ofReal_mul] at h3
    refine h3.trans (le_of_eq ?_)
    field_simp

/-- Non-vacuity: a coloured positive definite covariance with three non-zero steering vectors. -/
example : ∃ R : Matrix (Fin 2) (Fin 2) ℂ, R.PosDef ∧ ∀ z : ℂ, ulaVec 2 z ≠ 0 := by
  refine ⟨diagonal ![1, 2], ?_, fun z h => ?_⟩
  · rw [posDef_diagonal_iff]
    intro i
    fin_cases i <;> simp
  · have := congrFun h 0
    simp [ulaVec] at this

/-- **C48** (guards). Both beamformers raise `ValueError` when `R` does not have `m` rows, and, by
evaluating the spectrum, when it is not square; nothing is changed then. -/
theorem C48_guards {r c : ℕ} (cfg : EstCfg ℝ (List (Fin m → ℂ))) (cfg' : EstCfg (WithTop ℝ) (List (Fin m → ℂ)))
    (st : EstState (List (Fin m → ℂ))) (R : Matrix (Fin r) (Fin c) ℂ) (k : ℕ) (kw : EstKw)
    (h : r ≠ m ∨ c ≠ m) :
    bartlettEstimate cfg st R k kw = (.error .valueError, st) ∧
    mvdrEstimate cfg' st R k kw = (.error .valueError, st) := by
  have hargs : ∀ {V : Type} (f : Matrix (Fin m) (Fin m) ℂ → List (Fin m → ℂ) → List V),
      beamArgs (m := m) f R k kw = .error .valueError := by
    intro V f
    unfold beamArgs ensureCovarianceSize
    by_cases hr : r = m
    · simp only [List.length_cons, List.length_nil, ne_eq, not_true_eq_false, if_false,
        List.getElem?_cons_zero, hr, or_self]
      rw [dif_neg]
      rintro ⟨h1, _⟩; omega
    · simp [hr]
  constructor
  · unfold bartlettEstimate; rw [hargs]
  · unfold mvdrEstimate; rw [hargs]

end Doa.Props
