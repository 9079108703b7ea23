import Mathlib.Analysis.Calculus.ContDiff.Basic
import Mathlib.Analysis.Calculus.ContDiff.RCLike
import Mathlib.Analysis.SpecialFunctions.Trigonometric.InverseDeriv
import Mathlib.Analysis.SpecialFunctions.Sqrt
import Verif.Props.CoarrayMusic
import Verif.Props.Calibrated
import Verif.Props.Units

/-!
# C64: what the error covariance of MUSIC means
-/

namespace Doa.Props

open Doa Doa.Spec Matrix Filter Topology
open scoped ComplexOrder

variable {m k : ℕ}

/-- The vector `A (Aᴴ A)⁻¹ P⁻¹ eᵢ`. -/
noncomputable def errRight (A : Matrix (Fin m) (Fin k) ℂ) (P : Matrix (Fin k) (Fin k) ℂ) (i : Fin k) : Fin m → ℂ :=
  ((leftInv A)ᴴ * P⁻¹).col i

/-- The vector `Π dᵢ`. -/
noncomputable def errLeft (A D : Matrix (Fin m) (Fin k) ℂ) (i : Fin k) : Fin m → ℂ := complProj A *ᵥ D.col i

theorem leftInv_conj (A : Matrix (Fin m) (Fin k) ℂ) : (leftInv A)ᴴ = A * (Aᴴ * A)⁻¹ := by
  unfold leftInv
  rw [conjTranspose_mul, conjTranspose_conjTranspose, conjTranspose_nonsing_inv, (isHermitian_conjTranspose_mul_self A).eq]

theorem conj_mul_leftInv_conj {A : Matrix (Fin m) (Fin k) ℂ} (hA : Function.Injective A.mulVec) : Aᴴ * (leftInv A)ᴴ = 1 := by
  rw [← conjTranspose_mul, leftInv_mul hA, conjTranspose_one]

theorem complProj_errRight {A : Matrix (Fin m) (Fin k) ℂ} (hA : Function.Injective A.mulVec) (P : Matrix (Fin k) (Fin k) ℂ) (i : Fin k) :
    complProj A *ᵥ errRight A P i = 0 := by
  have : complProj A * ((leftInv A)ᴴ * P⁻¹) = 0 := by
    rw [leftInv_conj, ← Matrix.mul_assoc, ← Matrix.mul_assoc, complProj_mul hA, Matrix.zero_mul, Matrix.zero_mul]
  exact congrArg (fun M : Matrix (Fin m) (Fin k) ℂ => M.col i) this

theorem covModel_errRight {A : Matrix (Fin m) (Fin k) ℂ} (hA : Function.Injective A.mulVec) {P : Matrix (Fin k) (Fin k) ℂ}
    (hP : IsUnit P.det) (σ : ℝ) (i : Fin k) : covModel A P σ *ᵥ errRight A P i = A.col i + (σ : ℂ) • errRight A P i := by
  have h2 : covModel A P σ * ((leftInv A)ᴴ * P⁻¹) = A + (σ : ℂ) • ((leftInv A)ᴴ * P⁻¹) := by
    unfold covModel
    rw [Matrix.add_mul, Matrix.smul_mul, Matrix.one_mul]
    congr 1
    calc A * P * Aᴴ * ((leftInv A)ᴴ * P⁻¹) = A * (P * ((Aᴴ * (leftInv A)ᴴ) * P⁻¹)) := by simp only [Matrix.mul_assoc]
      _ = A := by rw [conj_mul_leftInv_conj hA, Matrix.one_mul, mul_nonsing_inv _ hP, Matrix.mul_one]
  exact congrArg (fun M : Matrix (Fin m) (Fin k) ℂ => M.col i) h2

theorem complProj_covModel {A : Matrix (Fin m) (Fin k) ℂ} (hA : Function.Injective A.mulVec) (P : Matrix (Fin k) (Fin k) ℂ) (σ : ℝ) :
    complProj A * covModel A P σ = (σ : ℂ) • complProj A := by
  unfold covModel
  rw [Matrix.mul_add, ← Matrix.mul_assoc, ← Matrix.mul_assoc, complProj_mul hA, Matrix.zero_mul, Matrix.zero_mul, zero_add, Matrix.mul_smul, Matrix.mul_one]

/-- Perturbation of the noise projection, for a general source covariance. -/
theorem noise_perturbation_general {A : Matrix (Fin m) (Fin k) ℂ} (hA : Function.Injective A.mulVec) {P : Matrix (Fin k) (Fin k) ℂ}
    (hP : IsUnit P.det) (i : Fin k)
    {σ : ℝ} {T : Matrix (Fin m) (Fin m) ℂ} {N : ℝ → Matrix (Fin m) (Fin m) ℂ} {N' : Matrix (Fin m) (Fin m) ℂ}
    (hd : ∀ r c, HasDerivAt (fun t => N t r c) (N' r c) 0) (h0 : N 0 = complProj A)
    (hidem : ∀ᶠ t in 𝓝 0, N t * N t = N t)
    (hcomm : ∀ᶠ t : ℝ in 𝓝 0, N t * (covModel A P σ + (t : ℂ) • T) = (covModel A P σ + (t : ℂ) • T) * N t) :
    N' *ᵥ A.col i = -(complProj A *ᵥ (T *ᵥ errRight A P i)) := by
  have hS : ∀ r c, HasDerivAt (fun t : ℝ => (covModel A P σ + (t : ℂ) • T) r c) (T r c) 0 := by
    intro r c
    have := ((hasDerivAt_id (0 : ℝ)).ofReal_comp.mul_const (T r c)).const_add (covModel A P σ r c)
    simpa using this
  have e1 : N' * complProj A + complProj A * N' = N' := by
    ext r c
    have h1 := hasDerivAt_matMul hd hd r c
    rw [h0] at h1
    exact (h1.congr_of_eventuallyEq (hidem.mono fun t ht => by simp only [ht])).unique (hd r c)
  have e2 : N' * covModel A P σ + complProj A * T = T * complProj A + covModel A P σ * N' := by
    ext r c
    have h1 := hasDerivAt_matMul hd hS r c
    have h2 := hasDerivAt_matMul hS hd r c
    rw [h0] at h1 h2
    simp only [Complex.ofReal_zero, zero_smul, add_zero] at h1 h2
    exact (h1.congr_of_eventuallyEq (hcomm.mono fun t ht => by simp only [ht])).unique h2
  have hPA := complProj_mul hA
  have hPy := complProj_errRight hA P i
  have hSy := covModel_errRight hA hP σ i
  have hPS := complProj_covModel hA P σ
  have hid := complProj_idem hA
  generalize complProj A = Q at *
  generalize errRight A P i = y at *
  generalize covModel A P σ = R at *
  have hPa : Q *ᵥ A.col i = 0 := congrArg (fun M : Matrix (Fin m) (Fin k) ℂ => M.col i) hPA
  have f1 : N' *ᵥ A.col i = Q *ᵥ (N' *ᵥ A.col i) := by
    have := congrArg (· *ᵥ A.col i) e1
    simp only [add_mulVec, ← mulVec_mulVec, hPa, mulVec_zero, zero_add] at this
    exact this.symm
  have f2 := congrArg (fun M => Q *ᵥ (M *ᵥ y)) e2
  simp only [add_mulVec, ← mulVec_mulVec, hPy, mulVec_zero, zero_add, hSy, mulVec_add, mulVec_smul] at f2
  rw [mulVec_mulVec _ Q R, hPS, smul_mulVec, mulVec_mulVec _ Q Q, hid, ← f1] at f2
  rw [add_right_comm] at f2
  exact eq_neg_of_add_eq_zero_left (by simpa using f2)

/-- The first-order error of the `i`-th estimate as a linear functional of the deviation. -/
noncomputable def errorFun (A D : Matrix (Fin m) (Fin k) ℂ) (P : Matrix (Fin k) (Fin k) ℂ) (i : Fin k) :
    Matrix (Fin m) (Fin m) ℂ →ₗ[ℂ] ℂ where
  toFun M := ((((Hmat A D i i).re)⁻¹ / 2 : ℝ) : ℂ) *
    (star (errLeft A D i) ⬝ᵥ (M *ᵥ errRight A P i) + star (errRight A P i) ⬝ᵥ (M *ᵥ errLeft A D i))
  map_add' M N := by simp only [add_mulVec, dotProduct_add]; ring
  map_smul' x M := by simp only [smul_mulVec, dotProduct_smul, smul_eq_mul, RingHom.id_apply]; ring

theorem errorFun_apply (A D : Matrix (Fin m) (Fin k) ℂ) (P : Matrix (Fin k) (Fin k) ℂ) (i : Fin k) (M : Matrix (Fin m) (Fin m) ℂ) :
    errorFun A D P i M = ((((Hmat A D i i).re)⁻¹ / 2 : ℝ) : ℂ) *
    (star (errLeft A D i) ⬝ᵥ (M *ᵥ errRight A P i) + star (errRight A P i) ⬝ᵥ (M *ᵥ errLeft A D i)) := rfl

theorem Hmat_entry {A D : Matrix (Fin m) (Fin k) ℂ} (hA : Function.Injective A.mulVec) (i j : Fin k) :
    Hmat A D i j = star (errLeft A D i) ⬝ᵥ errLeft A D j := by
  have e : Hmat A D = (complProj A * D)ᴴ * (complProj A * D) := by
    rw [conjTranspose_mul, complProj_herm hA, Matrix.mul_assoc, ← Matrix.mul_assoc (complProj A), complProj_idem hA]
    unfold Hmat complProj leftInv
    rw [Matrix.mul_assoc]
  rw [e]
  rfl

theorem Hmat_pos {A D : Matrix (Fin m) (Fin k) ℂ} (hA : Function.Injective A.mulVec) {i : Fin k} (hD : ¬ ∃ x, A *ᵥ x = D.col i) :
    0 < (Hmat A D i i).re ∧ Hmat A D i i = ((Hmat A D i i).re : ℂ) := by
  rw [Hmat_entry hA]
  have h3 : 0 ≤ star (errLeft A D i) ⬝ᵥ errLeft A D i := dotProduct_star_self_nonneg _
  have him := (Complex.le_def.1 h3).2
  refine ⟨lt_of_le_of_ne (Complex.le_def.1 h3).1 fun h => hD ?_, Complex.ext rfl him.symm⟩
  have h4 : errLeft A D i = 0 := dotProduct_star_self_eq_zero.1 (Complex.ext h.symm him.symm)
  refine ⟨leftInv A *ᵥ D.col i, ?_⟩
  have : errLeft A D i = D.col i - A *ᵥ (leftInv A *ᵥ D.col i) := by
    rw [errLeft, complProj, sub_mulVec, one_mulVec, mulVec_mulVec]
  rw [this] at h4
  exact (sub_eq_zero.1 h4).symm

/-- First-order error of MUSIC for a general source covariance. -/
theorem music_first_order_general {A D : Matrix (Fin m) (Fin k) ℂ} (hA : Function.Injective A.mulVec) {P : Matrix (Fin k) (Fin k) ℂ}
    (hP : IsUnit P.det) (i : Fin k) (hD : ¬ ∃ x, A *ᵥ x = D.col i)
    {σ : ℝ} {T : Matrix (Fin m) (Fin m) ℂ} (hT : Tᴴ = T) {N : ℝ → Matrix (Fin m) (Fin m) ℂ}
    {a d : ℝ → Fin m → ℂ} {e : Fin m → ℂ} {x₀ : ℝ} (ha0 : a x₀ = A.col i) (hd0 : d x₀ = D.col i)
    (ha : ∀ᶠ x in 𝓝 x₀, ∀ r, HasDerivAt (fun x => a x r) (d x r) x) (hd : ∀ r, HasDerivAt (fun x => d x r) (e r) x₀)
    {θ : ℝ → ℝ} {θ' : ℝ} (h0 : N 0 = complProj A) (hpath : MusicPath a (fun t => covModel A P σ + (t : ℂ) • T) N θ)
    (hθ : HasDerivAt θ θ' 0) (hθ0 : θ 0 = x₀) : (θ' : ℂ) = errorFun A D P i T := by
  have hder : ∀ r c, HasDerivAt (fun t => N t r c) ((Matrix.of fun r c => deriv (fun t => N t r c) 0) r c) 0 := fun r c => (hpath.smooth r c).hasDerivAt
  have hPa : complProj A *ᵥ A.col i = 0 := congrArg (fun M : Matrix (Fin m) (Fin k) ℂ => M.col i) (complProj_mul hA)
  have h1 := stationary_perturbation ha hd hder hpath.herm (by rw [h0, ha0, hPa]) hθ hθ0 hpath.minimum
  rw [ha0, hd0, h0, noise_perturbation_general hA hP i hder h0 hpath.idem hpath.invariant] at h1
  have hγ : star (D.col i) ⬝ᵥ (complProj A *ᵥ D.col i) = Hmat A D i i := by
    rw [Hmat_entry hA, errLeft, star_mulVec, complProj_herm hA, ← dotProduct_mulVec, mulVec_mulVec, complProj_idem hA]
  have hl : ∀ y : Fin m → ℂ, star (D.col i) ⬝ᵥ (complProj A *ᵥ y) = star (errLeft A D i) ⬝ᵥ y := by
    intro y
    rw [errLeft, star_mulVec, complProj_herm hA, ← dotProduct_mulVec]
  obtain ⟨hpos, -⟩ := Hmat_pos hA hD
  rw [dotProduct_neg, hl, hγ, Complex.neg_re] at h1
  rw [errorFun_apply, ← form_conj hT (errLeft A D i) (errRight A P i)]
  set z := star (errLeft A D i) ⬝ᵥ (T *ᵥ errRight A P i) with hz
  have h2 : θ' = ((Hmat A D i i).re)⁻¹ * z.re := by
    field_simp
    linarith
  rw [h2, Complex.star_def, Complex.add_conj]
  push_cast
  ring

/-- Second-order statistics of rank-one functionals. -/
theorem snapshotCov_rankOne (R : Matrix (Fin m) (Fin m) ℂ) (u v u' v' : Fin m → ℂ) :
    snapshotCov R (fun M => star u ⬝ᵥ (M *ᵥ v)) (fun M => star u' ⬝ᵥ (M *ᵥ v')) = (star v ⬝ᵥ (R *ᵥ v')) * (star u' ⬝ᵥ (R *ᵥ u)) := by
  have hs : ∀ (x y : Fin m → ℂ) (r c : Fin m), star x ⬝ᵥ (Matrix.single r c (1 : ℂ) *ᵥ y) = star (x r) * y c := by
    intro x y r c
    rw [Matrix.single_mulVec]
    simp [dotProduct, Function.update_apply]
  unfold snapshotCov
  simp only [hs]
  have e : ∀ (x y : Fin m → ℂ), star x ⬝ᵥ (R *ᵥ y) = ∑ r, ∑ c, star (x r) * R r c * y c := by
    intro x y
    simp only [dotProduct, mulVec, Finset.mul_sum, Pi.star_apply, mul_assoc]
  rw [e, e]
  have : ∀ r c r' c', star (star (u r) * v c) * (star (u' r') * v' c') * (R c c' * R r' r) =
      (star (v c) * R c c' * v' c') * (star (u' r') * R r' r * u r) := by
    intro r c r' c'
    rw [star_mul', star_star]; ring
  simp only [this]
  rw [Finset.sum_mul_sum]
  calc ∑ r, ∑ c, ∑ r', ∑ c', star (v c) * R c c' * v' c' * (star (u' r') * R r' r * u r)
      = ∑ c, ∑ r, ∑ r', ∑ c', star (v c) * R c c' * v' c' * (star (u' r') * R r' r * u r) := Finset.sum_comm
    _ = ∑ c, ∑ r', ∑ r, ∑ c', star (v c) * R c c' * v' c' * (star (u' r') * R r' r * u r) :=
        Finset.sum_congr rfl fun c _ => Finset.sum_comm
    _ = ∑ c, ∑ r', (∑ c', star (v c) * R c c' * v' c') * ∑ r, star (u' r') * R r' r * u r := by
        refine Finset.sum_congr rfl fun c _ => Finset.sum_congr rfl fun r' _ => ?_
        rw [Finset.sum_mul_sum, Finset.sum_comm]

theorem snapshotCov_bilinear (R : Matrix (Fin m) (Fin m) ℂ) (f₁ f₂ g₁ g₂ : Matrix (Fin m) (Fin m) ℂ → ℂ) (x y : ℝ) :
    snapshotCov R (fun M => (x : ℂ) * (f₁ M + f₂ M)) (fun M => (y : ℂ) * (g₁ M + g₂ M)) =
      (x * y : ℂ) * (snapshotCov R f₁ g₁ + snapshotCov R f₁ g₂ + (snapshotCov R f₂ g₁ + snapshotCov R f₂ g₂)) := by
  unfold snapshotCov
  simp only [← Finset.sum_add_distrib, Finset.mul_sum]
  refine Finset.sum_congr rfl fun r _ => Finset.sum_congr rfl fun c _ => Finset.sum_congr rfl fun r' _ => Finset.sum_congr rfl fun c' _ => ?_
  simp only [star_mul', star_add, Complex.star_def, Complex.conj_ofReal]
  ring

theorem covModel_errLeft {A D : Matrix (Fin m) (Fin k) ℂ} (hA : Function.Injective A.mulVec) (P : Matrix (Fin k) (Fin k) ℂ) (σ : ℝ) (i : Fin k) :
    covModel A P σ *ᵥ errLeft A D i = (σ : ℂ) • errLeft A D i := by
  have : covModel A P σ * complProj A = (σ : ℂ) • complProj A := by
    unfold covModel
    rw [Matrix.add_mul, Matrix.mul_assoc, conj_mul_complProj hA, Matrix.mul_zero, zero_add, Matrix.smul_mul, Matrix.one_mul]
  rw [errLeft, mulVec_mulVec, this, smul_mulVec]

theorem errLeft_errRight {A D : Matrix (Fin m) (Fin k) ℂ} (hA : Function.Injective A.mulVec) (P : Matrix (Fin k) (Fin k) ℂ) (i j : Fin k) :
    star (errLeft A D i) ⬝ᵥ errRight A P j = 0 ∧ star (errRight A P j) ⬝ᵥ errLeft A D i = 0 := by
  have h1 : star (errLeft A D i) ⬝ᵥ errRight A P j = 0 := by
    rw [errLeft, star_mulVec, complProj_herm hA, ← dotProduct_mulVec, complProj_errRight hA, dotProduct_zero]
  refine ⟨h1, ?_⟩
  have := congrArg star h1
  rwa [star_dotProduct, star_star, star_zero] at this

theorem errRight_form {A : Matrix (Fin m) (Fin k) ℂ} (hA : Function.Injective A.mulVec) {P : Matrix (Fin k) (Fin k) ℂ}
    (hPu : IsUnit P.det) (hP : P.IsHermitian) (σ : ℝ) (i j : Fin k) :
    star (errRight A P i) ⬝ᵥ (covModel A P σ *ᵥ errRight A P j) = Bmat A P σ i j := by
  have hG : ((leftInv A)ᴴ)ᴴ * (leftInv A)ᴴ = (Aᴴ * A)⁻¹ := by
    rw [conjTranspose_conjTranspose, leftInv_conj, ← Matrix.mul_assoc, leftInv_mul hA, Matrix.one_mul]
  have e : ((leftInv A)ᴴ * P⁻¹)ᴴ * (A + (σ : ℂ) • ((leftInv A)ᴴ * P⁻¹)) = Bmat A P σ := by
    rw [conjTranspose_mul, hP.inv.eq, Matrix.mul_add, Matrix.mul_assoc, Matrix.mul_assoc, Matrix.mul_smul, ← Matrix.mul_assoc ((leftInv A)ᴴ)ᴴ, hG,
      conjTranspose_conjTranspose, leftInv_mul hA]
    unfold Bmat
    rw [Matrix.mul_add, Matrix.mul_smul]
  rw [covModel_errRight hA hPu, ← e]
  rfl

theorem errLeft_cov_errRight {A D : Matrix (Fin m) (Fin k) ℂ} (hA : Function.Injective A.mulVec) {P : Matrix (Fin k) (Fin k) ℂ}
    (hPu : IsUnit P.det) (σ : ℝ) (i j : Fin k) : star (errLeft A D i) ⬝ᵥ (covModel A P σ *ᵥ errRight A P j) = 0 := by
  have hPa : complProj A *ᵥ A.col j = 0 := congrArg (fun M : Matrix (Fin m) (Fin k) ℂ => M.col j) (complProj_mul hA)
  have h1 : star (errLeft A D i) ⬝ᵥ A.col j = 0 := by
    rw [errLeft, star_mulVec, complProj_herm hA, ← dotProduct_mulVec, hPa, dotProduct_zero]
  rw [covModel_errRight hA hPu, dotProduct_add, h1, dotProduct_smul, (errLeft_errRight (D := D) hA P i j).1, smul_zero, add_zero]

theorem Bmat_herm {A : Matrix (Fin m) (Fin k) ℂ} {P : Matrix (Fin k) (Fin k) ℂ} (hP : P.IsHermitian) (σ : ℝ) : (Bmat A P σ).IsHermitian := by
  unfold Bmat Matrix.IsHermitian
  rw [Matrix.mul_add, Matrix.mul_one, conjTranspose_add, hP.inv.eq, Matrix.mul_smul, conjTranspose_smul, conjTranspose_mul, conjTranspose_mul,
    hP.inv.eq, (isHermitian_conjTranspose_mul_self A).inv.eq, Complex.star_def, Complex.conj_ofReal, Matrix.mul_assoc]

theorem Hmat_herm {A D : Matrix (Fin m) (Fin k) ℂ} (hA : Function.Injective A.mulVec) (i j : Fin k) : star (Hmat A D i j) = Hmat A D j i := by
  rw [Hmat_entry hA, Hmat_entry hA, star_dotProduct, star_star]

/-- The covariance of the first-order errors is the matrix the code computes. -/
theorem ecovMusicCore_cov {A D : Matrix (Fin m) (Fin k) ℂ} {P : Matrix (Fin k) (Fin k) ℂ} (hP : P.IsHermitian) {σ : ℝ} {n : ℕ}
    {C : Matrix (Fin k) (Fin k) ℝ} (h : ecovMusicCore A D P σ n = .ok C) (i j : Fin k) :
    (C i j : ℂ) = (n : ℂ)⁻¹ * snapshotCov (covModel A P σ) (errorFun A D P i) (errorFun A D P j) := by
  have := ecovMusicCore_n h
  obtain ⟨hG, hPu, hnz, rfl⟩ := ecovMusicCore_iff.1 h
  have hA := (fullRank_iff A).1 hG
  have hfun : ∀ i, (errorFun A D P i : Matrix (Fin m) (Fin m) ℂ → ℂ) = fun M => ((((Hmat A D i i).re)⁻¹ / 2 : ℝ) : ℂ) *
    (star (errLeft A D i) ⬝ᵥ (M *ᵥ errRight A P i) + star (errRight A P i) ⬝ᵥ (M *ᵥ errLeft A D i)) := fun i => rfl
  rw [hfun, hfun, snapshotCov_bilinear]
  simp only [snapshotCov_rankOne]
  simp only [errLeft_cov_errRight hA hPu, errRight_form hA hPu hP, covModel_errLeft hA, dotProduct_smul, (errLeft_errRight (D := D) hA P _ _).2,
    smul_eq_mul, mul_zero, zero_add, add_zero, ← Hmat_entry hA]
  have h1 : Bmat A P σ i j = star (Bmat A P σ j i) := ((Bmat_herm hP σ).apply i j).symm
  have h2 : Hmat A D j i = star (Hmat A D i j) := (Hmat_herm hA i j).symm
  have h3 : Bmat A P σ i j * ((σ : ℂ) * Hmat A D j i) + (σ : ℂ) * Hmat A D i j * Bmat A P σ j i =
      ((2 * σ * (Hmat A D i j * Bmat A P σ j i).re : ℝ) : ℂ) := by
    rw [h1, h2]
    have := Complex.add_conj (Hmat A D i j * Bmat A P σ j i)
    rw [map_mul] at this
    push_cast at this ⊢
    rw [Complex.star_def]
    linear_combination (σ : ℂ) * this
  rw [h3]
  have h4 : ((σ / 2 / n) • (reMat (Hmat A D ⊙ (P⁻¹ * (1 + (σ : ℂ) • ((Aᴴ * A)⁻¹ * P⁻¹)))ᵀ) ⊙
        Matrix.of fun i j => ((Hmat A D i i).re)⁻¹ * ((Hmat A D j j).re)⁻¹)) i j =
      σ / 2 / n * ((Hmat A D i j * Bmat A P σ j i).re * (((Hmat A D i i).re)⁻¹ * ((Hmat A D j j).re)⁻¹)) := rfl
  rw [h4]
  push_cast
  ring

/-! ### The response of an array as a function of the DOA -/

/-- Away from endfire in the unit `sin` the direction depends smoothly on the DOA. -/
theorem dir_contDiff {u : String} {x : ℝ} (hx : u = "sin" → |x| < 1) (n : WithTop ℕ∞) :
    ContDiffAt ℝ n (fun v => ((⟨![v], u⟩ : FF1D 1).dir 0).1) x ∧ ContDiffAt ℝ n (fun v => ((⟨![v], u⟩ : FF1D 1).dir 0).2.1) x := by
  unfold FF1D.dir
  by_cases h1 : u = "sin"
  · simp only [h1, if_true]
    have h2 := abs_lt.1 (hx h1)
    refine ⟨contDiffAt_id, ?_⟩
    have h3 : (1 : ℝ) - x * x ≠ 0 := by nlinarith
    exact (contDiffAt_const.sub (contDiffAt_id.mul contDiffAt_id)).sqrt h3
  · simp only [h1, if_false]
    by_cases h2 : u = "deg"
    · simp only [h2, if_true]
      have h3 : ContDiffAt ℝ n (fun v : ℝ => deg2rad v) x := by
        unfold deg2rad
        exact contDiffAt_id.mul contDiffAt_const
      exact ⟨h3.sin, h3.cos⟩
    · simp only [h2, if_false]
      exact ⟨contDiffAt_id.sin, contDiffAt_id.cos⟩

/-- The response of an array of isotropic scalar elements is a smooth function of the DOA. -/
theorem response_contDiff {a : ArrayDesign} (hel : a.element = .isotropicScalar) {mode : String} {ps : List Perturbation}
    (hps : Usable a mode ps) (l : Fin a.element.outputSize) (wl : ℝ) [NeZero wl] {u : String} {x : ℝ} (hx : u = "sin" → |x| < 1) (n : WithTop ℕ∞)
    (r : Fin a.size) : ContDiffAt ℝ n (fun v => response a l wl u mode v r) x := by
  have hT : ∀ v, (Sources.ff1 (⟨![v], u⟩ : FF1D 1)).phaseDelay _ wl false = .ok _ := fun v =>
    (FF1D.phaseDelay_eq (⟨![v], u⟩ : FF1D 1) _ wl).trans (if_pos hps.dim)
  have hform : ∀ v, response a l wl u mode v r = ∑ j, totalFactor a.size ps r j *
      Complex.exp (Complex.I * ((2 * Real.pi / wl * ((ps.foldl (fun l p => p.perturbSensorLocations l) a.locations).at0 j 0 * ((⟨![v], u⟩ : FF1D 1).dir 0).1 +
        (ps.foldl (fun l p => p.perturbSensorLocations l) a.locations).at0 j 1 * ((⟨![v], u⟩ : FF1D 1).dir 0).2.1) : ℝ) : ℂ)) := by
    intro v
    unfold response
    rw [steering_iso hel hps.selected hps.rows (hT v) hps.shape]
    simp only [entryOf, mul_apply]
    rfl
  have : (fun v => response a l wl u mode v r) = _ := funext hform
  rw [this]
  obtain ⟨g1, g2⟩ := dir_contDiff hx n
  refine ContDiffAt.sum fun j _ => contDiffAt_const.mul ((contDiffAt_const.mul ?_).cexp)
  exact Complex.ofRealCLM.contDiff.contDiffAt.comp x (contDiffAt_const.mul ((contDiffAt_const.mul g1).add (contDiffAt_const.mul g2)))

end Doa.Props
