import Mathlib.Analysis.Calculus.InverseFunctionTheorem.ContDiff
import Mathlib.Analysis.Calculus.ContDiff.Operations
import Mathlib.Analysis.Matrix.Normed
import Mathlib.Analysis.Normed.Module.FiniteDimension
import Mathlib.Analysis.Complex.Basic
import Mathlib.LinearAlgebra.Matrix.NonsingularInverse
import Mathlib.LinearAlgebra.Matrix.PosDef
import Mathlib.Tactic.NoncommRing
import Mathlib.Analysis.Calculus.Deriv.Pow

/-!
# Implicit functions of one real parameter, and the perturbation of a spectral projection
-/

namespace Doa

open Matrix Filter Topology

/-- Solutions of `G (t, x) = 0` depend smoothly on `t` where the derivative of `G` in `x` is injective. -/
theorem implicit_path {E : Type*} [NormedAddCommGroup E] [NormedSpace ℝ E] [FiniteDimensional ℝ E] {G : ℝ × E → E} {x₀ : E}
    {n : WithTop ℕ∞} (hn : n ≠ 0) (hG : ContDiffAt ℝ n G (0, x₀)) (h0 : G (0, x₀) = 0)
    (hinj : ∀ Y, HasDerivAt (fun τ : ℝ => G (0, x₀ + τ • Y)) 0 0 → Y = 0) :
    ∃ X : ℝ → E, ContDiffAt ℝ n X 0 ∧ X 0 = x₀ ∧ ∀ᶠ t in 𝓝 0, G (t, X t) = 0 := by
  have : CompleteSpace E := FiniteDimensional.complete ℝ E
  have hGd : HasFDerivAt G (fderiv ℝ G (0, x₀)) (0, x₀) := (hG.differentiableAt hn).hasFDerivAt
  set f' : ℝ × E →L[ℝ] ℝ × E := (ContinuousLinearMap.fst ℝ ℝ E).prod (fderiv ℝ G (0, x₀)) with hf'
  have hker : Function.Injective f'.toLinearMap := by
    rw [← LinearMap.ker_eq_bot, LinearMap.ker_eq_bot']
    rintro ⟨s, Y⟩ hsY
    have hsY' : ((s, fderiv ℝ G (0, x₀) (s, Y)) : ℝ × E) = 0 := hsY
    have h1 : s = 0 := congrArg (fun p : ℝ × E => p.1) hsY'
    have h2 : fderiv ℝ G (0, x₀) (s, Y) = 0 := congrArg (fun p : ℝ × E => p.2) hsY'
    subst h1
    have hline : HasDerivAt (fun τ : ℝ => ((0 : ℝ), x₀ + τ • Y)) ((0 : ℝ), Y) 0 := by
      have ha : HasDerivAt (fun τ : ℝ => x₀ + τ • Y) Y 0 := by
        simpa using ((hasDerivAt_id (0 : ℝ)).smul_const Y).const_add x₀
      exact (hasDerivAt_const (0 : ℝ) (0 : ℝ)).prodMk ha
    have hc : HasFDerivAt G (fderiv ℝ G (0, x₀)) ((fun τ : ℝ => ((0 : ℝ), x₀ + τ • Y)) 0) := by
      simpa using hGd
    have h3 := hc.comp_hasDerivAt (0 : ℝ) hline
    rw [h2] at h3
    rw [hinj Y h3]
    rfl
  let e : (ℝ × E) ≃L[ℝ] ℝ × E := (LinearEquiv.ofInjectiveEndo f'.toLinearMap hker).toContinuousLinearEquiv
  have he : (e : ℝ × E →L[ℝ] ℝ × E) = f' := by
    ext x <;> rfl
  set Φ : ℝ × E → ℝ × E := fun p => (p.1, G p) with hΦ
  have hΦc : ContDiffAt ℝ n Φ (0, x₀) := contDiffAt_fst.prodMk hG
  have hΦd : HasFDerivAt Φ (e : ℝ × E →L[ℝ] ℝ × E) (0, x₀) := by
    rw [he]
    exact hasFDerivAt_fst.prodMk hGd
  have hΦ0 : Φ (0, x₀) = (0, 0) := by simp [hΦ, h0]
  have hsm := hΦc.to_localInverse hΦd hn
  have hrt := (hΦc.hasStrictFDerivAt' hΦd hn).eventually_right_inverse
  have him := hΦc.localInverse_apply_image hΦd hn
  rw [hΦ0] at hsm hrt him
  have hpt : ContDiffAt ℝ n (fun t : ℝ => (t, (0 : E))) 0 := contDiffAt_id.prodMk contDiffAt_const
  refine ⟨fun t => (hΦc.localInverse hΦd hn (t, 0)).2, ?_, ?_, ?_⟩
  · exact contDiffAt_snd.comp (0 : ℝ) (ContDiffAt.comp (0 : ℝ) (g := hΦc.localInverse hΦd hn) hsm hpt)
  · show (hΦc.localInverse hΦd hn (0, 0)).2 = x₀
    rw [him]
  · have ht : Tendsto (fun t : ℝ => (t, (0 : E))) (𝓝 0) (𝓝 ((0 : ℝ), (0 : E))) := hpt.continuousAt
    filter_upwards [ht.eventually hrt] with t h
    have h1 : (hΦc.localInverse hΦd hn (t, 0)).1 = t := congrArg Prod.fst h
    have h2 : G (hΦc.localInverse hΦd hn (t, 0)) = 0 := congrArg Prod.snd h
    have h3 : (t, (hΦc.localInverse hΦd hn (t, 0)).2) = hΦc.localInverse hΦd hn (t, 0) := Prod.ext h1.symm rfl
    rw [h3, h2]

attribute [local instance] Matrix.linftyOpNormedRing Matrix.linftyOpNormedAlgebra

/-- The projection onto an isolated eigenspace of a Hermitian matrix extends to projections onto invariant subspaces of the
perturbed matrices `R₀ + t T`, smoothly in `t`. -/
theorem projection_path {m : ℕ} {R₀ T Q : Matrix (Fin m) (Fin m) ℂ} (hR : R₀ᴴ = R₀) (hT : Tᴴ = T) (hQh : Qᴴ = Q) (hQi : Q * Q = Q)
    {s : ℂ} (hRQ : R₀ * Q = s • Q)
    (hgap : ∀ Y : Matrix (Fin m) (Fin m) ℂ, (1 - Q) * Y * Q = Y → R₀ * Y = s • Y → Y = 0) :
    ∃ N : ℝ → Matrix (Fin m) (Fin m) ℂ, (∀ r c, ContDiffAt ℝ (⊤ : ℕ∞) (fun t => N t r c) 0) ∧ N 0 = Q ∧
      ∀ᶠ t : ℝ in 𝓝 0, (N t)ᴴ = N t ∧ N t * N t = N t ∧ N t * (R₀ + (t : ℂ) • T) = (R₀ + (t : ℂ) • T) * N t := by
  set W : Matrix (Fin m) (Fin m) ℂ := 1 - Q with hW
  have hWQ : W * Q = 0 := by rw [hW, Matrix.sub_mul, Matrix.one_mul, hQi, sub_self]
  have hQW : Q * W = 0 := by rw [hW, Matrix.mul_sub, Matrix.mul_one, hQi, sub_self]
  have hWW : W * W = W := by rw [hW, Matrix.sub_mul, Matrix.one_mul, ← hW, hQW, sub_zero]
  have hWh : Wᴴ = W := by rw [hW, conjTranspose_sub, conjTranspose_one, hQh]
  have hQR : Q * R₀ = star s • Q := by
    have := congrArg conjTranspose hRQ
    rwa [conjTranspose_mul, hR, hQh, conjTranspose_smul, hQh] at this
  let Z : Matrix (Fin m) (Fin m) ℂ → Matrix (Fin m) (Fin m) ℂ := fun X => W * X * Q
  let Rt : ℝ → Matrix (Fin m) (Fin m) ℂ := fun t => R₀ + t • T
  have hRt : ∀ t, Rt t = R₀ + (t : ℂ) • T := by
    intro t
    show R₀ + t • T = _
    congr 1
  have hRth : ∀ t, (Rt t)ᴴ = Rt t := by
    intro t
    rw [hRt, conjTranspose_add, hR, conjTranspose_smul, hT, Complex.star_def, Complex.conj_ofReal]
  let G : ℝ × Matrix (Fin m) (Fin m) ℂ → Matrix (Fin m) (Fin m) ℂ := fun p =>
    W * (Rt p.1 + Rt p.1 * Z p.2 - Z p.2 * Rt p.1 - Z p.2 * Rt p.1 * Z p.2) * Q + (p.2 - Z p.2)
  have hZ2 : ∀ X, Z (Z X) = Z X := by
    intro X
    show W * (W * X * Q) * Q = W * X * Q
    calc W * (W * X * Q) * Q = (W * W) * X * (Q * Q) := by simp only [Matrix.mul_assoc]
      _ = _ := by rw [hWW, hQi]
  have hGc : ContDiffAt ℝ (⊤ : ℕ∞) G (0, 0) := by
    have h1 : ContDiff ℝ (⊤ : ℕ∞) fun p : ℝ × Matrix (Fin m) (Fin m) ℂ => Rt p.1 := contDiff_const.add (contDiff_fst.smul contDiff_const)
    have h2 : ContDiff ℝ (⊤ : ℕ∞) fun p : ℝ × Matrix (Fin m) (Fin m) ℂ => Z p.2 := (contDiff_const.mul contDiff_snd).mul contDiff_const
    have h3 : ContDiff ℝ (⊤ : ℕ∞) G :=
      ((contDiff_const.mul (((h1.add (h1.mul h2)).sub (h2.mul h1)).sub ((h2.mul h1).mul h2))).mul contDiff_const).add (contDiff_snd.sub h2)
    exact h3.contDiffAt
  have hRt0 : Rt 0 = R₀ := by show R₀ + (0 : ℝ) • T = R₀; rw [zero_smul, add_zero]
  have hZ0 : Z 0 = 0 := by show W * 0 * Q = 0; rw [Matrix.mul_zero, Matrix.zero_mul]
  have hWRQ : W * R₀ * Q = 0 := by rw [Matrix.mul_assoc, hRQ, Matrix.mul_smul, hWQ, smul_zero]
  have hWRW : W * R₀ * W = R₀ * W := by
    have : W * R₀ * W = R₀ * W - Q * R₀ * W := by rw [hW]; noncomm_ring
    rw [this, hQR, Matrix.smul_mul, hQW, smul_zero, sub_zero]
  have hG0 : G (0, 0) = 0 := by
    show W * (Rt 0 + Rt 0 * Z 0 - Z 0 * Rt 0 - Z 0 * Rt 0 * Z 0) * Q + (0 - Z 0) = 0
    rw [hRt0, hZ0]
    simpa using hWRQ
  have hinj : ∀ Y : Matrix (Fin m) (Fin m) ℂ, HasDerivAt (fun τ : ℝ => G (0, 0 + τ • Y)) 0 0 → Y = 0 := by
    intro Y hY
    set L : Matrix (Fin m) (Fin m) ℂ := W * (R₀ * Z Y - Z Y * R₀) * Q + (Y - Z Y) with hL
    set B : Matrix (Fin m) (Fin m) ℂ := -(W * (Z Y * R₀ * Z Y) * Q) with hB
    have hline : (fun τ : ℝ => G (0, 0 + τ • Y)) = fun τ : ℝ => τ • L + (τ ^ 2) • B := by
      funext τ
      have hZt : Z (τ • Y) = τ • Z Y := by
        show W * (τ • Y) * Q = τ • (W * Y * Q)
        rw [Matrix.mul_smul, Matrix.smul_mul]
      rw [zero_add]
      show W * (Rt 0 + Rt 0 * Z (τ • Y) - Z (τ • Y) * Rt 0 - Z (τ • Y) * Rt 0 * Z (τ • Y)) * Q + (τ • Y - Z (τ • Y)) = _
      rw [hRt0, hZt, hL, hB]
      simp only [Matrix.mul_add, Matrix.add_mul, Matrix.mul_sub, Matrix.sub_mul, Matrix.mul_smul, Matrix.smul_mul, hWRQ, smul_add, smul_sub, smul_neg, smul_smul,
        pow_two]
      abel
    rw [hline] at hY
    have hd : HasDerivAt (fun τ : ℝ => τ • L + (τ ^ 2) • B) L 0 := by
      have h1 := ((hasDerivAt_id (0 : ℝ)).smul_const L).add ((hasDerivAt_pow 2 (0 : ℝ)).smul_const B)
      exact HasDerivAt.congr_deriv h1 (by simp)
    have hL0 : L = 0 := hd.unique hY
    have h1 : W * (R₀ * Z Y - Z Y * R₀) * Q = R₀ * Z Y - s • Z Y := by
      show W * (R₀ * (W * Y * Q) - (W * Y * Q) * R₀) * Q = R₀ * (W * Y * Q) - s • (W * Y * Q)
      calc W * (R₀ * (W * Y * Q) - (W * Y * Q) * R₀) * Q = (W * R₀ * W) * Y * (Q * Q) - (W * W) * Y * (Q * (R₀ * Q)) := by noncomm_ring
        _ = _ := by rw [hWRW, hQi, hWW, hRQ, Matrix.mul_smul, hQi, Matrix.mul_smul]; simp only [Matrix.mul_assoc]
    have h2 : W * (W * (R₀ * Z Y - Z Y * R₀) * Q) * Q = W * (R₀ * Z Y - Z Y * R₀) * Q := hZ2 _
    have h3 : W * L * Q = R₀ * Z Y - s • Z Y := by
      rw [hL, Matrix.mul_add, Matrix.add_mul, h2, h1, Matrix.mul_sub, Matrix.sub_mul]
      have : W * Z Y * Q = W * Y * Q := hZ2 Y
      rw [this, sub_self, add_zero]
    rw [hL0, Matrix.mul_zero, Matrix.zero_mul] at h3
    have h4 : Z Y = 0 := hgap _ (hZ2 Y) (sub_eq_zero.1 h3.symm)
    rw [hL, h1, ← h3, h4, sub_zero, zero_add] at hL0
    exact hL0
  obtain ⟨X, hXc, hX0, hX⟩ := implicit_path (by simp) hGc hG0 hinj
  set M : ℝ → Matrix (Fin m) (Fin m) ℂ := fun t => Q + Z (X t) with hM
  let ct : Matrix (Fin m) (Fin m) ℂ →L[ℝ] Matrix (Fin m) (Fin m) ℂ := LinearMap.toContinuousLinearMap
    { toFun := fun Y => Yᴴ
      map_add' := fun Y Y' => conjTranspose_add Y Y'
      map_smul' := fun x Y => by rw [conjTranspose_smul, star_trivial]; rfl }
  have hct : ∀ Y, ct Y = Yᴴ := fun _ => rfl
  have hZc : ContDiffAt ℝ (⊤ : ℕ∞) (fun t => Z (X t)) 0 := (contDiffAt_const.mul hXc).mul contDiffAt_const
  have hMc : ContDiffAt ℝ (⊤ : ℕ∞) M 0 := contDiffAt_const.add hZc
  have hconj : ∀ {Y : ℝ → Matrix (Fin m) (Fin m) ℂ}, ContDiffAt ℝ (⊤ : ℕ∞) Y 0 → ContDiffAt ℝ (⊤ : ℕ∞) (fun t => (Y t)ᴴ) 0 :=
    fun hY => ct.contDiff.contDiffAt.comp (0 : ℝ) hY
  set K : ℝ → Matrix (Fin m) (Fin m) ℂ := fun t => 1 + (Z (X t))ᴴ * Z (X t) with hK
  have hKc : ContDiffAt ℝ (⊤ : ℕ∞) K 0 := contDiffAt_const.add ((hconj hZc).mul hZc)
  have hKu : ∀ t, IsUnit (K t) := by
    intro t
    open scoped ComplexOrder in
    exact (PosDef.one.add_posSemidef (posSemidef_conjTranspose_mul_self (Z (X t)))).isUnit
  have hK0 : K 0 = 1 := by rw [hK]; simp only [hX0, hZ0, Matrix.mul_zero, add_zero]
  have hKic : ContDiffAt ℝ (⊤ : ℕ∞) (fun t => (K t)⁻¹) 0 := by
    simp only [nonsing_inv_eq_ringInverse]
    have h1 : ContDiffAt ℝ (⊤ : ℕ∞) Ring.inverse (K 0) := by
      rw [hK0]
      exact contDiffAt_ringInverse ℝ (1 : (Matrix (Fin m) (Fin m) ℂ)ˣ)
    exact ContDiffAt.comp (g := Ring.inverse) (0 : ℝ) h1 hKc
  refine ⟨fun t => M t * (K t)⁻¹ * (M t)ᴴ, ?_, ?_, ?_⟩
  · intro r c
    have h1 : ContDiffAt ℝ (⊤ : ℕ∞) (fun t => M t * (K t)⁻¹ * (M t)ᴴ) 0 := (hMc.mul hKic).mul (hconj hMc)
    let ev : Matrix (Fin m) (Fin m) ℂ →L[ℝ] ℂ := LinearMap.toContinuousLinearMap
      { toFun := fun Y => Y r c
        map_add' := fun Y Y' => rfl
        map_smul' := fun x Y => rfl }
    exact ev.contDiff.contDiffAt.comp (0 : ℝ) h1
  · show M 0 * (K 0)⁻¹ * (M 0)ᴴ = Q
    have hM0 : M 0 = Q := by rw [hM]; simp only [hX0, hZ0, add_zero]
    rw [hK0, hM0, inv_one, Matrix.mul_one, hQh, hQi]
  · filter_upwards [hX] with t ht
    have ht1 : W * (Rt t + Rt t * Z (X t) - Z (X t) * Rt t - Z (X t) * Rt t * Z (X t)) * Q + (X t - Z (X t)) = 0 := ht
    set z := Z (X t) with hz
    have hWz : W * z = z := by
      show W * (W * X t * Q) = W * X t * Q
      rw [← Matrix.mul_assoc, ← Matrix.mul_assoc, hWW]
    have hzQ : z * Q = z := by
      show (W * X t * Q) * Q = W * X t * Q
      rw [Matrix.mul_assoc, hQi]
    have hQz : Q * z = 0 := by rw [← hWz, ← Matrix.mul_assoc, hQW, Matrix.zero_mul]
    have h1 : W * (Rt t + Rt t * z - z * Rt t - z * Rt t * z) * Q = 0 := by
      have h2 : W * _ * Q = W * 0 * Q := congrArg (fun Y => W * Y * Q) ht1
      have h3 : W * (W * (Rt t + Rt t * z - z * Rt t - z * Rt t * z) * Q) * Q = W * (Rt t + Rt t * z - z * Rt t - z * Rt t * z) * Q := hZ2 _
      have h4 : W * (X t - z) * Q = 0 := by
        rw [Matrix.mul_sub, Matrix.sub_mul, hWz, hzQ]
        exact sub_self _
      rw [Matrix.mul_add, Matrix.add_mul, h3, h4, add_zero, Matrix.mul_zero, Matrix.zero_mul] at h2
      exact h2
    have hMt : M t = Q + z := rfl
    have hKt : K t = 1 + zᴴ * z := rfl
    set R := Rt t with hRdef
    have hinv : R * M t = M t * (R * M t) := by
      have h2 : W * (R * (Q + z)) = z * (R * (Q + z)) := by
        have h3 : W * (R + R * z - z * R - z * R * z) * Q = W * (R * Q) + W * (R * (z * Q)) - (W * z) * (R * Q) - (W * z) * (R * (z * Q)) := by noncomm_ring
        rw [h3, hWz, hzQ] at h1
        have h4 : W * (R * (Q + z)) - z * (R * (Q + z)) = 0 := by
          rw [← h1]; noncomm_ring
        exact sub_eq_zero.1 h4
      have h5 : R * (Q + z) = Q * (R * (Q + z)) + W * (R * (Q + z)) := by rw [hW]; noncomm_ring
      rw [hMt]
      conv_lhs => rw [h5, h2]
      exact (Matrix.add_mul _ _ _).symm
    have hMQ : M t * Q = M t := by rw [hMt, Matrix.add_mul, hQi, hzQ]
    have hQzh : Q * zᴴ = zᴴ := by
      have := congrArg conjTranspose hzQ
      rwa [conjTranspose_mul, hQh] at this
    have hzhQ : zᴴ * Q = 0 := by
      have := congrArg conjTranspose hQz
      rwa [conjTranspose_mul, hQh, conjTranspose_zero] at this
    have hMM : (M t)ᴴ * M t = K t * Q := by
      rw [hMt, hKt, conjTranspose_add, hQh]
      calc (Q + zᴴ) * (Q + z) = Q * Q + Q * z + zᴴ * Q + zᴴ * z := by noncomm_ring
        _ = Q + zᴴ * (z * Q) := by rw [hQi, hQz, hzhQ, hzQ, add_zero, add_zero]
        _ = _ := by noncomm_ring
    have hKd : IsUnit (K t).det := (isUnit_iff_isUnit_det _).1 (hKu t)
    have hKh : (K t)ᴴ = K t := by
      rw [hKt, conjTranspose_add, conjTranspose_one, conjTranspose_mul, conjTranspose_conjTranspose]
    have hNM : M t * (K t)⁻¹ * (M t)ᴴ * M t = M t := by
      rw [Matrix.mul_assoc, hMM, Matrix.mul_assoc, ← Matrix.mul_assoc (K t)⁻¹, nonsing_inv_mul _ hKd, Matrix.one_mul, hMQ]
    have hNh : (M t * (K t)⁻¹ * (M t)ᴴ)ᴴ = M t * (K t)⁻¹ * (M t)ᴴ := by
      rw [conjTranspose_mul, conjTranspose_mul, conjTranspose_conjTranspose, conjTranspose_nonsing_inv, hKh, Matrix.mul_assoc]
    have hcom : M t * (K t)⁻¹ * (M t)ᴴ * (R * (M t * (K t)⁻¹ * (M t)ᴴ)) = R * (M t * (K t)⁻¹ * (M t)ᴴ) := by
      calc M t * (K t)⁻¹ * (M t)ᴴ * (R * (M t * (K t)⁻¹ * (M t)ᴴ))
          = M t * (K t)⁻¹ * (M t)ᴴ * (R * M t) * ((K t)⁻¹ * (M t)ᴴ) := by simp only [Matrix.mul_assoc]
        _ = M t * (K t)⁻¹ * (M t)ᴴ * (M t * (R * M t)) * ((K t)⁻¹ * (M t)ᴴ) := by rw [← hinv]
        _ = (M t * (K t)⁻¹ * (M t)ᴴ * M t) * (R * M t) * ((K t)⁻¹ * (M t)ᴴ) := by simp only [Matrix.mul_assoc]
        _ = R * M t * ((K t)⁻¹ * (M t)ᴴ) := by rw [hNM, ← hinv]
        _ = _ := by simp only [Matrix.mul_assoc]
    rw [← hRt]
    show (M t * (K t)⁻¹ * (M t)ᴴ)ᴴ = _ ∧ M t * (K t)⁻¹ * (M t)ᴴ * (M t * (K t)⁻¹ * (M t)ᴴ) = _ ∧ M t * (K t)⁻¹ * (M t)ᴴ * R = R * (M t * (K t)⁻¹ * (M t)ᴴ)
    refine ⟨hNh, ?_, ?_⟩
    · rw [← Matrix.mul_assoc, ← Matrix.mul_assoc, hNM]
    · have hRh : Rᴴ = R := hRth t
      generalize M t * (K t)⁻¹ * (M t)ᴴ = N at hNh hcom ⊢
      have h6 := congrArg conjTranspose hcom
      rw [conjTranspose_mul, conjTranspose_mul, hNh, hRh, Matrix.mul_assoc, hcom] at h6
      exact h6.symm

end Doa
