import Verif.Lemmas.Limits
import Verif.Props.Esprit

/-!
# ESPRIT on covariances that converge to an exact one
-/

namespace Doa

open Matrix Doa.Props Doa.Spec Filter Topology
open scoped ComplexOrder

variable {ι : Type*} {m k : ℕ}

theorem arg_phase {ρ φ : ℝ} (hρ : 0 < ρ) (hφ : |φ| < Real.pi) :
    Complex.arg ((ρ : ℂ) * Complex.exp (Complex.I * (φ : ℂ))) = φ := by
  have h := abs_lt.1 hφ
  rw [mul_comm Complex.I, Complex.arg_real_mul _ hρ, Complex.arg_exp_mul_I, toIocMod_eq_self]
  constructor
  · exact h.1
  · have := h.2.le; linarith

/-- `from_z` on phase factors that converge to those of angles strictly inside the range. -/
theorem fromZ_limit (f : Ultrafilter ι) {z : ι → Fin k → ℂ} {t ρ : Fin k → ℝ} {wl d0 : ℝ}
    (hwl : 0 < wl) (hd : 0 < d0) (ht : ∀ i, InRange1D "rad" (t i)) (hρ : ∀ i, 0 < ρ i)
    (hunamb : ∀ i, |2 * Real.pi * d0 / wl * Real.sin (t i)| < Real.pi)
    (hstrict : ∀ i, |Real.sin (t i)| < 1)
    (hz : Tendsto z f (𝓝 fun i => (ρ i : ℂ) *
      Complex.exp (Complex.I * ((2 * Real.pi * d0 / wl * Real.sin (t i) : ℝ) : ℂ))))
    (u : String) (hu : Unit1D u) :
    ∃ (s : ι → FF1D k) (π : Equiv.Perm (Fin k)),
      (∀ᶠ x in f, FF1D.fromZ (z x) wl d0 u = .ok (s x) ∧ (s x).unit = u ∧ Monotone (s x).loc) ∧
      ∀ c, Tendsto (fun x => (s x).loc c) f (𝓝 (reprIn u (t (π c)))) := by
  have hpi := Real.pi_pos
  have hc : 2 * Real.pi * d0 / wl ≠ 0 := by positivity
  have hwl0 : wl ≠ 0 := by positivity
  have hsin : ∀ i, Tendsto (fun x => Complex.arg (z x i) / (2 * Real.pi * d0 / wl)) f
      (𝓝 (Real.sin (t i))) := by
    intro i
    have h1 := arg_phase (hρ i) (hunamb i)
    have h2 : ((ρ i : ℂ) * Complex.exp (Complex.I *
        ((2 * Real.pi * d0 / wl * Real.sin (t i) : ℝ) : ℂ))) ∈ Complex.slitPlane := by
      rw [Complex.mem_slitPlane_iff_arg, h1]
      refine ⟨fun h => ?_, mul_ne_zero (by exact_mod_cast (hρ i).ne') (Complex.exp_ne_zero _)⟩
      have h3 := hunamb i
      rw [h, abs_of_pos hpi] at h3
      exact lt_irrefl _ h3
    have h3 : Tendsto (fun x => Complex.arg (z x i)) f
        (𝓝 (2 * Real.pi * d0 / wl * Real.sin (t i))) := by
      conv => arg 3; rw [← h1]
      exact (Complex.continuousAt_arg h2).tendsto.comp ((tendsto_pi_nhds.1 hz) i)
    have h4 := h3.div_const (2 * Real.pi * d0 / wl)
    rwa [mul_div_cancel_left₀ _ hc] at h4
  have htr : ∀ i, -(Real.pi / 2) ≤ t i ∧ t i ≤ Real.pi / 2 := by
    intro i
    rcases ht i with ⟨_, h⟩ | ⟨h, _⟩ | ⟨h, _⟩
    · exact h
    · simp at h
    · simp at h
  have hasin : ∀ i, Tendsto (fun x => Real.arcsin (Complex.arg (z x i) / (2 * Real.pi * d0 / wl))) f
      (𝓝 (t i)) := by
    intro i
    conv => arg 3; rw [← Real.arcsin_sin (htr i).1 (htr i).2]
    exact (Real.continuous_arcsin.tendsto _).comp (hsin i)
  have hev : ∀ᶠ x in f, ∀ i, |Complex.arg (z x i) / (2 * Real.pi * d0 / wl)| ≤ 1 := by
    rw [eventually_all]
    intro i
    exact (hsin i).abs.eventually_le_const (hstrict i)
  rcases hu with rfl | rfl | rfl
  · obtain ⟨π, hπ⟩ := ultra_const f fun x => Tuple.sort fun i =>
      Real.arcsin (Complex.arg (z x i) / (2 * Real.pi * d0 / wl))
    refine ⟨fun x => ⟨sortVec fun i => Real.arcsin (Complex.arg (z x i) / (2 * Real.pi * d0 / wl)), "rad"⟩,
      π, hev.mono fun x hx => ⟨?_, rfl, Tuple.monotone_sort (fun i =>
        Real.arcsin (Complex.arg (z x i) / (2 * Real.pi * d0 / wl)))⟩, fun c => ?_⟩
    · unfold FF1D.fromZ
      rw [if_neg hwl0]
      simp only [String.reduceEq, if_false, if_true]
      rw [if_neg fun ⟨i, hi⟩ => absurd (hx i) (not_le.2 hi)]
      exact FF1D.init_ok (Or.inl rfl) _ fun i => Or.inl
        ⟨rfl, Real.neg_pi_div_two_le_arcsin _, Real.arcsin_le_pi_div_two _⟩
    · refine Tendsto.congr' (f₁ := fun x => Real.arcsin (Complex.arg (z x (π c)) /
        (2 * Real.pi * d0 / wl))) ?_ (by simpa [reprIn] using hasin (π c))
      filter_upwards [hπ] with x hx
      simp only [sortVec, Function.comp_apply, hx]
  · obtain ⟨π, hπ⟩ := ultra_const f fun x => Tuple.sort fun i =>
      Real.arcsin (Complex.arg (z x i) / (2 * Real.pi * d0 / wl))
    refine ⟨fun x => ⟨fun c => rad2deg (sortVec (fun i => Real.arcsin (Complex.arg (z x i) /
      (2 * Real.pi * d0 / wl))) c), "deg"⟩,
      π, hev.mono fun x hx => ⟨?_, rfl, ?_⟩, fun c => ?_⟩
    · unfold FF1D.fromZ
      rw [if_neg hwl0]
      simp only [String.reduceEq, if_false]
      rw [if_neg fun ⟨i, hi⟩ => absurd (hx i) (not_le.2 hi)]
      refine FF1D.init_ok (Or.inr (Or.inl rfl)) _ fun i => ?_
      have := inRange1D_repr (u := "deg") (Or.inr (Or.inl rfl))
        (Real.neg_pi_div_two_le_arcsin (Complex.arg (z x (Tuple.sort (fun i => Real.arcsin
          (Complex.arg (z x i) / (2 * Real.pi * d0 / wl))) i)) / (2 * Real.pi * d0 / wl)))
        (Real.arcsin_le_pi_div_two _)
      simpa [reprIn, sortVec, rad2deg, mul_div_assoc] using this
    · intro i j hij
      have := Tuple.monotone_sort (fun i => Real.arcsin (Complex.arg (z x i) /
        (2 * Real.pi * d0 / wl))) hij
      simp only [rad2deg, sortVec]
      exact mul_le_mul_of_nonneg_right this (by positivity)
    · have h1 := (hasin (π c)).mul_const (180 / Real.pi)
      refine Tendsto.congr' (f₁ := fun x => Real.arcsin (Complex.arg (z x (π c)) /
        (2 * Real.pi * d0 / wl)) * (180 / Real.pi)) ?_ (by simpa [reprIn, mul_div_assoc] using h1)
      filter_upwards [hπ] with x hx
      simp only [sortVec, Function.comp_apply, hx, rad2deg]
  · obtain ⟨π, hπ⟩ := ultra_const f fun x => Tuple.sort fun i =>
      Complex.arg (z x i) / (2 * Real.pi * d0 / wl)
    refine ⟨fun x => ⟨sortVec fun i => Complex.arg (z x i) / (2 * Real.pi * d0 / wl), "sin"⟩,
      π, ?_, fun c => ?_⟩
    · filter_upwards [hev] with x hx
      refine ⟨?_, rfl, Tuple.monotone_sort (fun i => Complex.arg (z x i) / (2 * Real.pi * d0 / wl))⟩
      unfold FF1D.fromZ
      rw [if_neg hwl0]
      simp only [if_true]
      exact FF1D.init_ok (Or.inr (Or.inr rfl)) _ fun i => Or.inr (Or.inr ⟨rfl, abs_le.1 (hx _)⟩)
    · refine Tendsto.congr' (f₁ := fun x => Complex.arg (z x (π c)) /
        (2 * Real.pi * d0 / wl)) ?_ (by simpa [reprIn] using hsin (π c))
      filter_upwards [hπ] with x hx
      simp only [sortVec, Function.comp_apply, hx]

/-- The LS rotation matrix converges. -/
theorem phiLS_limit {n : ℕ} (f : Ultrafilter ι) {a b : ι → Matrix (Fin n) (Fin k) ℂ}
    {B : Matrix (Fin n) (Fin k) ℂ} (hB : Function.Injective B.mulVec) {T D : Matrix (Fin k) (Fin k) ℂ}
    (hT : IsUnit T.det) (ha : Tendsto a f (𝓝 (B * T))) (hb : Tendsto b f (𝓝 (B * D * T))) :
    ∃ Phi : ι → Matrix (Fin k) (Fin k) ℂ, (∀ᶠ x in f, phiLS (a x) (b x) = .ok (Phi x)) ∧
      Tendsto Phi f (𝓝 (T⁻¹ * D * T)) := by
  have h0 := phiLS_exact hB hT (D := D)
  unfold phiLS npSolve at h0
  have hu : IsUnit ((B * T)ᴴ * (B * T)).det := by
    by_contra hn
    rw [if_neg hn] at h0
    cases h0
  rw [if_pos hu] at h0
  have h0' := Except.ok.inj h0
  have h3 := tendsto_matMul (tendsto_conjTranspose ha) ha
  have h4 := tendsto_matMul (tendsto_conjTranspose ha) hb
  obtain ⟨h1, h2⟩ := solve_limit (f : Filter ι) h3 h4 hu
  rw [h0'] at h2
  exact ⟨_, h1, h2⟩

/-- The TLS rotation matrix converges. -/
theorem phiTLS_limit {n : ℕ} (f : Ultrafilter ι) (eigh : ι → Eigh) {a b : ι → Matrix (Fin n) (Fin k) ℂ}
    {B : Matrix (Fin n) (Fin k) ℂ} (hB : Function.Injective B.mulVec) {T D : Matrix (Fin k) (Fin k) ℂ}
    (hT : IsUnit T.det) (ha : Tendsto a f (𝓝 (B * T))) (hb : Tendsto b f (𝓝 (B * D * T))) :
    ∃ Phi : ι → Matrix (Fin k) (Fin k) ℂ, (∀ᶠ x in f, phiTLS (eigh x) (a x) (b x) = .ok (Phi x)) ∧
      Tendsto Phi f (𝓝 (T⁻¹ * D * T)) := by
  have hC : Tendsto (fun x => hstack2 (a x) (b x)) f (𝓝 (hstack2 (B * T) (B * D * T))) := by
    refine tendsto_pi_nhds.2 fun i => tendsto_pi_nhds.2 fun j => ?_
    refine Fin.addCases (fun j => ?_) (fun j => ?_) j
    · simp only [hstack2, Fin.addCases_left]
      exact (tendsto_pi_nhds.1 ((tendsto_pi_nhds.1 ha) i)) j
    · simp only [hstack2, Fin.addCases_right]
      exact (tendsto_pi_nhds.1 ((tendsto_pi_nhds.1 hb) i)) j
  obtain ⟨w0, E0, hE0, _, hE⟩ := eigh_limit f (tendsto_matMul (tendsto_conjTranspose hC) hC)
    (w := fun x => ((eigh x).run ((hstack2 (a x) (b x))ᴴ * hstack2 (a x) (b x))).1)
    (E := fun x => ((eigh x).run ((hstack2 (a x) (b x))ᴴ * hstack2 (a x) (b x))).2)
    (Eventually.of_forall fun x => (eigh x).spec _ (isHermitian_conjTranspose_mul_self _))
  obtain ⟨hu, hV⟩ := tls_blocks hB hT hE0
  have hE' : ∀ i j, Tendsto (fun x => ((eigh x).run ((hstack2 (a x) (b x))ᴴ *
      hstack2 (a x) (b x))).2 i j) f (𝓝 (E0 i j)) := fun i j =>
    (tendsto_pi_nhds.1 ((tendsto_pi_nhds.1 hE) i)) j
  have h22 : Tendsto (fun x => (Matrix.of fun i j : Fin k => ((eigh x).run ((hstack2 (a x) (b x))ᴴ *
      hstack2 (a x) (b x))).2 (Fin.natAdd k i) (Fin.natAdd k j).rev)ᵀ) f
      (𝓝 (Matrix.of fun i j : Fin k => E0 (Fin.natAdd k i) (Fin.natAdd k j).rev)ᵀ) :=
    tendsto_pi_nhds.2 fun i => tendsto_pi_nhds.2 fun j => hE' _ _
  have h12 : Tendsto (fun x => (Matrix.of fun i j : Fin k => ((eigh x).run ((hstack2 (a x) (b x))ᴴ *
      hstack2 (a x) (b x))).2 (Fin.castAdd k i) (Fin.natAdd k j).rev)ᵀ) f
      (𝓝 (Matrix.of fun i j : Fin k => E0 (Fin.castAdd k i) (Fin.natAdd k j).rev)ᵀ) :=
    tendsto_pi_nhds.2 fun i => tendsto_pi_nhds.2 fun j => hE' _ _
  obtain ⟨h1, h2⟩ := solve_limit (f : Filter ι) h22 h12 (by rw [det_transpose]; exact hu)
  have h3 : Tendsto (fun x => -((Matrix.of fun i j : Fin k => ((eigh x).run ((hstack2 (a x) (b x))ᴴ *
    hstack2 (a x) (b x))).2 (Fin.natAdd k i) (Fin.natAdd k j).rev)ᵀ⁻¹ *
    (Matrix.of fun i j : Fin k => ((eigh x).run ((hstack2 (a x) (b x))ᴴ *
    hstack2 (a x) (b x))).2 (Fin.castAdd k i) (Fin.natAdd k j).rev)ᵀ)ᵀ) f
    (𝓝 (-((Matrix.of fun i j : Fin k => E0 (Fin.natAdd k i) (Fin.natAdd k j).rev)ᵀ⁻¹ *
      (Matrix.of fun i j : Fin k => E0 (Fin.castAdd k i) (Fin.natAdd k j).rev)ᵀ)ᵀ)) :=
    tendsto_pi_nhds.2 fun i => tendsto_pi_nhds.2 fun j =>
      ((tendsto_pi_nhds.1 ((tendsto_pi_nhds.1 h2) j)) i).neg
  have h4 : -((Matrix.of fun i j : Fin k => E0 (Fin.natAdd k i) (Fin.natAdd k j).rev)ᵀ⁻¹ *
      (Matrix.of fun i j : Fin k => E0 (Fin.castAdd k i) (Fin.natAdd k j).rev)ᵀ)ᵀ = T⁻¹ * D * T := by
    rw [transpose_mul, transpose_transpose, transpose_nonsing_inv, transpose_transpose, hV,
      Matrix.mul_assoc, mul_nonsing_inv _ hu, Matrix.mul_one, neg_neg]
  rw [h4] at h3
  refine ⟨_, ?_, h3⟩
  · filter_upwards [h1] with x hx
    unfold phiTLS
    simp only
    change (match npSolve (Matrix.of fun i j : Fin k => ((eigh x).run ((hstack2 (a x) (b x))ᴴ *
      hstack2 (a x) (b x))).2 (Fin.natAdd k i) (Fin.natAdd k j).rev)ᵀ
      (Matrix.of fun i j : Fin k => ((eigh x).run ((hstack2 (a x) (b x))ᴴ *
      hstack2 (a x) (b x))).2 (Fin.castAdd k i) (Fin.natAdd k j).rev)ᵀ with
      | .error e => Except.error e
      | .ok X => Except.ok (-Xᵀ)) = _
    rw [hx]

end Doa
