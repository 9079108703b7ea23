import Mathlib.Algebra.Polynomial.BigOperators
import Mathlib.Topology.Algebra.Polynomial
import Verif.Lemmas.Limits
import Verif.Props.MLObjective

/-!
# Limits of the projections used by the ML objectives
-/

namespace Doa

open Matrix Doa.Props Doa.Spec Filter Topology
open scoped ComplexOrder

variable {ι : Type*} {m k : ℕ}

theorem tendsto_entry {p q : ℕ} {f : Filter ι} {A : ι → Matrix (Fin p) (Fin q) ℂ} {A0}
    (hA : Tendsto A f (𝓝 A0)) (a : Fin p) (b : Fin q) : Tendsto (fun i => A i a b) f (𝓝 (A0 a b)) :=
  (tendsto_pi_nhds.1 ((tendsto_pi_nhds.1 hA) a)) b

theorem tendsto_trace {f : Filter ι} {A : ι → Matrix (Fin m) (Fin m) ℂ} {A0}
    (hA : Tendsto A f (𝓝 A0)) : Tendsto (fun i => trace (A i)) f (𝓝 (trace A0)) := by
  simp only [trace, diag_apply]
  exact tendsto_finsetSum _ fun j _ => tendsto_entry hA j j

theorem tendsto_mulVec {p q : ℕ} {f : Filter ι} {A : ι → Matrix (Fin p) (Fin q) ℂ} {A0} {x : ι → Fin q → ℂ} {x0}
    (hA : Tendsto A f (𝓝 A0)) (hx : Tendsto x f (𝓝 x0)) : Tendsto (fun i => A i *ᵥ x i) f (𝓝 (A0 *ᵥ x0)) := by
  refine tendsto_pi_nhds.2 fun a => ?_
  simp only [mulVec, dotProduct]
  exact tendsto_finsetSum _ fun j _ => (tendsto_entry hA a j).mul ((tendsto_pi_nhds.1 hx) j)

/-- Entries of an orthogonal projection are at most 1 in modulus. -/
theorem proj_entry_le {Q : Matrix (Fin m) (Fin m) ℂ} (h : Qᴴ = Q) (h' : Q * Q = Q) (r c : Fin m) : ‖Q r c‖ ≤ 1 := by
  have h1 := congrFun (congrFun h' c) c
  rw [Matrix.mul_apply] at h1
  have h2 : ∑ i, ‖Q i c‖ ^ 2 = (Q c c).re := by
    have h3 : ((∑ i, ‖Q i c‖ ^ 2 : ℝ) : ℂ) = Q c c := by
      rw [← h1]
      push_cast
      refine Finset.sum_congr rfl fun i _ => ?_
      have : Q c i = star (Q i c) := by
        conv_lhs => rw [← h, conjTranspose_apply]
      rw [this, Complex.star_def, mul_comm, Complex.mul_conj, Complex.normSq_eq_norm_sq]
      push_cast; rfl
    rw [← h3, Complex.ofReal_re]
  have hle : ∀ r, ‖Q r c‖ ^ 2 ≤ (Q c c).re := fun r => by
    rw [← h2]
    exact Finset.single_le_sum (f := fun i => ‖Q i c‖ ^ 2) (fun i _ => by positivity) (Finset.mem_univ r)
  have hc : (Q c c).re ≤ 1 := by
    have h3 := hle c
    have h4 : (Q c c).re ≤ ‖Q c c‖ := Complex.re_le_norm _
    have h5 : 0 ≤ (Q c c).re := le_trans (by positivity) h3
    by_contra hn
    push Not at hn
    nlinarith
  have := hle r
  nlinarith [norm_nonneg (Q r c)]

/-- Projections converge along an ultrafilter to a projection. -/
theorem proj_limit (f : Ultrafilter ι) {B : ι → Matrix (Fin m) (Fin k) ℂ} :
    ∃ (Q : ι → Matrix (Fin m) (Fin m) ℂ) (Q0 : Matrix (Fin m) (Fin m) ℂ), (∀ i, projm (B i) true = .ok (Q i)) ∧
      (∀ i, IsProjOnto (Q i) (B i)) ∧ Tendsto Q f (𝓝 Q0) ∧ Q0ᴴ = Q0 ∧ Q0 * Q0 = Q0 ∧ (trace Q0).re ≤ k := by
  choose Q hQ1 hQ2 hQ3 hQ4 using fun i => projm_facts (B i)
  obtain ⟨Q0, hQ⟩ := ultra_bounded f Q 1 (Eventually.of_forall fun i r c => proj_entry_le (hQ2 i).herm (hQ2 i).idem r c)
  refine ⟨Q, Q0, hQ1, hQ2, hQ, ?_, ?_, ?_⟩
  · refine tendsto_nhds_unique (tendsto_conjTranspose hQ) ?_
    simpa only [(hQ2 _).herm] using hQ
  · refine tendsto_nhds_unique (tendsto_matMul hQ hQ) ?_
    simpa only [(hQ2 _).idem] using hQ
  · refine le_of_tendsto ((Complex.continuous_re.tendsto _).comp (tendsto_trace hQ)) (Eventually.of_forall fun i => ?_)
    have := (Complex.le_def.1 (hQ3 i)).1
    simpa using this

/-- Coefficients of a monic polynomial depend continuously on its roots. -/
theorem coeff_limit {f : Filter ι} {w : ι → Fin k → ℂ} {w0 : Fin k → ℂ} (hw : Tendsto w f (𝓝 w0)) (t : ℕ) :
    Tendsto (fun i => (∏ c, (Polynomial.X - Polynomial.C (w i c))).coeff t) f
      (𝓝 ((∏ c, (Polynomial.X - Polynomial.C (w0 c))).coeff t)) := by
  have main : ∀ (s : Finset (Fin k)) (t : ℕ), Tendsto (fun i => (∏ c ∈ s, (Polynomial.X - Polynomial.C (w i c))).coeff t) f
      (𝓝 ((∏ c ∈ s, (Polynomial.X - Polynomial.C (w0 c))).coeff t)) := by
    classical
    intro s
    induction s using Finset.induction_on with
    | empty => intro t; simp only [Finset.prod_empty]; exact tendsto_const_nhds
    | insert a s ha ih =>
      intro t
      simp only [Finset.prod_insert ha, sub_mul, Polynomial.coeff_sub, Polynomial.coeff_C_mul]
      refine Tendsto.sub ?_ (((tendsto_pi_nhds.1 hw) a).mul (ih t))
      cases t with
      | zero => simp only [Polynomial.coeff_X_mul_zero]; exact tendsto_const_nhds
      | succ t => simp only [Polynomial.coeff_X_mul]; exact ih t
  exact main Finset.univ t

/-- If projections onto the spans of steering vectors of a ULA converge to a projection whose range contains the steering vectors with
distinct phase factors `z`, the phase factors converge to `z`, up to order. -/
theorem roots_limit (f : Ultrafilter ι) {w : ι → Fin k → ℂ} {w0 : Fin k → ℂ} (hw : Tendsto w f (𝓝 w0))
    {Q : ι → Matrix (Fin m) (Fin m) ℂ} {Q0 : Matrix (Fin m) (Fin m) ℂ} (hQ : Tendsto Q f (𝓝 Q0))
    (hp : ∀ i, IsProjOnto (Q i) (ulaMat m (w i))) (h0 : Q0ᴴ = Q0) (hk : k < m) {z : Fin k → ℂ} (hz : Function.Injective z)
    (hA : Q0 * ulaMat m z = ulaMat m z) : ∃ e : Equiv.Perm (Fin k), w0 = z ∘ e := by
  set g : (Fin k → ℂ) → Fin m → ℂ := fun w t => star ((∏ c, (Polynomial.X - Polynomial.C (w c))).coeff t.1) with hg
  have hval : ∀ (w : Fin k → ℂ) (ζ : ℂ), star (g w) ⬝ᵥ ulaVec m ζ = ∏ c, (ζ - w c) := by
    intro w ζ
    have h1 : ∏ c, (ζ - w c) = (∏ c, (Polynomial.X - Polynomial.C (w c))).eval ζ := by
      rw [Polynomial.eval_prod]
      simp
    have h2 : (∏ c, (Polynomial.X - Polynomial.C (w c))).natDegree < m := by
      rw [Polynomial.natDegree_prod_of_monic _ _ fun c _ => Polynomial.monic_X_sub_C _]
      simpa using hk
    rw [h1, Polynomial.eval_eq_sum_range' h2, Finset.sum_range]
    refine Finset.sum_congr rfl fun t _ => ?_
    simp only [hg, Pi.star_apply, star_star, ulaVec]
  have hkill : ∀ i, Q i *ᵥ g (w i) = 0 := by
    intro i
    apply (hp i).kills
    intro c
    have h1 := hval (w i) (w i c)
    rw [Finset.prod_eq_zero (Finset.mem_univ c) (sub_self _)] at h1
    have h2 := congrArg star h1
    rw [star_zero, ← star_dotProduct_star, star_star, dotProduct_comm] at h2
    rw [← h2, dotProduct_comm]
    rfl
  have hgl : Tendsto (fun i => g (w i)) f (𝓝 (g w0)) :=
    tendsto_pi_nhds.2 fun t => (coeff_limit hw t.1).star
  have hk0 : Q0 *ᵥ g w0 = 0 := by
    refine tendsto_nhds_unique (tendsto_mulVec hQ hgl) ?_
    simp only [hkill]
    exact tendsto_const_nhds
  have hmem : ∀ b, ∃ c, z b = w0 c := by
    intro b
    have h1 : Q0 *ᵥ ulaVec m (z b) = ulaVec m (z b) := by
      have := congrArg (fun M => M *ᵥ Pi.single b 1) hA
      rw [← mulVec_mulVec, mulVec_single_one] at this
      exact this
    have h2 : star (g w0) ⬝ᵥ ulaVec m (z b) = 0 := by
      rw [← h1, dotProduct_mulVec, ← h0, ← star_mulVec, hk0, star_zero, zero_dotProduct]
    rw [hval, Finset.prod_eq_zero_iff] at h2
    obtain ⟨c, -, hc⟩ := h2
    exact ⟨c, sub_eq_zero.1 hc⟩
  choose e he using hmem
  have hinj : Function.Injective e := fun a b hab => hz (by rw [he, he, hab])
  let π : Equiv.Perm (Fin k) := Equiv.ofBijective e (Finite.injective_iff_bijective.1 hinj)
  refine ⟨π.symm, ?_⟩
  funext c
  have : z (π.symm c) = w0 (π (π.symm c)) := he _
  rw [π.apply_symm_apply] at this
  exact this.symm

/-- A projection of trace at most `k` at which the CML objective is not larger than at the truth fixes the steering vectors. -/
theorem cml_proj {A : Matrix (Fin m) (Fin k) ℂ} {P : Matrix (Fin k) (Fin k) ℂ} (hP : P.PosDef) {σ : ℝ} (hσ : 0 ≤ σ)
    {Q : Matrix (Fin m) (Fin m) ℂ} (h : Qᴴ = Q) (h' : Q * Q = Q) (ht : (trace Q).re ≤ k)
    (hv : (trace ((1 - Q) * covModel A P σ)).re ≤ σ * ((m : ℝ) - (k : ℝ))) : Q * A = A := by
  rw [cml_split, Complex.add_re, Complex.re_ofReal_mul] at hv
  have hh := compl_herm h
  have hi := compl_idem h'
  have g1 := Complex.le_def.1 (trace_proj_nonneg hh hi (hP.posSemidef.mul_mul_conjTranspose_same A))
  simp only [Complex.zero_re, Complex.natCast_re, Complex.sub_re, Complex.zero_im] at g1 hv
  have hz : trace ((1 - Q) * (A * P * Aᴴ)) = 0 := by
    apply Complex.ext
    · simp only [Complex.zero_re]; nlinarith [g1.1]
    · exact g1.2.symm
  have hQA := trace_proj_zero hh hi hP hz
  rw [Matrix.sub_mul, Matrix.one_mul, sub_eq_zero] at hQA
  exact hQA.symm

/-- The same for the WSF objective. -/
theorem wsf_proj {A : Matrix (Fin m) (Fin k) ℂ} {T : Matrix (Fin k) (Fin k) ℂ} (hT : IsUnit T.det) {w : Fin k → ℝ}
    (hw : ∀ c, 0 < w c) {Q : Matrix (Fin m) (Fin m) ℂ} (h : Qᴴ = Q) (h' : Q * Q = Q)
    (hv : (trace ((1 - Q) * ((A * T) * diagonal (fun c => (w c : ℂ)) * (A * T)ᴴ))).re ≤ 0) : Q * A = A := by
  have hW : (diagonal fun c => (w c : ℂ)).PosDef := by
    rw [posDef_diagonal_iff]
    intro c
    exact Complex.zero_lt_real.2 (hw c)
  have hh := compl_herm h
  have hi := compl_idem h'
  have g1 := Complex.le_def.1 (trace_proj_nonneg hh hi (hW.posSemidef.mul_mul_conjTranspose_same (A * T)))
  have hz : trace ((1 - Q) * ((A * T) * diagonal (fun c => (w c : ℂ)) * (A * T)ᴴ)) = 0 :=
    Complex.ext (le_antisymm hv g1.1) g1.2.symm
  have hQA := trace_proj_zero hh hi hW hz
  have : (1 - Q) * A = 0 := by
    have := congrArg (· * T⁻¹) hQA
    simpa only [Matrix.mul_assoc, Matrix.mul_nonsing_inv _ hT, Matrix.mul_one, Matrix.zero_mul] using this
  rw [Matrix.sub_mul, Matrix.one_mul, sub_eq_zero] at this
  exact this.symm

/-- The same for the AML objective, if some vector is orthogonal to both ranges. -/
theorem aml_proj {A : Matrix (Fin m) (Fin k) ℂ} {P : Matrix (Fin k) (Fin k) ℂ} (hP : P.PosDef) {σ : ℝ}
    (hσ : 0 < σ) (hk : k < m) {Q : Matrix (Fin m) (Fin m) ℂ} (h : Qᴴ = Q) (h' : Q * Q = Q) (ht : (trace Q).re ≤ k)
    {x : Fin m → ℂ} (hx0 : x ≠ 0) (hxA : Aᴴ *ᵥ x = 0) (hQx : Q *ᵥ x = 0)
    (hv : (amlH k Q (covModel A P σ)).det.re ≤ (covModel A P σ).det.re) : Q * A = A := by
  have hR := covModel_posDef A hP.posSemidef hσ
  have ht' : trace Q ≤ (k : ℂ) := by
    refine Complex.le_def.2 ⟨by simpa using ht, ?_⟩
    have := Complex.conj_eq_iff_im.1 (show star (trace Q) = trace Q by rw [← trace_conjTranspose, h])
    simpa using this
  obtain ⟨-, f2, f3⟩ := amlH_facts hR h h' ht' hk
  obtain ⟨g1, g2⟩ := det_le_det hR f2 f3
  have hRH := g2 (le_antisymm g1 hv)
  set s := trace ((1 - Q) * covModel A P σ) / ((m : ℂ) - (k : ℂ)) with hs
  have hsσ : s = (σ : ℂ) := by
    have e1 : (covModel A P σ) *ᵥ x = (σ : ℂ) • x := by
      rw [covModel, add_mulVec, ← mulVec_mulVec, hxA, mulVec_zero, zero_add, smul_mulVec, one_mulVec]
    have e2 : (amlH k Q (covModel A P σ)) *ᵥ x = s • x := by
      rw [amlH, add_mulVec, ← mulVec_mulVec, hQx, mulVec_zero, zero_add, smul_mulVec, sub_mulVec, one_mulVec, hQx,
        sub_zero]
    rw [← hRH, e1] at e2
    have : ((σ : ℂ) - s) • x = 0 := by rw [sub_smul, e2, sub_self]
    rcases smul_eq_zero.1 this with h | h
    · exact (sub_eq_zero.1 h).symm
    · exact absurd h hx0
  have hh := compl_herm h
  have hi := compl_idem h'
  have hQQ' : (1 - Q) * Q = 0 := by rw [Matrix.sub_mul, Matrix.one_mul, h', sub_self]
  have hz : trace ((1 - Q) * (A * P * Aᴴ)) = 0 := by
    have e1 : (1 - Q) * covModel A P σ = (1 - Q) * amlH k Q (covModel A P σ) := congrArg _ hRH
    have e2 : (1 - Q) * amlH k Q (covModel A P σ) = (σ : ℂ) • (1 - Q) := by
      rw [amlH, ← hs, hsσ, Matrix.mul_add, Matrix.mul_smul, hi, ← Matrix.mul_assoc, ← Matrix.mul_assoc, hQQ',
        Matrix.zero_mul, Matrix.zero_mul, zero_add]
    rw [e2, covModel, Matrix.mul_add, Matrix.mul_smul, Matrix.mul_one] at e1
    have : (1 - Q) * (A * P * Aᴴ) = 0 := by
      have := congrArg (· - (σ : ℂ) • (1 - Q)) e1
      simpa using this
    rw [this, trace_zero]
  have hQA := trace_proj_zero hh hi hP hz
  rw [Matrix.sub_mul, Matrix.one_mul, sub_eq_zero] at hQA
  exact hQA.symm

end Doa
