import Mathlib.Analysis.Matrix.PosDef
import Mathlib.Analysis.Matrix.Order
import Verif.Model.MLObjective
import Verif.Props.MathUtils
import Verif.Props.Subspace
import Verif.Props.Esprit

/-!
# ML objectives: C54
-/

namespace Doa.Props

open Doa Doa.Spec Matrix
open scoped ComplexOrder

variable {m k : ℕ}

/-- The columns of `A` and `B` span the same space. -/
def SameSpan {k' : ℕ} (A : Matrix (Fin m) (Fin k) ℂ) (B : Matrix (Fin m) (Fin k') ℂ) : Prop :=
  ∀ v, (∃ x, v = A *ᵥ x) ↔ ∃ y, v = B *ᵥ y

theorem IsProjOnto.sameSpan {k' : ℕ} {A : Matrix (Fin m) (Fin k) ℂ} {B : Matrix (Fin m) (Fin k') ℂ}
    {P Q : Matrix (Fin m) (Fin m) ℂ} (hP : IsProjOnto P A) (hQ : IsProjOnto Q B) (h : SameSpan A B) : P = Q := by
  refine hP.unique ⟨hQ.herm, hQ.idem, ?_, ?_⟩
  · intro x
    obtain ⟨y, hy⟩ := (h _).1 ⟨x, rfl⟩
    rw [hy, hQ.fixes]
  · intro v hv
    apply hQ.kills
    intro c
    obtain ⟨x, hx⟩ := (h (B.col c)).2 ⟨Pi.single c 1, by simp⟩
    rw [kills_iff] at hv
    rw [hx, star_mulVec, ← dotProduct_mulVec, hv, dotProduct_zero]

/-- Facts about an orthogonal projection `Q` and its complement. -/
theorem compl_herm {Q : Matrix (Fin m) (Fin m) ℂ} (h : Qᴴ = Q) : (1 - Q)ᴴ = 1 - Q := by
  rw [conjTranspose_sub, conjTranspose_one, h]

theorem compl_idem {Q : Matrix (Fin m) (Fin m) ℂ} (h : Q * Q = Q) : (1 - Q) * (1 - Q) = 1 - Q := by
  rw [Matrix.mul_sub, Matrix.mul_one, Matrix.sub_mul, Matrix.one_mul, h, sub_self, sub_zero]

theorem proj_posSemidef {Q : Matrix (Fin m) (Fin m) ℂ} (h : Qᴴ = Q) (h' : Q * Q = Q) : Q.PosSemidef := by
  have := posSemidef_conjTranspose_mul_self Q
  rwa [h, h'] at this

/-- `tr(Q M) = tr(Q M Q)`, the trace of a positive semidefinite matrix. -/
theorem trace_proj {Q M : Matrix (Fin m) (Fin m) ℂ} (h' : Q * Q = Q) :
    trace (Q * M) = trace (Q * M * Q) := by
  rw [trace_mul_comm (Q * M) Q, ← Matrix.mul_assoc, h']

theorem sandwich {Q M : Matrix (Fin m) (Fin m) ℂ} (h : Qᴴ = Q) (hM : M.PosSemidef) : (Q * M * Q).PosSemidef := by
  have := hM.mul_mul_conjTranspose_same Q
  rwa [h] at this

theorem trace_proj_nonneg {Q M : Matrix (Fin m) (Fin m) ℂ} (h : Qᴴ = Q) (h' : Q * Q = Q) (hM : M.PosSemidef) :
    0 ≤ trace (Q * M) := by
  rw [trace_proj h']
  exact (sandwich h hM).trace_nonneg

/-- `Q A P A^H = 0` in trace means that `Q` annihilates the columns of `A`. -/
theorem trace_proj_zero {Q : Matrix (Fin m) (Fin m) ℂ} (h : Qᴴ = Q) (h' : Q * Q = Q)
    {A : Matrix (Fin m) (Fin k) ℂ} {P : Matrix (Fin k) (Fin k) ℂ} (hP : P.PosDef)
    (h0 : trace (Q * (A * P * Aᴴ)) = 0) : Q * A = 0 := by
  rw [trace_proj h'] at h0
  have hM := sandwich h (hP.posSemidef.mul_mul_conjTranspose_same A)
  have hz := hM.trace_eq_zero_iff.1 h0
  have e : (Q * A) * P * (Q * A)ᴴ = 0 := by
    rw [conjTranspose_mul, h, ← hz]
    simp only [Matrix.mul_assoc]
  have hcol : ∀ v, (Q * A)ᴴ *ᵥ v = 0 := by
    intro v
    by_contra hne
    have h1 := hP.dotProduct_mulVec_pos hne
    have h2 : star ((Q * A)ᴴ *ᵥ v) ⬝ᵥ (P *ᵥ ((Q * A)ᴴ *ᵥ v)) = star v ⬝ᵥ (((Q * A) * P * (Q * A)ᴴ) *ᵥ v) := by
      rw [star_mulVec, conjTranspose_conjTranspose, ← dotProduct_mulVec, mulVec_mulVec, mulVec_mulVec, Matrix.mul_assoc]
    rw [h2, e, zero_mulVec, dotProduct_zero] at h1
    exact lt_irrefl _ h1
  have : (Q * A)ᴴ = 0 := by
    apply Matrix.ext_of_mulVec_single
    intro i
    rw [hcol, zero_mulVec]
  rw [← conjTranspose_conjTranspose (Q * A), this, conjTranspose_zero]

/-- The projection used by the objectives, with its trace. -/
theorem projm_facts (A : Matrix (Fin m) (Fin k) ℂ) : ∃ Q, projm A true = .ok Q ∧ IsProjOnto Q A ∧
    trace Q ≤ (k : ℂ) ∧ (Function.Injective A.mulVec → trace Q = (k : ℂ)) := by
  obtain ⟨Q, h1, h2⟩ := C33_projm_pinv A
  obtain ⟨p1, p2, p3, p4⟩ := C33_pinv_penrose A
  have hQ : Q = A * npPinv A := (Except.ok.inj h1).symm
  refine ⟨Q, h1, h2, ?_, ?_⟩
  · have hh := compl_herm p4
    have hi : (npPinv A * A) * (npPinv A * A) = npPinv A * A := by
      rw [← Matrix.mul_assoc, p2]
    have := (proj_posSemidef hh (compl_idem hi)).trace_nonneg
    rw [trace_sub, trace_one, Fintype.card_fin, trace_mul_comm, ← hQ] at this
    exact sub_nonneg.1 this
  · intro hA
    have hu := (fullRank_iff A).2 hA
    obtain ⟨Q', h3, h4⟩ := (C33_projm A).1 hA
    have e : Q = Q' := h2.unique h4
    have : projm A false = .ok (A * ((Aᴴ * A)⁻¹ * Aᴴ)) := by simp only [projm, npSolve, if_pos hu]; rfl
    rw [this] at h3
    rw [e, ← Except.ok.inj h3, trace_mul_comm, Matrix.mul_assoc, Matrix.nonsing_inv_mul _ hu, trace_one, Fintype.card_fin]

/-- **C54 (CML, value)**. The CML objective always evaluates; before taking the real part it is real for
Hermitian `R`, it is nonnegative for positive semidefinite `R`, and it depends only on the span of the
steering vectors. -/
theorem C54_cml_value (A : Matrix (Fin m) (Fin k) ℂ) (R : Matrix (Fin m) (Fin m) ℂ) :
    ∃ Q, IsProjOnto Q A ∧ cmlObjective A R = .ok (trace ((1 - Q) * R)).re ∧
      (R.IsHermitian → (trace ((1 - Q) * R)).im = 0) ∧
      (R.PosSemidef → 0 ≤ (trace ((1 - Q) * R)).re) ∧
      ∀ {k' : ℕ} (B : Matrix (Fin m) (Fin k') ℂ), SameSpan A B → cmlObjective B R = cmlObjective A R := by
  obtain ⟨Q, h1, h2, -, -⟩ := projm_facts A
  have hh := compl_herm h2.herm
  have hi := compl_idem h2.idem
  refine ⟨Q, h2, by simp only [cmlObjective, h1], ?_, ?_, ?_⟩
  · intro hR
    have : star (trace ((1 - Q) * R)) = trace ((1 - Q) * R) := by
      rw [← trace_conjTranspose, conjTranspose_mul, hh, hR.eq, trace_mul_comm]
    exact Complex.conj_eq_iff_im.1 this
  · intro hR
    exact (Complex.le_def.1 (trace_proj_nonneg hh hi hR)).1
  · intro k' B hB
    obtain ⟨Q', h1', h2', -, -⟩ := projm_facts B
    rw [cmlObjective, cmlObjective, h1, h1', h2.sameSpan h2' hB]

theorem compl_mul {Q : Matrix (Fin m) (Fin m) ℂ} {A : Matrix (Fin m) (Fin k) ℂ} (h : IsProjOnto Q A) :
    (1 - Q) * A = 0 := by
  have : Q * A = A := by
    apply Matrix.ext_of_mulVec_single
    intro i
    rw [← Matrix.mulVec_mulVec, h.fixes]
  rw [Matrix.sub_mul, Matrix.one_mul, this, sub_self]

theorem cml_split (Q : Matrix (Fin m) (Fin m) ℂ) (A : Matrix (Fin m) (Fin k) ℂ)
    (P : Matrix (Fin k) (Fin k) ℂ) (σ : ℝ) :
    trace ((1 - Q) * covModel A P σ) = trace ((1 - Q) * (A * P * Aᴴ)) + (σ : ℂ) * ((m : ℂ) - trace Q) := by
  rw [covModel, Matrix.mul_add, trace_add, Matrix.mul_smul, Matrix.mul_one, trace_smul, trace_sub, trace_one,
    Fintype.card_fin, smul_eq_mul]

/-- **C54 (CML, minimum)**. For the exact covariance `A P A^H + σ I` of `k` sources with linearly
independent steering vectors, the CML objective at the true sources is `σ (m - k)` (0 without noise), and
no set of `k` candidate sources gives less. -/
theorem C54_cml_minimum {A : Matrix (Fin m) (Fin k) ℂ} (hA : Function.Injective A.mulVec)
    {P : Matrix (Fin k) (Fin k) ℂ} (hP : P.PosSemidef) {σ : ℝ} (hσ : 0 ≤ σ) :
    cmlObjective A (covModel A P σ) = .ok (σ * ((m : ℝ) - (k : ℝ))) ∧
    ∀ B : Matrix (Fin m) (Fin k) ℂ, ∃ v, cmlObjective B (covModel A P σ) = .ok v ∧ σ * ((m : ℝ) - (k : ℝ)) ≤ v := by
  constructor
  · obtain ⟨Q, h1, h2, -, h4⟩ := projm_facts A
    simp only [cmlObjective, h1]
    rw [cml_split, ← Matrix.mul_assoc, ← Matrix.mul_assoc, compl_mul h2, h4 hA]
    simp
  · intro B
    obtain ⟨Q, h1, h2, h3, -⟩ := projm_facts B
    refine ⟨(trace ((1 - Q) * covModel A P σ)).re, by simp only [cmlObjective, h1], ?_⟩
    rw [cml_split, Complex.add_re, Complex.re_ofReal_mul]
    have g1 := (Complex.le_def.1 (trace_proj_nonneg (compl_herm h2.herm) (compl_idem h2.idem)
      (hP.mul_mul_conjTranspose_same A))).1
    have g2 := (Complex.le_def.1 h3).1
    simp only [Complex.zero_re, Complex.natCast_re, Complex.sub_re] at g1 g2 ⊢
    nlinarith

/-- **C54 (CML, uniqueness)**. If the source covariance is positive definite, candidates `B` reach the
minimum only if all true steering vectors lie in the span of the candidate steering vectors. -/
theorem C54_cml_unique {A : Matrix (Fin m) (Fin k) ℂ}
    {P : Matrix (Fin k) (Fin k) ℂ} (hP : P.PosDef) {σ : ℝ} (hσ : 0 ≤ σ) (B : Matrix (Fin m) (Fin k) ℂ)
    {v : ℝ} (hB : cmlObjective B (covModel A P σ) = .ok v) (hv : v ≤ σ * ((m : ℝ) - (k : ℝ))) :
    ∀ x, ∃ y, A *ᵥ x = B *ᵥ y := by
  obtain ⟨Q, h1, h2, h3, -⟩ := projm_facts B
  simp only [cmlObjective, h1] at hB
  rw [cml_split, Complex.add_re, Complex.re_ofReal_mul] at hB
  have hv' := Except.ok.inj hB
  have hh := compl_herm h2.herm
  have hi := compl_idem h2.idem
  have g0 := trace_proj_nonneg hh hi (hP.posSemidef.mul_mul_conjTranspose_same A)
  have g1 := Complex.le_def.1 g0
  have g2 := (Complex.le_def.1 h3).1
  simp only [Complex.zero_re, Complex.natCast_re, Complex.sub_re, Complex.zero_im] at g1 g2 hv'
  have hz : trace ((1 - Q) * (A * P * Aᴴ)) = 0 := by
    apply Complex.ext
    · simp only [Complex.zero_re]; nlinarith [g1.1]
    · exact g1.2.symm
  have hQA := trace_proj_zero hh hi hP hz
  obtain ⟨Gp, e1, -⟩ := npPinv_eq B
  intro x
  have hQ : Q = B * npPinv B := (Except.ok.inj h1).symm
  refine ⟨npPinv B *ᵥ (A *ᵥ x), ?_⟩
  rw [mulVec_mulVec, mulVec_mulVec, ← hQ]
  rw [Matrix.sub_mul, Matrix.one_mul, sub_eq_zero] at hQA
  rw [← hQA]

/-! ### WSF -/

theorem wsfM_exact (eigh : Eigh) {A : Matrix (Fin m) (Fin k) ℂ} (hA : Function.Injective A.mulVec)
    {P : Matrix (Fin k) (Fin k) ℂ} (hP : P.PosDef) {σ : ℝ} (hσ : 0 ≤ σ) (hk : k < m) :
    ∃ (T : Matrix (Fin k) (Fin k) ℂ) (w : Fin k → ℝ), IsUnit T.det ∧ (∀ c, 0 < w c) ∧
      wsfM eigh (covModel A P σ) hk.le = (A * T) * diagonal (fun c => (w c : ℂ)) * (A * T)ᴴ := by
  have hE := eigh.spec (covModel A P σ) (covModel_isHermitian A hP.isHermitian σ)
  obtain ⟨T, hT, hs⟩ := signal_factor hA hP hE hk.le
  have hmk : ((m : ℝ) - (k : ℝ)) = ((m - k : ℕ) : ℝ) := by rw [Nat.cast_sub hk.le]
  have hne : ((m - k : ℕ) : ℝ) ≠ 0 := by
    have : m - k ≠ 0 := by omega
    exact_mod_cast this
  have hest : (∑ j : Fin (m - k), (eigh.run (covModel A P σ)).1 ⟨j.1, by omega⟩) / ((m : ℝ) - (k : ℝ)) = σ := by
    rw [Finset.sum_congr rfl fun j _ => (hE.noise hA hP ⟨j.1, by omega⟩ j.2).1, Finset.sum_const, hmk,
      Finset.card_univ, Fintype.card_fin, nsmul_eq_mul]
    field_simp
  have hgt : ∀ c : Fin k, σ < (eigh.run (covModel A P σ)).1 ⟨m - k + c.1, by omega⟩ := fun c =>
    (hE.split hA hP ⟨m - k + c.1, by omega⟩).2 (by simp)
  refine ⟨T, fun c => ((eigh.run (covModel A P σ)).1 ⟨m - k + c.1, by omega⟩ - σ) *
    ((eigh.run (covModel A P σ)).1 ⟨m - k + c.1, by omega⟩ - σ) /
    (eigh.run (covModel A P σ)).1 ⟨m - k + c.1, by omega⟩, hT, ?_, ?_⟩
  · intro c
    have h1 := hgt c
    exact div_pos (mul_pos (by linarith) (by linarith)) (by linarith)
  · simp only [wsfM, hest, ← hs]
    congr 1
    ext i c
    rw [mul_diagonal]
    rfl

/-- **C54 (WSF)**. The WSF objective (with `M` computed from the exact covariance) is nonnegative for all
candidates, 0 at the true sources, depends only on the span of the candidates' steering vectors, and is 0
only if the true steering vectors lie in that span. -/
theorem C54_wsf (eigh : Eigh) {A : Matrix (Fin m) (Fin k) ℂ} (hA : Function.Injective A.mulVec)
    {P : Matrix (Fin k) (Fin k) ℂ} (hP : P.PosDef) {σ : ℝ} (hσ : 0 ≤ σ) (hk : k < m) :
    wsfObjective A (wsfM eigh (covModel A P σ) hk.le) = .ok 0 ∧
    ∀ {k' : ℕ} (B : Matrix (Fin m) (Fin k') ℂ), ∃ v, wsfObjective B (wsfM eigh (covModel A P σ) hk.le) = .ok v ∧
      0 ≤ v ∧ (v = 0 ↔ ∀ x, ∃ y, A *ᵥ x = B *ᵥ y) ∧
      ∀ {k'' : ℕ} (B' : Matrix (Fin m) (Fin k'') ℂ), SameSpan B B' →
        wsfObjective B' (wsfM eigh (covModel A P σ) hk.le) = .ok v := by
  obtain ⟨T, w, hT, hw, hM⟩ := wsfM_exact eigh hA hP hσ hk
  have hW : (diagonal fun c => (w c : ℂ)).PosDef := by
    rw [posDef_diagonal_iff]
    intro c
    exact Complex.zero_lt_real.2 (hw c)
  rw [hM]
  have main : ∀ {k' : ℕ} (B : Matrix (Fin m) (Fin k') ℂ), ∃ v,
      wsfObjective B ((A * T) * diagonal (fun c => (w c : ℂ)) * (A * T)ᴴ) = .ok v ∧
      0 ≤ v ∧ (v = 0 ↔ ∀ x, ∃ y, A *ᵥ x = B *ᵥ y) ∧
      ∀ {k'' : ℕ} (B' : Matrix (Fin m) (Fin k'') ℂ), SameSpan B B' →
        wsfObjective B' ((A * T) * diagonal (fun c => (w c : ℂ)) * (A * T)ᴴ) = .ok v := by
    intro k' B
    obtain ⟨Q, h1, h2, -, -⟩ := projm_facts B
    have hh := compl_herm h2.herm
    have hi := compl_idem h2.idem
    have hQ : Q = B * npPinv B := (Except.ok.inj h1).symm
    have g0 := Complex.le_def.1 (trace_proj_nonneg hh hi (hW.posSemidef.mul_mul_conjTranspose_same (A * T)))
    refine ⟨(trace ((1 - Q) * ((A * T) * diagonal (fun c => (w c : ℂ)) * (A * T)ᴴ))).re,
      by simp only [wsfObjective, h1], g0.1, ?_, ?_⟩
    · constructor
      · intro h0
        have hz : trace ((1 - Q) * ((A * T) * diagonal (fun c => (w c : ℂ)) * (A * T)ᴴ)) = 0 :=
          Complex.ext h0 g0.2.symm
        have hQA := trace_proj_zero hh hi hW hz
        have hA' : (1 - Q) * A = 0 := by
          calc (1 - Q) * A = ((1 - Q) * (A * T)) * T⁻¹ := by
                rw [Matrix.mul_assoc, Matrix.mul_assoc, Matrix.mul_nonsing_inv _ hT, Matrix.mul_one]
            _ = 0 := by rw [hQA, Matrix.zero_mul]
        intro x
        refine ⟨npPinv B *ᵥ (A *ᵥ x), ?_⟩
        rw [mulVec_mulVec, mulVec_mulVec, ← hQ]
        rw [Matrix.sub_mul, Matrix.one_mul, sub_eq_zero] at hA'
        rw [← hA']
      · intro hx
        have hA' : (1 - Q) * A = 0 := by
          apply Matrix.ext_of_mulVec_single
          intro i
          obtain ⟨y, hy⟩ := hx (Pi.single i 1)
          rw [← mulVec_mulVec, hy, mulVec_mulVec, compl_mul h2, zero_mulVec, zero_mulVec]
        rw [← Matrix.mul_assoc, ← Matrix.mul_assoc, ← Matrix.mul_assoc, hA']
        simp
    · intro k'' B' hB'
      obtain ⟨Q', h1', h2', -, -⟩ := projm_facts B'
      rw [h2.sameSpan h2' hB']
      simp only [wsfObjective, h1']
  refine ⟨?_, main⟩
  obtain ⟨v, h1, -, h2, -⟩ := main A
  rw [h1, h2.2 fun x => ⟨x, rfl⟩]

/-! ### AML -/

/-- `log det X ≤ tr X - n` for positive definite `X`, in the form needed here, with the equality case. -/
theorem det_le_one {n : ℕ} {X : Matrix (Fin n) (Fin n) ℂ} (hX : X.PosDef) (ht : X.trace.re ≤ n) :
    X.det.re ≤ 1 ∧ (X.det.re = 1 → X = 1) := by
  have hp := hX.eigenvalues_pos
  have htr : X.trace.re = ∑ i, hX.isHermitian.eigenvalues i := by
    rw [hX.isHermitian.trace_eq_sum_eigenvalues]
    simp
  have hdet : X.det.re = ∏ i, hX.isHermitian.eigenvalues i := by
    rw [hX.isHermitian.det_eq_prod_eigenvalues]
    have : (∏ i, ((hX.isHermitian.eigenvalues i : ℝ) : ℂ)) = ((∏ i, hX.isHermitian.eigenvalues i : ℝ) : ℂ) := by
      push_cast; rfl
    exact (congrArg Complex.re this).trans (Complex.ofReal_re _)
  have hprod : 0 < ∏ i, hX.isHermitian.eigenvalues i := Finset.prod_pos fun i _ => hp i
  have hlog : Real.log (∏ i, hX.isHermitian.eigenvalues i) = ∑ i, Real.log (hX.isHermitian.eigenvalues i) :=
    Real.log_prod fun i _ => (hp i).ne'
  have hle : ∀ i, Real.log (hX.isHermitian.eigenvalues i) ≤ hX.isHermitian.eigenvalues i - 1 := fun i =>
    Real.log_le_sub_one_of_pos (hp i)
  have hsum : ∑ i, Real.log (hX.isHermitian.eigenvalues i) ≤ ∑ i, (hX.isHermitian.eigenvalues i - 1) :=
    Finset.sum_le_sum fun i _ => hle i
  have hs1 : ∑ i, (hX.isHermitian.eigenvalues i - 1) = X.trace.re - n := by
    rw [Finset.sum_sub_distrib, htr]; simp
  constructor
  · rw [hdet]
    by_contra hc
    push Not at hc
    have := Real.log_pos hc
    linarith
  · intro h1
    rw [hdet] at h1
    rw [h1, Real.log_one] at hlog
    have hall : ∀ i, hX.isHermitian.eigenvalues i = 1 := by
      by_contra hn
      push Not at hn
      obtain ⟨i, hi⟩ := hn
      have : ∑ i, Real.log (hX.isHermitian.eigenvalues i) < ∑ i, (hX.isHermitian.eigenvalues i - 1) :=
        Finset.sum_lt_sum (fun i _ => hle i) ⟨i, Finset.mem_univ _, Real.log_lt_sub_one_of_pos (hp i) hi⟩
      linarith
    rw [hX.isHermitian.spectral_theorem]
    have : (diagonal (RCLike.ofReal ∘ hX.isHermitian.eigenvalues) : Matrix (Fin n) (Fin n) ℂ) = 1 := by
      rw [← diagonal_one]
      congr 1
      funext i
      simp [hall i]
    rw [this, map_one]

/-- A positive definite matrix is whitened by some invertible matrix. -/
theorem exists_whitening {n : ℕ} {H : Matrix (Fin n) (Fin n) ℂ} (hH : H.PosDef) :
    ∃ B : Matrix (Fin n) (Fin n) ℂ, IsUnit B.det ∧ B * H * Bᴴ = 1 := by
  obtain ⟨w, E, hE⟩ := exists_isEigh H hH.isHermitian
  have hd : Eᴴ * H * E = diagonal fun j => (w j : ℂ) := by
    rw [Matrix.mul_assoc, hE.eig, ← Matrix.mul_assoc, hE.orth, Matrix.one_mul]
  have hEu : IsUnit E := IsUnit.of_mul_eq_one Eᴴ hE.orth'
  have hw : ∀ j, 0 < w j := by
    intro j
    have h1 : (Eᴴ * H * E).PosDef := hH.conjTranspose_mul_mul_same (mulVec_injective_of_isUnit hEu)
    rw [hd, posDef_diagonal_iff] at h1
    exact Complex.zero_lt_real.1 (h1 j)
  let S : Matrix (Fin n) (Fin n) ℂ := diagonal fun j => (((Real.sqrt (w j))⁻¹ : ℝ) : ℂ)
  have hS : Sᴴ = S := by
    simp only [S, diagonal_conjTranspose]
    congr 1
    funext j
    simp [Pi.star_apply]
  have key : (S * Eᴴ) * H * (S * Eᴴ)ᴴ = 1 := by
    rw [conjTranspose_mul, conjTranspose_conjTranspose, hS]
    have : S * Eᴴ * H * (E * S) = S * (Eᴴ * H * E) * S := by simp only [Matrix.mul_assoc]
    rw [this, hd]
    simp only [S, diagonal_mul_diagonal]
    rw [← diagonal_one]
    congr 1
    funext j
    have h2 := Real.mul_self_sqrt (hw j).le
    have h3 : Real.sqrt (w j) ≠ 0 := (Real.sqrt_pos.2 (hw j)).ne'
    rw [← Complex.ofReal_mul, ← Complex.ofReal_mul, ← Complex.ofReal_one]
    congr 1
    field_simp
    nlinarith
  refine ⟨S * Eᴴ, ?_, key⟩
  have := congrArg det key
  rw [Matrix.mul_assoc, det_mul, det_one] at this
  exact IsUnit.of_mul_eq_one _ this

/-- If `tr(H⁻¹ R) ≤ n` then `det R ≤ det H`, with equality only for `R = H`. -/
theorem det_le_det {n : ℕ} {R H : Matrix (Fin n) (Fin n) ℂ} (hR : R.PosDef) (hH : H.PosDef)
    (ht : (H⁻¹ * R).trace.re ≤ n) : R.det.re ≤ H.det.re ∧ (R.det.re = H.det.re → R = H) := by
  obtain ⟨B, hB, hBH⟩ := exists_whitening hH
  have hBu : IsUnit B := (isUnit_iff_isUnit_det _).2 hB
  have hBu' : IsUnit Bᴴ.det := by rw [det_conjTranspose]; exact hB.star
  have hH2 : B⁻¹ * (Bᴴ)⁻¹ = H := by
    calc B⁻¹ * (Bᴴ)⁻¹ = B⁻¹ * (B * H * Bᴴ) * (Bᴴ)⁻¹ := by rw [hBH, Matrix.mul_one]
      _ = (B⁻¹ * B) * H * (Bᴴ * (Bᴴ)⁻¹) := by simp only [Matrix.mul_assoc]
      _ = H := by rw [Matrix.nonsing_inv_mul _ hB, Matrix.mul_nonsing_inv _ hBu', Matrix.one_mul, Matrix.mul_one]
  have hHi : H⁻¹ = Bᴴ * B := by
    apply Matrix.inv_eq_left_inv
    calc Bᴴ * B * H = (Bᴴ * B) * (B⁻¹ * (Bᴴ)⁻¹) := by rw [hH2]
      _ = Bᴴ * (B * B⁻¹) * (Bᴴ)⁻¹ := by simp only [Matrix.mul_assoc]
      _ = 1 := by rw [Matrix.mul_nonsing_inv _ hB, Matrix.mul_one, Matrix.mul_nonsing_inv _ hBu']
  have hX : (B * R * Bᴴ).PosDef := by
    have := hR.conjTranspose_mul_mul_same (B := Bᴴ) (mulVec_injective_of_isUnit hBu.star)
    rwa [conjTranspose_conjTranspose] at this
  have htX : (B * R * Bᴴ).trace.re ≤ n := by
    rw [trace_mul_comm, ← Matrix.mul_assoc, ← hHi]
    exact ht
  obtain ⟨h1, h2⟩ := det_le_one hX htX
  have hdR := hR.det_pos
  have hdH := hH.det_pos
  have hbb : (B.det * H.det * star B.det).re = 1 := by
    have := congrArg det hBH
    rw [det_mul, det_mul, det_conjTranspose, det_one] at this
    rw [this]; rfl
  have hxx : (B * R * Bᴴ).det = B.det * R.det * star B.det := by
    rw [det_mul, det_mul, det_conjTranspose]
  have hform : ∀ z : ℂ, 0 < z → (B.det * z * star B.det).re = Complex.normSq B.det * z.re := by
    intro z hz
    have him : z.im = 0 := ((Complex.lt_def.1 hz).2).symm
    simp only [Complex.star_def, Complex.mul_re, Complex.mul_im, Complex.conj_re, Complex.conj_im, him,
      Complex.normSq_apply]
    ring
  rw [hform _ hdH] at hbb
  have hns : 0 < Complex.normSq B.det := Complex.normSq_pos.2 hB.ne_zero
  rw [hxx, hform _ hdR] at h1 h2
  constructor
  · by_contra hc
    push Not at hc
    have := mul_lt_mul_of_pos_left hc hns
    linarith
  · intro he
    rw [he] at h2
    have hX1 := h2 hbb
    calc R = (B⁻¹ * B) * R * (Bᴴ * (Bᴴ)⁻¹) := by
          rw [Matrix.nonsing_inv_mul _ hB, Matrix.mul_nonsing_inv _ hBu', Matrix.one_mul, Matrix.mul_one]
      _ = B⁻¹ * (B * R * Bᴴ) * (Bᴴ)⁻¹ := by simp only [Matrix.mul_assoc]
      _ = H := by rw [hX1, Matrix.mul_one, hH2]

/-- The matrix of the AML objective for a projection `Q`. -/
noncomputable def amlH (k : ℕ) (Q R : Matrix (Fin m) (Fin m) ℂ) : Matrix (Fin m) (Fin m) ℂ :=
  Q * R * Q + (trace ((1 - Q) * R) / ((m : ℂ) - (k : ℂ))) • (1 - Q)

theorem amlH_facts {R Q : Matrix (Fin m) (Fin m) ℂ} (hR : R.PosDef) (h : Qᴴ = Q) (h' : Q * Q = Q)
    (ht : trace Q ≤ (k : ℂ)) (hk : k < m) :
    0 < trace ((1 - Q) * R) / ((m : ℂ) - (k : ℂ)) ∧ (amlH k Q R).PosDef ∧
      ((amlH k Q R)⁻¹ * R).trace.re ≤ m := by
  have hh := compl_herm h
  have hi := compl_idem h'
  have hmk : (0 : ℂ) < (m : ℂ) - (k : ℂ) := by
    have : (k : ℂ) < (m : ℂ) := by exact_mod_cast hk
    exact sub_pos.2 this
  have ht0 : 0 < trace ((1 - Q) * R) := by
    refine lt_of_le_of_ne (trace_proj_nonneg hh hi hR.posSemidef) ?_
    intro h0
    have : (1 - Q) * (1 : Matrix (Fin m) (Fin m) ℂ) = 0 := by
      refine trace_proj_zero hh hi hR ?_
      rw [Matrix.one_mul, conjTranspose_one, Matrix.mul_one, ← h0]
    rw [Matrix.mul_one, sub_eq_zero] at this
    rw [← this, trace_one, Fintype.card_fin] at ht
    have : m ≤ k := by exact_mod_cast ht
    omega
  have hs : 0 < trace ((1 - Q) * R) / ((m : ℂ) - (k : ℂ)) := by
    rw [div_eq_mul_inv]
    exact mul_pos ht0 (inv_pos.2 hmk)
  have hQQ : Q * (1 - Q) = 0 := by rw [Matrix.mul_sub, Matrix.mul_one, h', sub_self]
  have hQQ' : (1 - Q) * Q = 0 := by rw [Matrix.sub_mul, Matrix.one_mul, h', sub_self]
  have hPD : (amlH k Q R).PosDef := by
    have p1 : (Q * R * Q).PosSemidef := sandwich h hR.posSemidef
    have p2 : ((trace ((1 - Q) * R) / ((m : ℂ) - (k : ℂ))) • (1 - Q)).PosSemidef :=
      (proj_posSemidef hh hi).smul hs.le
    apply Matrix.PosDef.of_dotProduct_mulVec_pos (p1.add p2).isHermitian
    intro x hx
    have e1 : star x ⬝ᵥ ((Q * R * Q) *ᵥ x) = star (Q *ᵥ x) ⬝ᵥ (R *ᵥ (Q *ᵥ x)) := by
      rw [star_mulVec, ← dotProduct_mulVec, h, mulVec_mulVec, mulVec_mulVec, Matrix.mul_assoc]
    have e2 : star x ⬝ᵥ ((1 - Q) *ᵥ x) = star ((1 - Q) *ᵥ x) ⬝ᵥ ((1 - Q) *ᵥ x) := by
      rw [star_mulVec, ← dotProduct_mulVec, hh, mulVec_mulVec, hi]
    rw [add_mulVec, dotProduct_add, smul_mulVec, dotProduct_smul, e1, e2, smul_eq_mul]
    by_cases hq : Q *ᵥ x = 0
    · have : (1 - Q) *ᵥ x = x := by rw [sub_mulVec, one_mulVec, hq, sub_zero]
      rw [hq, this, mulVec_zero, dotProduct_zero, zero_add]
      exact mul_pos hs (dotProduct_star_self_pos_iff.2 hx)
    · exact add_pos_of_pos_of_nonneg (hR.dotProduct_mulVec_pos hq)
        (mul_nonneg hs.le (dotProduct_star_self_nonneg _))
  refine ⟨hs, hPD, ?_⟩
  have hu : IsUnit (amlH k Q R).det := (isUnit_iff_isUnit_det _).1 hPD.isUnit
  have c1 : amlH k Q R * Q = Q * R * Q := by
    rw [amlH, Matrix.add_mul, Matrix.smul_mul, hQQ', smul_zero, add_zero, Matrix.mul_assoc, h']
  have c2 : Q * amlH k Q R = Q * R * Q := by
    rw [amlH, Matrix.mul_add, Matrix.mul_smul, hQQ, smul_zero, add_zero, ← Matrix.mul_assoc, ← Matrix.mul_assoc, h']
  have c3 : amlH k Q R * (1 - Q) = (trace ((1 - Q) * R) / ((m : ℂ) - (k : ℂ))) • (1 - Q) := by
    rw [amlH, Matrix.add_mul, Matrix.smul_mul, hi, Matrix.mul_assoc, hQQ, Matrix.mul_zero, zero_add]
  have hcomm : (amlH k Q R)⁻¹ * Q = Q * (amlH k Q R)⁻¹ := by
    calc (amlH k Q R)⁻¹ * Q = (amlH k Q R)⁻¹ * (Q * amlH k Q R) * (amlH k Q R)⁻¹ := by
          rw [Matrix.mul_assoc, Matrix.mul_assoc, Matrix.mul_nonsing_inv _ hu, Matrix.mul_one]
      _ = (amlH k Q R)⁻¹ * (amlH k Q R * Q) * (amlH k Q R)⁻¹ := by rw [c1, c2]
      _ = Q * (amlH k Q R)⁻¹ := by
          rw [← Matrix.mul_assoc, Matrix.nonsing_inv_mul _ hu, Matrix.one_mul]
  have d2 : (trace ((1 - Q) * R) / ((m : ℂ) - (k : ℂ))) • ((amlH k Q R)⁻¹ * (1 - Q)) = 1 - Q := by
    rw [← Matrix.mul_smul, ← c3, ← Matrix.mul_assoc, Matrix.nonsing_inv_mul _ hu, Matrix.one_mul]
  have t2 : trace ((amlH k Q R)⁻¹ * (1 - Q) * R) = (m : ℂ) - (k : ℂ) := by
    have := congrArg (fun M => trace (M * R)) d2
    simp only [Matrix.smul_mul, trace_smul, smul_eq_mul] at this
    have h3 := ht0.ne'
    have h4 := hmk.ne'
    field_simp at this
    have h5 : trace ((1 - Q) * R) * trace ((amlH k Q R)⁻¹ * (1 - Q) * R) =
      trace ((1 - Q) * R) * ((m : ℂ) - (k : ℂ)) := by rw [this]
    exact mul_left_cancel₀ h3 h5
  have t1 : trace ((amlH k Q R)⁻¹ * Q * R) = trace Q := by
    have : (amlH k Q R)⁻¹ * Q = Q * ((amlH k Q R)⁻¹ * Q) := by
      rw [← Matrix.mul_assoc, ← hcomm, Matrix.mul_assoc, h']
    rw [this, Matrix.mul_assoc, trace_mul_comm, Matrix.mul_assoc, Matrix.mul_assoc, ← Matrix.mul_assoc Q R Q, ← c1,
      ← Matrix.mul_assoc, Matrix.nonsing_inv_mul _ hu, Matrix.one_mul]
  have tt : trace ((amlH k Q R)⁻¹ * R) = trace Q + ((m : ℂ) - (k : ℂ)) := by
    rw [← t1, ← t2, ← trace_add, ← Matrix.add_mul, ← Matrix.mul_add, add_sub_cancel, Matrix.mul_one]
  rw [tt]
  have := (Complex.le_def.1 ht).1
  simp only [Complex.add_re, Complex.sub_re, Complex.natCast_re] at this ⊢
  linarith

/-- Evaluation of the AML objective at a positive definite covariance. -/
theorem aml_eval (B : Matrix (Fin m) (Fin k) ℂ) {R : Matrix (Fin m) (Fin m) ℂ} (hR : R.PosDef) (hk : k < m) :
    ∃ Q, projm B true = .ok Q ∧ IsProjOnto Q B ∧ (amlH k Q R).PosDef ∧
      amlObjective B R = .ok ((Real.log (amlH k Q R).det.re : ℝ) : WithTop ℝ) ∧
      R.det.re ≤ (amlH k Q R).det.re ∧ (R.det.re = (amlH k Q R).det.re → R = amlH k Q R) := by
  obtain ⟨Q, h1, h2, h3, -⟩ := projm_facts B
  obtain ⟨-, f2, f3⟩ := amlH_facts hR h2.herm h2.idem h3 hk
  obtain ⟨g1, g2⟩ := det_le_det hR f2 f3
  refine ⟨Q, h1, h2, f2, ?_, g1, g2⟩
  have hd := f2.det_pos
  have hdr : 0 < (amlH k Q R).det.re := (Complex.lt_def.1 hd).1
  have hdi : (amlH k Q R).det.im = 0 := ((Complex.lt_def.1 hd).2).symm
  have hH' : (1 / 2 : ℂ) • (amlH k Q R + (amlH k Q R)ᴴ) = amlH k Q R := by
    rw [f2.isHermitian.eq, ← two_smul ℂ (amlH k Q R), smul_smul]
    norm_num
  have hn : ‖(amlH k Q R).det‖ = (amlH k Q R).det.re := by
    have : (amlH k Q R).det = (((amlH k Q R).det.re : ℝ) : ℂ) := Complex.ext rfl hdi
    rw [this, Complex.norm_real, Real.norm_eq_abs, abs_of_pos (by simpa using hdr)]
    simp
  simp only [amlObjective, h1]
  rw [← amlH, hH', if_neg (not_le.2 hdr), hn]

theorem covModel_posDef (A : Matrix (Fin m) (Fin k) ℂ) {P : Matrix (Fin k) (Fin k) ℂ} (hP : P.PosSemidef)
    {σ : ℝ} (hσ : 0 < σ) : (covModel A P σ).PosDef := by
  rw [covModel]
  exact Matrix.PosDef.posSemidef_add (hP.mul_mul_conjTranspose_same A)
    (Matrix.PosDef.one.smul (Complex.zero_lt_real.2 hσ))

/-- **C54 (AML, minimum)**. For every positive definite covariance the AML objective is finite at every
candidate and at least `log det R`; for the exact covariance of `k < m` sources with linearly independent
steering vectors (`σ > 0`) the true sources attain this bound. -/
theorem C54_aml_minimum (hk : k < m) :
    (∀ (R : Matrix (Fin m) (Fin m) ℂ), R.PosDef → ∀ B : Matrix (Fin m) (Fin k) ℂ, ∃ v : ℝ,
      amlObjective B R = .ok (v : WithTop ℝ) ∧ Real.log R.det.re ≤ v) ∧
    ∀ (A : Matrix (Fin m) (Fin k) ℂ), Function.Injective A.mulVec → ∀ (P : Matrix (Fin k) (Fin k) ℂ), P.PosSemidef →
      ∀ (σ : ℝ), 0 < σ →
      amlObjective A (covModel A P σ) = .ok ((Real.log (covModel A P σ).det.re : ℝ) : WithTop ℝ) := by
  constructor
  · intro R hR B
    obtain ⟨Q, -, -, -, h1, h2, -⟩ := aml_eval B hR hk
    exact ⟨_, h1, Real.log_le_log (Complex.lt_def.1 hR.det_pos).1 h2⟩
  · intro A hA P hP σ hσ
    obtain ⟨Q, h0, hQ, -, h1, h2, -⟩ := aml_eval A (covModel_posDef A hP hσ) hk
    obtain ⟨Q', h0', -, -, h4⟩ := projm_facts A
    have e : Q = Q' := Except.ok.inj (h0.symm.trans h0')
    have hfix : Q * A = A := by
      have := compl_mul hQ
      rw [Matrix.sub_mul, Matrix.one_mul, sub_eq_zero] at this
      exact this.symm
    have hfix' : Aᴴ * Q = Aᴴ := by
      have := congrArg conjTranspose hfix
      rwa [conjTranspose_mul, hQ.herm] at this
    have hmk : ((m : ℂ) - (k : ℂ)) ≠ 0 := by
      rw [sub_ne_zero]
      have : m ≠ k := by omega
      exact_mod_cast this
    have : amlH k Q (covModel A P σ) = covModel A P σ := by
      rw [amlH, cml_split, ← Matrix.mul_assoc, ← Matrix.mul_assoc, compl_mul hQ, e, h4 hA, ← e,
        Matrix.zero_mul, Matrix.zero_mul, trace_zero, zero_add, mul_div_assoc, div_self hmk, mul_one, covModel,
        Matrix.mul_add, Matrix.add_mul, Matrix.mul_smul, Matrix.smul_mul, Matrix.mul_one, hQ.idem]
      have : Q * (A * P * Aᴴ) * Q = (Q * A) * P * (Aᴴ * Q) := by simp only [Matrix.mul_assoc]
      rw [this, hfix, hfix', add_assoc, ← smul_add, add_sub_cancel]
    rw [h1, this]

/-- Two tall matrices have a common null vector when `k + k' < m`. -/
theorem exists_common_null {k' : ℕ} (A : Matrix (Fin m) (Fin k) ℂ) (B : Matrix (Fin m) (Fin k') ℂ) (h : k + k' < m) :
    ∃ x : Fin m → ℂ, x ≠ 0 ∧ Aᴴ *ᵥ x = 0 ∧ Bᴴ *ᵥ x = 0 := by
  let f : (Fin m → ℂ) →ₗ[ℂ] (Fin k → ℂ) × (Fin k' → ℂ) := (Aᴴ.mulVecLin).prod (Bᴴ.mulVecLin)
  have hf : LinearMap.ker f ≠ ⊥ := by
    apply LinearMap.ker_ne_bot_of_finrank_lt
    simpa using h
  obtain ⟨x, hx, hx0⟩ := Submodule.exists_mem_ne_zero_of_ne_bot hf
  rw [LinearMap.mem_ker] at hx
  refine ⟨x, hx0, ?_, ?_⟩
  · exact congrArg Prod.fst hx
  · exact congrArg Prod.snd hx

/-- **C54 (AML, uniqueness)**. If `2 k < m` and the source covariance is positive definite, candidates `B`
reach the minimum only if all true steering vectors lie in the span of the candidate steering vectors. -/
theorem C54_aml_unique {A : Matrix (Fin m) (Fin k) ℂ} {P : Matrix (Fin k) (Fin k) ℂ} (hP : P.PosDef) {σ : ℝ}
    (hσ : 0 < σ) (hk : 2 * k < m) (B : Matrix (Fin m) (Fin k) ℂ) {v : ℝ}
    (hB : amlObjective B (covModel A P σ) = .ok (v : WithTop ℝ))
    (hv : v ≤ Real.log (covModel A P σ).det.re) : ∀ x, ∃ y, A *ᵥ x = B *ᵥ y := by
  have hR := covModel_posDef A hP.posSemidef hσ
  obtain ⟨Q, h0, hQ, hPD, h1, h2, h3⟩ := aml_eval B hR (by omega : k < m)
  rw [h1] at hB
  have hv' := WithTop.coe_injective (Except.ok.inj hB)
  have hd1 := (Complex.lt_def.1 hR.det_pos).1
  have hd2 := (Complex.lt_def.1 hPD.det_pos).1
  simp only [Complex.zero_re] at hd1 hd2
  have heq : (covModel A P σ).det.re = (amlH k Q (covModel A P σ)).det.re :=
    Real.log_injOn_pos hd1 hd2 (le_antisymm (Real.log_le_log hd1 h2) (by rw [hv']; exact hv))
  have hRH := h3 heq
  set s := trace ((1 - Q) * covModel A P σ) / ((m : ℂ) - (k : ℂ)) with hs
  obtain ⟨x, hx0, hxA, hxB⟩ := exists_common_null A B (by omega : k + k < m)
  have hQx : Q *ᵥ x = 0 := hQ.kills x ((kills_iff B x).2 hxB)
  have hsσ : s = (σ : ℂ) := by
    have e1 : (covModel A P σ) *ᵥ x = (σ : ℂ) • x := by
      rw [covModel, add_mulVec, ← mulVec_mulVec, hxA, mulVec_zero, zero_add, smul_mulVec, one_mulVec]
    have e2 : (amlH k Q (covModel A P σ)) *ᵥ x = s • x := by
      rw [amlH, add_mulVec, ← mulVec_mulVec, hQx, mulVec_zero, zero_add, smul_mulVec, sub_mulVec, one_mulVec, hQx,
        sub_zero]
    rw [← hRH, e1] at e2
    have : ((σ : ℂ) - s) • x = 0 := by rw [sub_smul, e2, sub_self]
    rcases smul_eq_zero.1 this with h | h
    · exact (sub_eq_zero.1 h).symm
    · exact absurd h hx0
  have hh := compl_herm hQ.herm
  have hi := compl_idem hQ.idem
  have hQQ' : (1 - Q) * Q = 0 := by rw [Matrix.sub_mul, Matrix.one_mul, hQ.idem, sub_self]
  have hz : trace ((1 - Q) * (A * P * Aᴴ)) = 0 := by
    have e1 : (1 - Q) * covModel A P σ = (1 - Q) * amlH k Q (covModel A P σ) := congrArg _ hRH
    have e2 : (1 - Q) * amlH k Q (covModel A P σ) = (σ : ℂ) • (1 - Q) := by
      rw [amlH, ← hs, hsσ, Matrix.mul_add, Matrix.mul_smul, hi, ← Matrix.mul_assoc, ← Matrix.mul_assoc, hQQ',
        Matrix.zero_mul, Matrix.zero_mul, zero_add]
    rw [e2, covModel, Matrix.mul_add, Matrix.mul_smul, Matrix.mul_one] at e1
    have : (1 - Q) * (A * P * Aᴴ) = 0 := by
      have := congrArg (· - (σ : ℂ) • (1 - Q)) e1
      simpa using this
    rw [this, trace_zero]
  have hQA := trace_proj_zero hh hi hP hz
  intro x
  have hQ' : Q = B * npPinv B := (Except.ok.inj h0).symm
  refine ⟨npPinv B *ᵥ (A *ᵥ x), ?_⟩
  rw [mulVec_mulVec, mulVec_mulVec, ← hQ']
  rw [Matrix.sub_mul, Matrix.one_mul, sub_eq_zero] at hQA
  rw [← hQA]

/-! ### Uniform linear arrays: the objectives identify the directions -/

theorem ulaMat_perm {z : Fin k → ℂ} (e : Equiv.Perm (Fin k)) (x : Fin k → ℂ) :
    ulaMat m z *ᵥ x = ulaMat m (z ∘ e) *ᵥ (x ∘ e) := by
  funext i
  simp only [mulVec, dotProduct, ulaMat]
  exact (Equiv.sum_comp e fun c => z c ^ i.1 * x c).symm

theorem ula_span_perm {z w : Fin k → ℂ} (hz : Function.Injective z) (hk : k < m)
    (h : ∀ x, ∃ y, ulaMat m z *ᵥ x = ulaMat m w *ᵥ y) : ∃ e : Equiv.Perm (Fin k), w = z ∘ e := by
  have hA := ulaMat_injective (m := m) hz hk.le
  choose Y hY using fun c : Fin k => h (Pi.single c 1)
  let M : Matrix (Fin k) (Fin k) ℂ := Matrix.of fun i c => Y c i
  have hAM : ulaMat m z = ulaMat m w * M := by
    apply Matrix.ext_of_mulVec_single
    intro c
    rw [hY c, ← mulVec_mulVec, mulVec_single_one]
    rfl
  have hMinj : Function.Injective M.mulVec := by
    intro x y hxy
    apply hA
    rw [hAM, ← mulVec_mulVec, ← mulVec_mulVec, hxy]
  have hMu : IsUnit M := mulVec_injective_iff_isUnit.1 hMinj
  have hMd : IsUnit M.det := (isUnit_iff_isUnit_det _).1 hMu
  have hwinj : Function.Injective w := by
    intro i j hij
    by_contra hne
    have h1 : ulaMat m w *ᵥ (Pi.single i 1) = ulaMat m w *ᵥ (Pi.single j 1) := by
      rw [mulVec_single_one, mulVec_single_one]
      funext t
      simp [ulaMat, hij]
    have h2 : ∀ v, ulaMat m w *ᵥ v = ulaMat m z *ᵥ (M⁻¹ *ᵥ v) := by
      intro v
      rw [hAM, ← mulVec_mulVec, mulVec_mulVec v, Matrix.mul_nonsing_inv _ hMd, one_mulVec]
    rw [h2, h2] at h1
    have h3 := hA h1
    have h4 := mulVec_injective_of_isUnit ((isUnit_nonsing_inv_iff).2 hMu) h3
    have h5 := congrFun h4 i
    rw [Pi.single_eq_same, Pi.single_eq_of_ne hne] at h5
    exact one_ne_zero h5
  have hmem : ∀ c, ∃ c', z c = w c' := by
    intro c
    apply (ulaVec_mem_span hwinj hk (z c)).1
    obtain ⟨y, hy⟩ := h (Pi.single c 1)
    refine ⟨y, ?_⟩
    rw [← hy, mulVec_single_one]
    rfl
  choose f hf using hmem
  have hfinj : Function.Injective f := fun a b hab => hz (by rw [hf, hf, hab])
  let e : Equiv.Perm (Fin k) := Equiv.ofBijective f (Finite.injective_iff_bijective.1 hfinj)
  refine ⟨e.symm, ?_⟩
  funext c
  have : z (e.symm c) = w (e (e.symm c)) := hf _
  rw [e.apply_symm_apply] at this
  exact this.symm

/-- The steering matrices of two sets of sources of a ULA have nested spans iff the sources agree up to
order. -/
theorem ula_recover {d wl : ℝ} (hd : 0 < d) (hwl : 0 < wl) {s s' : FF1D k}
    (hs : Valid1D s) (hs' : Valid1D s') (hu : s'.unit = s.unit) (hinj : Function.Injective s.loc) (hk : k < m)
    (hamb : ∀ c c', d * |Real.sin (angleOf s.unit (s.loc c)) - Real.sin (angleOf s.unit (s.loc c'))| < wl)
    (hamb' : ∀ c c', d * |Real.sin (angleOf s.unit (s'.loc c)) - Real.sin (angleOf s.unit (s.loc c'))| < wl)
    (h : ∀ x, ∃ y, ulaMat m (fun c => phaseFactor d wl s.unit (s.loc c)) *ᵥ x =
      ulaMat m (fun c => phaseFactor d wl s'.unit (s'.loc c)) *ᵥ y) :
    ∃ e : Equiv.Perm (Fin k), ∀ c, s'.loc c = s.loc (e c) := by
  have hz : Function.Injective fun c => phaseFactor d wl s.unit (s.loc c) := fun c c' hcc =>
    hinj (phaseFactor_inj hd hwl (hs.2 c) (hs.2 c') (hamb c c') hcc)
  obtain ⟨e, he⟩ := ula_span_perm hz hk h
  refine ⟨e, fun c => ?_⟩
  have h1 := congrFun he c
  simp only [Function.comp, hu] at h1
  exact phaseFactor_inj hd hwl (hu ▸ hs'.2 c) (hs.2 _) (hamb' c (e c)) h1

/-- **C54 (ULA, end to end)**. A uniform linear array of `n > k` elements, spacing `d`, `k` distinct
far-field sources whose directions it does not alias (`d |sin θ - sin θ'| < λ`), uncorrelated-or-not
sources with positive definite covariance and `σ ≥ 0`: evaluating the objectives of the CML and WSF
estimators (steering matrices with the known perturbations, as the estimators compute them) at any valid
candidate gives a value at least the one at the true sources, and the same value exactly for the true
directions in some order. For AML the same holds if `σ > 0` and `2 k < n`. -/
theorem C54_ula (eigh : Eigh) {n : ℕ} {d wl : ℝ} (hd : 0 < d) (hwl : 0 < wl) {name : Option String} {a : GridArray}
    (ha : ula n (.scalar d) name {} = .ok a) (l : Fin a.toArrayDesign.element.outputSize)
    {s : FF1D k} (hs : Valid1D s) (hinj : Function.Injective s.loc)
    (hamb : ∀ c c', d * |Real.sin (angleOf s.unit (s.loc c)) - Real.sin (angleOf s.unit (s.loc c'))| < wl)
    (hk : k < a.toArrayDesign.size) {P : Matrix (Fin k) (Fin k) ℂ} (hP : P.PosDef) {σ : ℝ} (hσ : 0 ≤ σ) :
    ∃ A, mlEval a.toArrayDesign l wl (fun A => .ok A) s = .ok A ∧
    ∀ s' : FF1D k, Valid1D s' → s'.unit = s.unit →
      (∀ c c', d * |Real.sin (angleOf s.unit (s'.loc c)) - Real.sin (angleOf s.unit (s.loc c'))| < wl) →
      (∃ v v', mlEval a.toArrayDesign l wl (fun B => cmlObjective B (covModel A P σ)) s = .ok v ∧
        mlEval a.toArrayDesign l wl (fun B => cmlObjective B (covModel A P σ)) s' = .ok v' ∧ v ≤ v' ∧
        (v' = v ↔ ∃ e : Equiv.Perm (Fin k), ∀ c, s'.loc c = s.loc (e c))) ∧
      (∃ v v', mlEval a.toArrayDesign l wl (fun B => wsfObjective B (wsfM eigh (covModel A P σ) hk.le)) s = .ok v ∧
        mlEval a.toArrayDesign l wl (fun B => wsfObjective B (wsfM eigh (covModel A P σ) hk.le)) s' = .ok v' ∧ v ≤ v' ∧
        (v' = v ↔ ∃ e : Equiv.Perm (Fin k), ∀ c, s'.loc c = s.loc (e c))) ∧
      (0 < σ → 2 * k < a.toArrayDesign.size →
       ∃ v v' : ℝ, mlEval a.toArrayDesign l wl (fun B => amlObjective B (covModel A P σ)) s = .ok (v : WithTop ℝ) ∧
        mlEval a.toArrayDesign l wl (fun B => amlObjective B (covModel A P σ)) s' = .ok (v' : WithTop ℝ) ∧ v ≤ v' ∧
        (v' = v ↔ ∃ e : Equiv.Perm (Fin k), ∀ c, s'.loc c = s.loc (e c))) := by
  have : NeZero wl := ⟨hwl.ne'⟩
  have hev : ∀ (V : Type) (obj : Matrix (Fin a.toArrayDesign.size) (Fin k) ℂ → Res V) (t : FF1D k), Valid1D t →
      mlEval a.toArrayDesign l wl obj t =
        obj (ulaMat a.toArrayDesign.size fun c => phaseFactor d wl t.unit (t.loc c)) := by
    intro V obj t ht
    obtain ⟨S, h1, h2⟩ := ula_steering ha t ht wl "known" (by simp)
    simp only [mlEval, h1]
    congr 1
    ext i c
    exact h2 l i c
  have hz : Function.Injective fun c => phaseFactor d wl s.unit (s.loc c) := fun c c' hcc =>
    hinj (phaseFactor_inj hd hwl (hs.2 c) (hs.2 c') (hamb c c') hcc)
  refine ⟨_, hev _ _ s hs, ?_⟩
  intro s' hs' hu hamb'
  have hA := ulaMat_injective (m := a.toArrayDesign.size) hz hk.le
  have hrec := ula_recover (m := a.toArrayDesign.size) hd hwl hs hs' hu hinj hk hamb hamb'
  have hspan : (∃ e : Equiv.Perm (Fin k), ∀ c, s'.loc c = s.loc (e c)) →
      SameSpan (ulaMat a.toArrayDesign.size fun c => phaseFactor d wl s.unit (s.loc c))
        (ulaMat a.toArrayDesign.size fun c => phaseFactor d wl s'.unit (s'.loc c)) := by
    rintro ⟨e, he⟩ v
    have hw : (fun c => phaseFactor d wl s'.unit (s'.loc c)) = (fun c => phaseFactor d wl s.unit (s.loc c)) ∘ e := by
      funext c; simp only [Function.comp, hu, he]
    rw [hw]
    constructor
    · rintro ⟨x, rfl⟩
      exact ⟨_, ulaMat_perm e x⟩
    · rintro ⟨y, rfl⟩
      refine ⟨y ∘ e.symm, ?_⟩
      rw [ulaMat_perm e (y ∘ e.symm)]
      congr 1
      funext c
      simp
  refine ⟨?_, ?_, ?_⟩
  · obtain ⟨m1, m2⟩ := C54_cml_minimum hA hP.posSemidef hσ
    obtain ⟨v', b1, b2⟩ := m2 (ulaMat a.toArrayDesign.size fun c => phaseFactor d wl s'.unit (s'.loc c))
    refine ⟨_, v', (hev _ _ s hs).trans m1, (hev _ _ s' hs').trans b1, b2, ?_, ?_⟩
    · intro h
      exact hrec (C54_cml_unique hP hσ _ b1 h.le)
    · intro h
      obtain ⟨Q, -, c1, -, -, c2⟩ := C54_cml_value (ulaMat a.toArrayDesign.size fun c => phaseFactor d wl s.unit (s.loc c))
        (covModel (ulaMat a.toArrayDesign.size fun c => phaseFactor d wl s.unit (s.loc c)) P σ)
      have := c2 _ (hspan h)
      rw [b1, m1] at this
      exact Except.ok.inj this
  · obtain ⟨m1, m2⟩ := C54_wsf eigh hA hP hσ hk
    obtain ⟨v', b1, b2, b3, -⟩ := m2 (ulaMat a.toArrayDesign.size fun c => phaseFactor d wl s'.unit (s'.loc c))
    refine ⟨_, v', (hev _ _ s hs).trans m1, (hev _ _ s' hs').trans b1, b2, ?_, ?_⟩
    · intro h
      exact hrec (b3.1 h)
    · intro h
      refine b3.2 fun x => ?_
      exact (hspan h _).1 ⟨x, rfl⟩
  · intro hσ' h2k
    obtain ⟨m1, m2⟩ := C54_aml_minimum (m := a.toArrayDesign.size) hk
    have hR := covModel_posDef (ulaMat a.toArrayDesign.size fun c => phaseFactor d wl s.unit (s.loc c)) hP.posSemidef hσ'
    have m3 := m2 _ hA P hP.posSemidef σ hσ'
    obtain ⟨v', b1, b2⟩ := m1 _ hR (ulaMat a.toArrayDesign.size fun c => phaseFactor d wl s'.unit (s'.loc c))
    refine ⟨_, v', (hev _ _ s hs).trans m3, (hev _ _ s' hs').trans b1, b2, ?_, ?_⟩
    · intro h
      exact hrec (C54_aml_unique hP hσ' h2k _ b1 h.le)
    · intro h
      obtain ⟨Q, c0, c1, -, -⟩ := projm_facts (ulaMat a.toArrayDesign.size fun c => phaseFactor d wl s.unit (s.loc c))
      obtain ⟨Q', c0', c1', -, -⟩ := projm_facts (ulaMat a.toArrayDesign.size fun c => phaseFactor d wl s'.unit (s'.loc c))
      have e : Q = Q' := c1.sameSpan c1' (hspan h)
      have e2 : amlObjective (ulaMat a.toArrayDesign.size fun c => phaseFactor d wl s'.unit (s'.loc c))
          (covModel (ulaMat a.toArrayDesign.size fun c => phaseFactor d wl s.unit (s.loc c)) P σ) =
          amlObjective (ulaMat a.toArrayDesign.size fun c => phaseFactor d wl s.unit (s.loc c))
          (covModel (ulaMat a.toArrayDesign.size fun c => phaseFactor d wl s.unit (s.loc c)) P σ) := by
        simp only [amlObjective, c0, c0', e]
      rw [b1, m3] at e2
      exact WithTop.coe_injective (Except.ok.inj e2)

/-- **C54 (AML, limit)**. The restriction `2 k < n` cannot be dropped: with two elements and one source
with phase factor `z`, the direction with phase factor `-z` has the same, globally minimal, AML value. -/
theorem C54_aml_ambiguous {z : ℂ} (hz : z * star z = 1) {p σ : ℝ} (hp : 0 < p) (hσ : 0 < σ) :
    amlObjective (ulaMat 2 fun _ : Fin 1 => -z) (covModel (ulaMat 2 fun _ : Fin 1 => z) (diagonal fun _ => (p : ℂ)) σ) =
    amlObjective (ulaMat 2 fun _ : Fin 1 => z) (covModel (ulaMat 2 fun _ : Fin 1 => z) (diagonal fun _ => (p : ℂ)) σ) ∧
    ¬ ∃ y, ulaVec 2 (-z) = (ulaMat 2 fun _ : Fin 1 => z) *ᵥ y := by
  have hz0 : z ≠ 0 := by rintro rfl; simp at hz
  have hz' : star z * z = 1 := by rw [mul_comm]; exact hz
  have hinj : Function.Injective (ulaMat 2 fun _ : Fin 1 => z).mulVec :=
    ulaMat_injective (fun i j _ => Subsingleton.elim _ _) (by norm_num)
  have hP : (diagonal fun _ : Fin 1 => (p : ℂ)).PosDef := by
    rw [posDef_diagonal_iff]; intro _; exact Complex.zero_lt_real.2 hp
  have hR := covModel_posDef (ulaMat 2 fun _ : Fin 1 => z) hP.posSemidef hσ
  constructor
  · rw [(C54_aml_minimum (m := 2) (k := 1) (by norm_num)).2 _ hinj _ hP.posSemidef σ hσ]
    obtain ⟨Q, h1, h2, -, h3, -, -⟩ := aml_eval (ulaMat 2 fun _ : Fin 1 => -z) hR (by norm_num)
    have hQ : Q = Matrix.of fun i j : Fin 2 => (1 / 2 : ℂ) * ((-z) ^ i.1 * star ((-z) ^ j.1)) := by
      refine h2.unique (isProjOnto_of (X := (1 / 2 : ℂ) • 1) ?_ ?_ ?_)
      · ext i j
        simp [Matrix.mul_apply, ulaMat]
        ring
      · simp [conjTranspose_smul]
      · ext i j
        fin_cases i
        · simp [Matrix.mul_apply, ulaMat, Fin.sum_univ_two]
          rw [Complex.star_def] at hz'
          linear_combination (1 / 2 : ℂ) * hz'
        · simp [Matrix.mul_apply, ulaMat, Fin.sum_univ_two]
          rw [Complex.star_def] at hz'
          linear_combination (-z / 2 : ℂ) * hz'
    have hw : star z = z⁻¹ := eq_inv_of_mul_eq_one_left hz'
    have hQ' : Q = !![1 / 2, -z⁻¹ / 2; -z / 2, 1 / 2] := by
      rw [hQ]
      ext i j
      fin_cases i <;> fin_cases j <;> simp [← Complex.star_def, hw] <;> field_simp
    have hRe : covModel (ulaMat 2 fun _ : Fin 1 => z) (diagonal fun _ => (p : ℂ)) σ =
        !![(p : ℂ) + σ, p * z⁻¹; p * z, p + σ] := by
      ext i j
      fin_cases i <;> fin_cases j <;>
        simp [covModel, Matrix.mul_apply, ulaMat, diagonal, Matrix.smul_apply, ← Complex.star_def, hw] <;> field_simp
    have e : amlH 1 Q (covModel (ulaMat 2 fun _ : Fin 1 => z) (diagonal fun _ => (p : ℂ)) σ) =
        covModel (ulaMat 2 fun _ : Fin 1 => z) (diagonal fun _ => (p : ℂ)) σ := by
      have h21 : ((2 : ℕ) : ℂ) - ((1 : ℕ) : ℂ) = 1 := by norm_num
      rw [amlH, h21, div_one, hRe, hQ', Matrix.one_fin_two, trace_fin_two]
      ext i j
      fin_cases i <;> fin_cases j <;> simp [Matrix.mul_apply, Fin.sum_univ_two] <;> field_simp <;> ring
    rw [h3, e]
  · rw [ulaVec_mem_span (fun i j _ => Subsingleton.elim _ _) (by norm_num)]
    rintro ⟨_, h⟩
    have : (2 : ℂ) * z = 0 := by linear_combination -h
    simp [hz0] at this

/-- **C54 (likelihood function)**, what holds of `f_nll_stouc`: for nonnegative powers and `σ > 0` the
model covariance `S` is positive definite, so `log det S + tr(S⁻¹ R)` is defined; the function returns it if
`det S ≥ 1` but infinity if `det S < 1`. Missing: the value in the latter case. -/
theorem C54_nll_partial (R : Matrix (Fin m) (Fin m) ℂ) (A : Matrix (Fin m) (Fin k) ℂ) {p : Fin k → ℝ} (hp : ∀ c, 0 ≤ p c)
    {σ : ℝ} (hσ : 0 < σ) :
    (covModel A (diagonal fun c => (p c : ℂ)) σ).PosDef ∧
    (1 ≤ (covModel A (diagonal fun c => (p c : ℂ)) σ).det.re → nllStouc R A p σ =
      .ok (((Real.log (covModel A (diagonal fun c => (p c : ℂ)) σ).det.re : ℝ) +
        trace ((covModel A (diagonal fun c => (p c : ℂ)) σ)⁻¹ * R) : ℂ) : WithTop ℂ)) ∧
    ((covModel A (diagonal fun c => (p c : ℂ)) σ).det.re < 1 → nllStouc R A p σ = .ok ⊤) := by
  have hP : (diagonal fun c => (p c : ℂ)).PosSemidef := by
    rw [posSemidef_diagonal_iff]; intro c; exact Complex.zero_le_real.2 (hp c)
  have hS := covModel_posDef A hP hσ
  have e : (Matrix.of fun i c => A i c * (p c : ℂ)) * Aᴴ + (σ : ℂ) • (1 : Matrix (Fin m) (Fin m) ℂ) =
      covModel A (diagonal fun c => (p c : ℂ)) σ := by
    rw [covModel]
    congr 2
    ext i c
    rw [mul_diagonal]
    rfl
  have hd := Complex.lt_def.1 hS.det_pos
  simp only [Complex.zero_re, Complex.zero_im] at hd
  have hn : ‖(covModel A (diagonal fun c => (p c : ℂ)) σ).det‖ = (covModel A (diagonal fun c => (p c : ℂ)) σ).det.re := by
    have : (covModel A (diagonal fun c => (p c : ℂ)) σ).det = (((covModel A (diagonal fun c => (p c : ℂ)) σ).det.re : ℝ) : ℂ) :=
      Complex.ext rfl hd.2.symm
    rw [this, Complex.norm_real, Real.norm_eq_abs, abs_of_pos (by simpa using hd.1)]
    simp
  refine ⟨hS, ?_, ?_⟩
  · intro h1
    have h2 := Real.log_nonneg h1
    have hu : IsUnit (covModel A (diagonal fun c => (p c : ℂ)) σ).det := (isUnit_iff_isUnit_det _).1 hS.isUnit
    simp only [nllStouc, e, hn]
    rw [if_neg, npSolve, if_pos hu]
    push Not
    exact ⟨hd.1.le, hu.ne_zero, h2⟩
  · intro h1
    have h2 := Real.log_neg hd.1 h1
    simp only [nllStouc, e, hn]
    rw [if_pos (Or.inr (Or.inr h2))]

/-- The likelihood is reported as infinite for one element, no source and noise power 1/2, where it is
`log (1/2) + 2 R`. -/
theorem C54_nll_infinite (R : Matrix (Fin 1) (Fin 1) ℂ) :
    nllStouc R (0 : Matrix (Fin 1) (Fin 0) ℂ) Fin.elim0 (1 / 2) = .ok ⊤ := by
  apply (C54_nll_partial R _ (fun c => c.elim0) (by norm_num)).2.2
  norm_num [covModel, Matrix.smul_apply]

/-! ### The hypotheses can be met -/

theorem twoSources_inj : Function.Injective (ulaMat 5 ![1, Complex.I]).mulVec :=
  ulaMat_injective (by
    intro a b h
    fin_cases a <;> fin_cases b <;> simp_all [Complex.ext_iff]) (by norm_num)

example : cmlObjective (ulaMat 5 ![1, Complex.I]) (covModel (ulaMat 5 ![1, Complex.I]) 1 2) = .ok 6 := by
  rw [(C54_cml_minimum twoSources_inj PosDef.one.posSemidef (by norm_num)).1]
  norm_num

example : wsfObjective (ulaMat 5 ![1, Complex.I])
    (wsfM someEigh (covModel (ulaMat 5 ![1, Complex.I]) 1 2) (by norm_num : 2 ≤ 5)) = .ok 0 := (C54_wsf someEigh twoSources_inj PosDef.one (by norm_num) (by norm_num)).1

/-- A wrong candidate has a strictly larger CML value. -/
example : ∃ v, cmlObjective (ulaMat 5 ![1, -1]) (covModel (ulaMat 5 ![1, Complex.I]) 1 2) = .ok v ∧ 6 < v := by
  obtain ⟨v, h1, h2⟩ := (C54_cml_minimum (m := 5) twoSources_inj PosDef.one.posSemidef (σ := 2) (by norm_num)).2
    (ulaMat 5 ![1, -1])
  norm_num at h2
  refine ⟨v, h1, lt_of_le_of_ne h2 ?_⟩
  rintro rfl
  have h3 := C54_cml_unique PosDef.one (by norm_num) _ h1 (by norm_num)
  obtain ⟨y, hy⟩ := h3 (Pi.single 1 1)
  have h4 : ∃ x, ulaVec 5 Complex.I = ulaMat 5 ![1, -1] *ᵥ x := ⟨y, by rw [← hy, mulVec_single_one]; rfl⟩
  rw [ulaVec_mem_span (by
    intro a b h
    fin_cases a <;> fin_cases b <;> first | rfl | (exfalso; norm_num [Complex.ext_iff] at h)) (by norm_num)] at h4
  obtain ⟨c, hc⟩ := h4
  fin_cases c <;> simp [Complex.ext_iff] at hc

example : (-Complex.I : ℂ) * star (-Complex.I : ℂ) = 1 := by simp

example : ∃ (a : GridArray) (l : Fin a.toArrayDesign.element.outputSize) (A : Matrix (Fin a.toArrayDesign.size) (Fin 2) ℂ),
    ula 5 (.scalar (1 / 2)) none {} = .ok a ∧
    (∃ v v', mlEval a.toArrayDesign l 1 (fun B => cmlObjective B (covModel A 1 3)) ⟨![0.7, -0.4], "sin"⟩ = .ok v ∧
      mlEval a.toArrayDesign l 1 (fun B => cmlObjective B (covModel A 1 3)) ⟨![0.6, -0.4], "sin"⟩ = .ok v' ∧ v < v') := by
  obtain ⟨a, ha⟩ := ula_ok 5 (1 / 2) none
  have hel : a.element = .isotropicScalar := (gridInit_spec ha).2.2.1
  have hl : 0 < a.toArrayDesign.element.outputSize := by
    have : a.toArrayDesign.element = .isotropicScalar := hel
    rw [this]; decide
  have hsz : a.toArrayDesign.size = 5 := (C01_ula_geometry 5 (1 / 2) none {} a ha).1
  have hs : ∀ x : ℝ, -1 ≤ x → x ≤ 1 → Real.sin (angleOf "sin" x) = x := by
    intro x h1 h2
    simp only [angleOf, String.reduceEq, if_false, if_true]
    exact Real.sin_arcsin h1 h2
  obtain ⟨A, -, h⟩ := C54_ula someEigh (d := 1 / 2) (wl := 1) (by norm_num) (by norm_num) ha ⟨0, hl⟩ (k := 2)
    (s := ⟨![0.7, -0.4], "sin"⟩)
    ⟨Or.inr (Or.inr rfl), fun c => Or.inr (Or.inr ⟨rfl, by fin_cases c <;> norm_num⟩)⟩
    (by intro c e h; fin_cases c <;> fin_cases e <;> first | rfl | (norm_num at h))
    (by
      intro c e
      fin_cases c <;> fin_cases e <;> simp <;> repeat rw [hs _ (by norm_num) (by norm_num)] <;> norm_num [abs_lt])
    (by omega) PosDef.one (σ := 3) (by norm_num)
  obtain ⟨⟨v, v', h1, h2, h3, h4⟩, -⟩ := h ⟨![0.6, -0.4], "sin"⟩
    ⟨Or.inr (Or.inr rfl), fun c => Or.inr (Or.inr ⟨rfl, by fin_cases c <;> norm_num⟩)⟩ rfl
    (by
      intro c e
      fin_cases c <;> fin_cases e <;> simp <;> repeat rw [hs _ (by norm_num) (by norm_num)] <;> norm_num [abs_lt])
  refine ⟨a, ⟨0, hl⟩, A, ha, v, v', h1, h2, lt_of_le_of_ne h3 ?_⟩
  intro he
  obtain ⟨e, h5⟩ := h4.1 he.symm
  have h6 := h5 0
  have h7 : ∀ i : Fin 2, (0.6 : ℝ) ≠ (![0.7, -0.4] : Fin 2 → ℝ) i := by intro i; fin_cases i <;> norm_num
  exact h7 _ h6

end Doa.Props
