import Mathlib.MeasureTheory.Function.L2Space
import Mathlib.MeasureTheory.Integral.Bochner.ContinuousLinearMap
import Mathlib.Analysis.Matrix.Order
import Verif.Model.Signals
import Verif.Props.Subspace

/-!
# Signals and snapshots: C56, C57
-/

namespace Doa.Props

open Doa Matrix MeasureTheory
open scoped ComplexOrder

/-- The contract of `scipy.linalg.sqrtm`: the principal square root of a positive semidefinite matrix. -/
def IsSqrtm (sqrtm : Sqrtm) : Prop :=
  ∀ {k : ℕ} (C : Matrix (Fin k) (Fin k) ℂ), C.PosSemidef → (sqrtm C).PosSemidef ∧ sqrtm C * sqrtm C = C

/-- A function meeting the contract. -/
noncomputable def someSqrtm : Sqrtm := fun C => open scoped MatrixOrder in CFC.sqrt C

theorem someSqrtm_spec : IsSqrtm someSqrtm := by
  open scoped MatrixOrder in
  intro k C hC
  exact ⟨(CFC.sqrt_nonneg C).posSemidef, CFC.sqrt_mul_sqrt_self C hC.nonneg⟩

/-! ### White draws -/

/-- Random draws with mean zero and variance one that are pairwise uncorrelated; this is what
`np.random.randn` promises. -/
structure White {Ω ι : Type} [MeasurableSpace Ω] [DecidableEq ι] (μ : Measure Ω) (g : ι → Ω → ℝ) : Prop where
  memLp : ∀ i, MemLp (g i) 2 μ
  mean : ∀ i, ∫ ω, g i ω ∂μ = 0
  cov : ∀ i j, ∫ ω, g i ω * g j ω ∂μ = if i = j then 1 else 0

section white

variable {Ω ι : Type} [MeasurableSpace Ω] [DecidableEq ι] [Fintype ι] {μ : Measure Ω} {g : ι → Ω → ℝ}

theorem White.integrable_mul (h : White μ g) (i j : ι) : Integrable (fun ω => ((g i ω * g j ω : ℝ) : ℂ)) μ :=
  ((h.memLp i).integrable_mul (h.memLp j)).ofReal

theorem White.integral_mul (h : White μ g) (i j : ι) :
    ∫ ω, ((g i ω * g j ω : ℝ) : ℂ) ∂μ = if i = j then 1 else 0 := by
  rw [integral_complex_ofReal, h.cov]
  split <;> simp

theorem White.lin_mul (h : White μ g) (a b : ι → ℂ) :
    Integrable (fun ω => (∑ i, a i * (g i ω : ℂ)) * ∑ j, b j * (g j ω : ℂ)) μ ∧
    ∫ ω, (∑ i, a i * (g i ω : ℂ)) * ∑ j, b j * (g j ω : ℂ) ∂μ = ∑ i, a i * b i := by
  have e : (fun ω => (∑ i, a i * (g i ω : ℂ)) * ∑ j, b j * (g j ω : ℂ)) =
      fun ω => ∑ i, ∑ j, (a i * b j) * ((g i ω * g j ω : ℝ) : ℂ) := by
    funext ω
    rw [Finset.sum_mul_sum]
    refine Finset.sum_congr rfl fun i _ => Finset.sum_congr rfl fun j _ => ?_
    push_cast; ring
  rw [e]
  have hi : ∀ i j, Integrable (fun ω => (a i * b j) * ((g i ω * g j ω : ℝ) : ℂ)) μ :=
    fun i j => (h.integrable_mul i j).const_mul _
  refine ⟨integrable_finsetSum _ fun i _ => integrable_finsetSum _ fun j _ => hi i j, ?_⟩
  rw [integral_finsetSum _ fun i _ => integrable_finsetSum _ fun j _ => hi i j]
  refine Finset.sum_congr rfl fun i _ => ?_
  rw [integral_finsetSum _ fun j _ => hi i j]
  simp only [integral_const_mul, h.integral_mul]
  simp

theorem White.lin_star (h : White μ g) (a b : ι → ℂ) :
    Integrable (fun ω => (∑ i, a i * (g i ω : ℂ)) * star (∑ j, b j * (g j ω : ℂ))) μ ∧
    ∫ ω, (∑ i, a i * (g i ω : ℂ)) * star (∑ j, b j * (g j ω : ℂ)) ∂μ = ∑ i, a i * star (b i) := by
  have e : ∀ ω, star (∑ j, b j * (g j ω : ℂ)) = ∑ j, star (b j) * (g j ω : ℂ) := by
    intro ω
    rw [star_sum]
    refine Finset.sum_congr rfl fun j _ => ?_
    simp
  simp only [e]
  exact h.lin_mul a fun j => star (b j)

theorem White.lin_mean [IsProbabilityMeasure μ] (h : White μ g) (a : ι → ℂ) :
    ∫ ω, ∑ i, a i * (g i ω : ℂ) ∂μ = 0 := by
  have hi : ∀ i, Integrable (fun ω => a i * (g i ω : ℂ)) μ := fun i =>
    (((h.memLp i).integrable (by norm_num)).ofReal).const_mul _
  rw [integral_finsetSum _ fun i _ => hi i]
  refine Finset.sum_eq_zero fun i _ => ?_
  rw [integral_const_mul, integral_complex_ofReal, h.mean]
  simp

end white

/-! ### C56: stochastic signals -/

/-- The covariance matrix denoted by the argument `C` for dimension `dim`. -/
def Denotes (dim : ℕ) : CovArg → Matrix (Fin dim) (Fin dim) ℂ → Prop
  | .scalar c, M => M = Matrix.of fun i j => if i = j then (c : ℂ) else 0
  | .vector c, M => c.length = dim ∧ M = Matrix.of fun i j => if i = j then ((c.getD i.1 0 : ℝ) : ℂ) else 0
  | .matrix C, M => C = ⟨dim, dim, M⟩
  | _, _ => False

/-- **C56** (accepted covariances). The constructor accepts exactly the scalars, the vectors of length `dim`
and the `dim × dim` matrices; other arrays raise `ValueError`, a list raises `AttributeError`. -/
theorem C56_accepts (sqrtm : Sqrtm) (dim : ℕ) (C : CovArg) :
    ((∃ g, stoInit sqrtm dim C = .ok g) ↔ ∃ M, Denotes dim C M) ∧
    (∀ e, stoInit sqrtm dim C = .error e → e = .valueError ∨ ∃ l, C = .list l) := by
  cases C with
  | scalar c => exact ⟨⟨fun _ => ⟨_, rfl⟩, fun _ => ⟨_, rfl⟩⟩, fun e h => by simp [stoInit] at h⟩
  | list l => exact ⟨⟨fun ⟨g, h⟩ => by simp [stoInit] at h, fun ⟨M, h⟩ => h.elim⟩, fun e h => Or.inr ⟨l, rfl⟩⟩
  | nd k => exact ⟨⟨fun ⟨g, h⟩ => by simp [stoInit] at h, fun ⟨M, h⟩ => h.elim⟩,
      fun e h => Or.inl (by simpa [stoInit] using h.symm)⟩
  | vector c =>
    by_cases h : c.length = dim
    · refine ⟨⟨fun _ => ⟨_, h, rfl⟩, fun _ => ⟨_, if_neg (not_not.2 h)⟩⟩, fun e he => by simp [stoInit, h] at he⟩
    · refine ⟨⟨fun ⟨g, hg⟩ => by simp [stoInit, h] at hg, fun ⟨M, hM⟩ => absurd hM.1 h⟩, fun e he => ?_⟩
      simp [stoInit, h] at he
      exact Or.inl he.symm
  | matrix C =>
    obtain ⟨r, c, A⟩ := C
    by_cases h : r ≠ dim ∨ c ≠ dim
    · have he0 : stoInit sqrtm dim (.matrix ⟨r, c, A⟩) = .error .valueError := dif_pos h
      rw [he0]
      refine ⟨⟨?_, ?_⟩, ?_⟩
      · rintro ⟨g, hg⟩; cases hg
      · rintro ⟨M, hM⟩; cases hM; simp at h
      · intro e he; cases he; exact Or.inl rfl
    · have h' := not_or.1 h
      rw [not_not, not_not] at h'
      obtain ⟨rfl, rfl⟩ := h'
      have he0 : stoInit sqrtm c (.matrix ⟨c, c, A⟩) = .ok (.matrix (sqrtm A)) := dif_neg h
      rw [he0]
      exact ⟨⟨fun _ => ⟨A, rfl⟩, fun _ => ⟨_, rfl⟩⟩, fun e he => by cases he⟩

/-- Every emission is a fixed matrix `B` with `B Bᴴ = C` times circular white numbers. -/
theorem emit_factor {sqrtm : Sqrtm} (hs : IsSqrtm sqrtm) {dim : ℕ} {C : CovArg} {g : StoGen dim}
    (hg : stoInit sqrtm dim C = .ok g) {M : Matrix (Fin dim) (Fin dim) ℂ} (hM : Denotes dim C M) (hp : M.PosSemidef) :
    ∃ B : Matrix (Fin dim) (Fin dim) ℂ, B * Bᴴ = M ∧ ∀ n im re, g.emit n im re = B * randcn im re := by
  have hdiag : ∀ d : Fin dim → ℝ, (∀ i, 0 ≤ d i) → M = diagonal (fun i => (d i : ℂ)) →
      ∃ B : Matrix (Fin dim) (Fin dim) ℂ, B * Bᴴ = M ∧
        ∀ n (W : Matrix (Fin dim) (Fin n) ℂ), (Matrix.of fun i t => (Real.sqrt (d i) : ℂ) * W i t) = B * W := by
    intro d hd hMd
    refine ⟨diagonal fun i => (Real.sqrt (d i) : ℂ), ?_, ?_⟩
    · rw [diagonal_conjTranspose, diagonal_mul_diagonal, hMd]
      congr 1
      funext i
      simp only [Pi.star_apply, Complex.star_def, Complex.conj_ofReal]
      rw [← Complex.ofReal_mul, Real.mul_self_sqrt (hd i)]
    · intro n W
      ext i t
      rw [diagonal_mul]
      rfl
  cases C with
  | list l => exact hM.elim
  | nd k => exact hM.elim
  | scalar c =>
    have hMd : M = diagonal fun _ => (c : ℂ) := by rw [hM]; ext i j; simp [diagonal_apply]
    simp only [stoInit, Except.ok.injEq] at hg
    subst hg
    by_cases hd : Nonempty (Fin dim)
    · obtain ⟨i⟩ := hd
      have hc : 0 ≤ c := by
        have := hp.diag_nonneg (i := i)
        rw [hMd, diagonal_apply_eq] at this
        exact Complex.zero_le_real.1 this
      obtain ⟨B, h1, h2⟩ := hdiag (fun _ => c) (fun _ => hc) hMd
      exact ⟨B, h1, fun n im re => h2 n _⟩
    · rw [not_nonempty_iff] at hd
      exact ⟨0, by ext i; exact (hd.false i).elim, fun n im re => by ext i; exact (hd.false i).elim⟩
  | vector c =>
    obtain ⟨hl, hM⟩ := hM
    have hMd : M = diagonal fun i : Fin dim => ((c.getD i.1 0 : ℝ) : ℂ) := by rw [hM]; ext i j; simp [diagonal_apply]
    have hc : ∀ i : Fin dim, 0 ≤ c.getD i 0 := by
      intro i
      have := hp.diag_nonneg (i := i)
      rw [hMd, diagonal_apply_eq] at this
      exact Complex.zero_le_real.1 this
    simp only [stoInit, ne_eq, hl, not_true_eq_false, if_false, Except.ok.injEq] at hg
    subst hg
    obtain ⟨B, h1, h2⟩ := hdiag (fun i => c.getD i 0) hc hMd
    exact ⟨B, h1, fun n im re => h2 n _⟩
  | matrix C =>
    cases hM
    have h : ¬ (dim ≠ dim ∨ dim ≠ dim) := by simp
    simp only [stoInit, dif_neg h, Except.ok.injEq] at hg
    subst hg
    obtain ⟨h1, h2⟩ := hs M hp
    refine ⟨sqrtm M, ?_, fun n im re => rfl⟩
    rw [h1.isHermitian.eq, h2]

/-- The coefficient of draw `(b, c, s)` (`b`: imaginary part) in the entry `(i, t)` of `B * randcn`. -/
noncomputable def drawCoef {dim n : ℕ} {r : ℕ} (B : Matrix (Fin r) (Fin dim) ℂ) (i : Fin r) (t : Fin n)
    (q : Bool × Fin dim × Fin n) : ℂ :=
  if q.2.2 = t then B i q.2.1 * ((Real.sqrt (1 / 2) : ℂ) * if q.1 then Complex.I else 1) else 0

theorem mul_randcn {dim n r : ℕ} (B : Matrix (Fin r) (Fin dim) ℂ) (im re : Matrix (Fin dim) (Fin n) ℝ) (i : Fin r) (t : Fin n) :
    (B * randcn im re) i t = ∑ q : Bool × Fin dim × Fin n, drawCoef B i t q * ((if q.1 then im q.2.1 q.2.2 else re q.2.1 q.2.2 : ℝ) : ℂ) := by
  rw [Fintype.sum_prod_type]
  simp only [Fintype.sum_bool, Fintype.sum_prod_type, drawCoef, Matrix.mul_apply, ite_mul, zero_mul, Finset.sum_ite_eq',
    Finset.mem_univ, if_true, Bool.false_eq_true, if_false]
  rw [← Finset.sum_add_distrib]
  refine Finset.sum_congr rfl fun c _ => ?_
  simp only [randcn, Matrix.of_apply]
  ring

theorem half_sq : ((Real.sqrt (1 / 2) : ℝ) : ℂ) * (Real.sqrt (1 / 2) : ℝ) = 1 / 2 := by
  rw [← Complex.ofReal_mul, Real.mul_self_sqrt (by norm_num)]
  norm_num

theorem drawCoef_star {dim n r : ℕ} (B B' : Matrix (Fin r) (Fin dim) ℂ) (i j : Fin r) (t s : Fin n) :
    ∑ q : Bool × Fin dim × Fin n, drawCoef B i t q * star (drawCoef B' j s q) = if t = s then (B * B'ᴴ) i j else 0 := by
  rw [Fintype.sum_prod_type]
  simp only [Fintype.sum_bool, Fintype.sum_prod_type, drawCoef, Bool.false_eq_true, if_false, if_true, ite_mul, zero_mul,
    Finset.sum_ite_eq', Finset.mem_univ]
  by_cases h : t = s
  · subst h
    simp only [if_true, Matrix.mul_apply, Matrix.conjTranspose_apply]
    rw [← Finset.sum_add_distrib]
    refine Finset.sum_congr rfl fun c _ => ?_
    simp only [star_mul', Complex.star_def, Complex.conj_ofReal, Complex.conj_I, map_one]
    linear_combination (B i c * (starRingEnd ℂ) (B' j c) * (1 - Complex.I * Complex.I)) * half_sq -
      (B i c * (starRingEnd ℂ) (B' j c)) / 2 * Complex.I_mul_I
  · simp [h]

theorem drawCoef_mul {dim n r : ℕ} (B B' : Matrix (Fin r) (Fin dim) ℂ) (i j : Fin r) (t s : Fin n) :
    ∑ q : Bool × Fin dim × Fin n, drawCoef B i t q * drawCoef B' j s q = 0 := by
  rw [Fintype.sum_prod_type]
  simp only [Fintype.sum_bool, Fintype.sum_prod_type, drawCoef, Bool.false_eq_true, if_false, if_true, ite_mul, zero_mul,
    Finset.sum_ite_eq', Finset.mem_univ]
  by_cases h : t = s
  · subst h
    simp only [if_true]
    rw [← Finset.sum_add_distrib]
    refine Finset.sum_eq_zero fun c _ => ?_
    linear_combination (B i c * B' j c * (Real.sqrt (1 / 2) : ℂ) * (Real.sqrt (1 / 2) : ℂ)) * Complex.I_mul_I
  · simp [h]

/-- **C56** (distribution of stochastic signals). Let `C` denote the positive semidefinite matrix `M`. If the
numbers drawn by `np.random.randn` are white, the emitted samples have mean zero, the samples of one snapshot
have covariance `M`, those of different snapshots are uncorrelated, and the signal is circular (zero
pseudo-covariance). -/
theorem C56_covariance {sqrtm : Sqrtm} (hs : IsSqrtm sqrtm) {dim : ℕ} {C : CovArg} {g : StoGen dim}
    (hg : stoInit sqrtm dim C = .ok g) {M : Matrix (Fin dim) (Fin dim) ℂ} (hM : Denotes dim C M) (hp : M.PosSemidef)
    {Ω : Type} [MeasurableSpace Ω] (μ : Measure Ω) [IsProbabilityMeasure μ] (n : ℕ)
    (im re : Ω → Matrix (Fin dim) (Fin n) ℝ)
    (hw : White μ fun (q : Bool × Fin dim × Fin n) ω => if q.1 then im ω q.2.1 q.2.2 else re ω q.2.1 q.2.2)
    (i j : Fin dim) (t s : Fin n) :
    ∫ ω, g.emit n (im ω) (re ω) i t ∂μ = 0 ∧
    ∫ ω, g.emit n (im ω) (re ω) i t * star (g.emit n (im ω) (re ω) j s) ∂μ = (if t = s then M i j else 0) ∧
    ∫ ω, g.emit n (im ω) (re ω) i t * g.emit n (im ω) (re ω) j s ∂μ = 0 := by
  obtain ⟨B, hB, he⟩ := emit_factor hs hg hM hp
  simp only [he, mul_randcn]
  refine ⟨hw.lin_mean _, ?_, ?_⟩
  · rw [(hw.lin_star _ _).2, drawCoef_star, hB]
  · rw [(hw.lin_mul _ _).2, drawCoef_mul]

/-- White draws exist for every finite family. -/
theorem exists_white (ι : Type) [DecidableEq ι] [Fintype ι] [Nonempty ι] :
    ∃ (Ω : Type) (_ : MeasurableSpace Ω) (μ : Measure Ω) (_ : IsProbabilityMeasure μ) (g : ι → Ω → ℝ), White μ g := by
  let : MeasurableSpace (ι × Bool) := ⊤
  have hcard : (0 : ℝ) < Fintype.card ι := by exact_mod_cast Fintype.card_pos
  let N : ENNReal := (Fintype.card (ι × Bool) : ENNReal)
  have hN : N ≠ 0 := by simp [N]
  have hN' : N ≠ ⊤ := ENNReal.natCast_ne_top _
  let μ : Measure (ι × Bool) := N⁻¹ • Measure.count
  have hμ : IsProbabilityMeasure μ := ⟨by
    rw [Measure.smul_apply, Measure.count_univ, ENat.card_eq_coe_fintype_card]
    exact ENNReal.inv_mul_cancel hN hN'⟩
  have hint : ∀ f : ι × Bool → ℝ, ∫ ω, f ω ∂μ = (2 * (Fintype.card ι : ℝ))⁻¹ * ∑ j, (f (j, true) + f (j, false)) := by
    intro f
    rw [integral_smul_measure, integral_count, Fintype.sum_prod_type]
    simp only [Fintype.sum_bool, smul_eq_mul]
    congr 1
    simp [N, mul_comm]
  let g : ι → ι × Bool → ℝ := fun i ω => if ω.1 = i then (if ω.2 then Real.sqrt (Fintype.card ι) else -Real.sqrt (Fintype.card ι)) else 0
  refine ⟨ι × Bool, _, μ, hμ, g, ⟨fun i => MemLp.of_discrete, fun i => ?_, fun i j => ?_⟩⟩
  · rw [hint]
    simp only [g]
    rw [Finset.sum_eq_zero, mul_zero]
    intro l _
    by_cases h : l = i <;> simp [h]
  · rw [hint]
    by_cases h : i = j
    · subst h
      rw [if_pos rfl, Finset.sum_eq_single i]
      · simp only [g, if_true, Bool.false_eq_true, if_false, neg_mul_neg, Real.mul_self_sqrt hcard.le]
        field_simp
        norm_num
      · intro l _ hl
        simp [g, hl]
      · simp
    · rw [if_neg h, Finset.sum_eq_zero, mul_zero]
      intro l _
      by_cases h1 : l = i
      · have h2 : l ≠ j := by rintro rfl; exact h h1.symm
        simp [g, h2]
      · simp [g, h1]

/-- A correlated two dimensional signal with three snapshots. -/
example : ∃ (M : Matrix (Fin 2) (Fin 2) ℂ) (g : StoGen 2) (Ω : Type) (_ : MeasurableSpace Ω) (μ : Measure Ω)
    (im re : Ω → Matrix (Fin 2) (Fin 3) ℝ),
    stoInit someSqrtm 2 (.matrix ⟨2, 2, M⟩) = .ok g ∧ M 0 1 = Complex.I ∧
    ∫ ω, g.emit 3 (im ω) (re ω) 0 1 * star (g.emit 3 (im ω) (re ω) 1 1) ∂μ = Complex.I := by
  obtain ⟨Ω, mΩ, μ, hμ, g, hg⟩ := exists_white (Bool × Fin 2 × Fin 3)
  let M : Matrix (Fin 2) (Fin 2) ℂ := !![1, Complex.I; -Complex.I, 1]
  have hM : M = !![1, Complex.I; 0, 0]ᴴ * !![1, Complex.I; 0, 0] := by
    ext i j
    fin_cases i <;> fin_cases j <;> simp [M, Matrix.mul_apply, Fin.sum_univ_two]
  have hp : M.PosSemidef := by rw [hM]; exact posSemidef_conjTranspose_mul_self _
  obtain ⟨gen, hgen⟩ := ((C56_accepts someSqrtm 2 (.matrix ⟨2, 2, M⟩)).1).2 ⟨M, rfl⟩
  refine ⟨M, gen, Ω, mΩ, μ, fun ω => Matrix.of fun i t => g (true, i, t) ω, fun ω => Matrix.of fun i t => g (false, i, t) ω,
    hgen, rfl, ?_⟩
  have h := (C56_covariance someSqrtm_spec hgen rfl hp μ 3 (fun ω => Matrix.of fun i t => g (true, i, t) ω)
    (fun ω => Matrix.of fun i t => g (false, i, t) ω) (by
      convert hg using 1
      funext q ω
      obtain ⟨b, i, t⟩ := q
      cases b <;> rfl) 0 1 1 1).2.1
  rw [h]
  simp [M]

/-! ### C56: random phase signals -/

/-- **C56** (random phases, array amplitudes). With an array of amplitudes the constructor accepts exactly
the arrays with `dim` elements, and whatever phases are drawn, the emitted entry of source `i` is its amplitude
times the phasor of the drawn phase, so its modulus is the absolute amplitude. -/
theorem C56_random_phase_partial {dim : ℕ} (a : List ℝ) :
    (a.length ≠ dim → phaseInit dim (.array a) = .error .valueError) ∧
    (a.length = dim → ∃ g, phaseInit dim (.array a) = .ok g ∧
      ∀ (n : ℕ) (phases : Matrix (Fin dim) (Fin n) ℝ), ∃ Y : Matrix (Fin dim) (Fin n) ℂ, g.emit n phases = .ok ⟨dim, n, Y⟩ ∧
        ∀ i t, Y i t = (a.getD i 0 : ℝ) * Complex.exp (Complex.I * (phases i t : ℝ)) ∧ ‖Y i t‖ = |a.getD i 0|) := by
  refine ⟨fun h => if_pos h, fun h => ⟨_, if_neg (not_not.2 h), fun n phases => ⟨_, rfl, fun i t => ?_⟩⟩⟩
  have he : ((Real.sin (phases i t) : ℂ) * Complex.I + (Real.cos (phases i t) : ℂ)) = Complex.exp (Complex.I * (phases i t : ℝ)) := by
    rw [mul_comm Complex.I, Complex.exp_mul_I]
    push_cast
    ring
  simp only [Matrix.of_apply, he]
  refine ⟨trivial, ?_⟩
  rw [norm_mul, mul_comm Complex.I, Complex.norm_exp_ofReal_mul_I, mul_one, Complex.norm_real, Real.norm_eq_abs]

/-- **C56** is violated for scalar amplitudes: a float always raises `TypeError`, including the default
`1.0`; an integer raises `ValueError`, except 2. -/
theorem C56_scalar_amplitude_violated (dim : ℕ) :
    (∀ a : ℝ, phaseInit dim (.float a) = .error .typeError) ∧
    (∀ a : ℤ, a ≠ 2 → phaseInit dim (.int a) = .error .valueError) ∧
    -- the integer 2 is accepted, but one snapshot is asked for and two are returned, the first with
    -- modulus `dim` and the second with modulus 1
    ∃ g, phaseInit dim (.int 2) = .ok g ∧ ∀ phases : Matrix (Fin dim) (Fin 1) ℝ,
      ∃ Y : Matrix (Fin dim) (Fin 2) ℂ, g.emit 1 phases = .ok ⟨dim, 2, Y⟩ ∧ ∀ i, ‖Y i 0‖ = dim ∧ ‖Y i 1‖ = 1 := by
  refine ⟨fun a => rfl, fun a h => if_neg h, _, rfl, fun phases => ⟨_, rfl, fun i => ?_⟩⟩
  have he : ((Real.sin (phases i 0) : ℂ) * Complex.I + (Real.cos (phases i 0) : ℂ)) = Complex.exp (Complex.I * (phases i 0 : ℝ)) := by
    rw [mul_comm Complex.I, Complex.exp_mul_I]
    push_cast
    ring
  have hn : ‖Complex.exp (Complex.I * (phases i 0 : ℝ))‖ = 1 := by
    rw [mul_comm Complex.I, Complex.norm_exp_ofReal_mul_I]
  simp only [Matrix.of_apply, Fin.cast_eq_self, he, norm_mul, hn, mul_one]
  simp

example : ∃ g, phaseInit 2 (.array [3, -1]) = .ok g := ⟨_, ((C56_random_phase_partial [3, -1]).2 rfl).choose_spec.1⟩

/-! ### C57: snapshots -/

theorem flat_mul {n m k t : ℕ} (S : Steering n m k) (X : Matrix (Fin k) (Fin t) ℂ) (l : Fin n) :
    (S.flat * X).submatrix (fun i => finProdFinEquiv (l, i)) id = S.A l * X := by
  ext i t
  rw [submatrix_apply, Matrix.mul_apply, Matrix.mul_apply]
  refine Finset.sum_congr rfl fun c _ => ?_
  simp [Steering.flat]

/-- The snapshots of an array, any kind of sensors. -/
theorem getNarrowbandSnapshots_ok {k n : ℕ} (a : ArrayDesign) (src : Sources k) (wl : ℝ) (out)
    (hA : steering a src wl false "all" = .ok out) (S : Matrix (Fin k) (Fin n) ℂ)
    (N : Matrix (Fin (a.element.outputSize * a.size)) (Fin n) ℂ) :
    getNarrowbandSnapshots a src wl (.ok ⟨k, n, S⟩) none n = .ok ⟨n, out.flat * S, (n : ℂ)⁻¹ • ((out.flat * S) * (out.flat * S)ᴴ)⟩ ∧
    getNarrowbandSnapshots a src wl (.ok ⟨k, n, S⟩) (some (.ok ⟨a.element.outputSize * a.size, n, N⟩)) n =
      .ok ⟨n, out.flat * S + N, (n : ℂ)⁻¹ • ((out.flat * S + N) * (out.flat * S + N)ᴴ)⟩ := by
  have hb : CMat.broadcastTo ⟨a.element.outputSize * a.size, n, N⟩ (a.element.outputSize * a.size) n = .ok N := by
    refine (dif_pos ⟨Or.inl rfl, Or.inl rfl⟩).trans ?_
    congr 1
    ext i t
    simp
  constructor
  · simp only [getNarrowbandSnapshots, hA, dif_pos]
    rfl
  · simp only [getNarrowbandSnapshots, hA, dif_pos, hb]
    rfl

/-- For scalar sensors one row of noise per sensor is enough. -/
theorem scalar_noise {a : ArrayDesign} (hone : a.element.outputSize = 1) {n : ℕ} (N : Matrix (Fin a.size) (Fin n) ℂ) :
    ∃ N' : Matrix (Fin (a.element.outputSize * a.size)) (Fin n) ℂ,
      (⟨a.size, n, N⟩ : CMat) = ⟨a.element.outputSize * a.size, n, N'⟩ ∧
      ∀ l, N'.submatrix (fun i => finProdFinEquiv (l, i)) id = N := by
  have hs : a.element.outputSize * a.size = a.size := by rw [hone, one_mul]
  refine ⟨N.submatrix (Fin.cast hs) id, ?_, fun l => ?_⟩
  · have : ∀ (p : ℕ) (h : p = a.size), (⟨a.size, n, N⟩ : CMat) = ⟨p, n, N.submatrix (Fin.cast h) id⟩ := by
      intro p h
      subst h
      rfl
    exact this _ hs
  · ext i t
    have : Fin.cast hs (finProdFinEquiv (l, i)) = i := by
      apply Fin.ext
      have hl : l.1 = 0 := by have := l.2; omega
      simp [finProdFinEquiv, hl]
    simp [this]

/-- The block of a covariance matrix is the covariance of the block. -/
theorem cov_block {p m n : ℕ} (Y : Matrix (Fin p) (Fin n) ℂ) (f : Fin m → Fin p) :
    ((n : ℂ)⁻¹ • (Y * Yᴴ)).submatrix f f = (n : ℂ)⁻¹ • (Y.submatrix f id * (Y.submatrix f id)ᴴ) := rfl

/-- The elements of the array constructors are scalar unless another kind is asked for. -/
theorem grid_scalar {idx : Mat ℤ} {spec : GridSpec} {name : Option String} {a : GridArray} (h : GridArray.init idx spec name {} = .ok a) :
    a.element.outputSize = 1 := by
  rw [show a.element = .isotropicScalar from (gridInit_spec h).2.2.1]
  rfl

/-- **C57** (value). For scalar sensors, a source signal with one row per source and a noise signal with one row per sensor,
both with `n` columns, the snapshots are `A S + N` (`A S` without noise), where `A` is the steering matrix with
all perturbations, and the returned covariance is `Y Yᴴ / n`. (Vector sensors: C96.) -/
theorem C57_snapshots {k n : ℕ} (a : ArrayDesign) (src : Sources k) (wl : ℝ) (out)
    (hA : steering a src wl false "all" = .ok out) (hone : a.element.outputSize = 1)
    (S : Matrix (Fin k) (Fin n) ℂ) (N : Matrix (Fin a.size) (Fin n) ℂ) :
    getSnapshots a src wl (.ok ⟨k, n, S⟩) none n =
      .ok ⟨n, fun l => out.A l * S, fun l => (n : ℂ)⁻¹ • ((out.A l * S) * (out.A l * S)ᴴ)⟩ ∧
    getSnapshots a src wl (.ok ⟨k, n, S⟩) (some (.ok ⟨a.size, n, N⟩)) n =
      .ok ⟨n, fun l => out.A l * S + N, fun l => (n : ℂ)⁻¹ • ((out.A l * S + N) * (out.A l * S + N)ᴴ)⟩ := by
  obtain ⟨N', hN, hN'⟩ := scalar_noise hone N
  obtain ⟨h1, h2⟩ := getNarrowbandSnapshots_ok a src wl out hA S N'
  constructor
  · unfold getSnapshots
    rw [h1]
    simp only [cov_block, flat_mul]
  · unfold getSnapshots
    rw [hN, h2]
    simp only [cov_block, submatrix_add, Pi.add_apply, flat_mul, hN']

/-- **C57** (errors). A source signal with a wrong number of rows raises `ValueError`, and so does a noise
signal whose number of rows is neither the number of rows of the steering matrix nor 1. -/
theorem C57_errors {k n : ℕ} (a : ArrayDesign) (src : Sources k) (wl : ℝ) (out)
    (hA : steering a src wl false "all" = .ok out) (S : CMat) (N : CMat)
    (h : S.r ≠ k ∨ (N.r ≠ a.element.outputSize * a.size ∧ N.r ≠ 1)) :
    getNarrowbandSnapshots a src wl (.ok S) (some (.ok N)) n = .error .valueError ∧
    getSnapshots a src wl (.ok S) (some (.ok N)) n = .error .valueError := by
  have : getNarrowbandSnapshots a src wl (.ok S) (some (.ok N)) n = .error .valueError := by
    by_cases h1 : S.r = k
    swap
    · simp only [getNarrowbandSnapshots, hA, dif_neg h1]
    · have hb : N.broadcastTo (a.element.outputSize * a.size) S.c = .error .valueError := dif_neg (by tauto)
      simp only [getNarrowbandSnapshots, hA, dif_pos h1, hb]
  exact ⟨this, by rw [getSnapshots, this]⟩

/-- **C57** (one dimensional noise). A noise generator of dimension 1 is not rejected: every sensor gets
the same noise. -/
theorem C57_noise_broadcast {k n : ℕ} (a : ArrayDesign) (src : Sources k) (wl : ℝ) (out)
    (hA : steering a src wl false "all" = .ok out) (S : Matrix (Fin k) (Fin n) ℂ) (N : Matrix (Fin 1) (Fin n) ℂ) :
    ∃ R, getSnapshots a src wl (.ok ⟨k, n, S⟩) (some (.ok ⟨1, n, N⟩)) n =
      .ok ⟨n, fun l => Matrix.of fun i t => (out.A l * S) i t + N 0 t, R⟩ := by
  have hb : CMat.broadcastTo ⟨1, n, N⟩ (a.element.outputSize * a.size) n = .ok (Matrix.of fun _ t => N 0 t) := by
    refine (dif_pos ⟨Or.inr rfl, Or.inl rfl⟩).trans ?_
    congr 1
    ext i t
    simp only [Matrix.of_apply, if_true]
    congr 1
    exact Subsingleton.elim _ _
  have h : getNarrowbandSnapshots a src wl (.ok ⟨k, n, S⟩) (some (.ok ⟨1, n, N⟩)) n =
      .ok ⟨n, out.flat * S + Matrix.of fun _ t => N 0 t,
        (n : ℂ)⁻¹ • ((out.flat * S + Matrix.of fun _ t => N 0 t) * (out.flat * S + Matrix.of fun _ t => N 0 t)ᴴ)⟩ := by
    simp only [getNarrowbandSnapshots, hA, dif_pos, hb]
    rfl
  unfold getSnapshots
  rw [h]
  refine ⟨fun l => ((n : ℂ)⁻¹ • ((out.flat * S + Matrix.of fun _ t => N 0 t) * (out.flat * S + Matrix.of fun _ t => N 0 t)ᴴ)).submatrix
    (fun i => finProdFinEquiv (l, i)) fun i => finProdFinEquiv (l, i), ?_⟩
  simp only [submatrix_add, Pi.add_apply, flat_mul]
  rfl

/-- The returned covariance is `Y Yᴴ / n`. -/
theorem getNarrowbandSnapshots_cov {k n : ℕ} {a : ArrayDesign} {src : Sources k} {wl : ℝ} {S : CMat} {N : Option (Res CMat)}
    (hS : S.c = n) {Y R} (h : getNarrowbandSnapshots a src wl (.ok S) N n = .ok ⟨n, Y, R⟩) :
    R = (n : ℂ)⁻¹ • (Y * Yᴴ) := by
  subst hS
  unfold getNarrowbandSnapshots at h
  cases h0 : steering a src wl false "all" with
  | error e => rw [h0] at h; simp at h
  | ok out =>
    rw [h0] at h
    by_cases h1 : S.r = k
    · simp only [dif_pos h1] at h
      cases N with
      | none =>
        simp only [Except.ok.injEq, Sigma.mk.injEq, heq_eq_eq, true_and, Prod.mk.injEq] at h
        rw [← h.1, ← h.2]
      | some N =>
        cases N with
        | error e => simp at h
        | ok N =>
          cases hb : N.broadcastTo (a.element.outputSize * a.size) S.c with
          | error e => simp [hb] at h
          | ok N' =>
            simp only [hb, Except.ok.injEq, Sigma.mk.injEq, heq_eq_eq, true_and, Prod.mk.injEq] at h
            rw [← h.1, ← h.2]
    · simp [dif_neg h1] at h

theorem getSnapshots_cov {k n : ℕ} {a : ArrayDesign} {src : Sources k} {wl : ℝ} {S : CMat} {N : Option (Res CMat)}
    (hS : S.c = n) {Y R} (h : getSnapshots a src wl (.ok S) N n = .ok ⟨n, Y, R⟩) (l : Fin a.element.outputSize) :
    R l = (n : ℂ)⁻¹ • (Y l * (Y l)ᴴ) := by
  unfold getSnapshots at h
  cases h0 : getNarrowbandSnapshots a src wl (.ok S) N n with
  | error e => rw [h0] at h; cases h
  | ok x =>
    obtain ⟨n', Y', R'⟩ := x
    rw [h0] at h
    have h1 := Except.ok.inj h
    rw [Sigma.mk.injEq] at h1
    obtain ⟨rfl, h2⟩ := h1
    rw [heq_eq_eq, Prod.mk.injEq] at h2
    rw [← h2.1, ← h2.2, getNarrowbandSnapshots_cov hS h0]
    rfl

/-- **C57** (sample covariance). The returned covariance matrix is Hermitian positive semidefinite, its
trace is the average power of the snapshots, and its rank is at most the number of snapshots. -/
theorem C57_covariance {k n : ℕ} (a : ArrayDesign) (src : Sources k) (wl : ℝ) (S : CMat) (N : Option (Res CMat))
    (hS : S.c = n) (Y R) (h : getSnapshots a src wl (.ok S) N n = .ok ⟨n, Y, R⟩) (l : Fin a.element.outputSize) :
    (R l).PosSemidef ∧ (R l).IsHermitian ∧ (R l).trace = ((∑ i, ∑ t, ‖Y l i t‖ ^ 2) / n : ℝ) ∧ (R l).rank ≤ n := by
  have hR : R l = (n : ℂ)⁻¹ • (Y l * (Y l)ᴴ) := getSnapshots_cov hS h l
  have hpsd : (R l).PosSemidef := by
    rw [hR]
    refine (posSemidef_self_mul_conjTranspose (Y l)).smul ?_
    rw [← Complex.ofReal_natCast, ← Complex.ofReal_inv]
    exact Complex.zero_le_real.2 (by positivity)
  refine ⟨hpsd, hpsd.isHermitian, ?_, ?_⟩
  · rw [hR, trace_smul, Matrix.trace]
    simp only [Matrix.diag_apply, Matrix.mul_apply, Matrix.conjTranspose_apply, Complex.star_def, Complex.mul_conj,
      Complex.normSq_eq_norm_sq, smul_eq_mul]
    push_cast
    rw [div_eq_inv_mul]
  · rw [hR, ← Matrix.smul_mul]
    exact (rank_mul_le_left _ _).trans (rank_le_width _)

/-- **C57** (expected covariance). If the source and the noise signal come from `ComplexStochasticSignal`
generators with covariances `P` and `Q` and all drawn numbers are white, the expectation of the returned sample
covariance matrix is the model covariance `A P Aᴴ + Q`, for every number of snapshots. -/
theorem C57_expected_covariance {sqrtm : Sqrtm} (hs : IsSqrtm sqrtm) {k n : ℕ} (hn : 1 ≤ n) (a : ArrayDesign)
    (src : Sources k) (wl : ℝ) (out) (hA : steering a src wl false "all" = .ok out) (hone : a.element.outputSize = 1)
    {C1 C2 : CovArg} {g1 : StoGen k} {g2 : StoGen a.size}
    (hg1 : stoInit sqrtm k C1 = .ok g1) (hg2 : stoInit sqrtm a.size C2 = .ok g2) {P Q}
    (hP : Denotes k C1 P) (hQ : Denotes a.size C2 Q) (hPp : P.PosSemidef) (hQp : Q.PosSemidef)
    {Ω : Type} [MeasurableSpace Ω] (μ : Measure Ω)
    (im1 re1 : Ω → Matrix (Fin k) (Fin n) ℝ) (im2 re2 : Ω → Matrix (Fin a.size) (Fin n) ℝ)
    (hw : White μ fun (q : (Bool × Fin k × Fin n) ⊕ (Bool × Fin a.size × Fin n)) ω =>
      match q with
      | .inl q => if q.1 then im1 ω q.2.1 q.2.2 else re1 ω q.2.1 q.2.2
      | .inr q => if q.1 then im2 ω q.2.1 q.2.2 else re2 ω q.2.1 q.2.2) :
    ∃ (Y : Ω → _) (R : Ω → _),
      (∀ ω, getSnapshots a src wl (.ok ⟨k, n, g1.emit n (im1 ω) (re1 ω)⟩)
        (some (.ok ⟨a.size, n, g2.emit n (im2 ω) (re2 ω)⟩)) n = .ok ⟨n, Y ω, R ω⟩) ∧
      ∀ l i j, ∫ ω, R ω l i j ∂μ = (out.A l * P * (out.A l)ᴴ + Q) i j := by
  obtain ⟨B1, hB1, he1⟩ := emit_factor hs hg1 hP hPp
  obtain ⟨B2, hB2, he2⟩ := emit_factor hs hg2 hQ hQp
  refine ⟨_, _, fun ω => (C57_snapshots a src wl out hA hone _ _).2, fun l i j => ?_⟩
  let co : Fin a.size → Fin n → (Bool × Fin k × Fin n) ⊕ (Bool × Fin a.size × Fin n) → ℂ := fun i t =>
    Sum.elim (drawCoef (out.A l * B1) i t) (drawCoef B2 i t)
  let G : (Bool × Fin k × Fin n) ⊕ (Bool × Fin a.size × Fin n) → Ω → ℝ := fun q ω =>
      match q with
      | .inl q => if q.1 then im1 ω q.2.1 q.2.2 else re1 ω q.2.1 q.2.2
      | .inr q => if q.1 then im2 ω q.2.1 q.2.2 else re2 ω q.2.1 q.2.2
  have hw' : White μ G := hw
  have hY : ∀ ω i t, (out.A l * g1.emit n (im1 ω) (re1 ω) + g2.emit n (im2 ω) (re2 ω)) i t = ∑ q, co i t q * (G q ω : ℂ) := by
    intro ω i t
    rw [he1, he2, ← Matrix.mul_assoc, Matrix.add_apply, mul_randcn, mul_randcn, Fintype.sum_sum_type]
    rfl
  have hR : ∀ ω, ((n : ℂ)⁻¹ • ((out.A l * g1.emit n (im1 ω) (re1 ω) + g2.emit n (im2 ω) (re2 ω)) *
      (out.A l * g1.emit n (im1 ω) (re1 ω) + g2.emit n (im2 ω) (re2 ω))ᴴ)) i j =
      (n : ℂ)⁻¹ * ∑ t, (∑ q, co i t q * (G q ω : ℂ)) * star (∑ q, co j t q * (G q ω : ℂ)) := by
    intro ω
    rw [Matrix.smul_apply, Matrix.mul_apply, smul_eq_mul]
    simp only [Matrix.conjTranspose_apply, hY]
  refine (integral_congr_ae (Filter.Eventually.of_forall hR)).trans ?_
  rw [integral_const_mul, integral_finsetSum _ fun t _ => (hw'.lin_star _ _).1]
  simp only [(hw'.lin_star _ _).2]
  have hc : ∀ t, ∑ q, co i t q * star (co j t q) = (out.A l * P * (out.A l)ᴴ + Q) i j := by
    intro t
    rw [Fintype.sum_sum_type]
    simp only [co, Sum.elim_inl, Sum.elim_inr]
    rw [drawCoef_star, drawCoef_star, if_pos rfl, if_pos rfl, hB2, Matrix.conjTranspose_mul, Matrix.add_apply]
    congr 2
    rw [← hB1]
    simp only [Matrix.mul_assoc]
  simp only [hc, Finset.sum_const, Finset.card_univ, Fintype.card_fin, nsmul_eq_mul]
  have : (n : ℂ) ≠ 0 := by exact_mod_cast Nat.one_le_iff_ne_zero.1 hn
  rw [← mul_assoc, inv_mul_cancel₀ this, one_mul]

/-- The hypotheses hold for a ULA of three sensors, two sources of different power and four snapshots. -/
example : ∃ (a : GridArray) (out : Steering a.toArrayDesign.element.outputSize a.toArrayDesign.size 2) (g1 : StoGen 2)
    (g2 : StoGen a.toArrayDesign.size)
    (Ω : Type) (_ : MeasurableSpace Ω) (μ : Measure Ω) (im1 re1 : Ω → Matrix (Fin 2) (Fin 4) ℝ)
    (im2 re2 : Ω → Matrix (Fin a.toArrayDesign.size) (Fin 4) ℝ) (Y : Ω → _) (R : Ω → _),
    ula 3 (.scalar (1 / 2)) none {} = .ok a ∧
    steering a.toArrayDesign (.ff1 ⟨![0, 1 / 2], "sin"⟩) 1 false "all" = .ok out ∧
    (∀ ω, getSnapshots a.toArrayDesign (.ff1 ⟨![0, 1 / 2], "sin"⟩) 1 (.ok ⟨2, 4, g1.emit 4 (im1 ω) (re1 ω)⟩)
        (some (.ok ⟨a.toArrayDesign.size, 4, g2.emit 4 (im2 ω) (re2 ω)⟩)) 4 = .ok ⟨4, Y ω, R ω⟩) ∧
      ∀ (l : Fin a.toArrayDesign.element.outputSize) (i j : Fin a.toArrayDesign.size), ∫ ω, R ω l i j ∂μ = ((out.A l * Matrix.diagonal (![1, 2] : Fin 2 → ℂ) * (out.A l)ᴴ + 1 : Matrix (Fin a.toArrayDesign.size) (Fin a.toArrayDesign.size) ℂ)) i j := by
  obtain ⟨a, ha⟩ := ula_ok 3 (1 / 2) none
  obtain ⟨out, hout, -⟩ := ula_steering ha ⟨![0, 1 / 2], "sin"⟩ ⟨Or.inr (Or.inr rfl), fun c => Or.inr (Or.inr ⟨rfl, by
    fin_cases c <;> simp <;> norm_num⟩)⟩ 1 "all" (by simp)
  obtain ⟨Ω, mΩ, μ, hμ, g, hg⟩ := exists_white ((Bool × Fin 2 × Fin 4) ⊕ (Bool × Fin a.toArrayDesign.size × Fin 4))
  have hP : Denotes 2 (.vector [1, 2]) (Matrix.diagonal (![1, 2] : Fin 2 → ℂ)) := by
    refine ⟨rfl, ?_⟩
    ext i j
    fin_cases i <;> fin_cases j <;> simp
  have hQ : Denotes a.toArrayDesign.size (.scalar 1) 1 := by
    show _ = _
    ext i j
    simp [Matrix.one_apply]
  obtain ⟨g1, hg1⟩ := ((C56_accepts someSqrtm 2 (.vector [1, 2])).1).2 ⟨_, hP⟩
  obtain ⟨g2, hg2⟩ := ((C56_accepts someSqrtm a.toArrayDesign.size (.scalar 1)).1).2 ⟨_, hQ⟩
  obtain ⟨Y, R, h1, h2⟩ := C57_expected_covariance someSqrtm_spec (n := 4) (by norm_num) a.toArrayDesign _ 1 out hout
    (grid_scalar ha) hg1 hg2
    hP hQ (PosSemidef.diagonal (by intro i; fin_cases i <;> simp)) PosSemidef.one μ
    (fun ω => Matrix.of fun i t => g (.inl (true, i, t)) ω) (fun ω => Matrix.of fun i t => g (.inl (false, i, t)) ω)
    (fun ω => Matrix.of fun i t => g (.inr (true, i, t)) ω) (fun ω => Matrix.of fun i t => g (.inr (false, i, t)) ω) (by
      convert hg using 1
      funext q ω
      rcases q with ⟨b, i, t⟩ | ⟨b, i, t⟩ <;> cases b <;> rfl)
  exact ⟨a, out, g1, g2, Ω, mΩ, μ, _, _, _, _, Y, R, ha, hout, h1, h2⟩

end Doa.Props
