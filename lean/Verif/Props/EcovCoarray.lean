import Verif.Props.Ecov
import Verif.Props.VirtualUla
import Verif.Spec.CoarrayMusic

/-!
# Error covariance of coarray MUSIC: C60
-/

namespace Doa.Props

open Doa Doa.Spec Matrix
open scoped ComplexOrder

variable {m k : ℕ}

/-- Either the arguments are rejected, or the numerical part is evaluated and reduced. -/
theorem ecovCoarrayWith_walk (eigh : Eigh) (spacing : ℝ) (a : GridArray) (src : Sources k) (wl : ℝ) (p : PowerArg) :
    (∃ e, ∀ σ n mode, ecovCoarrayWith eigh spacing a src wl p σ n mode = .error e) ∨
    ∃ (mv : ℕ) (A : Matrix (Fin a.size) (Fin k) ℂ) (q : Fin k → ℂ) (Av DAv : Matrix (Fin mv) (Fin k) ℂ)
      (F : Matrix (Fin (2 * mv - 1)) (Fin (a.size * a.size)) ℂ), unifyPToVector p k = .ok q ∧
      ∀ σ n mode, (ecovCoarrayNaN eigh q σ n Av DAv → ecovCoarrayWith eigh spacing a src wl p σ n mode = .error .returnsNaN) ∧
        (¬ ecovCoarrayNaN eigh q σ n Av DAv →
          ecovCoarrayWith eigh spacing a src wl p σ n mode = reduceOutput (ecovCoarrayCore eigh A q σ n Av DAv F) mode) := by
  unfold ecovCoarrayWith
  split
  · exact .inl ⟨_, fun _ _ _ => rfl⟩
  split
  · exact .inl ⟨_, fun _ _ _ => rfl⟩
  cases unifyPToVector p k with
  | error e => exact .inl ⟨_, fun _ _ _ => rfl⟩
  | ok q =>
    simp only
    cases WeightFunction.init a with
    | error e => exact .inl ⟨_, fun _ _ _ => rfl⟩
    | ok wf =>
      simp only
      cases (wf.selectionMatrix ℂ false).1 with
      | error e => exact .inl ⟨_, fun _ _ _ => rfl⟩
      | ok F =>
        simp only
        split
        · exact .inl ⟨_, fun _ _ _ => rfl⟩
        cases steering a.toArrayDesign src wl false "all" with
        | error e => exact .inl ⟨_, fun _ _ _ => rfl⟩
        | ok out =>
          simp only
          cases ula ((F.length + 1) / 2) (.scalar spacing) none {} with
          | error e => exact .inl ⟨_, fun _ _ _ => rfl⟩
          | ok v =>
            simp only
            cases steerPair v.toArrayDesign src wl "all" with
            | error e => exact .inl ⟨_, fun _ _ _ => rfl⟩
            | ok r =>
              simp only
              split
              · exact .inr ⟨_, _, q, _, _, _, rfl, fun _ _ _ => ⟨fun h => if_pos h, fun h => if_neg h⟩⟩
              · exact .inl ⟨_, fun _ _ _ => rfl⟩

/-- **C60** (return modes). -/
theorem C60_modes (eigh : Eigh) (a : GridArray) (src : Sources k) (wl : ℝ) (p : PowerArg) (σ : ℝ) (n : ℕ) :
    ModesAgree (ecovCoarray eigh a src wl p σ n) := by
  rcases ecovCoarrayWith_walk eigh (wl / 2) a src wl p with ⟨e, he⟩ | ⟨mv, A, q, Av, DAv, F, -, h⟩
  · exact modesAgree_of (r := .error e) fun mode => he σ n mode
  · by_cases hN : ecovCoarrayNaN eigh q σ n Av DAv
    · exact modesAgree_of (r := .error _) fun mode => (h σ n mode).1 hN
    · exact modesAgree_of (r := .ok _) fun mode => (h σ n mode).2 hN

theorem reduceOutput_full_iff {X C : Matrix (Fin k) (Fin k) ℝ} : reduceOutput X "full" = .ok (.full C) ↔ X = C := by
  simp [reduceOutput]

/-- **C60** (scaling). The error covariance for `n` snapshots is that of one snapshot divided by `n`. -/
theorem C60_scaling (eigh : Eigh) (a : GridArray) (src : Sources k) (wl : ℝ) (p : PowerArg) (σ : ℝ) {n : ℕ} (hn : 1 ≤ n)
    (C : Matrix (Fin k) (Fin k) ℝ) :
    ecovCoarray eigh a src wl p σ n "full" = .ok (.full C) ↔ ecovCoarray eigh a src wl p σ 1 "full" = .ok (.full ((n : ℝ) • C)) := by
  have hn0 : (n : ℝ) ≠ 0 := by positivity
  unfold ecovCoarray
  rcases ecovCoarrayWith_walk eigh (wl / 2) a src wl p with ⟨e, he⟩ | ⟨mv, A, q, Av, DAv, F, -, h⟩
  · rw [he, he]
    constructor <;> (intro h; cases h)
  · have e : ecovCoarrayNaN eigh q σ n Av DAv ↔ ecovCoarrayNaN eigh q σ 1 Av DAv := by
      unfold ecovCoarrayNaN
      have : n ≠ 0 := by omega
      simp only [this, one_ne_zero, false_or]
    by_cases hN : ecovCoarrayNaN eigh q σ n Av DAv
    · rw [(h σ n _).1 hN, (h σ 1 _).1 (e.1 hN)]
      constructor <;> (intro h; cases h)
    rw [(h σ n _).2 hN, (h σ 1 _).2 (fun h => hN (e.2 h)), reduceOutput_full_iff, reduceOutput_full_iff]
    unfold ecovCoarrayCore
    simp only [Nat.cast_one, inv_one, one_smul]
    rw [inv_smul_eq_iff₀ hn0]

/-- **C60** (shape). For source powers and a noise variance that are not negative the returned matrix is symmetric
and positive semidefinite; in particular the variances on its diagonal are not negative. -/
theorem C60_covariance (eigh : Eigh) (a : GridArray) (src : Sources k) (wl : ℝ) {p : PowerArg} {P : Matrix (Fin k) (Fin k) ℂ}
    (hp : PowerDenotes k p P) (hP : ∀ i, 0 ≤ P i i) {σ : ℝ} (hσ : 0 ≤ σ) (n : ℕ) (C : Matrix (Fin k) (Fin k) ℝ)
    (h : ecovCoarray eigh a src wl p σ n "full" = .ok (.full C)) : Cᵀ = C ∧ C.PosSemidef ∧ ∀ i, 0 ≤ C i i := by
  unfold ecovCoarray at h
  rcases ecovCoarrayWith_walk eigh (wl / 2) a src wl p with ⟨e, he⟩ | ⟨mv, A, q, Av, DAv, F, hq, h'⟩
  · rw [he] at h; cases h
  · by_cases hN : ecovCoarrayNaN eigh q σ n Av DAv
    · rw [(h' σ n _).1 hN] at h; cases h
    rw [(h' σ n _).2 hN, reduceOutput_full_iff] at h
    obtain ⟨P', hP', rfl⟩ := ((C61_vector p k).1 q).1 hq
    cases powerDenotes_unique hp hP'
    have hR : (scaleCols A (fun i => P i i) * Aᴴ + (σ : ℂ) • (1 : Matrix (Fin a.size) (Fin a.size) ℂ)).PosSemidef := by
      have e : scaleCols A (fun i => P i i) = A * Matrix.diagonal fun i => P i i := by
        ext r c; rw [mul_diagonal]; rfl
      rw [e]
      exact ((posSemidef_diagonal_iff.2 hP).mul_mul_conjTranspose_same A).add (PosSemidef.one.smul (Complex.zero_le_real.2 hσ))
    have hC : C.PosSemidef := by
      rw [← h]
      unfold ecovCoarrayCore
      refine PosSemidef.smul (reMat_posSemidef (PosSemidef.conjTranspose_mul_mul_same ?_ _)) (by positivity)
      exact (hR.kronecker hR.transpose).submatrix finProdFinEquiv.symm
    refine ⟨?_, hC, fun i => hC.diag_nonneg⟩
    have := hC.isHermitian.eq
    rwa [conjTranspose_eq_transpose_of_trivial] at this

/-- **C60** (guards). Sources that are not far-field 1-D and perturbed arrays raise `ValueError`. -/
theorem C60_guards (eigh : Eigh) (a : GridArray) (src : Sources k) (wl : ℝ) (p : PowerArg) (σ : ℝ) (n : ℕ) (mode : String)
    (h : src.isFF1 = false ∨ a.toArrayDesign.isPerturbed = true) :
    ecovCoarray eigh a src wl p σ n mode = .error .valueError := by
  unfold ecovCoarray ecovCoarrayWith
  by_cases h' : (!src.isFF1) = true
  · rw [if_pos h']
  · rw [if_neg h']
    rcases h with h | h
    · rw [h] at h'; exact absurd rfl h'
    · rw [if_pos h]

/-- Matrices as functions of the flat index, columns stacked. -/
theorem vec_single (r : Fin (m * m)) :
    (Pi.single r 1 : Fin (m * m) → ℂ) = vec (Matrix.single (finProdFinEquiv.symm r).2 (finProdFinEquiv.symm r).1 (1 : ℂ)) := by
  funext s
  unfold vec
  rw [Matrix.single_apply]
  by_cases h : s = r
  · subst h; simp
  · rw [Pi.single_eq_of_ne h, if_neg]
    rintro ⟨h1, h2⟩
    exact h (finProdFinEquiv.symm.injective (Prod.ext h2.symm h1.symm))

theorem subarraySelection_apply (v : ℕ) (r : Fin (v * v)) (c : Fin (2 * v - 1)) : subarraySelection v r c =
    if (c.1 : ℤ) = v - (finProdFinEquiv.symm r).1.1 + (finProdFinEquiv.symm r).2.1 - 1 then 1 else 0 := rfl

/-- The row `i * v + j` of the selection matrix picks the lag `j - i`. -/
theorem subarraySelection_mulVec (v : ℕ) (z : Fin (2 * v - 1) → ℂ) (s : Fin (v * v)) :
    (subarraySelection v *ᵥ z) s =
      z ⟨v - (finProdFinEquiv.symm s).1.1 + (finProdFinEquiv.symm s).2.1 - 1, by
        have := (finProdFinEquiv.symm s).1.2; have := (finProdFinEquiv.symm s).2.2; omega⟩ := by
  have h1 := (finProdFinEquiv.symm s).1.2
  have h2 := (finProdFinEquiv.symm s).2.2
  unfold mulVec dotProduct
  rw [Finset.sum_eq_single ⟨v - (finProdFinEquiv.symm s).1.1 + (finProdFinEquiv.symm s).2.1 - 1, by omega⟩]
  · simp only [subarraySelection_apply]
    rw [if_pos, one_mul]
    push_cast
    omega
  · intro c _ hc
    simp only [subarraySelection_apply]
    rw [if_neg, zero_mul]
    intro h
    apply hc
    ext
    simp only
    omega
  · intro h; exact absurd (Finset.mem_univ _) h

/-- The vectorised form of a bilinear form in the augmented matrix. -/
theorem gf_bilinear {v : ℕ} {F : Matrix (Fin (2 * v - 1)) (Fin (m * m)) ℂ}
    {aug : Matrix (Fin m) (Fin m) ℂ → Matrix (Fin v) (Fin v) ℂ}
    (hF : ∀ (M : Matrix (Fin m) (Fin m) ℂ) (r c : Fin v) (i : Fin (2 * v - 1)), i.1 = v - c.1 + r.1 - 1 → (F *ᵥ vec M) i = aug M r c)
    (b α : Fin v → ℂ) (r : Fin (m * m)) :
    ((subarraySelection v * F)ᵀ *ᵥ outerFlat b α) r =
      α ⬝ᵥ (aug (Matrix.single (finProdFinEquiv.symm r).2 (finProdFinEquiv.symm r).1 (1 : ℂ)) *ᵥ b) := by
  have h1 : ∀ s, (subarraySelection v * F) s r = aug (Matrix.single (finProdFinEquiv.symm r).2 (finProdFinEquiv.symm r).1 (1 : ℂ))
      (finProdFinEquiv.symm s).2 (finProdFinEquiv.symm s).1 := by
    intro s
    have e : (subarraySelection v * F) s r = ((subarraySelection v * F) *ᵥ Pi.single r 1) s := by
      rw [mulVec_single_one]; rfl
    rw [e, ← mulVec_mulVec, subarraySelection_mulVec, vec_single]
    exact hF _ _ _ _ rfl
  unfold mulVec dotProduct
  simp only [transpose_apply, h1, outerFlat]
  rw [← finProdFinEquiv.sum_comp, Fintype.sum_prod_type]
  simp only [Equiv.symm_apply_apply, Finset.mul_sum]
  rw [Finset.sum_comm]
  refine Finset.sum_congr rfl fun i _ => Finset.sum_congr rfl fun j _ => ?_
  ring

/-- The quadratic form with `kron(R, R.T)`. -/
theorem kron_form (R : Matrix (Fin m) (Fin m) ℂ) (K : Matrix (Fin (m * m)) (Fin (m * m)) ℂ)
    (hK : ∀ r c, K r c = R (finProdFinEquiv.symm r).1 (finProdFinEquiv.symm c).1 * Rᵀ (finProdFinEquiv.symm r).2 (finProdFinEquiv.symm c).2)
    (Xi : Matrix (Fin (m * m)) (Fin k) ℂ) (f : Fin k → Matrix (Fin m) (Fin m) ℂ → ℂ)
    (hXi : ∀ r c, Xi r c = f c (Matrix.single (finProdFinEquiv.symm r).2 (finProdFinEquiv.symm r).1 (1 : ℂ))) (i j : Fin k) :
    (Xiᴴ * K * Xi) i j = snapshotCov R (f i) (f j) := by
  have e : (Xiᴴ * K * Xi) i j = ∑ r, ∑ s, star (Xi r i) * Xi s j * K r s := by
    rw [Matrix.mul_assoc, mul_apply]
    refine Finset.sum_congr rfl fun r _ => ?_
    rw [mul_apply, conjTranspose_apply, Finset.mul_sum]
    exact Finset.sum_congr rfl fun s _ => by ring
  rw [e, snapshotCov, ← finProdFinEquiv.sum_comp, Fintype.sum_prod_type, Finset.sum_comm]
  refine Finset.sum_congr rfl fun r _ => Finset.sum_congr rfl fun c _ => ?_
  rw [← finProdFinEquiv.sum_comp, Fintype.sum_prod_type, Finset.sum_comm]
  refine Finset.sum_congr rfl fun r' _ => Finset.sum_congr rfl fun c' _ => ?_
  rw [hXi, hXi, hK]
  simp only [Equiv.symm_apply_apply, transpose_apply]

theorem leftInv_eq_npPinv {v : ℕ} {A : Matrix (Fin v) (Fin k) ℂ} (hA : Function.Injective A.mulVec) : npPinv A = leftInv A := by
  have hu := (fullRank_iff A).2 hA
  have h1 : Aᴴ * A * npPinv A = Aᴴ := by
    obtain ⟨Gp, e1, e2, e3, e4, e5⟩ := npPinv_eq A
    have h2 : (A * npPinv A)ᴴ = A * npPinv A := by
      rw [e1, conjTranspose_mul, conjTranspose_mul, conjTranspose_conjTranspose, e2, Matrix.mul_assoc]
    have h3 := congrArg conjTranspose (mul_npPinv_mul A)
    rw [conjTranspose_mul, h2, ← Matrix.mul_assoc] at h3
    exact h3
  have h2 : (Aᴴ * A)⁻¹ * (Aᴴ * A * npPinv A) = npPinv A := by rw [← Matrix.mul_assoc, nonsing_inv_mul _ hu, Matrix.one_mul]
  rw [← h2, h1]
  rfl

theorem leftInv_mul {v : ℕ} {A : Matrix (Fin v) (Fin k) ℂ} (hA : Function.Injective A.mulVec) : leftInv A * A = 1 := by
  have hu := (fullRank_iff A).2 hA
  unfold leftInv
  rw [Matrix.mul_assoc, nonsing_inv_mul _ hu]

theorem complProj_isProj {v : ℕ} {A : Matrix (Fin v) (Fin k) ℂ} (hA : Function.Injective A.mulVec) : IsProjOnto (1 - complProj A) A := by
  unfold complProj
  rw [sub_sub_cancel]
  refine isProjOnto_of (X := (Aᴴ * A)⁻¹) rfl ?_ ?_
  · rw [conjTranspose_nonsing_inv, (isHermitian_conjTranspose_mul_self A).eq]
  · rw [Matrix.mul_assoc, leftInv_mul hA, Matrix.mul_one]

theorem isProjOnto_mul {v : ℕ} {P : Matrix (Fin v) (Fin v) ℂ} {A : Matrix (Fin v) (Fin k) ℂ} (h : IsProjOnto P A) : P * A = A := by
  apply Matrix.ext_of_mulVec_single
  intro i
  rw [← mulVec_mulVec, h.fixes]

/-- The noise projection does not depend on the eigenvectors. -/
theorem noise_proj {v : ℕ} (hk : 1 ≤ k) {A : Matrix (Fin v) (Fin k) ℂ} (hA : Function.Injective A.mulVec)
    {P : Matrix (Fin k) (Fin k) ℂ} (hP : P.PosDef) {σ : ℝ} {w : Fin v → ℝ} {E : Matrix (Fin v) (Fin v) ℂ}
    (h : IsEigh (covModel A P σ) w E) : noiseCols E k * (noiseCols E k)ᴴ = complProj A := by
  have ho := h.noise_orth k
  have hz := h.noise_zero_iff hk hA hP
  set N := noiseCols E k with hN
  have hNA : ∀ x, Nᴴ *ᵥ (A *ᵥ x) = 0 := fun x => (hz _).2 ⟨x, rfl⟩
  have hAN : Aᴴ * N = 0 := by
    have : Nᴴ * A = 0 := by
      apply Matrix.ext_of_mulVec_single
      intro i
      rw [← mulVec_mulVec, hNA, zero_mulVec]
    have := congrArg conjTranspose this
    rwa [conjTranspose_mul, conjTranspose_conjTranspose, conjTranspose_zero] at this
  have h1 : IsProjOnto (1 - N * Nᴴ) A := by
    refine ⟨?_, ?_, ?_, ?_⟩
    · rw [conjTranspose_sub, conjTranspose_one, conjTranspose_mul, conjTranspose_conjTranspose]
    · rw [Matrix.sub_mul, Matrix.one_mul, Matrix.mul_sub, Matrix.mul_one, Matrix.mul_assoc N,
        ← Matrix.mul_assoc Nᴴ, ho, Matrix.one_mul, sub_self, sub_zero]
    · intro x
      rw [sub_mulVec, one_mulVec, ← mulVec_mulVec, hNA, mulVec_zero, sub_zero]
    · intro u hu
      rw [kills_iff] at hu
      set y := (1 - N * Nᴴ) *ᵥ u with hy
      have y1 : Nᴴ *ᵥ y = 0 := by
        rw [hy, mulVec_mulVec, Matrix.mul_sub, Matrix.mul_one, ← Matrix.mul_assoc, ho, Matrix.one_mul, sub_self, zero_mulVec]
      obtain ⟨x, hx⟩ := (hz y).1 y1
      have y2 : Aᴴ *ᵥ y = 0 := by
        rw [hy, mulVec_mulVec, Matrix.mul_sub, Matrix.mul_one, ← Matrix.mul_assoc, hAN, Matrix.zero_mul, sub_zero, hu]
      have y3 : star y ⬝ᵥ y = 0 := by
        conv_lhs => rw [hx]
        rw [star_mulVec, ← dotProduct_mulVec, ← hx, y2, dotProduct_zero]
      exact dotProduct_star_self_eq_zero.1 y3
  have h2 := h1.unique (complProj_isProj hA)
  have h3 := sub_right_injective h2
  exact h3

/-- Nothing is divided by zero for sources with power, at least one snapshot, and derivatives outside the span of the steering vectors. -/
theorem not_nan (eigh : Eigh) {v : ℕ} {q : Fin k → ℝ} (hq : ∀ i, 0 < q i) (σ : ℝ) {n : ℕ} (hn : 1 ≤ n)
    {Av : Matrix (Fin v) (Fin k) ℂ} (hA : Function.Injective Av.mulVec) {DAv : Matrix (Fin v) (Fin k) ℂ}
    (hD : ∀ j, ¬ ∃ x, Av *ᵥ x = fun i => DAv i j) : ¬ ecovCoarrayNaN eigh (fun c => (q c : ℂ)) σ n Av DAv := by
  have hs : scaleCols Av (fun c => (q c : ℂ)) * Avᴴ + (σ : ℂ) • (1 : Matrix (Fin v) (Fin v) ℂ) = modelCov Av q σ := by
    unfold modelCov
    congr 2
    ext r c
    rw [mul_diagonal]
    rfl
  have hP : (Matrix.diagonal fun c => (q c : ℂ)).PosDef := by
    rw [posDef_diagonal_iff]
    intro c
    exact_mod_cast hq c
  have hE := eigh.spec (modelCov Av q σ) (modelCov_isHermitian Av q σ)
  unfold ecovCoarrayNaN
  dsimp only
  rw [hs]
  rintro (h | ⟨c, h | h⟩)
  · omega
  · exact (hq c).ne' (by exact_mod_cast h)
  · have hk : 1 ≤ k := Nat.one_le_iff_ne_zero.2 fun h0 => by subst h0; exact c.elim0
    rw [noise_proj hk hA hP (σ := σ) hE] at h
    have him : (star (complProj Av *ᵥ fun i => DAv i c) ⬝ᵥ (complProj Av *ᵥ fun i => DAv i c)).im = 0 :=
      ((Complex.le_def.1 (dotProduct_star_self_nonneg _)).2).symm
    have h0 := dotProduct_star_self_eq_zero.1 (Complex.ext h him)
    refine hD c ⟨leftInv Av *ᵥ fun i => DAv i c, ?_⟩
    rw [show complProj Av = 1 - Av * leftInv Av from rfl, sub_mulVec, one_mulVec, sub_eq_zero] at h0
    rw [mulVec_mulVec]
    exact h0.symm

/-- The numerical part as the covariance of the first-order errors. -/
theorem core_formula (eigh : Eigh) (hk : 1 ≤ k) {v : ℕ} (A : Matrix (Fin m) (Fin k) ℂ) {q : Fin k → ℝ} (hq : ∀ i, 0 < q i) (σ : ℝ) (n : ℕ)
    {Av : Matrix (Fin v) (Fin k) ℂ} (hA : Function.Injective Av.mulVec) (DAv : Matrix (Fin v) (Fin k) ℂ)
    {F : Matrix (Fin (2 * v - 1)) (Fin (m * m)) ℂ} {aug : Matrix (Fin m) (Fin m) ℂ → Matrix (Fin v) (Fin v) ℂ}
    (hF : ∀ (M : Matrix (Fin m) (Fin m) ℂ) (r c : Fin v) (i : Fin (2 * v - 1)), i.1 = v - c.1 + r.1 - 1 → (F *ᵥ vec M) i = aug M r c)
    (i j : Fin k) :
    ecovCoarrayCore eigh A (fun c => (q c : ℂ)) σ n Av DAv F i j =
      (n : ℝ)⁻¹ * (snapshotCov (modelCov A q σ) (fun M => musicError Av DAv q i (aug M)) (fun M => musicError Av DAv q j (aug M))).re := by
  have hs : ∀ {m' : ℕ} (B : Matrix (Fin m') (Fin k) ℂ), scaleCols B (fun c => (q c : ℂ)) * Bᴴ + (σ : ℂ) • (1 : Matrix (Fin m') (Fin m') ℂ) =
      modelCov B q σ := by
    intro m' B
    unfold modelCov
    congr 2
    ext r c
    rw [mul_diagonal]
    rfl
  have hP : (Matrix.diagonal fun c => (q c : ℂ)).PosDef := by
    rw [posDef_diagonal_iff]
    intro c
    exact_mod_cast hq c
  have hE := eigh.spec (modelCov Av q σ) (modelCov_isHermitian Av q σ)
  have hproj := noise_proj hk hA hP (σ := σ) hE
  unfold ecovCoarrayCore
  simp only [hs, hproj, leftInv_eq_npPinv hA]
  rw [Matrix.smul_apply, smul_eq_mul, reMat_apply]
  congr 2
  refine (kron_form (modelCov A q σ) _ (fun r c => rfl) _ (fun c M => -musicError Av DAv q c (aug M)) ?_ i j).trans ?_
  · intro r c
    rw [of_apply, gf_bilinear hF]
    unfold musicError
    rw [← neg_div, ← div_div]
    congr 1
    have : ∀ y : Fin v → ℂ, (fun j => -leftInv Av c j / (q c : ℂ)) ⬝ᵥ y = -(leftInv Av *ᵥ y) c / (q c : ℂ) := by
      intro y
      unfold mulVec dotProduct
      rw [← Finset.sum_neg_distrib, Finset.sum_div]
      exact Finset.sum_congr rfl fun j _ => by ring
    exact this _
  · unfold snapshotCov
    simp only [star_neg, neg_mul_neg]

theorem pairAverage_add (l : List ℤ) (R S : Matrix (Fin l.length) (Fin l.length) ℂ) (d : ℤ) :
    pairAverage l (R + S) d = pairAverage l R d + pairAverage l S d := by
  unfold pairAverage
  rw [← add_div, ← Finset.sum_add_distrib]
  rfl

theorem pairAverage_smul (l : List ℤ) (x : ℂ) (R : Matrix (Fin l.length) (Fin l.length) ℂ) (d : ℤ) :
    pairAverage l (x • R) d = x * pairAverage l R d := by
  unfold pairAverage
  rw [mul_div_assoc', Finset.mul_sum]
  rfl

/-- Direct augmentation as a linear map, and the selection matrix as its matrix. -/
theorem aug_exists {a : GridArray} {l : List ℤ} (h : Is1DGrid a l) (hne : l ≠ []) {w : WeightFunction}
    (hw : WeightFunction.init a = .ok w) {v : ℕ} (hv : IsCentralSize l v) :
    ∃ (aug : Matrix (Fin a.size) (Fin a.size) ℂ →ₗ[ℂ] Matrix (Fin v) (Fin v) ℂ) (FC : List (List ℂ)),
      (w.selectionMatrix ℂ false).1 = .ok FC ∧ FC.length = 2 * v - 1 ∧
      (∀ M, (acmTransform w M "da").1 = .ok ⟨v, aug M⟩) ∧
      (∀ M, M.IsHermitian → (aug M).IsHermitian) ∧
      (∀ M r c r' c', (r.1 : ℤ) - c.1 = r'.1 - c'.1 → aug M r c = aug M r' c') ∧
      ∀ (M : Matrix (Fin a.size) (Fin a.size) ℂ) (r c : Fin v) (i : Fin (2 * v - 1)), i.1 = v - c.1 + r.1 - 1 →
        ((Matrix.of fun (i : Fin (2 * v - 1)) (c : Fin (a.size * a.size)) => (FC.getD i.1 []).getD c.1 0) *ᵥ vec M) i = aug M r c := by
  obtain ⟨v', FR, FC, q1, -, q3, q4, q5, q6, q7⟩ := C27_selection h hne hw .refl false
  cases q1.unique hv
  have hlen : FC.length = 2 * v - 1 := by rw [q4, List.length_map, q5]; rfl
  have hrow : ∀ i, i < FC.length → (FC.getD i []).length = l.length * l.length := by
    intro i hi
    have : FC.getD i [] = FC[i] := by rw [List.getD_eq_getElem?_getD, List.getElem?_eq_getElem hi]; rfl
    rw [this]
    subst q4
    rw [List.getElem_map, List.length_map, (q6 _ (List.getElem_mem _)).1, h.2.2, pow_two]
  have key : ∀ (n : ℕ) (_ : n = l.length), ∃ aug : Matrix (Fin n) (Fin n) ℂ →ₗ[ℂ] Matrix (Fin v) (Fin v) ℂ,
      (∀ M, (acmTransform w M "da").1 = .ok ⟨v, aug M⟩) ∧
      (∀ M, M.IsHermitian → (aug M).IsHermitian) ∧
      (∀ M r c r' c', (r.1 : ℤ) - c.1 = r'.1 - c'.1 → aug M r c = aug M r' c') ∧
      ∀ (M : Matrix (Fin n) (Fin n) ℂ) (r c : Fin v) (i : Fin (2 * v - 1)), i.1 = v - c.1 + r.1 - 1 →
        ((Matrix.of fun (i : Fin (2 * v - 1)) (c : Fin (n * n)) => (FC.getD i.1 []).getD c.1 0) *ᵥ vec M) i = aug M r c := by
    intro n hn
    subst hn
    let aug : Matrix (Fin l.length) (Fin l.length) ℂ →ₗ[ℂ] Matrix (Fin v) (Fin v) ℂ :=
      { toFun := fun M => Matrix.of fun r c => pairAverage l M ((r.1 : ℤ) - c.1)
        map_add' := fun M N => by ext r c; exact pairAverage_add l M N _
        map_smul' := fun x M => by ext r c; exact pairAverage_smul l x M _ }
    have haug : ∀ M r c, aug M r c = pairAverage l M ((r.1 : ℤ) - c.1) := fun M r c => rfl
    have hT : ∀ M, (acmTransform w M "da").1 = .ok ⟨v, aug M⟩ ∧ (M.IsHermitian → (aug M).IsHermitian) := by
      intro M
      obtain ⟨u, T, S, t1, t2, t3, t4, t5, -⟩ := C28_acm h hw .refl hne M
      cases t1.unique hv
      have : T = aug M := by ext r c; rw [t4, haug]
      subst this
      exact ⟨t2, t5⟩
    refine ⟨aug, fun M => (hT M).1, fun M => (hT M).2, fun M r c r' c' he => by rw [haug, haug, he], fun M r c i hi => ?_⟩
    have hi' : i.1 < FC.length := by rw [hlen]; exact i.2
    have e := (q7 M i.1 hi').1
    rw [haug]
    have hlag : (if false then (0 : ℤ) else -(v : ℤ) + 1) + (i.1 : ℤ) = (r.1 : ℤ) - c.1 := by
      have := c.2; have := r.2
      simp only [Bool.false_eq_true, if_false]
      omega
    have hlag' : pairAverage l M ((if false = true then (0 : ℤ) else -(v : ℤ) + 1) + (i.1 : ℤ)) = pairAverage l M ((r.1 : ℤ) - c.1) := by
      apply pairAverage_congr
      simpa using hlag
    rw [← hlag', ← e]
    have hz : List.zipWith (· * ·) FC[i.1] (vecF M) = List.ofFn fun c : Fin (l.length * l.length) => (FC.getD i.1 []).getD c.1 0 * vec M c := by
      have hg : FC.getD i.1 [] = FC[i.1] := by rw [List.getD_eq_getElem?_getD, List.getElem?_eq_getElem hi']; rfl
      have hl2 := hrow i.1 hi'
      rw [hg] at hl2 ⊢
      apply List.ext_getElem
      · rw [List.length_zipWith, hl2, length_vecF, List.length_ofFn, min_self]
      · intro c h1 h2
        have h3 : c < l.length * l.length := by simpa using h2
        rw [List.getElem_zipWith, List.getElem_ofFn]
        congr 1
        · rw [List.getD_eq_getElem?_getD, List.getElem?_eq_getElem (by rw [hl2]; exact h3)]; rfl
        · have hc := getElem?_vecF M (finProdFinEquiv.symm (⟨c, h3⟩ : Fin (l.length * l.length))).2 (finProdFinEquiv.symm ⟨c, h3⟩).1
          have hc' : (finProdFinEquiv.symm (⟨c, h3⟩ : Fin (l.length * l.length))).2.1 + (finProdFinEquiv.symm (⟨c, h3⟩ : Fin (l.length * l.length))).1.1 * l.length = c := by
            have := congrArg Fin.val (finProdFinEquiv.apply_symm_apply (⟨c, h3⟩ : Fin (l.length * l.length)))
            rw [finProdFinEquiv_apply_val] at this
            exact (congrArg (_ + ·) (Nat.mul_comm _ _)).trans this
          rw [hc'] at hc
          have := (List.getElem?_eq_some_iff.1 hc).2
          exact this
    rw [hz, List.sum_ofFn]
    rfl
  obtain ⟨aug, k1, k2, k3, k4⟩ := key a.size h.2.2
  exact ⟨aug, FC, q3, hlen, k1, k2, k3, k4⟩

/-- A formula for the returned matrix, for any spacing of the virtual array. -/
theorem ecovCoarrayWith_formula (eigh : Eigh) {a : GridArray} {l : List ℤ} (h : Is1DGrid a l) (hne : l ≠ [])
    (hel : a.element = .isotropicScalar) (hpert : a.perts = []) {v : ℕ} (hv : IsCentralSize l v) {s : FF1D k} {wl spacing : ℝ}
    (hsc : UlaScene spacing wl v s) {p : PowerArg} {P : Matrix (Fin k) (Fin k) ℂ} (hp : PowerDenotes k p P) {q : Fin k → ℝ}
    (hq : ∀ i, 0 < q i) (hPq : ∀ i, P i i = (q i : ℂ)) (σ : ℝ) {n : ℕ} (hn : 1 ≤ n) {w : WeightFunction} (hw : WeightFunction.init a = .ok w) :
    ∃ (aug : Matrix (Fin a.size) (Fin a.size) ℂ →ₗ[ℂ] Matrix (Fin v) (Fin v) ℂ) (S : Steering a.element.outputSize a.size k)
      (Av DAv : Matrix (Fin v) (Fin k) ℂ) (C : Matrix (Fin k) (Fin k) ℝ),
      (∀ M, (acmTransform w M "da").1 = .ok ⟨v, aug M⟩) ∧
      (∀ M, M.IsHermitian → (aug M).IsHermitian) ∧
      (∀ M r c r' c', (r.1 : ℤ) - c.1 = r'.1 - c'.1 → aug M r c = aug M r' c') ∧
      steering a.toArrayDesign (.ff1 s) wl false "all" = .ok S ∧
      Av = (ulaMat v fun c => phaseFactor spacing wl s.unit (s.loc c)) ∧
      DAv = (ulaDeriv v (fun c => phaseFactor spacing wl s.unit (s.loc c))
        fun c => Complex.I * ((2 * Real.pi * spacing / wl * sineRate s.unit (s.loc c) : ℝ) : ℂ)) ∧
      ecovCoarrayWith eigh spacing a (.ff1 s) wl p σ n "full" = .ok (.full C) ∧
      ∀ i j o, C i j = (n : ℝ)⁻¹ * (snapshotCov (modelCov (S.A o) q σ) (fun M => musicError Av DAv q i (aug M))
        (fun M => musicError Av DAv q j (aug M))).re := by
  have : NeZero wl := ⟨hsc.wl_pos.ne'⟩
  obtain ⟨aug, FC, f1, f2, f3, f4, f5, f6⟩ := aug_exists h hne hw hv
  obtain ⟨ω, hω⟩ := linear_phase (.ff1 s) rfl wl
  obtain ⟨S, hS, hSv⟩ := linear_steering a.toArrayDesign hel hpert h.2.1 (.ff1 s) wl ω hω
  have hv1 := C26_central_pos hne hv
  have hvF : (FC.length + 1) / 2 = v := by rw [f2]; omega
  obtain ⟨b, hb⟩ := ula_ok v spacing none
  have hbs : b.toArrayDesign.size = v := (C01_ula_geometry v spacing none {} b hb).1
  have hst := ula_steerPair hb s hsc.valid wl "all" (by simp)
  have hvec : unifyPToVector p k = .ok fun i => (q i : ℂ) :=
    ((C61_vector p k).1 _).2 ⟨P, hp, funext fun i => (hPq i).symm⟩
  have hz : Function.Injective fun c => phaseFactor spacing wl s.unit (s.loc c) := fun c e hce =>
    hsc.distinct (phaseFactor_inj hsc.d_pos hsc.wl_pos (hsc.valid.2 c) (hsc.valid.2 e) (hsc.unambiguous c e) hce)
  have hinj := ulaMat_injective (m := v) hz hsc.few.le
  have hout : a.toArrayDesign.element.outputSize = 1 := by
    show a.element.outputSize = 1
    rw [hel]; rfl
  set z : Fin k → ℂ := fun c => phaseFactor spacing wl s.unit (s.loc c) with hzdef
  set dz : Fin k → ℂ := fun c => Complex.I * ((2 * Real.pi * spacing / wl * sineRate s.unit (s.loc c) : ℝ) : ℂ) with hdz
  refine ⟨aug, S, _, _, ecovCoarrayCore eigh (S.A ⟨0, by omega⟩) (fun i => (q i : ℂ)) σ n (ulaMat v z) (ulaDeriv v z dz)
      (Matrix.of fun (i : Fin (2 * v - 1)) (c : Fin (a.size * a.size)) => (FC.getD i.1 []).getD c.1 0), f3, f4, f5, hS, rfl, rfl, ?_, ?_⟩
  · unfold ecovCoarrayWith
    have hper : a.toArrayDesign.isPerturbed = false := by
      show ArrayDesign.isPerturbed _ = false
      have : a.toArrayDesign.perts = [] := hpert
      simp [ArrayDesign.isPerturbed, this]
    simp only [Sources.isFF1, Bool.not_true, Bool.false_eq_true, if_false, hper, hvec, hw, f1, hvF, hS, hb, hst, dif_pos hout]
    rw [if_neg (by have := hsc.few; omega)]
    clear hst
    have hN := not_nan eigh hq σ hn hinj
      (ulaDeriv_not_span (m := v) hz (fun c => phaseFactor_ne_zero _ _ _ _) (w := dz) hsc.rate_ne hsc.few)
    generalize b.toArrayDesign.size = v' at hbs
    subst hbs
    exact if_neg hN
  · intro i j o
    have hk : 1 ≤ k := Nat.one_le_iff_ne_zero.2 fun h0 => by subst h0; exact i.elim0
    have ho : o = ⟨0, by omega⟩ := Fin.ext (by have := o.2; omega)
    rw [ho]
    exact core_formula eigh hk _ hq σ n hinj _ f6 i j

/-- **C60** (number of sources). With `v` the size of the central virtual ULA, `k ≥ v` sources raise `ValueError`. -/
theorem C60_too_many (eigh : Eigh) {a : GridArray} {l : List ℤ} (h : Is1DGrid a l) (hne : l ≠ []) {v : ℕ} (hv : IsCentralSize l v)
    (src : Sources k) (hk : v ≤ k) (wl : ℝ) (p : PowerArg) (σ : ℝ) (n : ℕ) (mode : String) :
    ecovCoarray eigh a src wl p σ n mode = .error .valueError := by
  have hw := weightFunction_init h
  obtain ⟨aug, FC, f1, f2, -⟩ := aug_exists h hne hw hv
  have hv1 := C26_central_pos hne hv
  have hvF : (FC.length + 1) / 2 = v := by rw [f2]; omega
  unfold ecovCoarray ecovCoarrayWith
  split
  · rfl
  split
  · rfl
  have hm := (C61_vector p k).2
  by_cases hden : ∃ M, PowerDenotes k p M
  · obtain ⟨M, hM⟩ := hden
    have := ((C61_vector p k).1 _).2 ⟨M, hM, rfl⟩
    simp only [this, hw, f1, hvF]
    rw [if_pos hk]
  · rw [hm fun M hM => hden ⟨M, hM⟩]

/-- **C60** (what is returned). Let `a` be an unperturbed 1-D grid array of isotropic sensors, `v` the size of its central
virtual ULA and `T(M)` the matrix that covariance augmentation (`method='da'`) makes of `M`. For `k < v` sources at
different, non-endfire DOAs with powers `q` the returned matrix is, whatever eigenvectors `eigh` chooses, the covariance for
`n` snapshots with `R = A diag(q) Aᴴ + σ I` of the errors `musicError Av DAv q i (T(δ))`, where `Av`, `DAv` are the steering
matrix and its derivative of a ULA of `v` sensors *half a wavelength apart*. -/
theorem C60_formula (eigh : Eigh) {a : GridArray} {l : List ℤ} (h : Is1DGrid a l) (hne : l ≠ [])
    (hel : a.element = .isotropicScalar) (hpert : a.perts = []) {v : ℕ} (hv : IsCentralSize l v) {s : FF1D k} {wl : ℝ}
    (hsc : UlaScene (wl / 2) wl v s) {p : PowerArg} {P : Matrix (Fin k) (Fin k) ℂ} (hp : PowerDenotes k p P) {q : Fin k → ℝ}
    (hq : ∀ i, 0 < q i) (hPq : ∀ i, P i i = (q i : ℂ)) (σ : ℝ) {n : ℕ} (hn : 1 ≤ n) {w : WeightFunction} (hw : WeightFunction.init a = .ok w) :
    ∃ (T : Matrix (Fin a.size) (Fin a.size) ℂ →ₗ[ℂ] Matrix (Fin v) (Fin v) ℂ) (S : Steering a.element.outputSize a.size k)
      (Av DAv : Matrix (Fin v) (Fin k) ℂ) (C : Matrix (Fin k) (Fin k) ℝ),
      (∀ M, (acmTransform w M "da").1 = .ok ⟨v, T M⟩) ∧
      steering a.toArrayDesign (.ff1 s) wl false "all" = .ok S ∧
      (∀ b, ula v (.scalar (wl / 2)) none {} = .ok b → ∀ (hb : b.toArrayDesign.size = v),
        Steers b.toArrayDesign (.ff1 s) wl "all" (Av.reindex (finCongr hb.symm) (Equiv.refl _)) (DAv.reindex (finCongr hb.symm) (Equiv.refl _))) ∧
      ecovCoarray eigh a (.ff1 s) wl p σ n "full" = .ok (.full C) ∧
      ∀ i j o, C i j = (n : ℝ)⁻¹ * (snapshotCov (modelCov (S.A o) q σ) (fun M => musicError Av DAv q i (T M))
        (fun M => musicError Av DAv q j (T M))).re := by
  have : NeZero wl := ⟨hsc.wl_pos.ne'⟩
  obtain ⟨T, S, Av, DAv, C, h1, -, -, h2, rfl, rfl, h3, h4⟩ := ecovCoarrayWith_formula eigh h hne hel hpert hv hsc hp hq hPq σ hn hw
  refine ⟨T, S, _, _, C, h1, h2, fun b hb hbs => ?_, h3, h4⟩
  exact steers_iff.2 (ula_steerPair hb s hsc.valid wl "all" (by simp))

end Doa.Props
