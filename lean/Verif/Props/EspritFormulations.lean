import Verif.Props.Esprit
import Verif.Lemmas.DavisKahan

/-!
# C110: what the two formulations of ESPRIT solve

For every covariance matrix, not only an exact one: `'ls'` is the least squares solution of `Es1 Φ = Es2`, the change of `Es2` of the
least Frobenius norm that makes the equation solvable, and `'tls'` the total least squares solution, the least change of both.
-/

namespace Doa.Props
open Matrix Doa Doa.Spec
open scoped ComplexOrder

variable {n k : ℕ}

theorem frobSq_pyth {m n : ℕ} {M N : Matrix (Fin m) (Fin n) ℂ} (h : trace (M * Nᴴ) = 0) :
    frobSq (M + N) = frobSq M + frobSq N := by
  have h2 : trace (N * Mᴴ) = 0 := by
    have := congrArg star h
    rw [← trace_conjTranspose, conjTranspose_mul, conjTranspose_conjTranspose, star_zero] at this
    exact this
  rw [frobSq_trace, frobSq_trace M, frobSq_trace N, conjTranspose_add, Matrix.add_mul, Matrix.mul_add, Matrix.mul_add,
    trace_add, trace_add, trace_add, h, h2]
  simp

theorem frobSq_neg {m n : ℕ} (M : Matrix (Fin m) (Fin n) ℂ) : frobSq (-M) = frobSq M := by
  simp [frobSq]

theorem frobSq_zero_iff {m n : ℕ} {M : Matrix (Fin m) (Fin n) ℂ} (h : frobSq M ≤ 0) : M = 0 := by
  ext i j
  have h0 := le_antisymm h (frobSq_nonneg M)
  have h1 := (Finset.sum_eq_zero_iff_of_nonneg (fun i _ => Finset.sum_nonneg fun j _ => by positivity)).1 h0 i (Finset.mem_univ _)
  have h2 := (Finset.sum_eq_zero_iff_of_nonneg (fun j _ => by positivity)).1 h1 j (Finset.mem_univ _)
  simpa using h2

theorem frobSq_hstack (a b : Matrix (Fin n) (Fin k) ℂ) : frobSq (hstack2 a b) = frobSq a + frobSq b := by
  simp only [frobSq, Fin.sum_univ_add, hstack2, Fin.addCases_left, Fin.addCases_right, Finset.sum_add_distrib]

/-- **C110** (least squares). `'ls'` raises `LinAlgError` exactly if `Es1` does not have full column rank, and otherwise returns the only
matrix that minimises `‖Es1 X - Es2‖`. -/
theorem C110_ls (a b : Matrix (Fin n) (Fin k) ℂ) :
    (¬ Function.Injective a.mulVec → phiLS a b = .error .linAlgError) ∧
    (Function.Injective a.mulVec → ∃ Φ, phiLS a b = .ok Φ ∧
      ∀ X, frobSq (a * X - b) ≤ frobSq (a * Φ - b) ↔ X = Φ) := by
  unfold phiLS npSolve
  refine ⟨fun h => if_neg fun hu => h ((fullRank_iff a).1 hu), fun h => ?_⟩
  have hu := (fullRank_iff a).2 h
  refine ⟨_, if_pos hu, fun X => ⟨fun hX => ?_, fun hX => by rw [hX]⟩⟩
  set Φ := (aᴴ * a)⁻¹ * (aᴴ * b) with hΦ
  have hn : aᴴ * (a * Φ - b) = 0 := by
    rw [Matrix.mul_sub, hΦ, ← Matrix.mul_assoc aᴴ a, ← Matrix.mul_assoc (aᴴ * a), mul_nonsing_inv _ hu, Matrix.one_mul, sub_self]
  have hp := frobSq_pyth (M := a * Φ - b) (N := a * (X - Φ)) (by
    rw [trace_mul_comm, conjTranspose_mul, Matrix.mul_assoc, hn, Matrix.mul_zero, trace_zero])
  have he : a * Φ - b + a * (X - Φ) = a * X - b := by rw [Matrix.mul_sub]; abel
  rw [he] at hp
  have h0 : a * (X - Φ) = 0 := frobSq_zero_iff (by linarith)
  have : X - Φ = 0 := by
    have h1 : aᴴ * a * (X - Φ) = 0 := by rw [Matrix.mul_assoc, h0, Matrix.mul_zero]
    have h2 := congrArg (fun M => (aᴴ * a)⁻¹ * M) h1
    simpa only [← Matrix.mul_assoc, nonsing_inv_mul _ hu, Matrix.one_mul, Matrix.mul_zero] using h2
  exact sub_eq_zero.1 this

/-- Any projector of rank `q` has a trace against `R` at least the sum of the least `q` eigenvalues. -/
theorem trace_proj_ge {m : ℕ} {R E Q : Matrix (Fin m) (Fin m) ℂ} {w : Fin m → ℝ} (h : IsEigh R w E) (hQ : Qᴴ = Q) (hQQ : Q * Q = Q)
    {q : ℕ} (hq : q ≤ m) (htr : trace Q = (q : ℂ)) :
    (∑ i : Fin m, if i.1 < q then w i else 0) ≤ (trace (R * Q)).re ∧
    ((∀ i j : Fin m, i.1 < q → q ≤ j.1 → w i < w j) → (trace (R * Q)).re ≤ (∑ i : Fin m, if i.1 < q then w i else 0) →
      ∀ i j : Fin m, j.1 < q → (Q * E) i j = E i j) := by
  have hR : R = E * diagonal (fun j => (w j : ℂ)) * Eᴴ := by
    rw [← h.eig, Matrix.mul_assoc, h.orth', Matrix.mul_one]
  set S := Eᴴ * Q * E with hS
  have hSS : S * Sᴴ = S := by
    rw [hS, conjTranspose_mul, conjTranspose_mul, conjTranspose_conjTranspose, hQ]
    calc Eᴴ * Q * E * (Eᴴ * (Q * E)) = Eᴴ * Q * (E * Eᴴ) * Q * E := by simp only [Matrix.mul_assoc]
      _ = Eᴴ * (Q * Q) * E := by rw [h.orth', Matrix.mul_one]; simp only [Matrix.mul_assoc]
      _ = _ := by rw [hQQ]
  set p : Fin m → ℝ := fun i => (S i i).re with hp
  have hps : ∀ i, p i = ∑ j, ‖S i j‖ ^ 2 := by
    intro i
    have := congrArg Complex.re (congrFun (congrFun hSS i) i)
    rw [mul_apply, Complex.re_sum] at this
    rw [hp]; simp only
    rw [← this]
    refine Finset.sum_congr rfl fun j _ => ?_
    rw [conjTranspose_apply, Complex.star_def, Complex.mul_conj, Complex.ofReal_re, Complex.normSq_eq_norm_sq]
  have hp0 : ∀ i, 0 ≤ p i := fun i => by rw [hps]; positivity
  have hp1 : ∀ i, p i ≤ 1 := fun i => by
    have h1 : p i ^ 2 ≤ p i := by
      conv_rhs => rw [hps]
      refine le_trans ?_ (Finset.single_le_sum (f := fun j => ‖S i j‖ ^ 2) (fun j _ => by positivity) (Finset.mem_univ i))
      have := Complex.abs_re_le_norm (S i i)
      rw [← sq_abs]
      exact pow_le_pow_left₀ (abs_nonneg _) this 2
    nlinarith [hp0 i]
  have hsum : ∑ i, p i = q := by
    have : trace S = q := by rw [hS, trace_mul_comm, ← Matrix.mul_assoc, h.orth', Matrix.one_mul, htr]
    have := congrArg Complex.re this
    rw [trace, Complex.re_sum, Complex.natCast_re] at this
    exact this
  set u : Fin m → ℝ := fun i => if i.1 < q then 1 else 0 with hu
  have husum : ∑ i, u i = q := by
    rw [hu, Finset.sum_boole]
    norm_cast
    have : (Finset.univ.filter fun i : Fin m => i.1 < q) = Finset.univ.map (Fin.castLEEmb hq) := by
      ext i
      simp only [Finset.mem_filter, Finset.mem_univ, true_and, Finset.mem_map, Fin.castLEEmb_apply]
      exact ⟨fun hi => ⟨⟨i.1, hi⟩, rfl⟩, fun ⟨j, hj⟩ => by rw [← hj]; exact j.2⟩
    rw [this, Finset.card_map, Finset.card_fin]
  have ht : (trace (R * Q)).re = ∑ i, w i * p i := by
    have : trace (R * Q) = trace (diagonal (fun j => (w j : ℂ)) * S) := by
      rw [hR, hS]
      simp only [Matrix.mul_assoc]
      rw [trace_mul_comm]
      simp only [Matrix.mul_assoc]
    rw [this, trace, Complex.re_sum]
    refine Finset.sum_congr rfl fun i _ => ?_
    rw [diag_apply, diagonal_mul, Complex.re_ofReal_mul]
  have hw : (∑ i : Fin m, if i.1 < q then w i else 0) = ∑ i, w i * u i :=
    Finset.sum_congr rfl fun i _ => by simp only [hu]; split_ifs <;> simp
  rw [ht, hw]
  obtain ⟨c, hlo, hhi, hc'⟩ : ∃ c, (∀ i : Fin m, i.1 < q → w i ≤ c) ∧
      (∀ i : Fin m, q ≤ i.1 → c ≤ w i) ∧ ∀ {j : Fin m}, (hj : j.1 < q) → c ≤ w ⟨q - 1, by omega⟩ := by
    by_cases hq0 : q = 0
    · subst hq0
      by_cases hm : m = 0
      · subst hm; exact ⟨0, fun i => i.elim0, fun i => i.elim0, fun {i} => i.elim0⟩
      · exact ⟨w ⟨0, by omega⟩, fun i hi => by omega, fun i _ => h.mono (show (⟨0, by omega⟩ : Fin m) ≤ i from Nat.zero_le _),
          fun {j} hj => absurd hj (by omega)⟩
    · refine ⟨w ⟨q - 1, by omega⟩, fun i hi => h.mono (show i ≤ (⟨q - 1, by omega⟩ : Fin m) from ?_),
        fun i hi => h.mono (show (⟨q - 1, by omega⟩ : Fin m) ≤ i from ?_), fun {j} _ => le_rfl⟩
      · show i.1 ≤ q - 1; omega
      · show q - 1 ≤ i.1; omega
  have hz : ∑ i, (w i - c) * (p i - u i) = ∑ i, w i * p i - ∑ i, w i * u i := by
    have : ∑ i, (w i - c) * (p i - u i) = (∑ i, w i * p i - ∑ i, w i * u i) - c * (∑ i, p i - ∑ i, u i) := by
      rw [mul_sub, Finset.mul_sum, Finset.mul_sum, ← Finset.sum_sub_distrib, ← Finset.sum_sub_distrib, ← Finset.sum_sub_distrib]
      exact Finset.sum_congr rfl fun i _ => by ring
    rw [this, hsum, husum]; ring
  have hpos : ∀ i, 0 ≤ (w i - c) * (p i - u i) := by
    intro i
    by_cases hi : i.1 < q
    · have h1 : u i = 1 := by simp [hu, hi]
      rw [h1]
      exact mul_nonneg_of_nonpos_of_nonpos (by linarith [hlo i hi]) (by linarith [hp1 i])
    · have h0 : u i = 0 := by simp [hu, hi]
      rw [h0, sub_zero]
      exact mul_nonneg (by linarith [hhi i (by omega)]) (hp0 i)
  refine ⟨by linarith [Finset.sum_nonneg fun i (_ : i ∈ Finset.univ) => hpos i], fun hgap hle i j hj => ?_⟩
  have hzero := (Finset.sum_eq_zero_iff_of_nonneg fun i _ => hpos i).1
    (le_antisymm (by linarith) (Finset.sum_nonneg fun i (_ : i ∈ Finset.univ) => hpos i))
  have hge : ∀ i, 0 ≤ u i - p i := by
    intro i
    by_cases hi : i.1 < q
    · simp only [hu, hi, if_true]; linarith [hp1 i]
    · have hc : c < w i := (hc' hj).trans_lt (hgap ⟨q - 1, by omega⟩ i (by show q - 1 < q; omega) (by omega))
      have := hzero i (Finset.mem_univ _)
      simp only [hu, hi, if_false] at this ⊢
      rcases mul_eq_zero.1 this with h1 | h1 <;> linarith
  have huz := (Finset.sum_eq_zero_iff_of_nonneg fun i _ => hge i).1 (by rw [Finset.sum_sub_distrib, hsum, husum, sub_self]) j (Finset.mem_univ _)
  have hpj : p j = 1 := by
    simp only [hu, hj, if_true] at huz; linarith
  have hM : ((E - Q * E)ᴴ * (E - Q * E)) = 1 - S := by
    rw [conjTranspose_sub, conjTranspose_mul, hQ, Matrix.sub_mul, Matrix.mul_sub, Matrix.mul_sub, h.orth, hS]
    have : Eᴴ * Q * (Q * E) = Eᴴ * Q * E := by rw [← Matrix.mul_assoc, Matrix.mul_assoc Eᴴ Q Q, hQQ]
    rw [this, ← Matrix.mul_assoc]; abel
  have h0 : ∑ i, ‖(E - Q * E) i j‖ ^ 2 = 0 := by
    have h1 := congrArg Complex.re (congrFun (congrFun hM j) j)
    rw [mul_apply, Complex.re_sum, Matrix.sub_apply, one_apply_eq, Complex.sub_re, Complex.one_re] at h1
    have h2 : (S j j).re = 1 := hpj
    rw [h2, sub_self] at h1
    rw [← h1]
    refine Finset.sum_congr rfl fun l _ => ?_
    rw [conjTranspose_apply, Complex.star_def, mul_comm, Complex.mul_conj, Complex.ofReal_re, Complex.normSq_eq_norm_sq]
  have h3 := (Finset.sum_eq_zero_iff_of_nonneg (fun i _ => by positivity)).1 h0 i (Finset.mem_univ _)
  have h4 : (E - Q * E) i j = 0 := by simpa using h3
  exact (sub_eq_zero.1 h4).symm

/-- The trace against the projector onto eigenvectors is the sum of their eigenvalues. -/
theorem trace_lowProj_self {m : ℕ} {R E : Matrix (Fin m) (Fin m) ℂ} {w : Fin m → ℝ} (h : IsEigh R w E) (q : ℕ) :
    (trace (R * lowProj E q)).re = ∑ i : Fin m, if i.1 < q then w i else 0 := by
  rw [trace_lowProj h q]
  refine Finset.sum_congr rfl fun i _ => ?_
  rw [h.orth, Finset.sum_eq_single i]
  · split_ifs <;> simp
  · intro j _ hj; simp [one_apply_ne hj.symm]
  · simp

/-- A matrix product with a stacked factor. -/
theorem hstack_mul (a b : Matrix (Fin n) (Fin k) ℂ) {l : ℕ} (W : Matrix (Fin (k + k)) (Fin l) ℂ) :
    hstack2 a b * W = a * (Matrix.of fun i j => W (Fin.castAdd k i) j) + b * Matrix.of fun i j => W (Fin.natAdd k i) j := by
  ext i j
  rw [mul_apply, Fin.sum_univ_add, Matrix.add_apply, mul_apply, mul_apply]
  simp only [hstack2, Fin.addCases_left, Fin.addCases_right, of_apply]

theorem hstack_add (a b a' b' : Matrix (Fin n) (Fin k) ℂ) : hstack2 a b + hstack2 a' b' = hstack2 (a + a') (b + b') := by
  ext i j
  refine Fin.addCases (fun j => ?_) (fun j => ?_) j <;>
    simp only [hstack2, Fin.addCases_left, Fin.addCases_right, Matrix.add_apply]

/-- The lower bound: every correction that makes the system solvable costs at least the least `k` eigenvalues. -/
theorem tls_lower {a b : Matrix (Fin n) (Fin k) ℂ} {w : Fin (k + k) → ℝ} {E : Matrix (Fin (k + k)) (Fin (k + k)) ℂ}
    (h : IsEigh ((hstack2 a b)ᴴ * hstack2 a b) w E) {Δ₁ Δ₂ : Matrix (Fin n) (Fin k) ℂ} {Φ : Matrix (Fin k) (Fin k) ℂ}
    (hs : (a + Δ₁) * Φ = b + Δ₂) : (∑ i : Fin (k + k), if i.1 < k then w i else 0) ≤ frobSq Δ₁ + frobSq Δ₂ ∧
    ((∀ i j : Fin (k + k), i.1 < k → k ≤ j.1 → w i < w j) →
      frobSq Δ₁ + frobSq Δ₂ ≤ (∑ i : Fin (k + k), if i.1 < k then w i else 0) →
      (Matrix.of fun i j : Fin k => E (Fin.castAdd k i) (Fin.natAdd k j).rev) =
        -(Φ * Matrix.of fun i j : Fin k => E (Fin.natAdd k i) (Fin.natAdd k j).rev)) := by
  set C := hstack2 a b with hC
  set D := hstack2 Δ₁ Δ₂ with hD
  set W : Matrix (Fin (k + k)) (Fin k) ℂ := Matrix.of fun i j => Fin.addCases (fun i => Φ i j) (fun i => -(1 : Matrix (Fin k) (Fin k) ℂ) i j) i with hW
  have hW1 : (Matrix.of fun i j => W (Fin.castAdd k i) j) = Φ := by ext i j; simp only [hW, of_apply, Fin.addCases_left]
  have hW2 : (Matrix.of fun i j => W (Fin.natAdd k i) j) = -(1 : Matrix (Fin k) (Fin k) ℂ) := by
    ext i j; simp only [hW, of_apply, Fin.addCases_right, Matrix.neg_apply]
  have hker : (C + D) * W = 0 := by
    rw [hC, hD, hstack_add, hstack_mul, hW1, hW2, hs, Matrix.mul_neg, Matrix.mul_one, add_neg_cancel]
  have hinj : Function.Injective W.mulVec := by
    intro x y hxy
    funext i
    have := congrFun hxy (Fin.natAdd k i)
    have e : ∀ x, (W *ᵥ x) (Fin.natAdd k i) = ((Matrix.of fun i j => W (Fin.natAdd k i) j) *ᵥ x) i := fun _ => rfl
    rw [e, e, hW2] at this
    simpa [neg_mulVec] using this
  have hu := (fullRank_iff W).2 hinj
  set Q := W * (Wᴴ * W)⁻¹ * Wᴴ with hQ
  have hQh : Qᴴ = Q := by
    rw [hQ, conjTranspose_mul, conjTranspose_mul, conjTranspose_conjTranspose, conjTranspose_nonsing_inv, conjTranspose_mul,
      conjTranspose_conjTranspose, Matrix.mul_assoc]
  have hQQ : Q * Q = Q := by
    calc Q * Q = W * ((Wᴴ * W)⁻¹ * (Wᴴ * W)) * (Wᴴ * W)⁻¹ * Wᴴ := by rw [hQ]; simp only [Matrix.mul_assoc]
      _ = Q := by rw [nonsing_inv_mul _ hu, Matrix.mul_one]
  have htr : trace Q = (k : ℂ) := by
    rw [hQ, trace_mul_comm, ← Matrix.mul_assoc, mul_nonsing_inv _ hu, trace_one, Fintype.card_fin]
  have hDQ : D * Q = -(C * Q) := by
    have : (C + D) * Q = 0 := by rw [hQ, ← Matrix.mul_assoc, ← Matrix.mul_assoc, hker, Matrix.zero_mul, Matrix.zero_mul]
    rw [Matrix.add_mul] at this
    exact eq_neg_of_add_eq_zero_right this
  have hpy := frobSq_pyth (M := D * Q) (N := D * (1 - Q)) (by
    rw [conjTranspose_mul, conjTranspose_sub, conjTranspose_one, hQh]
    have : D * Q * ((1 - Q) * Dᴴ) = D * (Q - Q * Q) * Dᴴ := by
      rw [← Matrix.mul_assoc, Matrix.mul_assoc D, Matrix.mul_sub, Matrix.mul_one]
    rw [this, hQQ, sub_self, Matrix.mul_zero, Matrix.zero_mul, trace_zero])
  have hsp : D * Q + D * (1 - Q) = D := by rw [← Matrix.mul_add]; simp
  rw [hsp, hDQ, frobSq_neg, hD, frobSq_hstack] at hpy
  have hCQ : frobSq (C * Q) = (trace (Cᴴ * C * Q)).re := by
    rw [frobSq_trace, conjTranspose_mul, hQh]
    congr 1
    rw [← Matrix.mul_assoc, Matrix.mul_assoc C, hQQ, trace_mul_comm, Matrix.mul_assoc]
  obtain ⟨hge, heq⟩ := trace_proj_ge h hQh hQQ (by omega : k ≤ k + k) htr
  rw [← hCQ] at hge heq
  have hnn := frobSq_nonneg (D * (1 - Q))
  refine ⟨by linarith, fun hgap hle => ?_⟩
  have hQE := heq hgap (by linarith)
  set Z : Matrix (Fin k) (Fin (k + k)) ℂ := (Wᴴ * W)⁻¹ * Wᴴ * E with hZ
  have hWZ : Q * E = W * Z := by rw [hQ, hZ]; simp only [Matrix.mul_assoc]
  rw [hWZ] at hQE
  have hv2 : ∀ i j : Fin k, E (Fin.natAdd k i) (Fin.natAdd k j).rev = -Z i (Fin.natAdd k j).rev := by
    intro i j
    rw [← hQE _ _ (by simp only [Fin.val_rev, Fin.val_natAdd]; omega)]
    have : (W * Z) (Fin.natAdd k i) (Fin.natAdd k j).rev = ((Matrix.of fun i j => W (Fin.natAdd k i) j) * Z) i (Fin.natAdd k j).rev := rfl
    rw [this, hW2, Matrix.neg_mul, Matrix.one_mul, Matrix.neg_apply]
  ext i j
  rw [of_apply, ← hQE _ _ (by simp only [Fin.val_rev, Fin.val_natAdd]; omega)]
  have : (W * Z) (Fin.castAdd k i) (Fin.natAdd k j).rev = ((Matrix.of fun i j => W (Fin.castAdd k i) j) * Z) i (Fin.natAdd k j).rev := rfl
  rw [this, hW1, Matrix.neg_apply, mul_apply, mul_apply, ← Finset.sum_neg_distrib]
  exact Finset.sum_congr rfl fun l _ => by rw [of_apply, hv2]; ring

/-- The least correction: remove the components along the eigenvectors of the least `k` eigenvalues. -/
theorem tls_correction {a b : Matrix (Fin n) (Fin k) ℂ} {w : Fin (k + k) → ℝ} {E : Matrix (Fin (k + k)) (Fin (k + k)) ℂ}
    (hE : IsEigh ((hstack2 a b)ᴴ * hstack2 a b) w E) :
    ∃ Δ₁ Δ₂ : Matrix (Fin n) (Fin k) ℂ, (frobSq Δ₁ + frobSq Δ₂ = ∑ i : Fin (k + k), if i.1 < k then w i else 0) ∧
      (a + Δ₁) * (Matrix.of fun i j : Fin k => E (Fin.castAdd k i) (Fin.natAdd k j).rev) +
        (b + Δ₂) * (Matrix.of fun i j : Fin k => E (Fin.natAdd k i) (Fin.natAdd k j).rev) = 0 := by
  set C := hstack2 a b with hC
  set P := lowProj E k with hP
  have hPP : P * P = P := lowProj_mul_self hE.orth k
  set Δ := -(C * P) with hΔ
  set Δ₁ : Matrix (Fin n) (Fin k) ℂ := Matrix.of fun i j => Δ i (Fin.castAdd k j) with hΔ₁
  set Δ₂ : Matrix (Fin n) (Fin k) ℂ := Matrix.of fun i j => Δ i (Fin.natAdd k j) with hΔ₂
  have hst : Δ = hstack2 Δ₁ Δ₂ := by
    ext i j
    refine Fin.addCases (fun j => ?_) (fun j => ?_) j <;>
      simp only [hstack2, hΔ₁, hΔ₂, Fin.addCases_left, Fin.addCases_right, of_apply]
  set N : Matrix (Fin (k + k)) (Fin k) ℂ := Matrix.of fun i j => E i (Fin.natAdd k j).rev with hN
  have hPN : P * N = N := by
    have hEN : Eᴴ * N = Matrix.of fun i j => (1 : Matrix (Fin (k + k)) (Fin (k + k)) ℂ) i (Fin.natAdd k j).rev := by
      rw [← hE.orth]; rfl
    rw [hP, lowProj, Matrix.mul_assoc, hEN, Matrix.mul_assoc]
    ext i j
    rw [mul_apply, Finset.sum_eq_single (Fin.natAdd k j).rev]
    · rw [diagonal_mul, if_pos (by simp only [Fin.val_rev, Fin.val_natAdd]; omega)]
      simp only [of_apply, one_apply_eq, mul_one, hN]
    · intro l _ hl
      rw [diagonal_mul]
      simp [one_apply_ne hl]
    · simp
  refine ⟨Δ₁, Δ₂, ?_, ?_⟩
  · rw [← frobSq_hstack, ← hst, hΔ, frobSq_neg, ← trace_lowProj_self hE k, frobSq_trace, conjTranspose_mul, lowProj_hermitian]
    congr 1
    rw [← Matrix.mul_assoc, Matrix.mul_assoc C, hPP, trace_mul_comm, ← Matrix.mul_assoc]
  · have hz : (C + Δ) * N = 0 := by
      rw [hΔ, Matrix.add_mul, Matrix.neg_mul, Matrix.mul_assoc C P, hPN, add_neg_cancel]
    rw [hst, hC, hstack_add, hstack_mul] at hz
    exact hz

theorem phiTLS_of_blocks (eigh : Eigh) (a b : Matrix (Fin n) (Fin k) ℂ) {Φ : Matrix (Fin k) (Fin k) ℂ}
    (hu : IsUnit (Matrix.of fun i j : Fin k => (eigh.run ((hstack2 a b)ᴴ * hstack2 a b)).2 (Fin.natAdd k i) (Fin.natAdd k j).rev).det)
    (hV : (Matrix.of fun i j : Fin k => (eigh.run ((hstack2 a b)ᴴ * hstack2 a b)).2 (Fin.castAdd k i) (Fin.natAdd k j).rev) =
      -(Φ * Matrix.of fun i j : Fin k => (eigh.run ((hstack2 a b)ᴴ * hstack2 a b)).2 (Fin.natAdd k i) (Fin.natAdd k j).rev)) :
    phiTLS eigh a b = .ok Φ := by
  unfold phiTLS
  simp only
  set E := (eigh.run ((hstack2 a b)ᴴ * hstack2 a b)).2
  change (match npSolve (Matrix.of fun i j : Fin k => E (Fin.natAdd k i) (Fin.natAdd k j).rev)ᵀ
    (Matrix.of fun i j : Fin k => E (Fin.castAdd k i) (Fin.natAdd k j).rev)ᵀ with
    | .error e => Except.error e
    | .ok X => Except.ok (-Xᵀ)) = _
  unfold npSolve
  rw [if_pos (by rw [det_transpose]; exact hu)]
  simp only
  congr 1
  rw [transpose_mul, transpose_transpose, transpose_nonsing_inv, transpose_transpose, hV, Matrix.neg_mul, neg_neg,
    Matrix.mul_assoc, mul_nonsing_inv _ hu, Matrix.mul_one]

/-- **C110** (total least squares). What `'tls'` returns solves the system after changes of both sides that are, together, no larger
than those of any other solvable system; with a gap between the eigenvalues, no other matrix does. -/
theorem C110_tls (eigh : Eigh) (a b : Matrix (Fin n) (Fin k) ℂ) {Φ : Matrix (Fin k) (Fin k) ℂ} (h : phiTLS eigh a b = .ok Φ) :
    ∃ Δ₁ Δ₂ : Matrix (Fin n) (Fin k) ℂ, (a + Δ₁) * Φ = b + Δ₂ ∧
      ∀ (Δ₁' Δ₂' : Matrix (Fin n) (Fin k) ℂ) (Φ' : Matrix (Fin k) (Fin k) ℂ), (a + Δ₁') * Φ' = b + Δ₂' →
        frobSq Δ₁ + frobSq Δ₂ ≤ frobSq Δ₁' + frobSq Δ₂' ∧
        (HasGap ((hstack2 a b)ᴴ * hstack2 a b) k → frobSq Δ₁' + frobSq Δ₂' = frobSq Δ₁ + frobSq Δ₂ → Φ' = Φ) := by
  have hE := eigh.spec ((hstack2 a b)ᴴ * hstack2 a b) (isHermitian_conjTranspose_mul_self _)
  unfold phiTLS at h
  simp only at h
  set C := hstack2 a b with hC
  set w := (eigh.run (Cᴴ * C)).1
  set E := (eigh.run (Cᴴ * C)).2
  set V12 : Matrix (Fin k) (Fin k) ℂ := Matrix.of fun i j => E (Fin.castAdd k i) (Fin.natAdd k j).rev with hV12
  set V22 : Matrix (Fin k) (Fin k) ℂ := Matrix.of fun i j => E (Fin.natAdd k i) (Fin.natAdd k j).rev with hV22
  change (match npSolve V22ᵀ V12ᵀ with
    | .error e => Except.error e
    | .ok X => Except.ok (-Xᵀ)) = _ at h
  unfold npSolve at h
  by_cases hu : IsUnit (V22ᵀ).det
  swap
  · rw [if_neg hu] at h; exact absurd h (by simp)
  rw [if_pos hu] at h
  simp only [Except.ok.injEq] at h
  rw [det_transpose] at hu
  have hV : V12 = -(Φ * V22) := by
    rw [← h, transpose_mul, transpose_transpose, transpose_nonsing_inv, transpose_transpose, Matrix.neg_mul, neg_neg, Matrix.mul_assoc,
      nonsing_inv_mul _ hu, Matrix.mul_one]
  obtain ⟨Δ₁, Δ₂, hcost, hz⟩ := tls_correction hE
  refine ⟨Δ₁, Δ₂, ?_, fun Δ₁' Δ₂' Φ' hs => ?_⟩
  · have hz : (a + Δ₁) * V12 + (b + Δ₂) * V22 = 0 := hz
    rw [hV, Matrix.mul_neg, ← Matrix.mul_assoc] at hz
    have h1 : (a + Δ₁) * Φ * V22 = (b + Δ₂) * V22 := (neg_add_eq_zero.1 hz)
    have h2 := congrArg (fun M => M * V22⁻¹) h1
    simpa only [Matrix.mul_assoc, mul_nonsing_inv _ hu, Matrix.mul_one] using h2
  · obtain ⟨h1, h2⟩ := tls_lower hE hs
    refine ⟨hcost.trans_le h1, fun hg he => ?_⟩
    have h3 := h2 (hg.of hE) (by rw [he, hcost])
    have h4 : Φ' * V22 = Φ * V22 := neg_inj.1 (h3.symm.trans hV)
    have h5 := congrArg (fun M => M * V22⁻¹) h4
    simpa only [Matrix.mul_assoc, mul_nonsing_inv _ hu, Matrix.mul_one] using h5

/-- **C110** (when total least squares succeeds). With a gap, if some solvable system is as near as every system `[Es1 Es2]` with `k`
independent null vectors, `'tls'` does not fail and returns its solution. -/
theorem C110_tls_found (eigh : Eigh) (a b : Matrix (Fin n) (Fin k) ℂ) (hg : HasGap ((hstack2 a b)ᴴ * hstack2 a b) k)
    {Δ₁ Δ₂ : Matrix (Fin n) (Fin k) ℂ} {Φ : Matrix (Fin k) (Fin k) ℂ} (hs : (a + Δ₁) * Φ = b + Δ₂)
    (hmin : ∀ (Δ₁' Δ₂' : Matrix (Fin n) (Fin k) ℂ) (N₁ N₂ : Matrix (Fin k) (Fin k) ℂ), N₁ᴴ * N₁ + N₂ᴴ * N₂ = 1 →
      (a + Δ₁') * N₁ + (b + Δ₂') * N₂ = 0 → frobSq Δ₁ + frobSq Δ₂ ≤ frobSq Δ₁' + frobSq Δ₂') :
    phiTLS eigh a b = .ok Φ := by
  have hE := eigh.spec ((hstack2 a b)ᴴ * hstack2 a b) (isHermitian_conjTranspose_mul_self _)
  set C := hstack2 a b with hC
  set w := (eigh.run (Cᴴ * C)).1
  set E := (eigh.run (Cᴴ * C)).2 with hEd
  set V12 : Matrix (Fin k) (Fin k) ℂ := Matrix.of fun i j => E (Fin.castAdd k i) (Fin.natAdd k j).rev with hV12
  set V22 : Matrix (Fin k) (Fin k) ℂ := Matrix.of fun i j => E (Fin.natAdd k i) (Fin.natAdd k j).rev with hV22
  have hone : V12ᴴ * V12 + V22ᴴ * V22 = 1 := by
    ext i j
    have h3 := congrFun (congrFun hE.orth (Fin.natAdd k i).rev) (Fin.natAdd k j).rev
    rw [Matrix.mul_apply, Fin.sum_univ_add, one_apply] at h3
    simp only [Fin.rev_inj, Fin.natAdd_inj] at h3
    rw [one_apply, ← h3]
    rfl
  obtain ⟨Δ₁', Δ₂', hcost, hz⟩ := tls_correction hE
  have h1 := (tls_lower hE hs).2 (hg.of hE) ((hmin Δ₁' Δ₂' V12 V22 hone hz).trans hcost.le)
  refine phiTLS_of_blocks eigh a b ?_ h1
  rw [← isUnit_iff_isUnit_det, ← mulVec_injective_iff_isUnit]
  intro x y hxy
  have h0 : V22 *ᵥ (x - y) = 0 := by rw [mulVec_sub]; exact sub_eq_zero.2 hxy
  have h0' : V12 *ᵥ (x - y) = 0 := by
    have : V12 = -(Φ * V22) := h1
    rw [this, neg_mulVec, ← mulVec_mulVec, h0, mulVec_zero, neg_zero]
  have h4 : (V12ᴴ * V12 + V22ᴴ * V22) *ᵥ (x - y) = 0 := by
    rw [add_mulVec, ← mulVec_mulVec, ← mulVec_mulVec, h0, h0', mulVec_zero, mulVec_zero, add_zero]
  rw [hone, one_mulVec] at h4
  exact sub_eq_zero.1 h4

/-- **C110** (the estimator). With `row_weights='none'`, whatever covariance matrix (Hermitian or not) is passed in: the sub-matrices
are the first and the last `m - displacement` rows of the last `k` eigenvectors, `'ls'` and `'tls'` fail with `LinAlgError` or find the
matrices of `C110_ls` and `C110_tls`, and the estimates are computed from the eigenvalues. -/
theorem C110_estimate (eigh : Eigh) (ev : NpEigvals) (wl : ℝ) {m : ℕ} (R : Matrix (Fin m) (Fin m) ℂ) {k δ : ℕ} (hδ : 1 ≤ δ) (hk : k + δ ≤ m)
    (d0 : Option ℝ) (unit : String) :
    let E := (eigh.run R).2
    let Es1 : Matrix (Fin (m - δ)) (Fin k) ℂ := Matrix.of fun i c => E ⟨i.1, by omega⟩ ⟨m - k + c.1, by omega⟩
    let Es2 : Matrix (Fin (m - δ)) (Fin k) ℂ := Matrix.of fun i c => E ⟨i.1 + δ, by omega⟩ ⟨m - k + c.1, by omega⟩
    let doas := fun Φ : Matrix (Fin k) (Fin k) ℂ => FF1D.fromZ (ev.run Φ) wl (d0.getD (wl / 2) * δ) unit
    (¬ Function.Injective Es1.mulVec ∧ espritEstimate eigh ev wl R k d0 δ "ls" (.str "none") unit = .error .linAlgError ∨
      ∃ Φ, (∀ X, frobSq (Es1 * X - Es2) ≤ frobSq (Es1 * Φ - Es2) ↔ X = Φ) ∧
        espritEstimate eigh ev wl R k d0 δ "ls" (.str "none") unit = doas Φ) ∧
    (espritEstimate eigh ev wl R k d0 δ "tls" (.str "none") unit = .error .linAlgError ∨
      ∃ (Φ : Matrix (Fin k) (Fin k) ℂ) (Δ₁ Δ₂ : Matrix (Fin (m - δ)) (Fin k) ℂ), (Es1 + Δ₁) * Φ = Es2 + Δ₂ ∧
        (∀ (Δ₁' Δ₂' : Matrix (Fin (m - δ)) (Fin k) ℂ) (Φ' : Matrix (Fin k) (Fin k) ℂ), (Es1 + Δ₁') * Φ' = Es2 + Δ₂' →
          frobSq Δ₁ + frobSq Δ₂ ≤ frobSq Δ₁' + frobSq Δ₂') ∧
        espritEstimate eigh ev wl R k d0 δ "tls" (.str "none") unit = doas Φ) := by
  intro E Es1 Es2 doas
  have h1 : ¬ ((δ : ℤ) < 1) := by omega
  have h2 : ensureNResolvable k ((m : ℤ) - δ) = .ok () := if_neg (by omega)
  have hkm : k ≤ m := by omega
  have hls : espritEstimate eigh ev wl R k d0 δ "ls" (.str "none") unit =
      match phiLS Es1 Es2 with | .error e => .error e | .ok Φ => doas Φ := by
    unfold espritEstimate
    rw [if_neg h1, h2]
    simp only [Int.toNat_natCast, resolveWeights, if_true, hkm, dif_pos, if_neg (show ¬ ("ls" : String) = "tls" by decide)]
    rfl
  have htls : espritEstimate eigh ev wl R k d0 δ "tls" (.str "none") unit =
      match phiTLS eigh Es1 Es2 with | .error e => .error e | .ok Φ => doas Φ := by
    unfold espritEstimate
    rw [if_neg h1, h2]
    simp only [Int.toNat_natCast, resolveWeights, if_true, hkm, dif_pos]
    rfl
  constructor
  · obtain ⟨a1, a2⟩ := C110_ls Es1 Es2
    by_cases hi : Function.Injective Es1.mulVec
    · obtain ⟨Φ, hΦ, hX⟩ := a2 hi
      exact Or.inr ⟨Φ, hX, by rw [hls, hΦ]⟩
    · exact Or.inl ⟨hi, by rw [hls, a1 hi]⟩
  · cases hp : phiTLS eigh Es1 Es2 with
    | error e =>
      left
      have : e = .linAlgError := by
        unfold phiTLS npSolve at hp
        simp only at hp
        split_ifs at hp
        simpa using hp.symm
      rw [htls, hp, this]
    | ok Φ =>
      obtain ⟨Δ₁, Δ₂, hs, hmin⟩ := C110_tls eigh Es1 Es2 hp
      exact Or.inr ⟨Φ, Δ₁, Δ₂, hs, fun Δ₁' Δ₂' Φ' h => (hmin Δ₁' Δ₂' Φ' h).1, by rw [htls, hp]⟩

/-- **C110** (row weights). With weights `ω` and subarrays that do not overlap (`m ≤ 2 displacement`), `'ls'` minimises the weighted sum of
squares `∑ ωᵢ² ‖(Es1 X - Es2)ᵢ‖²`, and `'tls'` the least changes of the weighted matrices. (With overlapping subarrays the weights of one
view also scale the other, see C47.) -/
theorem C110_weighted (eigh : Eigh) (ev : NpEigvals) (wl : ℝ) {m : ℕ} (R : Matrix (Fin m) (Fin m) ℂ) {k δ : ℕ} (hδ : 1 ≤ δ) (hk : k + δ ≤ m)
    (hm : m ≤ 2 * δ) (ω : Fin (m - δ) → ℝ) (d0 : Option ℝ) (unit : String) :
    let E := (eigh.run R).2
    let Es1 : Matrix (Fin (m - δ)) (Fin k) ℂ := Matrix.of fun i c => E ⟨i.1, by omega⟩ ⟨m - k + c.1, by omega⟩
    let Es2 : Matrix (Fin (m - δ)) (Fin k) ℂ := Matrix.of fun i c => E ⟨i.1 + δ, by omega⟩ ⟨m - k + c.1, by omega⟩
    let W : Matrix (Fin (m - δ)) (Fin (m - δ)) ℂ := diagonal fun i => (ω i : ℂ)
    let cost := fun X : Matrix (Fin k) (Fin k) ℂ => ∑ i, ω i ^ 2 * ∑ j, ‖(Es1 * X - Es2) i j‖ ^ 2
    let doas := fun Φ : Matrix (Fin k) (Fin k) ℂ => FF1D.fromZ (ev.run Φ) wl (d0.getD (wl / 2) * δ) unit
    (¬ Function.Injective (W * Es1).mulVec ∧ espritEstimate eigh ev wl R k d0 δ "ls" (.vec (List.ofFn ω)) unit = .error .linAlgError ∨
      ∃ Φ, (∀ X, cost X ≤ cost Φ ↔ X = Φ) ∧ espritEstimate eigh ev wl R k d0 δ "ls" (.vec (List.ofFn ω)) unit = doas Φ) ∧
    (espritEstimate eigh ev wl R k d0 δ "tls" (.vec (List.ofFn ω)) unit = .error .linAlgError ∨
      ∃ (Φ : Matrix (Fin k) (Fin k) ℂ) (Δ₁ Δ₂ : Matrix (Fin (m - δ)) (Fin k) ℂ), (W * Es1 + Δ₁) * Φ = W * Es2 + Δ₂ ∧
        (∀ (Δ₁' Δ₂' : Matrix (Fin (m - δ)) (Fin k) ℂ) (Φ' : Matrix (Fin k) (Fin k) ℂ), (W * Es1 + Δ₁') * Φ' = W * Es2 + Δ₂' →
          frobSq Δ₁ + frobSq Δ₂ ≤ frobSq Δ₁' + frobSq Δ₂') ∧
        espritEstimate eigh ev wl R k d0 δ "tls" (.vec (List.ofFn ω)) unit = doas Φ) := by
  intro E Es1 Es2 W cost doas
  have h1 : ¬ ((δ : ℤ) < 1) := by omega
  have h2 : ensureNResolvable k ((m : ℤ) - δ) = .ok () := if_neg (by omega)
  have hkm : k ≤ m := by omega
  have hlen : (List.ofFn ω).length = m - δ := List.length_ofFn
  have hget : ∀ i : Fin (m - δ), (List.ofFn ω).getD i.1 1 = ω i := by
    intro i
    rw [List.getD_eq_getElem?_getD, List.getElem?_eq_getElem (by rw [hlen]; exact i.2), Option.getD_some, List.getElem_ofFn]
  have v1 : es1View (applyWeights (signalCols E hkm) δ (some (List.ofFn ω))) δ = W * Es1 := by
    ext i c
    rw [diagonal_mul]
    show applyWeights (signalCols E hkm) δ (some (List.ofFn ω)) ⟨i.1, _⟩ c = _
    rw [applyWeights_apply, (totalWeight_shift _ hlen hm i.1 i.2).1, hget]
    rfl
  have v2 : es2View (applyWeights (signalCols E hkm) δ (some (List.ofFn ω))) δ = W * Es2 := by
    ext i c
    rw [diagonal_mul]
    show applyWeights (signalCols E hkm) δ (some (List.ofFn ω)) ⟨i.1 + δ, _⟩ c = _
    rw [applyWeights_apply, (totalWeight_shift _ hlen hm i.1 i.2).2, hget]
    rfl
  have hls : espritEstimate eigh ev wl R k d0 δ "ls" (.vec (List.ofFn ω)) unit =
      match phiLS (W * Es1) (W * Es2) with | .error e => .error e | .ok Φ => doas Φ := by
    rw [← v1, ← v2]
    unfold espritEstimate
    rw [if_neg h1, h2]
    simp only [Int.toNat_natCast, resolveWeights, hlen, ne_eq, not_true_eq_false, if_false, hkm, dif_pos,
      if_neg (show ¬ ("ls" : String) = "tls" by decide)]
    rfl
  have htls : espritEstimate eigh ev wl R k d0 δ "tls" (.vec (List.ofFn ω)) unit =
      match phiTLS eigh (W * Es1) (W * Es2) with | .error e => .error e | .ok Φ => doas Φ := by
    rw [← v1, ← v2]
    unfold espritEstimate
    rw [if_neg h1, h2]
    simp only [Int.toNat_natCast, resolveWeights, hlen, ne_eq, not_true_eq_false, if_false, hkm, dif_pos, if_true]
    rfl
  have hcost : ∀ X, frobSq (W * Es1 * X - W * Es2) = cost X := by
    intro X
    rw [Matrix.mul_assoc, ← Matrix.mul_sub]
    simp only [frobSq, cost, Finset.mul_sum, W, diagonal_mul, norm_mul, mul_pow, Complex.norm_real, Real.norm_eq_abs, sq_abs]
  constructor
  · obtain ⟨a1, a2⟩ := C110_ls (W * Es1) (W * Es2)
    by_cases hi : Function.Injective (W * Es1).mulVec
    · obtain ⟨Φ, hΦ, hX⟩ := a2 hi
      exact Or.inr ⟨Φ, fun X => by rw [← hcost, ← hcost]; exact hX X, by rw [hls, hΦ]⟩
    · exact Or.inl ⟨hi, by rw [hls, a1 hi]⟩
  · cases hp : phiTLS eigh (W * Es1) (W * Es2) with
    | error e =>
      left
      have : e = .linAlgError := by
        unfold phiTLS npSolve at hp
        simp only at hp
        split_ifs at hp
        simpa using hp.symm
      rw [htls, hp, this]
    | ok Φ =>
      obtain ⟨Δ₁, Δ₂, hs, hmin⟩ := C110_tls eigh (W * Es1) (W * Es2) hp
      exact Or.inr ⟨Φ, Δ₁, Δ₂, hs, fun Δ₁' Δ₂' Φ' h => (hmin Δ₁' Δ₂' Φ' h).1, by rw [htls, hp]⟩

/-- Non-vacuity: the sizes of `C110_estimate` and `C110_weighted` are met by 4 sensors, 2 sources, displacement 1 or 2, and exact covariance
matrices reach the second alternative. -/
example (eigh : Eigh) (ev : NpEigvals) :
    ∃ Φ : Matrix (Fin 2) (Fin 2) ℂ, espritEstimate eigh ev 1 (covModel (ulaMat 4 ![1, Complex.I]) 1 2) 2 none (1 : ℕ) "ls" (.str "none") "rad" =
      FF1D.fromZ (ev.run Φ) 1 (1 / 2 * (1 : ℕ)) "rad" := by
  have hz : Function.Injective (![1, Complex.I] : Fin 2 → ℂ) := by
    intro a b h
    fin_cases a <;> fin_cases b <;> simp_all [Complex.ext_iff]
  obtain ⟨T, hT, hfac⟩ := signal_factor (ulaMat_injective hz (by decide : 2 ≤ 4)) PosDef.one
    (eigh.spec _ (covModel_isHermitian (ulaMat 4 ![1, Complex.I]) PosDef.one.1 2)) (by decide : 2 ≤ 4)
  rcases (C110_estimate eigh ev 1 (covModel (ulaMat 4 ![1, Complex.I]) 1 2) (k := 2) (δ := 1) le_rfl (by decide) none "rad").1 with
    ⟨hni, _⟩ | ⟨Φ, _, hΦ⟩
  · refine absurd ?_ hni
    have h1 : (Matrix.of fun (i : Fin (4 - 1)) (c : Fin 2) => (eigh.run (covModel (ulaMat 4 ![1, Complex.I]) 1 2)).2 ⟨i.1, by omega⟩ ⟨4 - 2 + c.1, by omega⟩) =
        ulaMat 3 ![1, Complex.I] * T := by
      ext i c
      have := congrFun (congrFun hfac ⟨i.1, by omega⟩) c
      exact this
    rw [h1]
    intro x y hxy
    simp only [← mulVec_mulVec] at hxy
    have h2 := ulaMat_injective hz (by decide : 2 ≤ 3) hxy
    have h3 := congrArg (fun v => T⁻¹ *ᵥ v) h2
    simpa [mulVec_mulVec, nonsing_inv_mul _ hT] using h3
  · exact ⟨Φ, hΦ⟩

/-- Non-vacuity: an overdetermined system that has no solution; its least squares solution is the mean. -/
example : phiLS (!![1; 1] : Matrix (Fin 2) (Fin 1) ℂ) !![1; 3] = .ok !![2] := by
  have h := (C110_ls (!![1; 1] : Matrix (Fin 2) (Fin 1) ℂ) !![1; 3]).2 (by
    intro x y hxy
    have := congrFun hxy 0
    simp [mulVec, dotProduct] at this
    funext i
    rw [Subsingleton.elim i 0, this])
  obtain ⟨Φ, hΦ, hX⟩ := h
  have e2 : ∀ Φ : Matrix (Fin 1) (Fin 1) ℂ, frobSq ((!![1; 1] : Matrix (Fin 2) (Fin 1) ℂ) * Φ - !![1; 3]) = ‖Φ 0 0 - 1‖ ^ 2 + ‖Φ 0 0 - 3‖ ^ 2 := by
    intro Φ
    simp only [frobSq, Fin.sum_univ_two, Matrix.mul_apply, Fin.sum_univ_one, Matrix.sub_apply]
    simp
  have h2 := (hX (!![2] : Matrix (Fin 1) (Fin 1) ℂ)).1 (by
    rw [e2, e2]
    have t : ‖(2 : ℂ)‖ ≤ ‖Φ 0 0 - 1‖ + ‖Φ 0 0 - 3‖ := by
      rw [show (2 : ℂ) = (Φ 0 0 - 1) - (Φ 0 0 - 3) by ring]
      exact norm_sub_le _ _
    rw [Complex.norm_ofNat] at t
    have e : ‖(!![2] : Matrix (Fin 1) (Fin 1) ℂ) 0 0 - 1‖ ^ 2 + ‖(!![2] : Matrix (Fin 1) (Fin 1) ℂ) 0 0 - 3‖ ^ 2 = 2 := by
      norm_num
    rw [e]
    nlinarith [sq_nonneg (‖Φ 0 0 - 1‖ - ‖Φ 0 0 - 3‖)])
  rw [hΦ, h2]

/-- Non-vacuity: a system without a solution whose total least squares solution exists. -/
example (eigh : Eigh) : phiTLS eigh (!![2; 0] : Matrix (Fin 2) (Fin 1) ℂ) !![0; 1] = .ok 0 := by
  set a : Matrix (Fin 2) (Fin 1) ℂ := !![2; 0] with ha
  set b : Matrix (Fin 2) (Fin 1) ℂ := !![0; 1] with hb
  have hE := eigh.spec ((hstack2 a b)ᴴ * hstack2 a b) (isHermitian_conjTranspose_mul_self _)
  have hC : hstack2 a b = (!![2, 0; 0, 1] : Matrix (Fin 2) (Fin 2) ℂ) := by
    ext i j
    fin_cases i <;> fin_cases j <;> rfl
  have hI : IsEigh ((hstack2 a b)ᴴ * hstack2 a b) (![1, 4] : Fin 2 → ℝ) (!![0, 1; 1, 0] : Matrix (Fin 2) (Fin 2) ℂ) := by
    rw [hC]
    refine ⟨?_, ?_, ?_⟩
    · intro i j hij
      fin_cases i <;> fin_cases j <;> simp at hij ⊢
    · ext i j
      fin_cases i <;> fin_cases j <;> simp [Matrix.mul_apply, Fin.sum_univ_two]
    · have h4 : (starRingEnd ℂ) 2 * 2 = 4 := by rw [Complex.conj_ofNat]; norm_num
      ext i j
      fin_cases i <;> fin_cases j <;> simp [Matrix.mul_apply, Fin.sum_univ_two, h4]
  have hw := hE.eigenvalues_unique hI
  rw [hw] at hE
  have hlow := (tls_lower hE (Δ₁ := 0) (Δ₂ := -b) (Φ := 0) (by simp)).2 (by
    intro i j hi hj
    have hi : i = (0 : Fin 2) := Fin.ext (by show i.1 = 0; omega)
    have hj : j = (1 : Fin 2) := Fin.ext (by show j.1 = 1; omega)
    rw [hi, hj]; norm_num) (by
    have : ∑ i : Fin (1 + 1), (if i.1 < 1 then (![1, 4] : Fin 2 → ℝ) i else 0) = 1 := by
      show ∑ i : Fin 2, (if i.1 < 1 then (![1, 4] : Fin 2 → ℝ) i else 0) = 1
      simp
    rw [this]
    simp [frobSq, hb])
  rw [Matrix.zero_mul, neg_zero] at hlow
  set E := (eigh.run ((hstack2 a b)ᴴ * hstack2 a b)).2 with hEd
  have h0 : E (Fin.castAdd 1 0) (Fin.natAdd 1 0).rev = 0 := congrFun (congrFun hlow 0) 0
  have h1 : E (Fin.natAdd 1 0) (Fin.natAdd 1 0).rev ≠ 0 := by
    intro h
    have := congrFun (congrFun hE.orth (Fin.natAdd 1 (0 : Fin 1)).rev) (Fin.natAdd 1 (0 : Fin 1)).rev
    rw [mul_apply, Fin.sum_univ_add, Fin.sum_univ_one, Fin.sum_univ_one, h0, h, mul_zero, mul_zero, add_zero, one_apply_eq] at this
    exact zero_ne_one this
  refine phiTLS_of_blocks eigh a b ?_ ?_
  · rw [det_fin_one]
    exact isUnit_iff_ne_zero.2 h1
  · rw [Matrix.zero_mul, neg_zero]
    exact hlow

/-- Non-vacuity: the eigenvalues are 0 and 25. -/
example (eigh : Eigh) : phiTLS eigh (!![3; 0] : Matrix (Fin 2) (Fin 1) ℂ) !![4; 0] = .ok !![4 / 3] := by
  have hs : ((!![3; 0] : Matrix (Fin 2) (Fin 1) ℂ) + 0) * (!![4 / 3] : Matrix (Fin 1) (Fin 1) ℂ) = !![4; 0] + 0 := by
    ext i j
    fin_cases i <;> fin_cases j <;> norm_num [Matrix.mul_apply]
  refine C110_tls_found eigh (k := 1) _ _ ⟨(![0, 25] : Fin 2 → ℝ), (!![-4 / 5, 3 / 5; 3 / 5, 4 / 5] : Matrix (Fin 2) (Fin 2) ℂ), ?_, ?_⟩ hs ?_
  · have hC : hstack2 (!![3; 0] : Matrix (Fin 2) (Fin 1) ℂ) !![4; 0] = (!![3, 4; 0, 0] : Matrix (Fin 2) (Fin 2) ℂ) := by
      ext i j
      fin_cases i <;> fin_cases j <;> rfl
    have hH : (!![3, 4; 0, 0] : Matrix (Fin 2) (Fin 2) ℂ)ᴴ = !![3, 0; 4, 0] := by
      ext i j
      fin_cases i <;> fin_cases j <;> simp
    have hH2 : (!![-4 / 5, 3 / 5; 3 / 5, 4 / 5] : Matrix (Fin 2) (Fin 2) ℂ)ᴴ = !![-4 / 5, 3 / 5; 3 / 5, 4 / 5] := by
      ext i j
      fin_cases i <;> fin_cases j <;> simp
    rw [hC, hH]
    refine ⟨?_, ?_, ?_⟩
    · intro i j hij
      fin_cases i <;> fin_cases j <;> simp at hij ⊢
    · refine (congrArg (· * (!![-4 / 5, 3 / 5; 3 / 5, 4 / 5] : Matrix (Fin 2) (Fin 2) ℂ)) hH2).trans ?_
      ext i j
      fin_cases i <;> fin_cases j <;> norm_num [Matrix.mul_apply, Fin.sum_univ_two]
    · ext i j
      fin_cases i <;> fin_cases j <;> norm_num [Matrix.mul_apply, Fin.sum_univ_two]
  · intro i j hi hj
    have hi : i = (0 : Fin 2) := Fin.ext (by show i.1 = 0; omega)
    have hj : j = (1 : Fin 2) := Fin.ext (by show j.1 = 1; omega)
    rw [hi, hj]; norm_num
  · intro Δ₁ Δ₂ _ _ _ _
    have : frobSq (0 : Matrix (Fin 2) (Fin 1) ℂ) = 0 := by simp [frobSq]
    rw [this, add_zero]
    exact add_nonneg (frobSq_nonneg _) (frobSq_nonneg _)

end Doa.Props
