import Verif.Props.Coarray
import Verif.Props.Geometry
import Verif.Props.Steering
import Verif.Lemmas.Sources

/-!
# C29: the augmented covariance is that of the virtual ULA
-/

namespace Doa.Props

open Doa Doa.Spec Complex Matrix

/-- `a` is a linear grid array with element `i` at `l[i] * δ` on the x-axis. -/
def LinearGrid (a : GridArray) (l : List ℤ) (δ : ℝ) : Prop :=
  Is1DGrid a l ∧ ∀ i (hi : i < l.length), a.locations.get? i 0 = some ((l[i] : ℝ) * δ)

/-- The covariance model of uncorrelated sources with powers `p` in white noise of variance `σ`. -/
noncomputable def modelCov {m k : ℕ} (A : Matrix (Fin m) (Fin k) ℂ) (p : Fin k → ℝ) (σ : ℝ) :
    Matrix (Fin m) (Fin m) ℂ :=
  A * Matrix.diagonal (fun c => (p c : ℂ)) * Aᴴ + (σ : ℂ) • (1 : Matrix (Fin m) (Fin m) ℂ)

theorem modelCov_apply {m k : ℕ} (A : Matrix (Fin m) (Fin k) ℂ) (p : Fin k → ℝ) (σ : ℝ)
    (i j : Fin m) : modelCov A p σ i j =
      (∑ c, A i c * (p c : ℂ) * star (A j c)) + (if i = j then (σ : ℂ) else 0) := by
  unfold modelCov
  rw [Matrix.add_apply, Matrix.mul_apply]
  congr 1
  · apply Finset.sum_congr rfl
    intro c _
    rw [Matrix.mul_diagonal, Matrix.conjTranspose_apply]
  · simp [Matrix.one_apply]

theorem modelCov_isHermitian {m k : ℕ} (A : Matrix (Fin m) (Fin k) ℂ) (p : Fin k → ℝ) (σ : ℝ) :
    (modelCov A p σ).IsHermitian := by
  ext i j
  rw [Matrix.conjTranspose_apply, modelCov_apply, modelCov_apply, star_add, star_sum]
  congr 1
  · apply Finset.sum_congr rfl
    intro c _
    rw [star_mul, star_mul, star_star]
    simp only [Complex.star_def, Complex.conj_ofReal]
    ring
  · by_cases h : i = j
    · simp [h]
    · simp [h, Ne.symm h]

/-- Phase per unit of length of each far-field source, seen by a linear array. -/
theorem linear_phase {k : ℕ} (src : Sources k) (hff : src.isFarField = true) (wl : ℝ) [NeZero wl] :
    ∃ ω : Fin k → ℝ, ∀ L : Mat ℝ, L.ncols = 1 →
      src.phaseDelay L wl false = .ok ⟨fun i c => ω c * L.at0 i 0, []⟩ := by
  cases src with
  | nf s => simp [Sources.isFarField] at hff
  | ff1 s =>
    refine ⟨fun c => 2 * Real.pi / wl * (s.dir c).1, fun L hL => ?_⟩
    refine (FF1D.phaseDelay_eq s L wl).trans ?_
    rw [if_pos (by omega)]
    congr 2
    ext i c
    rw [Mat.at0_of_ge L (i := i) (j := 1) (by omega)]; ring
  | ff2 s =>
    refine ⟨fun c => 2 * Real.pi / wl * (s.dir c).1, fun L hL => ?_⟩
    refine (FF2D.phaseDelay_eq s L wl).trans ?_
    rw [if_pos (by omega)]
    congr 2
    ext i c
    rw [Mat.at0_of_ge L (i := i) (j := 1) (by omega), Mat.at0_of_ge L (i := i) (j := 2) (by omega)]
    ring

/-- The steering matrix of an unperturbed linear array. -/
theorem linear_steering {k : ℕ} (a : ArrayDesign) (hel : a.element = .isotropicScalar)
    (hp : a.perts = []) (hd : a.ndim = 1) (src : Sources k) (wl : ℝ) (ω : Fin k → ℝ)
    (hω : ∀ L : Mat ℝ, L.ncols = 1 →
      src.phaseDelay L wl false = .ok ⟨fun i c => ω c * L.at0 i 0, []⟩) :
    ∃ S, steering a src wl false "all" = .ok S ∧
      ∀ l i c, S.A l i c = Complex.exp (I * ((ω c * a.locations.at0 i 0 : ℝ) : ℂ)) := by
  have hps : a.filterPerturbations "all" = .ok [] := by
    simp [ArrayDesign.filterPerturbations, hp, PyDict.values]
  refine ⟨_, steering_iso (ps := []) hel hps rfl (hω a.locations hd) (by simp), ?_⟩
  intro l i c
  simp [totalFactor, ideal]

theorem exp_pair (x y : ℝ) :
    Complex.exp (I * (x : ℂ)) * star (Complex.exp (I * (y : ℂ))) =
      Complex.exp (I * ((x - y : ℝ) : ℂ)) := by
  rw [Complex.star_def, ← Complex.exp_conj, ← Complex.exp_add]
  congr 1
  simp
  ring

/-- The pair averages of the model covariance of a linear grid array. -/
theorem pairAverage_model {k : ℕ} {l : List ℤ} (hnd : l.Nodup) (δ : ℝ) (ω : Fin k → ℝ)
    (p : Fin k → ℝ) (σ : ℝ) (R : Fin l.length → Fin l.length → ℂ)
    (hR : ∀ i j, R i j = (∑ c, Complex.exp (I * ((ω c * ((l[i] : ℝ) * δ) : ℝ) : ℂ)) * (p c : ℂ) *
      star (Complex.exp (I * ((ω c * ((l[j] : ℝ) * δ) : ℝ) : ℂ)))) +
      (if i = j then (σ : ℂ) else 0)) (d : ℤ) (hd : IsLag l d) :
    pairAverage l R d = (∑ c, (p c : ℂ) * Complex.exp (I * ((ω c * (d * δ) : ℝ) : ℂ))) +
      (if d = 0 then (σ : ℂ) else 0) := by
  have hval : ∀ q ∈ pairs l d, R q.1 q.2 =
      (∑ c, (p c : ℂ) * Complex.exp (I * ((ω c * (d * δ) : ℝ) : ℂ))) +
      (if d = 0 then (σ : ℂ) else 0) := by
    rintro ⟨i, j⟩ hq
    have hij : l[i] - l[j] = d := by simpa [pairs] using hq
    rw [hR]
    congr 1
    · apply Finset.sum_congr rfl
      intro c _
      rw [mul_assoc, mul_comm (p c : ℂ), ← mul_assoc, exp_pair, mul_comm]
      congr 4
      have : (d : ℝ) = (l[i] : ℝ) - l[j] := by rw [← hij]; push_cast; ring
      rw [this]
      ring
    · have : i = j ↔ d = 0 := by
        constructor
        · rintro rfl; omega
        · intro h0
          have e : l[i] = l[j] := by omega
          exact Fin.ext ((hnd.getElem_inj_iff).1 e)
      simp only [this]
  have hne : (pairCount l d : ℂ) ≠ 0 := by
    obtain ⟨i, j, hij⟩ := hd
    have : 0 < pairCount l d := Finset.card_pos.2 ⟨(i, j), by simpa [pairs] using hij⟩
    exact_mod_cast this.ne'
  unfold pairAverage
  rw [Finset.sum_congr rfl hval, Finset.sum_const, nsmul_eq_mul]
  rw [show ((pairs l d).card : ℂ) = (pairCount l d : ℂ) from rfl, mul_div_cancel_left₀ _ hne]

theorem LinearGrid.at0 {a : GridArray} {l : List ℤ} {δ : ℝ} (h : LinearGrid a l δ)
    (i : ℕ) (hi : i < l.length) : a.locations.at0 i 0 = (l[i] : ℝ) * δ := by
  rw [Mat.at0, h.2 i hi]; rfl

/-- Direct augmentation of the model covariance of a linear grid array, entry by entry. -/
theorem acm_model {k : ℕ} {a : GridArray} {l : List ℤ} {δ : ℝ} (h : LinearGrid a l δ)
    (hnd : l.Nodup) {w0 w : WeightFunction} (hw0 : WeightFunction.init a = .ok w0)
    (hr : WReach w0 w) (hne : l ≠ []) (ω : Fin k → ℝ) (A : Matrix (Fin a.size) (Fin k) ℂ)
    (hA : ∀ i c, A i c = Complex.exp (I * ((ω c * a.locations.at0 i 0 : ℝ) : ℂ)))
    (p : Fin k → ℝ) (σ : ℝ) :
    ∃ (v : ℕ) (T S : Matrix (Fin v) (Fin v) ℂ), IsCentralSize l v ∧
      (w.centralUlaSize true).1 = v ∧
      (acmTransform w (modelCov A p σ) "da").1 = .ok ⟨v, T⟩ ∧
      (acmTransform w (modelCov A p σ) "ss").1 = .ok ⟨v, S⟩ ∧
      S = (1 / (v : ℂ)) • (T * Tᴴ) ∧
      ∀ r c, T r c = (∑ q, (p q : ℂ) * Complex.exp (I * ((ω q * (((r.1 : ℤ) - c.1 : ℤ) * δ) : ℝ) : ℂ))) +
        (if r = c then (σ : ℂ) else 0) := by
  have key : ∀ (n : ℕ) (hn : n = l.length) (R : Matrix (Fin n) (Fin n) ℂ),
      (∀ i j, R i j = (∑ c, Complex.exp (I * ((ω c * ((l[i.1]'(hn ▸ i.2) : ℝ) * δ) : ℝ) : ℂ)) *
        (p c : ℂ) * star (Complex.exp (I * ((ω c * ((l[j.1]'(hn ▸ j.2) : ℝ) * δ) : ℝ) : ℂ)))) +
      (if i = j then (σ : ℂ) else 0)) →
      ∃ (v : ℕ) (T S : Matrix (Fin v) (Fin v) ℂ), IsCentralSize l v ∧
      (acmTransform w R "da").1 = .ok ⟨v, T⟩ ∧
      (acmTransform w R "ss").1 = .ok ⟨v, S⟩ ∧
      S = (1 / (v : ℂ)) • (T * Tᴴ) ∧
      ∀ r c, T r c = (∑ q, (p q : ℂ) * Complex.exp (I * ((ω q * (((r.1 : ℤ) - c.1 : ℤ) * δ) : ℝ) : ℂ))) +
        (if r = c then (σ : ℂ) else 0) := by
    intro n hn R hR
    subst hn
    obtain ⟨v, T, S, h1, h2, h3, h4, _, h6, _⟩ := C28_acm h.1 hw0 hr hne R
    refine ⟨v, T, S, h1, h2, h3, h6, fun r c => ?_⟩
    have hlag : IsLag l ((r.1 : ℤ) - c.1) := by
      apply h1.1
      rw [abs_lt]
      have := r.2; have := c.2
      omega
    rw [h4, pairAverage_model hnd δ ω p σ R hR _ hlag]
    congr 1
    have : ((r.1 : ℤ) - c.1 = 0) ↔ r = c := by
      rw [Fin.ext_iff]; omega
    simp only [this]
  obtain ⟨v, T, S, h1, h2, h3, h4, h5⟩ := key a.size h.1.2.2 (modelCov A p σ) (by
    intro i j
    have hi : i.1 < l.length := h.1.2.2 ▸ i.2
    have hj : j.1 < l.length := h.1.2.2 ▸ j.2
    rw [modelCov_apply]
    simp only [hA, h.at0 _ hi, h.at0 _ hj])
  obtain ⟨v', hv', hs, _⟩ := C26_central h.1 hw0 hr
  have : v = v' := h1.unique hv'
  subst this
  exact ⟨v, T, S, h1, hs, h2, h3, h4, h5⟩

/-- The virtual ULA is an unperturbed ULA of `v` isotropic elements spaced by the stored `d0`. -/
theorem virtualUla_spec {a : GridArray} {l : List ℤ} {δ : ℝ} (h : Is1DGrid a l) (hδ : a.d0 = [δ])
    (name : Option String) (hname : name ≠ none ∨ a.name ≠ none)
    {w0 w : WeightFunction} (hw0 : WeightFunction.init a = .ok w0) (hr : WReach w0 w) :
    ∃ b, virtualUla a w name = .ok b ∧ IsCentralSize l b.size ∧ b.element = .isotropicScalar ∧
      b.perts = [] ∧ b.ndim = 1 ∧ (∀ i, i < b.size → b.locations.at0 i 0 = (i : ℝ) * δ) ∧
      (w.centralUlaSize true).1 = b.size := by
  obtain ⟨v, hv, hsize, _⟩ := C26_central h hw0 hr
  have hul : ∀ s, ∃ b, ula (w.centralUlaSize true).1.toNat (.vec a.d0) s {} = .ok b := by
    intro s
    exact gridInit_ok_of (d := []) (by rw [hδ]; exact ⟨rfl, by simp [Mat.col]⟩) rfl
  obtain ⟨b, hb, hbs⟩ : ∃ b, virtualUla a w name = .ok b ∧
      ∃ s, ula (w.centralUlaSize true).1.toNat (.vec a.d0) s {} = .ok b := by
    unfold virtualUla
    cases name with
    | some s => obtain ⟨b, hb⟩ := hul (some s); exact ⟨b, hb, _, hb⟩
    | none =>
      cases han : a.name with
      | none => simp [han] at hname
      | some s => obtain ⟨b, hb⟩ := hul (some ("Virtual ULA of " ++ s)); exact ⟨b, hb, _, hb⟩
  obtain ⟨s, hbs⟩ := hbs
  have hvn : (w.centralUlaSize true).1.toNat = v := by rw [hsize]; omega
  rw [hvn, hδ] at hbs
  obtain ⟨g1, g2, g3, g4, g5, g6, g7, g8, g9, g10, g11, g12⟩ := gridInit_spec hbs
  have hbsize : b.size = v := by rw [g5]; simp
  have hbdim : b.ndim = 1 := by rw [g7, g11, Mat.ncols_eyeMul]; rfl
  refine ⟨b, hb, hbsize ▸ hv, g3, (Except.ok.inj g4).symm, hbdim, ?_, by rw [hsize, hbsize]⟩
  rw [hbsize]
  intro i hi
  rw [Mat.at0, g9 i 0 (by simpa using hi) (by rw [hbdim]; omega), g11,
    sum_eyeMul (fun k => ((Mat.col ((List.range v).map fun i : ℕ => (i : ℤ))).at0 i k : ℝ)) [δ] _ 0
      (by simp) (by simp)]
  have : (Mat.col ((List.range v).map fun i : ℕ => (i : ℤ))).at0 i 0 = (i : ℤ) := by
    rw [Mat.at0, Mat.get?_col]; simp [hi]
  simp [this]

/-- **C29**. Let `a` be an unperturbed linear grid array of isotropic elements at distinct positions
`l[i] * d0`, `A` its steering matrix for far-field sources, and `R = A diag(p) Aᴴ + σ I`.  Then the
virtual ULA `b` of `get_virtual_ula` has a steering matrix `B`, `transform(R, 'da')` equals
`B diag(p) Bᴴ + σ I` and `transform(R, 'ss')` is its square divided by the size of `b`. The array
needs a name unless one is passed. -/
theorem C29_virtual_ula_partial {k : ℕ} {a : GridArray} {l : List ℤ} {δ : ℝ} (h : LinearGrid a l δ)
    (hδ : a.d0 = [δ]) (hnd : l.Nodup) (hne : l ≠ []) (hel : a.element = .isotropicScalar) (hp : a.perts = [])
    (name : Option String) (hname : name ≠ none ∨ a.name ≠ none)
    {w0 w : WeightFunction} (hw0 : WeightFunction.init a = .ok w0) (hr : WReach w0 w)
    (src : Sources k) (hff : src.isFarField = true) (wl : ℝ) [NeZero wl] (p : Fin k → ℝ) (σ : ℝ) :
    ∃ (b : GridArray) (A : Steering a.element.outputSize a.size k)
      (B : Steering b.element.outputSize b.size k),
      virtualUla a w name = .ok b ∧ steering a.toArrayDesign src wl false "all" = .ok A ∧
      steering b.toArrayDesign src wl false "all" = .ok B ∧ IsCentralSize l b.size ∧
      ∀ i j, (acmTransform w (modelCov (A.A i) p σ) "da").1 = .ok ⟨b.size, modelCov (B.A j) p σ⟩ ∧
        (acmTransform w (modelCov (A.A i) p σ) "ss").1 =
          .ok ⟨b.size, (1 / (b.size : ℂ)) • (modelCov (B.A j) p σ * modelCov (B.A j) p σ)⟩ := by
  obtain ⟨ω, hω⟩ := linear_phase src hff wl
  obtain ⟨A, hA, hAv⟩ := linear_steering a.toArrayDesign hel hp h.1.2.1 src wl ω hω
  obtain ⟨b, hb, hv, g3, hbp, hbdim, hbloc, hsize⟩ := virtualUla_spec h.1 hδ name hname hw0 hr
  obtain ⟨B, hB, hBv⟩ := linear_steering b.toArrayDesign g3 hbp hbdim src wl ω hω
  refine ⟨b, A, B, hb, hA, hB, hv, fun i j => ?_⟩
  obtain ⟨v', T, S, q1, q2, q3, q4, q5, q6⟩ := acm_model h hnd hw0 hr hne ω (A.A i) (hAv i) p σ
  have hvv : v' = b.size := by exact_mod_cast (hsize.symm.trans q2).symm
  subst hvv
  have hT : T = modelCov (B.A j) p σ := by
    ext r c
    rw [q6, modelCov_apply]
    congr 1
    apply Finset.sum_congr rfl
    intro q _
    rw [hBv, hBv, mul_right_comm, exp_pair, mul_comm]
    rw [hbloc r r.2, hbloc c c.2]
    congr 4
    push_cast
    ring
  refine ⟨by rw [q3, hT], ?_⟩
  rw [q4, q5, hT, (modelCov_isHermitian (B.A j) p σ).eq]

/-- Every array built from a scalar spacing satisfies the geometric hypotheses of C29. -/
theorem linearGrid_of_init {l : List ℤ} {x : ℝ} {name : Option String} {kw : Kwargs} {a : GridArray}
    (h : GridArray.init (Mat.col l) (.d0 (.scalar x)) name kw = .ok a) :
    LinearGrid a l x ∧ a.d0 = [x] := by
  obtain ⟨h1, h2, h3⟩ := gridInit_col h
  exact ⟨⟨h1, h3⟩, h2⟩

/-- Non-vacuity: the co-prime-like array `[0, 2, 3]` with spacing 0.5. -/
example : ∃ (a : GridArray) (w : WeightFunction), LinearGrid a [0, 2, 3] 0.5 ∧ a.d0 = [0.5] ∧
    [0, 2, 3].Nodup ∧ a.element = .isotropicScalar ∧ a.perts = [] ∧ a.name ≠ none ∧
    WeightFunction.init a = .ok w := by
  obtain ⟨a, ha⟩ := gridInit_ok_of (idx := Mat.col [0, 2, 3]) (spec := .d0 (.scalar 0.5))
    (name := some "x") (kw := {}) (d := []) (by simp [GridArgsMatch]) rfl
  obtain ⟨h1, h2⟩ := linearGrid_of_init ha
  obtain ⟨_, g2, g3, g4, _⟩ := gridInit_spec ha
  refine ⟨a, _, h1, h2, by decide, g3, ?_, by rw [g2]; simp, weightFunction_init h1.1⟩
  exact (Except.ok.inj g4).symm

/-- **C29** (refutation for mirrored bases). For a grid array given by a negative `1 × 1` basis the
stored `d0` is the absolute value, so the virtual ULA is the mirror image: the covariance of the
virtual ULA is *not* the augmented covariance. -/
theorem C29_negative_basis : ∃ (a b : GridArray) (w : WeightFunction),
    GridArray.init (Mat.col [0, 1]) (.bases ⟨1, [![-1]]⟩) (some "x") {} = .ok a ∧
    WeightFunction.init a = .ok w ∧ virtualUla a w none = .ok b ∧
    a.locations.get? 1 0 = some (-1) ∧ b.locations.get? 1 0 = some 1 ∧
    ∃ (s : FF1D 1) (A : Steering a.element.outputSize a.size 1)
      (B : Steering b.element.outputSize b.size 1),
      steering a.toArrayDesign (.ff1 s) 1 false "all" = .ok A ∧
      steering b.toArrayDesign (.ff1 s) 1 false "all" = .ok B ∧
      ∃ i j, (acmTransform w (modelCov (A.A i) (fun _ => 1) 0) "da").1 ≠
        .ok ⟨b.size, modelCov (B.A j) (fun _ => 1) 0⟩ := by
  obtain ⟨a, ha⟩ := gridInit_ok_of (idx := Mat.col [0, 1]) (spec := .bases ⟨1, [![-1]]⟩)
    (name := some "x") (kw := {}) (d := []) (by simp [GridArgsMatch, Mat.nrows, Mat.col]) rfl
  obtain ⟨g1, g2, g3, g4, g5, g6, g7, g8, g9, g10, g11⟩ := gridInit_spec ha
  have hdim : a.ndim = 1 := by rw [g7, g10]
  have hloc : ∀ i (hi : i < [(0 : ℤ), 1].length),
      a.locations.get? i 0 = some (([(0 : ℤ), 1][i] : ℝ) * (-1)) := by
    intro i hi
    rw [g9 i 0 hi (by omega), g10]
    simp only [List.length_cons, List.length_nil] at hi
    interval_cases i <;> simp [Mat.col, Mat.at0, Mat.get?] <;> rfl
  have h1 : Is1DGrid a [0, 1] := ⟨g1, hdim, g5⟩
  have h : LinearGrid a [0, 1] (-1) := ⟨h1, hloc⟩
  have hd0 : a.d0 = [1] := by rw [g11]; simp [rowNorms]
  have hw0 := weightFunction_init h1
  obtain ⟨b, hb, hv, q3, hbp, hbdim, hbloc, hsize⟩ :=
    virtualUla_spec h1 hd0 none (Or.inr (by rw [g2]; simp)) hw0 .refl
  have hb2 : b.size = 2 := by
    apply hv.unique
    constructor
    · intro d hd
      have : d = -1 ∨ d = 0 ∨ d = 1 := by
        have := abs_lt.1 hd; push_cast at this; omega
      rcases this with rfl | rfl | rfl
      · exact ⟨0, 1, rfl⟩
      · exact ⟨0, 0, rfl⟩
      · exact ⟨1, 0, rfl⟩
    · intro hh
      obtain ⟨i, j, hij⟩ := hh 2 (by norm_num)
      revert i j
      decide
  have hbl1 : b.locations.get? 1 0 = some 1 := by
    have e := hbloc 1 (by omega)
    have hr1 : b.locations.rows.length = 2 := hb2
    have hc1 : b.locations.ncols = 1 := hbdim
    simp only [Mat.at0, Mat.get?] at e ⊢
    rw [List.getElem?_eq_getElem (by omega), Option.bind_some, dif_pos (by omega)] at e ⊢
    simpa using e
  let s : FF1D 1 := ⟨fun _ => 1 / 4, "sin"⟩
  have hω : ∀ L : Mat ℝ, L.ncols = 1 →
      (Sources.ff1 s).phaseDelay L 1 false =
        .ok ⟨fun i c => (fun _ : Fin 1 => Real.pi / 2) c * L.at0 i 0, []⟩ := by
    intro L hL
    refine (FF1D.phaseDelay_eq s L 1).trans ?_
    rw [if_pos (by omega)]
    congr 2
    ext i c
    rw [Mat.at0_of_ge L (i := i) (j := 1) (by omega)]
    simp [s, FF1D.dir]
    ring
  obtain ⟨A, hA, hAv⟩ := linear_steering a.toArrayDesign g3 (Except.ok.inj g4).symm hdim (.ff1 s) 1 _ hω
  obtain ⟨B, hB, hBv⟩ := linear_steering b.toArrayDesign q3 hbp hbdim (.ff1 s) 1 _ hω
  have el : ∀ e : Element, e = .isotropicScalar → 0 < e.outputSize := by
    rintro _ rfl; exact Nat.one_pos
  refine ⟨a, b, _, ha, hw0, hb, by simpa using hloc 1 (by simp), hbl1, s, A, B, hA, hB,
    ⟨0, el _ g3⟩, ⟨0, el _ q3⟩, ?_⟩
  obtain ⟨v', T, S, _, t2, t3, _, _, t6⟩ := acm_model h (by decide) hw0 .refl (by simp) _ (A.A ⟨0, el _ g3⟩)
    (hAv _) (fun _ => 1) 0
  have hvv : v' = b.size := by exact_mod_cast (hsize.symm.trans t2).symm
  subst hvv
  rw [t3]
  intro hc
  have hT : T = modelCov (B.A ⟨0, el _ q3⟩) (fun _ => 1) 0 := by
    have := Except.ok.inj hc
    simpa using this
  have h10 := congrFun (congrFun hT ⟨1, by omega⟩) ⟨0, by omega⟩
  rw [t6, modelCov_apply] at h10
  simp only [hBv, mul_right_comm, exp_pair, hbloc 1 (by omega), hbloc 0 (by omega)] at h10
  simp [Fin.ext_iff] at h10
  have e1 : Complex.exp (I * (↑Real.pi / 2)) = I := by
    rw [mul_comm, Complex.exp_pi_div_two_mul_I]
  have e2 : Complex.exp (-(I * (↑Real.pi / 2))) = -I := by
    rw [Complex.exp_neg, e1, Complex.inv_I]
  rw [e1, e2] at h10
  have := congrArg Complex.im h10
  simp at this
  norm_num at this

end Doa.Props
