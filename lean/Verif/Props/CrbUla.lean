import Mathlib.Algebra.Polynomial.Derivative
import Mathlib.LinearAlgebra.Lagrange
import Verif.Props.Crb

/-!
# Cramér-Rao bounds of uniform linear arrays: C58
-/

namespace Doa.Props

open Doa Doa.Spec Matrix
open scoped ComplexOrder

variable {m k : ℕ}

/-- The derivative of the sine of the broadside angle with respect to the location in unit `u`. -/
noncomputable def sineRate (u : String) (x : ℝ) : ℝ :=
  if u = "sin" then 1 else if u = "deg" then Real.cos (deg2rad x) * (Real.pi / 180) else Real.cos x

/-- The derivative columns of ULA steering vectors. -/
noncomputable def ulaDeriv (m : ℕ) (z w : Fin k → ℂ) : Matrix (Fin m) (Fin k) ℂ := Matrix.of fun i c => w c * (i.1 * z c ^ i.1)

theorem steerPair_of {a : ArrayDesign} {src : Sources k} {wl : ℝ} {mode : String} {out} (h : steering a src wl true mode = .ok out)
    (ho : a.element.outputSize = 1) {D} (hD : out.DA = [D]) :
    steerPair a src wl mode = .ok (out.A ⟨0, by omega⟩, D ⟨0, by omega⟩) := by
  unfold steerPair
  rw [h]
  simp only [dif_pos ho, hD]

/-- The steering matrix of a ULA together with its derivatives. -/
theorem ula_steerPair {n : ℕ} {d : ℝ} {name : Option String} {a : GridArray}
    (ha : ula n (.scalar d) name {} = .ok a) (s : FF1D k) (hs : Valid1D s) (wl : ℝ) [NeZero wl]
    (mode : String) (hm : mode ∈ ["all", "known", "none"]) :
    steerPair a.toArrayDesign (.ff1 s) wl mode = .ok
      (ulaMat _ fun c => phaseFactor d wl s.unit (s.loc c),
       ulaDeriv _ (fun c => phaseFactor d wl s.unit (s.loc c))
        fun c => Complex.I * ((2 * Real.pi * d / wl * sineRate s.unit (s.loc c) : ℝ) : ℂ)) := by
  obtain ⟨g1, g2, g3, g4, g5, g6, g7, g8, g9, g10⟩ := gridInit_spec ha
  obtain ⟨h1, h2, h3⟩ := C01_ula_geometry n d name {} a ha
  have hp : a.perts = [] := (Except.ok.inj g4).symm
  have hps : a.toArrayDesign.filterPerturbations mode = .ok [] := by
    have hp' : a.toArrayDesign.perts = [] := hp
    simp only [List.mem_cons, List.not_mem_nil, or_false] at hm
    rcases hm with rfl | rfl | rfl <;>
      simp [ArrayDesign.filterPerturbations, hp', PyDict.values]
  have hd : a.locations.ncols = 1 := h2
  have hph : (Sources.ff1 s).phaseDelay a.locations wl true =
      .ok ⟨fun i c => 2 * Real.pi / wl * (s.dir c).1 * a.locations.at0 i 0,
        [fun i c => 2 * Real.pi / wl * sineRate s.unit (s.loc c) * a.locations.at0 i 0]⟩ := by
    have hv := (validSensorDim_iff a.locations).2 (by omega)
    show s.phaseDelay a.locations wl true = _
    unfold FF1D.phaseDelay
    rw [hv]
    simp only [Bool.not_true, Bool.false_eq_true, if_false, if_neg (NeZero.ne wl)]
    by_cases hsin : s.unit = "sin"
    · rw [if_pos hsin, if_neg fun h => h.2.1 hd]
      simp only [FF1D.phaseDelaySin, hd, if_true, FF1D.dir, hsin, sineRate, mul_one]
      congr 2
      funext i c; ring
    · rw [if_neg hsin]
      by_cases hdeg : s.unit = "deg"
      · simp only [FF1D.phaseDelayRad, hd, if_true, FF1D.dir, hdeg, sineRate]
        simp only [show ("deg" = "sin") = False by decide, if_false]
        congr 2
        · funext i c; ring
        · congr 1
          funext i c; ring
      · simp only [FF1D.phaseDelayRad, hd, if_true, FF1D.dir, hdeg, hsin, sineRate, if_false]
        congr 2
        · funext i c; ring
        · congr 1
          funext i c; ring
  have hst := steering_iso (ps := []) g3 hps rfl hph (by simp)
  have ho : a.toArrayDesign.element.outputSize = 1 := by rw [g3]; rfl
  have hloc : ∀ i : Fin a.toArrayDesign.size, a.locations.at0 i.1 0 = (i.1 : ℝ) * d := by
    intro i
    have hi : i.1 < n := by rw [← h1]; exact i.2
    rw [Mat.at0, h3 i.1 hi]; rfl
  have hA : ∀ (i : Fin a.toArrayDesign.size) c, Complex.exp (Complex.I * ((2 * Real.pi / wl * (s.dir c).1 * a.locations.at0 i.1 0 : ℝ) : ℂ)) =
      phaseFactor d wl s.unit (s.loc c) ^ i.1 := by
    intro i c
    rw [phaseFactor, ← Complex.exp_nat_mul, ← dir_sin s hs, hloc]
    congr 1
    push_cast
    ring
  refine (steerPair_of hst ho (D := _) rfl).trans ?_
  refine congrArg Except.ok (Prod.ext ?_ ?_)
  · ext i c
    simp only [totalFactor, List.foldl_nil, Matrix.one_mul, ideal]
    exact hA i c
  · ext i c
    simp only [totalFactor, List.foldl_nil, Matrix.one_mul, idealDeriv, ulaDeriv, of_apply]
    refine (congrArg₂ (· * ·) (hA i c) (congrArg (fun x : ℝ => Complex.I * (x : ℂ)) (congrArg (_ * ·) (hloc i)))).trans ?_
    push_cast
    ring

/-- The derivative of a ULA steering vector does not lie in the span of `k < m` steering vectors. -/
theorem ulaDeriv_not_span {z w : Fin k → ℂ} (hz : Function.Injective z) (hz0 : ∀ c, z c ≠ 0) (hw : ∀ c, w c ≠ 0) (hk : k < m)
    (j : Fin k) : ¬ ∃ x, ulaMat m z *ᵥ x = fun i => ulaDeriv m z w i j := by
  rintro ⟨x, hx⟩
  classical
  set q : Polynomial ℂ := ∏ c, (Polynomial.X - Polynomial.C (z c)) with hq
  have hdeg : q.natDegree < m := by
    rw [hq, Polynomial.natDegree_prod_of_monic _ _ fun c _ => Polynomial.monic_X_sub_C _]
    simpa using hk
  have hroot : ∀ c, q.eval (z c) = 0 := by
    intro c
    rw [hq, Polynomial.eval_prod]
    exact Finset.prod_eq_zero (Finset.mem_univ c) (by simp)
  have hsum : ∀ ζ, ∑ i : Fin m, q.coeff i.1 * ζ ^ i.1 = q.eval ζ := by
    intro ζ
    rw [Polynomial.eval_eq_sum_range' hdeg, Finset.sum_range]
  have hsum' : ∀ ζ, ∑ i : Fin m, q.coeff i.1 * (i.1 * ζ ^ i.1) = ζ * q.derivative.eval ζ := by
    intro ζ
    have h1 : (Polynomial.X * q.derivative).natDegree < m := by
      rcases Nat.eq_zero_or_pos q.natDegree with h | h
      · rw [Polynomial.eq_C_of_natDegree_eq_zero h]
        simp; omega
      · refine lt_of_le_of_lt (Polynomial.natDegree_mul_le) ?_
        have := Polynomial.natDegree_derivative_lt (by omega : q.natDegree ≠ 0)
        rw [Polynomial.natDegree_X]
        omega
    have h2 := Polynomial.eval_eq_sum_range' h1 ζ
    rw [Polynomial.eval_mul, Polynomial.eval_X] at h2
    rw [h2, Finset.sum_range]
    refine Finset.sum_congr rfl fun i _ => ?_
    rcases i with ⟨i, hi⟩
    cases i with
    | zero => simp
    | succ i =>
      simp only [Polynomial.coeff_X_mul, Polynomial.coeff_derivative]
      push_cast
      ring
  have h0 : ∑ i : Fin m, q.coeff i.1 * (ulaMat m z *ᵥ x) i = 0 := by
    simp only [mulVec, dotProduct, ulaMat, Finset.mul_sum]
    rw [Finset.sum_comm]
    refine Finset.sum_eq_zero fun c _ => ?_
    have : ∑ i : Fin m, q.coeff i.1 * (z c ^ i.1 * x c) = (∑ i : Fin m, q.coeff i.1 * z c ^ i.1) * x c := by
      rw [Finset.sum_mul]
      exact Finset.sum_congr rfl fun i _ => by ring
    rw [this, hsum, hroot, zero_mul]
  rw [hx] at h0
  have h1 : w j * (z j * q.derivative.eval (z j)) = 0 := by
    rw [← hsum', ← h0, Finset.mul_sum]
    refine Finset.sum_congr rfl fun i _ => ?_
    simp only [ulaDeriv, of_apply]
    ring
  have hd : q.derivative.eval (z j) ≠ 0 := by
    rw [hq, ← Finset.mul_prod_erase _ _ (Finset.mem_univ j), Polynomial.derivative_mul]
    simp only [Polynomial.derivative_sub, Polynomial.derivative_X, Polynomial.derivative_C, sub_zero, one_mul, Polynomial.eval_add,
      Polynomial.eval_mul, Polynomial.eval_sub, Polynomial.eval_X, Polynomial.eval_C, sub_self, zero_mul, add_zero, Polynomial.eval_prod]
    refine Finset.prod_ne_zero_iff.2 fun c hc => sub_ne_zero.2 fun h => ?_
    exact (Finset.mem_erase.1 hc).1 (hz h).symm
  exact mul_ne_zero (hw j) (mul_ne_zero (hz0 j) hd) h1

theorem phaseFactor_ne_zero (d wl : ℝ) (u : String) (x : ℝ) : phaseFactor d wl u x ≠ 0 := Complex.exp_ne_zero _

/-- Fewer sources than sensors, at different DOAs that the array can tell apart, none of them at endfire
unless the unit is `'sin'`. -/
structure UlaScene (d wl : ℝ) (n : ℕ) (s : FF1D k) : Prop where
  d_pos : 0 < d
  wl_pos : 0 < wl
  few : k < n
  valid : Valid1D s
  distinct : Function.Injective s.loc
  unambiguous : ∀ c e, d * |Real.sin (angleOf s.unit (s.loc c)) - Real.sin (angleOf s.unit (s.loc e))| < wl
  not_endfire : s.unit ≠ "sin" → ∀ c, Real.cos (angleOf s.unit (s.loc c)) ≠ 0

theorem UlaScene.rate_ne {d wl : ℝ} {n : ℕ} {s : FF1D k} (h : UlaScene d wl n s) (c : Fin k) :
    Complex.I * ((2 * Real.pi * d / wl * sineRate s.unit (s.loc c) : ℝ) : ℂ) ≠ 0 := by
  refine mul_ne_zero Complex.I_ne_zero ?_
  rw [Ne, Complex.ofReal_eq_zero]
  have hr : sineRate s.unit (s.loc c) ≠ 0 := by
    unfold sineRate
    by_cases h1 : s.unit = "sin"
    · rw [if_pos h1]; norm_num
    · rw [if_neg h1]
      have := h.not_endfire h1 c
      unfold angleOf at this
      by_cases h2 : s.unit = "deg"
      · rw [if_pos h2] at this ⊢
        have hp : Real.pi / 180 ≠ 0 := by have := Real.pi_pos; positivity
        refine mul_ne_zero ?_ hp
        unfold deg2rad
        convert this using 2
        ring
      · rw [if_neg h2, if_neg h1] at this
        rwa [if_neg h2]
  have hpi := Real.pi_pos
  have hd := h.d_pos
  have hwl := h.wl_pos
  have : 0 < 2 * Real.pi * d / wl := by positivity
  exact mul_ne_zero this.ne' hr

theorem UlaScene.facts {d wl : ℝ} {n : ℕ} {s : FF1D k} (h : UlaScene d wl n s) {name : Option String} {a : GridArray}
    (ha : ula n (.scalar d) name {} = .ok a) (mode : String) (hm : mode ∈ ["all", "known", "none"]) :
    ∃ A D, steerPair a.toArrayDesign (.ff1 s) wl mode = .ok (A, D) ∧ Function.Injective A.mulVec ∧
      ∀ j, ¬ ∃ x, A *ᵥ x = fun i => D i j := by
  have : NeZero wl := ⟨h.wl_pos.ne'⟩
  have hsz : a.toArrayDesign.size = n := (C01_ula_geometry n d name {} a ha).1
  have hz : Function.Injective fun c => phaseFactor d wl s.unit (s.loc c) := fun c e hce =>
    h.distinct (phaseFactor_inj h.d_pos h.wl_pos (h.valid.2 c) (h.valid.2 e) (h.unambiguous c e) hce)
  refine ⟨_, _, ula_steerPair ha s h.valid wl mode hm, ulaMat_injective hz (hsz ▸ h.few.le), fun j => ?_⟩
  refine ulaDeriv_not_span hz (fun c => phaseFactor_ne_zero _ _ _ _) h.rate_ne (hsz ▸ h.few) j

/-- **C58** (uniform linear arrays). For every ULA, any number of sources smaller than the number of sensors at
different, distinguishable DOAs off endfire, every positive definite source covariance and positive noise
variance, the stochastic and the deterministic bound exist and are positive definite. -/
theorem C58_ula {d wl : ℝ} {n : ℕ} {s : FF1D k} (h : UlaScene d wl n s) {name : Option String} {a : GridArray}
    (ha : ula n (.scalar d) name {} = .ok a) {p : PowerArg} {P : Matrix (Fin k) (Fin k) ℂ} (hp : PowerDenotes k p P) (hP : P.PosDef)
    {σ : ℝ} (hσ : 0 < σ) {N : ℕ} (hN : 1 ≤ N) :
    (∃ C, crbSto a.toArrayDesign (.ff1 s) wl p σ N "full" = .ok (.full C) ∧ C.PosDef) ∧
    (∃ C, crbDet a.toArrayDesign (.ff1 s) wl (.matrix ⟨k, k, P⟩) σ N "full" = .ok (.full C) ∧ C.PosDef) := by
  obtain ⟨A, D, h1, h2, h3⟩ := h.facts ha "all" (by simp)
  obtain ⟨r1, r2⟩ := C58_returns a.toArrayDesign (src := .ff1 s) rfl wl hp hP hσ N hN (steers_iff.2 h1)
  obtain ⟨C, hC⟩ := r1.2 ⟨h2, h3⟩
  obtain ⟨C', hC'⟩ := r2.2 ⟨h2, h3⟩
  exact ⟨⟨C, hC, C58_positive _ _ _ hp hP.posSemidef hσ hN C (.inl hC)⟩,
    ⟨C', hC', C58_positive _ _ _ (p := .matrix ⟨k, k, P⟩) rfl hP.posSemidef hσ hN C' (.inr hC')⟩⟩

/-- Two sources at sines 0 and 1/2 on a half-wavelength ULA with three sensors. -/
theorem exampleScene : UlaScene (1 / 2) 1 3 (⟨![0, 1 / 2], "sin"⟩ : FF1D 2) where
  d_pos := by norm_num
  wl_pos := by norm_num
  few := by norm_num
  valid := ⟨by simp [Unit1D], fun i => by fin_cases i <;> simp [InRange1D] <;> norm_num⟩
  distinct := by intro i j hij; fin_cases i <;> fin_cases j <;> simp_all
  unambiguous := by
    have h0 : Real.sin (angleOf "sin" (1 / 2)) = 1 / 2 := by
      rw [angleOf, if_neg (by decide), if_pos rfl, Real.sin_arcsin] <;> norm_num
    have h1 : Real.sin (angleOf "sin" 0) = 0 := by
      rw [angleOf, if_neg (by decide), if_pos rfl, Real.sin_arcsin] <;> norm_num
    have h0' : Real.sin (angleOf "sin" 2⁻¹) = 1 / 2 := by rw [← h0]; norm_num
    intro c e
    fin_cases c <;> fin_cases e <;> simp [h0', h1] <;> norm_num [abs_of_pos]
  not_endfire := fun h => absurd rfl h

example : ∃ (a : GridArray) (C : Matrix (Fin 2) (Fin 2) ℝ),
    crbSto a.toArrayDesign (.ff1 ⟨![0, 1 / 2], "sin"⟩) 1 (.scalar 1) 1 10 "full" = .ok (.full C) ∧ C.PosDef := by
  obtain ⟨a, ha⟩ := ula_ok 3 (1 / 2) none
  have hP : (Matrix.diagonal fun _ : Fin 2 => ((1 : ℝ) : ℂ)).PosDef := by
    rw [Complex.ofReal_one]; exact (diagonal_one (n := Fin 2) (α := ℂ)) ▸ PosDef.one
  obtain ⟨⟨C, h1, h2⟩, _⟩ := C58_ula exampleScene ha (p := .scalar 1) rfl hP one_pos (N := 10) (by norm_num)
  exact ⟨a, C, h1, h2⟩

end Doa.Props
