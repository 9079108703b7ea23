import Verif.Props.MirrorBounds
import Verif.Props.EcovCoarray
import Verif.Props.CoarrayMusic

/-!
# C104: mirror images and the difference coarray
-/

namespace Doa.Props

open Doa Doa.Spec Matrix
open scoped ComplexOrder

variable {m k : ℕ}

/-! ### Specification -/

/-- The complex conjugate of a square matrix. -/
noncomputable def conjSq (M : SqMat) : SqMat := ⟨M.n, conjM M.val⟩

/-! ### Augmentation -/

theorem vecF_conj (R : Matrix (Fin m) (Fin m) ℂ) : vecF (conjM R) = (vecF R).map star := by
  unfold vecF
  rw [List.map_flatMap]
  congr 1
  funext j
  rw [List.map_map]
  rfl

theorem virtualObservation_conj (w : WeightFunction) (mv : ℕ) (r : List ℂ) (i : ℕ) :
    virtualObservation w mv (r.map star) i = star (virtualObservation w mv r i) := by
  unfold virtualObservation meanC
  have h1 : ∀ x, (r.map star).getD x 0 = star (r.getD x 0) := fun x => by
    rw [List.getD_eq_getElem?_getD, List.getD_eq_getElem?_getD, List.getElem?_map]
    cases r[x]? <;> simp
  simp only [h1]
  have h2 : ∀ l : List ℂ, (l.map star).sum = star l.sum := fun l => by
    induction l with
    | nil => simp
    | cons x l ih => rw [List.map_cons, List.sum_cons, List.sum_cons, ih, star_add]
  rw [List.length_map, List.length_map]
  have h3 := h2 ((w.indicesOf ((i : ℤ) - (mv : ℤ) + 1)).map fun x => r.getD x 0)
  rw [List.map_map] at h3
  simp only [Function.comp_def] at h3
  rw [h3, star_div₀, star_natCast]

/-- **C104** (coarray). The augmented covariance matrix of the complex conjugate is the complex conjugate of the augmented covariance matrix, for
both methods, every matrix and every state of the weight function; what is rejected does not change. -/
theorem C104_augmentation (w : WeightFunction) (R : Matrix (Fin m) (Fin m) ℂ) (method : String) :
    (acmTransform w (conjM R) method).1 = ((acmTransform w R method).1).map conjSq := by
  have hz : ∀ w' : WeightFunction, ∀ mv, virtualObservation w' mv (vecF (conjM R)) = fun i => star (virtualObservation w' mv (vecF R) i) :=
    fun w' mv => funext fun i => by rw [vecF_conj, virtualObservation_conj]
  unfold acmTransform
  by_cases h1 : m ≠ w.m
  · rw [if_pos h1, if_pos h1]; rfl
  by_cases h2 : ¬ (method = "ss" ∨ method = "da")
  · rw [if_neg h1, if_pos h2, if_neg h1, if_pos h2]; rfl
  rw [if_neg h1, if_neg h2, if_neg h1, if_neg h2]
  simp only [hz]
  by_cases h3 : (w.centralUlaSize false).1 < 0
  · rw [if_pos h3, if_pos h3]; rfl
  by_cases h4 : method = "ss"
  · rw [if_neg h3, if_pos h4, if_neg h3, if_pos h4]
    simp only [Except.map, conjSq, Except.ok.injEq]
    congr 1
    ext r c
    simp [augmentSS, conjM]
  · rw [if_neg h3, if_neg h4, if_neg h3, if_neg h4]
    rfl

/-! ### Coarray MUSIC error covariance -/

theorem conjM_inv (M : Matrix (Fin k) (Fin k) ℂ) : conjM M⁻¹ = (conjM M)⁻¹ := by
  have h := npInv_conj M
  unfold npInv at h
  by_cases hM : IsUnit M.det
  · have hM' : IsUnit (conjM M).det := by
      by_contra hc
      rw [if_pos hM, if_neg hc] at h
      cases h
    rw [if_pos hM, if_pos hM'] at h
    exact (Except.ok.inj h).symm
  · have hM' : ¬ IsUnit (conjM M).det := by
      intro hc
      rw [if_neg hM, if_pos hc] at h
      cases h
    rw [nonsing_inv_apply_not_isUnit _ hM, nonsing_inv_apply_not_isUnit _ hM']
    ext i j
    simp [conjM]

theorem conjM_leftInv (A : Matrix (Fin m) (Fin k) ℂ) : leftInv (conjM A) = conjM (leftInv A) := by
  unfold leftInv
  rw [gram_conj, conjM_herm, ← conjM_inv, ← conjM_mul]

theorem conjM_complProj (A : Matrix (Fin m) (Fin k) ℂ) : complProj (conjM A) = conjM (complProj A) := by
  unfold complProj
  rw [conjM_leftInv, ← conjM_mul, conjM_sub, conjM_one]

theorem conjM_mulVec {n : ℕ} (M : Matrix (Fin m) (Fin n) ℂ) (x : Fin n → ℂ) : conjM M *ᵥ star x = star (M *ᵥ x) := by
  funext i
  simp [mulVec, dotProduct, conjM]

theorem musicError_conj (A D : Matrix (Fin m) (Fin k) ℂ) (q : Fin k → ℝ) (i : Fin k) (T : Matrix (Fin m) (Fin m) ℂ) :
    musicError (conjM A) (-conjM D) q i (conjM T) = -star (musicError A D q i T) := by
  have hcol : (-conjM D).col i = star (-D.col i) := by
    funext r
    simp [conjM, Matrix.col]
  unfold musicError
  rw [conjM_complProj, conjM_leftInv, hcol, conjM_mulVec, conjM_mulVec, conjM_mulVec, mulVec_neg, mulVec_neg, mulVec_neg]
  generalize leftInv A *ᵥ (T *ᵥ (complProj A *ᵥ D.col i)) = x
  generalize complProj A *ᵥ D.col i = y
  have : ((star (star (-y))) ⬝ᵥ star (-y)).re = (star y ⬝ᵥ y).re := by
    rw [star_star, neg_dotProduct, star_neg, dotProduct_neg, neg_neg, dotProduct_comm]
  rw [this]
  simp [neg_div]

theorem snapshotCov_conj (R : Matrix (Fin m) (Fin m) ℂ) {f g f' g' : Matrix (Fin m) (Fin m) ℂ → ℂ}
    (hf : ∀ M, f' (conjM M) = -star (f M)) (hg : ∀ M, g' (conjM M) = -star (g M)) :
    (snapshotCov (conjM R) f' g').re = (snapshotCov R f g).re := by
  have hs : ∀ r c : Fin m, Matrix.single r c (1 : ℂ) = conjM (Matrix.single r c 1) := fun r c => by
    ext i j
    simp only [conjM_apply, single_apply]
    split_ifs <;> simp
  have : snapshotCov (conjM R) f' g' = star (snapshotCov R f g) := by
    unfold snapshotCov
    simp only [star_sum]
    refine Finset.sum_congr rfl fun r _ => Finset.sum_congr rfl fun c _ => Finset.sum_congr rfl fun r' _ => Finset.sum_congr rfl fun c' _ => ?_
    have h1 : f' (Matrix.single r c 1) = -star (f (Matrix.single r c 1)) := by rw [← hf, ← hs]
    have h2 : g' (Matrix.single r' c' 1) = -star (g (Matrix.single r' c' 1)) := by rw [← hg, ← hs]
    rw [h1, h2, conjM_apply, conjM_apply]
    simp only [star_mul, star_neg, star_star]
    ring
  rw [this, Complex.star_def, Complex.conj_re]

theorem phaseFactor_neg {u : String} (hu : Unit1D u) (d wl x : ℝ) : phaseFactor d wl u (-x) = star (phaseFactor d wl u x) := by
  unfold phaseFactor
  rw [angleOf_neg hu, Real.sin_neg, Complex.star_def, ← Complex.exp_conj, map_mul, Complex.conj_I, Complex.conj_ofReal]
  congr 1
  push_cast
  ring

theorem sineRate_neg (u : String) (x : ℝ) : sineRate u (-x) = sineRate u x := by
  unfold sineRate
  have : deg2rad (-x) = -deg2rad x := by unfold deg2rad; ring
  rw [this, Real.cos_neg, Real.cos_neg]

theorem scene_neg {d wl : ℝ} {n : ℕ} {s s' : FF1D k} (h : UlaScene d wl n s) (hu' : s'.unit = s.unit) (hl : ∀ c, s'.loc c = -s.loc c) :
    UlaScene d wl n s' := by
  have hang : ∀ c, angleOf s'.unit (s'.loc c) = -angleOf s.unit (s.loc c) := fun c => by rw [hu', hl, angleOf_neg h.valid.1]
  refine ⟨h.d_pos, h.wl_pos, h.few, ⟨hu' ▸ h.valid.1, fun i => ?_⟩, fun c e hce => ?_, fun c e => ?_, fun hu c => ?_⟩
  · rw [hu', hl]
    exact inRange_neg (h.valid.2 i)
  · rw [hl, hl, neg_inj] at hce
    exact h.distinct hce
  · rw [hang, hang, Real.sin_neg, Real.sin_neg, ← neg_sub', abs_neg]
    exact h.unambiguous c e
  · rw [hang, Real.cos_neg]
    exact h.not_endfire (hu' ▸ hu) c

/-- **C104** (coarray MUSIC). The coarray MUSIC error covariance of mirrored uncorrelated sources is the one of the sources, for every sparse
linear array and whatever eigenvectors `eigh` returns, also in every other output mode. -/
theorem C104_coarray_bound (eigh eigh' : Eigh) {a : GridArray} {l : List ℤ} (h : Is1DGrid a l) (hne : l ≠ [])
    (hel : a.element = .isotropicScalar) (hpert : a.perts = []) {v : ℕ} (hv : IsCentralSize l v) {s s' : FF1D k} {wl : ℝ}
    (hsc : UlaScene (wl / 2) wl v s) (hu' : s'.unit = s.unit) (hl : ∀ c, s'.loc c = -s.loc c)
    {p : PowerArg} {P : Matrix (Fin k) (Fin k) ℂ} (hp : PowerDenotes k p P) {q : Fin k → ℝ}
    (hq : ∀ i, 0 < q i) (hPq : ∀ i, P i i = (q i : ℂ)) (σ : ℝ) {n : ℕ} (hn : 1 ≤ n) :
    ∃ C, ecovCoarray eigh a (.ff1 s) wl p σ n "full" = .ok (.full C) ∧
      ∀ mode, ecovCoarray eigh' a (.ff1 s') wl p σ n mode = ecovCoarray eigh a (.ff1 s) wl p σ n mode := by
  have : NeZero wl := ⟨hsc.wl_pos.ne'⟩
  obtain ⟨w, hw⟩ : ∃ w, WeightFunction.init a = .ok w := ⟨_, weightFunction_init h⟩
  have hu := hsc.valid.1
  obtain ⟨T, S, Av, DAv, C, h1, -, -, h2, hAv, hDAv, h3, h4⟩ := ecovCoarrayWith_formula eigh h hne hel hpert hv hsc hp hq hPq σ hn hw
  obtain ⟨T', S', Av', DAv', C', h1', -, -, h2', hAv', hDAv', h3', h4'⟩ :=
    ecovCoarrayWith_formula eigh' h hne hel hpert hv (scene_neg hsc hu' hl) hp hq hPq σ hn hw
  have hz : (fun c => phaseFactor (wl / 2) wl s'.unit (s'.loc c)) = fun c => star (phaseFactor (wl / 2) wl s.unit (s.loc c)) :=
    funext fun c => by rw [hu', hl, phaseFactor_neg hu]
  have hA : Av' = conjM Av := by
    rw [hAv', hAv, hz]
    ext i c
    simp [ulaMat, conjM]
  have hD : DAv' = -conjM DAv := by
    rw [hDAv', hDAv, hz, hu']
    ext i c
    simp only [ulaDeriv, hl, sineRate_neg, Matrix.neg_apply, conjM, Matrix.map_apply, of_apply, map_mul, Complex.conj_I, Complex.conj_ofReal,
      map_natCast, map_pow, Complex.star_def]
    ring
  have hT : ∀ M, T' (conjM M) = conjM (T M) := fun M => by
    have e := C104_augmentation w M "da"
    rw [h1' (conjM M), h1 M] at e
    simp only [Except.map, conjSq, Except.ok.injEq, SqMat.mk.injEq, heq_eq_eq, true_and] at e
    exact e
  have hSS : ∀ o, S'.A o = conjM (S.A o) := fun o => by
    have hline : OnLine a.toArrayDesign := ⟨hel, hpert, h.2.1⟩
    obtain ⟨S1, S2, e1, e2, e3⟩ := C104_steering hline s s' hu hu' hl wl (mode := "all") (by simp)
    cases e1.symm.trans h2
    cases e2.symm.trans h2'
    ext i c
    exact e3 o i c
  have hR : ∀ o, modelCov (S'.A o) q σ = conjM (modelCov (S.A o) q σ) := fun o => by
    unfold modelCov
    have hdiag : diagonal (fun c => (q c : ℂ)) = conjM (diagonal fun c => (q c : ℂ)) := by
      ext i j
      by_cases hij : i = j <;> simp [conjM, hij]
    rw [hSS, ← conjM_cov, ← hdiag]
  have hout : 0 < a.element.outputSize := by rw [hel]; exact Nat.one_pos
  have hC : C' = C := by
    ext i j
    rw [h4' i j ⟨0, hout⟩, h4 i j ⟨0, hout⟩, hR, hA, hD]
    exact congrArg (fun x => (n : ℝ)⁻¹ * x) (snapshotCov_conj _ (fun M => by rw [hT, musicError_conj]) fun M => by rw [hT, musicError_conj])
  subst hC
  have h3 : ecovCoarray eigh a (.ff1 s) wl p σ n "full" = .ok (.full C') := h3
  have h3' : ecovCoarray eigh' a (.ff1 s') wl p σ n "full" = .ok (.full C') := h3'
  refine ⟨C', h3, fun mode => ?_⟩
  obtain ⟨a1, a2, a3⟩ := C60_modes eigh a (.ff1 s) wl p σ n C' h3
  obtain ⟨b1, b2, b3⟩ := C60_modes eigh' a (.ff1 s') wl p σ n C' h3'
  by_cases hm : mode ∈ ["full", "diag", "mean_diag"]
  · simp only [List.mem_cons, List.not_mem_nil, or_false] at hm
    rcases hm with rfl | rfl | rfl
    · exact h3'.trans h3.symm
    · exact b1.trans a1.symm
    · exact b2.trans a2.symm
  · rw [a3 mode hm, b3 mode hm]

/-- Non-vacuity: for a ULA with three sensors half a wavelength apart, the bounds of two sources at sines 0 and 1/2 exist and equal those
of the sources at sines 0 and -1/2; for one with two sensors, so does the coarray MUSIC error covariance of a source at sine 1/2. -/
example (eigh eigh' : Eigh) : (∃ (a : GridArray) (C : Matrix (Fin 2) (Fin 2) ℝ), ula 3 (.scalar (1 / 2)) none {} = .ok a ∧ C.PosDef ∧
      crbSto a.toArrayDesign (.ff1 (⟨![0, 1 / 2], "sin"⟩ : FF1D 2)) 1 (.scalar 1) 1 10 "full" = .ok (.full C) ∧
      crbSto a.toArrayDesign (.ff1 (⟨![0, -(1 / 2)], "sin"⟩ : FF1D 2)) 1 (.scalar 1) 1 10 "full" = .ok (.full C)) ∧
    ∃ (a : GridArray) (C : Matrix (Fin 1) (Fin 1) ℝ), ula 2 (.scalar (1 / 2)) none {} = .ok a ∧
      ecovCoarray eigh a (.ff1 (⟨![1 / 2], "sin"⟩ : FF1D 1)) 1 (.scalar 1) 1 10 "full" = .ok (.full C) ∧
      ecovCoarray eigh' a (.ff1 (⟨![-(1 / 2)], "sin"⟩ : FF1D 1)) 1 (.scalar 1) 1 10 "full" = .ok (.full C) := by
  constructor
  · obtain ⟨a, ha⟩ := ula_ok 3 (1 / 2) none
    have hP : (Matrix.diagonal fun _ : Fin 2 => ((1 : ℝ) : ℂ)).PosDef := by
      rw [Complex.ofReal_one]; exact (diagonal_one (n := Fin 2) (α := ℂ)) ▸ PosDef.one
    obtain ⟨⟨C, h1, h2⟩, _⟩ := C58_ula exampleScene ha (p := .scalar 1) rfl hP one_pos (N := 10) (by norm_num)
    have hline : OnLine a.toArrayDesign := C104_linear ha
    have := (C104_bounds hline (⟨![0, 1 / 2], "sin"⟩ : FF1D 2) ⟨![0, -(1 / 2)], "sin"⟩ (by simp [Unit1D]) rfl
      (fun c => by fin_cases c <;> simp) 1 (.scalar 1) 1 10 "full").1
    exact ⟨a, C, ha, h2, h1, this.trans h1⟩
  · obtain ⟨a, ha⟩ := ula_ok 2 (1 / 2) none
    obtain ⟨h, -⟩ := linearGrid_of_init ha
    obtain ⟨_, g2, g3, g4, _⟩ := gridInit_spec ha
    obtain ⟨C, c1, c2⟩ := C104_coarray_bound eigh eigh' h.1 (by simp) g3 (Except.ok.inj g4).symm example_central
      (s' := (⟨![-(1 / 2)], "sin"⟩ : FF1D 1)) (example_scene (d := 1 / 2) (by norm_num)) rfl (fun c => by fin_cases c; rfl) (p := .scalar 1) rfl
      (q := fun _ => 1) (fun _ => one_pos) (fun i => by simp) 1 (n := 10) (by norm_num)
    exact ⟨a, C, ha, c1, (c2 _).trans c1⟩

end Doa.Props
