import Verif.Props.Monotone

/-!
# C74: the numbering of sensors and sources does not matter
-/

namespace Doa.Props

open Doa Doa.Spec Matrix
open scoped ComplexOrder

variable {m m' k : ℕ}

/-! ### Renumbered numerical parts -/

section
variable (e : Fin m' ≃ Fin m) (π : Fin k ≃ Fin k)

theorem sub_herm (A : Matrix (Fin m) (Fin k) ℂ) : (A.submatrix e π)ᴴ = Aᴴ.submatrix π e := rfl

theorem sub_gram (A B : Matrix (Fin m) (Fin k) ℂ) : (A.submatrix e π)ᴴ * B.submatrix e π = (Aᴴ * B).submatrix π π := by
  rw [sub_herm, submatrix_mul_equiv]

theorem sub_unit {ι κ 𝕜 : Type} [Fintype ι] [DecidableEq ι] [Fintype κ] [DecidableEq κ] [Field 𝕜] (f : κ ≃ ι) (M : Matrix ι ι 𝕜) :
    IsUnit (M.submatrix f f).det ↔ IsUnit M.det := by rw [det_submatrix_equiv_self]

theorem sub_one {ι κ 𝕜 : Type} [Fintype ι] [DecidableEq ι] [Fintype κ] [DecidableEq κ] [Field 𝕜] (f : κ ≃ ι) :
    (1 : Matrix κ κ 𝕜) = (1 : Matrix ι ι 𝕜).submatrix f f := (submatrix_one_equiv f).symm

theorem sub_Hmat (A D : Matrix (Fin m) (Fin k) ℂ) : Hmat (A.submatrix e π) (D.submatrix e π) = (Hmat A D).submatrix π π := by
  unfold Hmat
  rw [sub_gram, inv_submatrix_equiv, sub_herm, sub_herm, submatrix_mul_equiv, submatrix_mul_equiv, sub_one e]
  rw [show ∀ X Y : Matrix (Fin m) (Fin m) ℂ, X.submatrix e e - Y.submatrix e e = (X - Y).submatrix e e from fun _ _ => rfl, submatrix_mul_equiv,
    submatrix_mul_equiv]

theorem sub_modelR (A : Matrix (Fin m) (Fin k) ℂ) (P : Matrix (Fin k) (Fin k) ℂ) (σ : ℝ) :
    A.submatrix e π * P.submatrix π π * (A.submatrix e π)ᴴ + (σ : ℂ) • (1 : Matrix (Fin m') (Fin m') ℂ) =
      (A * P * Aᴴ + (σ : ℂ) • (1 : Matrix (Fin m) (Fin m) ℂ)).submatrix e e := by
  rw [sub_herm, submatrix_mul_equiv, submatrix_mul_equiv, sub_one e]
  rfl

theorem sub_Wmat (A : Matrix (Fin m) (Fin k) ℂ) (P : Matrix (Fin k) (Fin k) ℂ) (σ : ℝ) :
    Wmat (A.submatrix e π) (P.submatrix π π) σ = (Wmat A P σ).submatrix π π := by
  unfold Wmat
  rw [sub_modelR, inv_submatrix_equiv, sub_herm, submatrix_mul_equiv, submatrix_mul_equiv, submatrix_mul_equiv, submatrix_mul_equiv]

theorem sub_reMat (H W : Matrix (Fin k) (Fin k) ℂ) : reMat (H.submatrix π π ⊙ (W.submatrix π π)ᵀ) = (reMat (H ⊙ Wᵀ)).submatrix π π := rfl

theorem sub_symPart (r : ℝ) (C : Matrix (Fin k) (Fin k) ℝ) : symPart (r • C.submatrix π π) = (symPart (r • C)).submatrix π π := rfl

theorem sub_eq_iff {C X : Matrix (Fin k) (Fin k) ℝ} : C.submatrix π π = X.submatrix π π ↔ C = X := by
  constructor
  · intro h
    have := congrArg (fun M => M.submatrix π.symm π.symm) h
    simpa using this
  · rintro rfl; rfl

theorem crbStoCore_sub (A D : Matrix (Fin m) (Fin k) ℂ) (P : Matrix (Fin k) (Fin k) ℂ) (σ : ℝ) (n : ℕ) (C : Matrix (Fin k) (Fin k) ℝ) :
    crbStoCore (A.submatrix e π) (D.submatrix e π) (P.submatrix π π) σ n = .ok (C.submatrix π π) ↔ crbStoCore A D P σ n = .ok C := by
  rcases Nat.eq_zero_or_pos n with rfl | hn
  · exact ⟨fun h => absurd rfl (crbStoCore_n h).out, fun h => absurd rfl (crbStoCore_n h).out⟩
  have : NeZero n := ⟨hn.ne'⟩
  rw [crbStoCore_iff, crbStoCore_iff, sub_gram, sub_modelR, sub_Hmat, sub_Wmat, sub_reMat, inv_submatrix_equiv, sub_unit, sub_unit, sub_unit,
    sub_symPart, sub_eq_iff]

theorem crbDetCore_sub (A D : Matrix (Fin m) (Fin k) ℂ) (P : Matrix (Fin k) (Fin k) ℂ) (σ : ℝ) (n : ℕ) (C : Matrix (Fin k) (Fin k) ℝ) :
    crbDetCore (A.submatrix e π) (D.submatrix e π) (P.submatrix π π) σ n = .ok (C.submatrix π π) ↔ crbDetCore A D P σ n = .ok C := by
  rcases Nat.eq_zero_or_pos n with rfl | hn
  · exact ⟨fun h => absurd rfl (crbDetCore_n h).out, fun h => absurd rfl (crbDetCore_n h).out⟩
  have : NeZero n := ⟨hn.ne'⟩
  rw [crbDetCore_iff, crbDetCore_iff, sub_gram, sub_Hmat, sub_reMat, inv_submatrix_equiv, sub_unit, sub_unit, sub_symPart, sub_eq_iff]

theorem ecovMusicCore_sub (A D : Matrix (Fin m) (Fin k) ℂ) (P : Matrix (Fin k) (Fin k) ℂ) (σ : ℝ) (n : ℕ) (C : Matrix (Fin k) (Fin k) ℝ) :
    ecovMusicCore (A.submatrix e π) (D.submatrix e π) (P.submatrix π π) σ n = .ok (C.submatrix π π) ↔ ecovMusicCore A D P σ n = .ok C := by
  have hB : (P.submatrix π π)⁻¹ * (1 + (σ : ℂ) • (((Aᴴ * A).submatrix π π)⁻¹ * (P.submatrix π π)⁻¹)) =
      (P⁻¹ * (1 + (σ : ℂ) • ((Aᴴ * A)⁻¹ * P⁻¹))).submatrix π π := by
    rw [inv_submatrix_equiv, inv_submatrix_equiv, submatrix_mul_equiv]
    conv_lhs => rw [sub_one π]
    exact submatrix_mul_equiv P⁻¹ (1 + (σ : ℂ) • ((Aᴴ * A)⁻¹ * P⁻¹)) π π π
  rcases Nat.eq_zero_or_pos n with rfl | hn
  · exact ⟨fun h => absurd rfl (ecovMusicCore_n h).out, fun h => absurd rfl (ecovMusicCore_n h).out⟩
  have : NeZero n := ⟨hn.ne'⟩
  rw [ecovMusicCore_iff, ecovMusicCore_iff, sub_gram, sub_unit, sub_unit, sub_Hmat, hB, sub_reMat]
  refine and_congr_right fun _ => and_congr_right fun _ => and_congr ⟨fun h i => by simpa using h (π.symm i), fun h i => h (π i)⟩ ?_
  exact sub_eq_iff (X := (σ / 2 / n) • (reMat (Hmat A D ⊙ (P⁻¹ * (1 + (σ : ℂ) • ((Aᴴ * A)⁻¹ * P⁻¹)))ᵀ) ⊙
    Matrix.of fun i j => ((Hmat A D i i).re)⁻¹ * ((Hmat A D j j).re)⁻¹)) π

/-- Renumbering of the unknowns of the uncorrelated model. -/
def unknowns : Fin k ⊕ (Fin k ⊕ Unit) ≃ Fin k ⊕ (Fin k ⊕ Unit) := Equiv.sumCongr π (Equiv.sumCongr π (Equiv.refl _))

theorem sub_stoucFim (A D : Matrix (Fin m) (Fin k) ℂ) (p : Fin k → ℂ) (W : Matrix (Fin m) (Fin m) ℂ) :
    stoucFim (A.submatrix e π) (D.submatrix e π) (fun i => p (π i)) (W.submatrix e e) =
      (stoucFim A D p W).submatrix (unknowns π) (unknowns π) := by
  have h1 : ∀ X Y : Matrix (Fin m) (Fin k) ℂ, (X.submatrix e π)ᴴ * W.submatrix e e * Y.submatrix e π = (Xᴴ * W * Y).submatrix π π := by
    intro X Y
    rw [sub_herm, submatrix_mul_equiv, submatrix_mul_equiv]
  have h2 : W.submatrix e e * W.submatrix e e = (W * W).submatrix e e := submatrix_mul_equiv _ _ _ _ _
  have h3 : (W * W).submatrix e e * A.submatrix e π = (W * W * A).submatrix e π := submatrix_mul_equiv _ _ _ _ _
  have h4 : ((W * W).submatrix e e).trace = (W * W).trace := Equiv.sum_comp e fun i => (W * W) i i
  have h5 : ∀ (X : Matrix (Fin m) (Fin k) ℂ) c, ∑ i, star ((X.submatrix e π) i c) * ((W * W * A).submatrix e π) i c =
      ∑ i, star (X i (π c)) * (W * W * A) i (π c) := fun X c => Equiv.sum_comp e fun i => star (X i (π c)) * (W * W * A) i (π c)
  unfold stoucFim
  simp only [h1, h2, h3, h4, h5]
  generalize Dᴴ * W * D = X
  generalize Dᴴ * W * A = Y
  generalize Aᴴ * W * D = Z
  generalize Aᴴ * W * A = V
  generalize W * W * A = U
  generalize W * W = U'
  ext i j
  rcases i with i | i | i <;> rcases j with j | j | j <;>
    simp only [submatrix_apply, unknowns, Equiv.sumCongr_apply, Sum.map_inl, Sum.map_inr, fromBlocks_apply₁₁, fromBlocks_apply₁₂, fromBlocks_apply₂₁,
      fromBlocks_apply₂₂, Matrix.smul_apply, reMat_apply, hadamard_apply, Matrix.add_apply, transpose_apply, map_apply, conjTranspose_apply, of_apply,
      Sum.elim_inl, Sum.elim_inr]

theorem sub_stoucRi (A : Matrix (Fin m) (Fin k) ℂ) (p : Fin k → ℂ) (σ : ℝ) :
    scaleCols (A.submatrix e π) (fun i => p (π i)) * (A.submatrix e π)ᴴ + (σ : ℂ) • (1 : Matrix (Fin m') (Fin m') ℂ) =
      (scaleCols A p * Aᴴ + (σ : ℂ) • (1 : Matrix (Fin m) (Fin m) ℂ)).submatrix e e ∧
    stoucRi (A.submatrix e π) (fun i => p (π i)) σ = (stoucRi A p σ).submatrix e e := by
  have h : scaleCols (A.submatrix e π) (fun i => p (π i)) * (A.submatrix e π)ᴴ + (σ : ℂ) • (1 : Matrix (Fin m') (Fin m') ℂ) =
      (scaleCols A p * Aᴴ + (σ : ℂ) • (1 : Matrix (Fin m) (Fin m) ℂ)).submatrix e e := by
    rw [show scaleCols (A.submatrix e π) (fun i => p (π i)) = (scaleCols A p).submatrix e π from rfl, sub_herm, submatrix_mul_equiv, sub_one e]
    rfl
  refine ⟨h, ?_⟩
  unfold stoucRi
  rw [h, inv_submatrix_equiv]
  rfl

theorem crbStoucCore_sub (A D : Matrix (Fin m) (Fin k) ℂ) (p : Fin k → ℂ) (σ : ℝ) (n : ℕ) (C : Matrix (Fin k) (Fin k) ℝ) :
    crbStoucCore (A.submatrix e π) (D.submatrix e π) (fun i => p (π i)) σ n = .ok (C.submatrix π π) ↔ crbStoucCore A D p σ n = .ok C := by
  obtain ⟨h1, h2⟩ := sub_stoucRi e π A p σ
  rcases Nat.eq_zero_or_pos n with rfl | hn
  · exact ⟨fun h => absurd rfl (crbStoucCore_n h).out, fun h => absurd rfl (crbStoucCore_n h).out⟩
  have : NeZero n := ⟨hn.ne'⟩
  rw [crbStoucCore_iff, crbStoucCore_iff, h1, h2, sub_stoucFim, inv_submatrix_equiv, sub_unit, sub_unit]
  refine and_congr_right fun _ => and_congr_right fun _ => ?_
  exact sub_eq_iff (X := symPart ((n : ℝ)⁻¹ • ((stoucFim A D p (stoucRi A p σ))⁻¹).toBlocks₁₁)) π

end

/-! ### Renumbered arguments -/

/-- The sources `π 0`, `π 1`, ... of `s`, in this order. -/
def reorder {k' : ℕ} (π : Fin k' → Fin k) (s : FF1D k) : FF1D k' := ⟨fun i => s.loc (π i), s.unit⟩

theorem phaseDelay_reorder {k' : ℕ} (π : Fin k' → Fin k) (s : FF1D k) (L : Mat ℝ) (wl : ℝ) (cd : Bool) {T : PhaseDelays L.nrows k}
    (h : s.phaseDelay L wl cd = .ok T) :
    (reorder π s).phaseDelay L wl cd = .ok ⟨fun i c => T.D i (π c), T.DD.map fun X i c => X i (π c)⟩ := by
  unfold FF1D.phaseDelay at h ⊢
  split at h
  · cases h
  rename_i h0
  rw [if_neg h0]
  split at h
  · cases h
  rename_i hw
  rw [if_neg hw]
  split at h
  · rename_i hu
    rw [if_pos (show (reorder π s).unit = "sin" from hu)]
    split at h
    · cases h
    rename_i hn
    rw [if_neg fun hc => hn ⟨hc.1, hc.2.1, π hc.2.2.choose, hc.2.2.choose_spec⟩]
    cases h
    unfold FF1D.phaseDelaySin
    by_cases h1 : L.ncols = 1 <;> cases cd <;> simp only [h1, if_true, if_false, Bool.false_eq_true] <;> rfl
  · rename_i hu
    rw [if_neg (show ¬ (reorder π s).unit = "sin" from hu)]
    cases h
    unfold FF1D.phaseDelayRad
    have e : (reorder π s).unit = s.unit := rfl
    rw [e]
    by_cases h1 : L.ncols = 1 <;> by_cases h2 : s.unit = "deg" <;> cases cd <;> simp only [h1, h2, if_true, if_false, Bool.false_eq_true] <;> rfl

theorem steerPair_reorder {k' : ℕ} (π : Fin k' → Fin k) {a : ArrayDesign} {s : FF1D k} {wl : ℝ} {mode : String} {A D : Matrix (Fin a.size) (Fin k) ℂ}
    (h : steerPair a (.ff1 s) wl mode = .ok (A, D)) :
    steerPair a (.ff1 (reorder π s)) wl mode = .ok (A.submatrix id π, D.submatrix id π) := by
  obtain ⟨out, DA, h1, h2, h3, h4, h5⟩ := steers_iff.2 h
  have hiso := element_of_deriv h1
  obtain ⟨ps, T, hrows, hps, hT, hsh, hA, hDA⟩ := steering_iso_inv hiso h1
  have hT' : (Sources.ff1 (reorder π s)).phaseDelay (ps.foldl (fun l p => p.perturbSensorLocations l) a.locations) wl true = .ok _ :=
    phaseDelay_reorder π s _ wl true hT
  have hst := steering_iso hiso hps hrows hT' hsh
  have hDD : ∃ X, T.DD = [X] := by
    rw [h3] at hDA
    cases hd : T.DD with
    | nil => rw [hd] at hDA; cases hDA
    | cons X t =>
      cases t with
      | nil => exact ⟨X, rfl⟩
      | cons _ _ => rw [hd] at hDA; cases hDA
  obtain ⟨X, hX⟩ := hDD
  refine steers_iff.1 ⟨_, fun _ => totalFactor a.size ps * idealDeriv hrows (fun i c => T.D i (π c)) (fun i c => X i (π c)), hst, h2, ?_,
    fun l => ?_, fun l => ?_⟩
  · rw [hX]; rfl
  · have := congrFun hA ⟨0, by omega⟩
    rw [h4] at this
    rw [this]
    rfl
  · rw [h3, hX, List.map_singleton, List.cons.injEq] at hDA
    have := congrFun hDA.1 ⟨0, by omega⟩
    rw [h5] at this
    rw [this]
    rfl

theorem SubArray.symm {a a' : ArrayDesign} {f : Fin a.size → Fin a'.size} (h : SubArray a a' f) (e : Fin a.size ≃ Fin a'.size) (he : ∀ i, e i = f i) :
    SubArray a' a e.symm where
  element := h.element.symm
  ideal := ⟨h.ideal.2, h.ideal.1⟩
  ndim := h.ndim.symm
  injective := e.symm.injective
  locations i j := by
    rw [h.locations, ← he, e.apply_symm_apply]

theorem crbs_sensors {a a' : ArrayDesign} (e : Fin a.size ≃ Fin a'.size) (h : SubArray a a' e) (src : Sources k) (wl : ℝ) (p : PowerArg)
    (σ : ℝ) (n : ℕ) (pert : String) (C : Matrix (Fin k) (Fin k) ℝ) :
    (crbSto a src wl p σ n "full" = .ok (.full C) → crbSto a' src wl p σ n "full" = .ok (.full C)) ∧
    (crbDet a src wl p σ n "full" = .ok (.full C) → crbDet a' src wl p σ n "full" = .ok (.full C)) ∧
    (crbStouc a src wl p σ n "full" = .ok (.full C) → crbStouc a' src wl p σ n "full" = .ok (.full C)) ∧
    (ecovMusic a src wl p σ n pert "full" = .ok (.full C) → ecovMusic a' src wl p σ n pert "full" = .ok (.full C)) := by
  cases src with
  | nf s =>
    refine ⟨fun h => ?_, fun h => ?_, fun h => ?_, fun h => ?_⟩
    · cases (crbSto_full_iff.1 h).1
    · cases (crbDet_full_iff.1 h).1
    · cases (crbStouc_full_iff.1 h).1
    · cases (ecovMusic_full_iff.1 h).1
  | ff2 s =>
    refine ⟨fun h => ?_, fun h => ?_, fun h => ?_, fun h => ?_⟩
    · cases (crbSto_full_iff.1 h).1
    · cases (crbDet_full_iff.1 h).1
    · cases (crbStouc_full_iff.1 h).1
    · cases (ecovMusic_full_iff.1 h).1
  | ff1 s =>
    refine ⟨fun hC => ?_, fun hC => ?_, fun hC => ?_, fun hC => ?_⟩
    · obtain ⟨_, P, A, D, g1, g2, g3⟩ := crbSto_full_iff.1 hC
      obtain ⟨A', D', hst, rfl, rfl⟩ := steerPair_sub h g2
      exact crbSto_full_iff.2 ⟨rfl, P, A', D', g1, hst, (crbStoCore_sub e (Equiv.refl _) A' D' P σ n C).1 g3⟩
    · obtain ⟨_, P, A, D, g1, g2, g3⟩ := crbDet_full_iff.1 hC
      obtain ⟨A', D', hst, rfl, rfl⟩ := steerPair_sub h g2
      exact crbDet_full_iff.2 ⟨rfl, P, A', D', g1, hst, (crbDetCore_sub e (Equiv.refl _) A' D' P σ n C).1 g3⟩
    · obtain ⟨_, P, A, D, g1, g2, g3⟩ := crbStouc_full_iff.1 hC
      obtain ⟨A', D', hst, rfl, rfl⟩ := steerPair_sub h g2
      exact crbStouc_full_iff.2 ⟨rfl, P, A', D', g1, hst, (crbStoucCore_sub e (Equiv.refl _) A' D' _ σ n C).1 g3⟩
    · obtain ⟨_, hk, P, A, D, g1, g2, g3⟩ := ecovMusic_full_iff.1 hC
      obtain ⟨A', D', hst, rfl, rfl⟩ := steerPair_sub h g2
      have hsz : a.size = a'.size := by simpa using Fintype.card_congr e
      exact ecovMusic_full_iff.2 ⟨rfl, hsz ▸ hk, P, A', D', g1, hst, (ecovMusicCore_sub e (Equiv.refl _) A' D' P σ n C).1 g3⟩

/-- **C74** (sensors). Let `a'` consist of the sensors of `a` in another order. Every bound for `a` is a bound for `a'` and vice versa. -/
theorem C74_sensors {a a' : ArrayDesign} (e : Fin a.size ≃ Fin a'.size) (h : SubArray a a' e) (src : Sources k) (wl : ℝ) (p : PowerArg)
    (σ : ℝ) (n : ℕ) (pert : String) (C : Matrix (Fin k) (Fin k) ℝ) :
    (crbSto a src wl p σ n "full" = .ok (.full C) ↔ crbSto a' src wl p σ n "full" = .ok (.full C)) ∧
    (crbDet a src wl p σ n "full" = .ok (.full C) ↔ crbDet a' src wl p σ n "full" = .ok (.full C)) ∧
    (crbStouc a src wl p σ n "full" = .ok (.full C) ↔ crbStouc a' src wl p σ n "full" = .ok (.full C)) ∧
    (ecovMusic a src wl p σ n pert "full" = .ok (.full C) ↔ ecovMusic a' src wl p σ n pert "full" = .ok (.full C)) := by
  obtain ⟨h1, h2, h3, h4⟩ := crbs_sensors e h src wl p σ n pert C
  obtain ⟨g1, g2, g3, g4⟩ := crbs_sensors e.symm (h.symm e fun _ => rfl) src wl p σ n pert C
  exact ⟨⟨h1, g1⟩, ⟨h2, g2⟩, ⟨h3, g3⟩, ⟨h4, g4⟩⟩

theorem crbs_sources (π : Fin k ≃ Fin k) (a : ArrayDesign) (s : FF1D k) (wl : ℝ) {p p' : PowerArg} {P : Matrix (Fin k) (Fin k) ℂ}
    (hp : PowerDenotes k p P) (hp' : PowerDenotes k p' (P.submatrix π π)) (σ : ℝ) (n : ℕ) (pert : String) (C : Matrix (Fin k) (Fin k) ℝ) :
    (crbSto a (.ff1 s) wl p σ n "full" = .ok (.full C) → crbSto a (.ff1 (reorder π s)) wl p' σ n "full" = .ok (.full (C.submatrix π π))) ∧
    (crbDet a (.ff1 s) wl (.matrix ⟨k, k, P⟩) σ n "full" = .ok (.full C) →
      crbDet a (.ff1 (reorder π s)) wl (.matrix ⟨k, k, P.submatrix π π⟩) σ n "full" = .ok (.full (C.submatrix π π))) ∧
    (crbStouc a (.ff1 s) wl p σ n "full" = .ok (.full C) → crbStouc a (.ff1 (reorder π s)) wl p' σ n "full" = .ok (.full (C.submatrix π π))) ∧
    (ecovMusic a (.ff1 s) wl p σ n pert "full" = .ok (.full C) →
      ecovMusic a (.ff1 (reorder π s)) wl p' σ n pert "full" = .ok (.full (C.submatrix π π))) := by
  refine ⟨fun hC => ?_, fun hC => ?_, fun hC => ?_, fun hC => ?_⟩
  · obtain ⟨_, P1, A, D, g1, g2, g3⟩ := crbSto_full_iff.1 hC
    cases powerDenotes_unique hp g1
    exact crbSto_full_iff.2 ⟨rfl, _, _, _, hp', steerPair_reorder π g2, (crbStoCore_sub (Equiv.refl _) π A D P σ n C).2 g3⟩
  · obtain ⟨_, P1, A, D, g1, g2, g3⟩ := crbDet_full_iff.1 hC
    cases g1
    exact crbDet_full_iff.2 ⟨rfl, _, _, _, rfl, steerPair_reorder π g2, (crbDetCore_sub (Equiv.refl _) π A D P σ n C).2 g3⟩
  · obtain ⟨_, P1, A, D, g1, g2, g3⟩ := crbStouc_full_iff.1 hC
    cases powerDenotes_unique hp g1
    exact crbStouc_full_iff.2 ⟨rfl, _, _, _, hp', steerPair_reorder π g2, (crbStoucCore_sub (Equiv.refl _) π A D (fun i => P i i) σ n C).2 g3⟩
  · obtain ⟨_, hk, P1, A, D, g1, g2, g3⟩ := ecovMusic_full_iff.1 hC
    cases powerDenotes_unique hp g1
    exact ecovMusic_full_iff.2 ⟨rfl, hk, _, _, _, hp', steerPair_reorder π g2, (ecovMusicCore_sub (Equiv.refl _) π A D P σ n C).2 g3⟩

/-- **C74** (sources). List the sources (and their powers or covariance) in another order: the rows and columns of every bound are
permuted in the same way, so each source keeps its variance. The array may be perturbed. -/
theorem C74_sources (π : Fin k ≃ Fin k) (a : ArrayDesign) (s : FF1D k) (wl : ℝ) {p p' : PowerArg} {P : Matrix (Fin k) (Fin k) ℂ}
    (hp : PowerDenotes k p P) (hp' : PowerDenotes k p' (P.submatrix π π)) (σ : ℝ) (n : ℕ) (pert : String) (C : Matrix (Fin k) (Fin k) ℝ) :
    (crbSto a (.ff1 (reorder π s)) wl p' σ n "full" = .ok (.full (C.submatrix π π)) ↔ crbSto a (.ff1 s) wl p σ n "full" = .ok (.full C)) ∧
    (crbDet a (.ff1 (reorder π s)) wl (.matrix ⟨k, k, P.submatrix π π⟩) σ n "full" = .ok (.full (C.submatrix π π)) ↔
      crbDet a (.ff1 s) wl (.matrix ⟨k, k, P⟩) σ n "full" = .ok (.full C)) ∧
    (crbStouc a (.ff1 (reorder π s)) wl p' σ n "full" = .ok (.full (C.submatrix π π)) ↔ crbStouc a (.ff1 s) wl p σ n "full" = .ok (.full C)) ∧
    (ecovMusic a (.ff1 (reorder π s)) wl p' σ n pert "full" = .ok (.full (C.submatrix π π)) ↔
      ecovMusic a (.ff1 s) wl p σ n pert "full" = .ok (.full C)) := by
  have hs : reorder π.symm (reorder π s) = s := by
    unfold reorder
    simp only [Equiv.apply_symm_apply]
  have hM : ∀ {α : Type} (M : Matrix (Fin k) (Fin k) α), (M.submatrix π π).submatrix π.symm π.symm = M := fun M => by simp
  obtain ⟨h1, h2, h3, h4⟩ := crbs_sources π a s wl hp hp' σ n pert C
  obtain ⟨g1, g2, g3, g4⟩ := crbs_sources π.symm a (reorder π s) wl hp' (p' := p) (by rw [hM]; exact hp) σ n pert (C.submatrix π π)
  rw [hs, hM] at g1 g2 g3 g4
  rw [hM] at g2
  exact ⟨⟨g1, h1⟩, ⟨g2, h2⟩, ⟨g3, h3⟩, ⟨g4, h4⟩⟩

/-- Non-vacuity: swapping the two sources of the running example; the bound exists and its entries change places. -/
example : ∃ (a : GridArray) (C : Matrix (Fin 2) (Fin 2) ℝ), C.PosDef ∧
    crbSto a.toArrayDesign (.ff1 (⟨![0, 1 / 2], "sin"⟩ : FF1D 2)) 1 (.list [1, 2]) 1 10 "full" = .ok (.full C) ∧
    crbSto a.toArrayDesign (.ff1 (⟨![1 / 2, 0], "sin"⟩ : FF1D 2)) 1 (.list [2, 1]) 1 10 "full" =
      .ok (.full (C.submatrix (Equiv.swap 0 1) (Equiv.swap 0 1))) := by
  obtain ⟨a, ha⟩ := ula_ok 3 (1 / 2) none
  have hp : PowerDenotes 2 (.list [1, 2]) (Matrix.diagonal fun i : Fin 2 => (([1, 2].getD i.1 0 : ℝ) : ℂ)) := ⟨rfl, rfl⟩
  have hP : (Matrix.diagonal fun i : Fin 2 => (([1, 2].getD i.1 0 : ℝ) : ℂ)).PosDef := by
    rw [posDef_diagonal_iff]
    intro i
    fin_cases i
    · exact Complex.zero_lt_real.2 one_pos
    · exact Complex.zero_lt_real.2 two_pos
  obtain ⟨⟨C, h1, h2⟩, _⟩ := C58_ula exampleScene ha (p := .list [1, 2]) hp hP one_pos (N := 10) (by norm_num)
  have hp' : PowerDenotes 2 (.list [2, 1]) ((Matrix.diagonal fun i : Fin 2 => (([1, 2].getD i.1 0 : ℝ) : ℂ)).submatrix
      (Equiv.swap (0 : Fin 2) 1) (Equiv.swap (0 : Fin 2) 1)) := by
    refine ⟨rfl, ?_⟩
    ext i j
    fin_cases i <;> fin_cases j <;> simp
  have hs : reorder (Equiv.swap (0 : Fin 2) 1) (⟨![0, 1 / 2], "sin"⟩ : FF1D 2) = ⟨![1 / 2, 0], "sin"⟩ := by
    unfold reorder
    congr 1
    funext i
    fin_cases i <;> simp
  have := (C74_sources (Equiv.swap 0 1) a.toArrayDesign (⟨![0, 1 / 2], "sin"⟩ : FF1D 2) 1 hp hp' 1 10 "all" C).1.2 h1
  rw [hs] at this
  exact ⟨a, C, h2, h1, this⟩

end Doa.Props
