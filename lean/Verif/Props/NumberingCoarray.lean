import Verif.Props.Numbering
import Verif.Props.Units
import Verif.Props.DataScale
import Verif.Props.EcovCoarray
import Verif.Props.CoarrayEstimation

/-!
# C74 (coarray MUSIC): the numbering of the sources does not matter
-/

namespace Doa.Props

open Doa Doa.Spec Matrix
open scoped ComplexOrder

variable {m k : ℕ}

section
variable (π : Fin k ≃ Fin k)

theorem scaleCols_reorder {v : ℕ} (A : Matrix (Fin v) (Fin k) ℂ) (p : Fin k → ℂ) :
    scaleCols (A.submatrix id π) (fun i => p (π i)) * (A.submatrix id π)ᴴ = scaleCols A p * Aᴴ := by
  ext i j
  exact Equiv.sum_comp π fun c => scaleCols A p i c * Aᴴ c j

theorem npPinv_reorder {v : ℕ} (A : Matrix (Fin v) (Fin k) ℂ) : npPinv (A.submatrix id π) = (npPinv A).submatrix π id := by
  obtain ⟨x1, x2, x3, x4⟩ := C33_pinv_penrose (A.submatrix id π)
  obtain ⟨y1, y2, y3, y4⟩ := C33_pinv_penrose A
  have h1 : A.submatrix id π * (npPinv A).submatrix π id = A * npPinv A := by
    have := submatrix_mul_equiv A (npPinv A) id π id
    rwa [submatrix_id_id] at this
  have h2 : (npPinv A).submatrix π id * A.submatrix id π = (npPinv A * A).submatrix π π :=
    (submatrix_mul (npPinv A) A π id π Function.bijective_id).symm
  refine penrose_unique x1 x2 x3 x4 ?_ ?_ ?_ ?_
  · rw [h1]
    have := (submatrix_mul (A * npPinv A) A id id π Function.bijective_id).symm
    rw [submatrix_id_id] at this
    rw [this, y1]
  · rw [h2, submatrix_mul_equiv, y2]
  · rw [h1, y3]
  · rw [h2, conjTranspose_submatrix, y4]

theorem ecovCoarrayNaN_reorder (eigh : Eigh) {v : ℕ} (p : Fin k → ℂ) (σ : ℝ) (n : ℕ) (Av DAv : Matrix (Fin v) (Fin k) ℂ) :
    ecovCoarrayNaN eigh (fun i => p (π i)) σ n (Av.submatrix id π) (DAv.submatrix id π) ↔ ecovCoarrayNaN eigh p σ n Av DAv := by
  unfold ecovCoarrayNaN
  dsimp only
  rw [scaleCols_reorder]
  refine or_congr Iff.rfl ⟨fun ⟨c, h⟩ => ⟨π c, h⟩, fun ⟨c, h⟩ => ⟨π.symm c, ?_⟩⟩
  simpa only [submatrix_apply, Equiv.apply_symm_apply, id_eq] using h

theorem ecovCoarrayCore_reorder (eigh : Eigh) {v : ℕ} (A : Matrix (Fin m) (Fin k) ℂ) (p : Fin k → ℂ) (σ : ℝ) (n : ℕ)
    (Av DAv : Matrix (Fin v) (Fin k) ℂ) (F : Matrix (Fin (2 * v - 1)) (Fin (m * m)) ℂ) :
    ecovCoarrayCore eigh (A.submatrix id π) (fun i => p (π i)) σ n (Av.submatrix id π) (DAv.submatrix id π) F =
      (ecovCoarrayCore eigh A p σ n Av DAv F).submatrix π π := by
  unfold ecovCoarrayCore
  dsimp only
  rw [scaleCols_reorder, scaleCols_reorder, npPinv_reorder]
  generalize noiseCols (eigh.run (scaleCols Av p * Avᴴ + (σ : ℂ) • (1 : Matrix (Fin v) (Fin v) ℂ))).2 k *
    (noiseCols (eigh.run (scaleCols Av p * Avᴴ + (σ : ℂ) • (1 : Matrix (Fin v) (Fin v) ℂ))).2 k)ᴴ = Q
  generalize (subarraySelection v * F)ᵀ = G
  generalize hK : (Matrix.of fun r c : Fin (m * m) =>
    (scaleCols A p * Aᴴ + (σ : ℂ) • (1 : Matrix (Fin m) (Fin m) ℂ)) (finProdFinEquiv.symm r).1 (finProdFinEquiv.symm c).1 *
    (scaleCols A p * Aᴴ + (σ : ℂ) • (1 : Matrix (Fin m) (Fin m) ℂ))ᵀ (finProdFinEquiv.symm r).2 (finProdFinEquiv.symm c).2) = K
  generalize hX : (Matrix.of fun (r : Fin (m * m)) (c : Fin k) =>
    (G *ᵥ outerFlat (Q *ᵥ fun i => DAv i c) fun j => -npPinv Av c j / p c) r /
      (((star (Q *ᵥ fun i => DAv i c) ⬝ᵥ (Q *ᵥ fun i => DAv i c)).re : ℝ) : ℂ)) = X
  have hXs : (Matrix.of fun (r : Fin (m * m)) (c : Fin k) =>
      (G *ᵥ outerFlat (Q *ᵥ fun i => DAv.submatrix id π i c) fun j => -(npPinv Av).submatrix π id c j / p (π c)) r /
        (((star (Q *ᵥ fun i => DAv.submatrix id π i c) ⬝ᵥ (Q *ᵥ fun i => DAv.submatrix id π i c)).re : ℝ) : ℂ)) = X.submatrix id π := by
    rw [← hX]
    ext r c
    rfl
  refine (congrArg (fun Y : Matrix (Fin (m * m)) (Fin k) ℂ => (n : ℝ)⁻¹ • reMat (Yᴴ * K * Y)) hXs).trans ?_
  have hKX : (X.submatrix id π)ᴴ * K * X.submatrix id π = (Xᴴ * K * X).submatrix π π := by
    ext i j
    rfl
  rw [hKX]
  rfl

theorem steering_reorder {a : ArrayDesign} (hel : a.element = .isotropicScalar) {s : FF1D k} {wl : ℝ} {cd : Bool} {mode : String}
    {out : Steering a.element.outputSize a.size k} (h : steering a (.ff1 s) wl cd mode = .ok out) :
    ∃ out', steering a (.ff1 (reorder π s)) wl cd mode = .ok out' ∧ ∀ l, out'.A l = (out.A l).submatrix id π := by
  obtain ⟨ps, T, hrows, hps, hT, hsh, hA, -⟩ := steering_iso_inv hel h
  have hT' : (Sources.ff1 (reorder π s)).phaseDelay (ps.foldl (fun l p => p.perturbSensorLocations l) a.locations) wl cd = .ok _ :=
    phaseDelay_reorder π s _ wl cd hT
  refine ⟨_, steering_iso hel hps hrows hT' hsh, fun l => ?_⟩
  rw [hA]
  rfl

end

theorem ecovCoarrayWith_reorder (eigh : Eigh) (spacing : ℝ) (π : Fin k ≃ Fin k) {a : GridArray} (hel : a.toArrayDesign.element = .isotropicScalar)
    (s : FF1D k) (wl : ℝ) {p p' : PowerArg} {P : Matrix (Fin k) (Fin k) ℂ}
    (hp : PowerDenotes k p P) (hp' : PowerDenotes k p' (P.submatrix π π)) (σ : ℝ) (n : ℕ) (C : Matrix (Fin k) (Fin k) ℝ)
    (hC : ecovCoarrayWith eigh spacing a (.ff1 s) wl p σ n "full" = .ok (.full C)) :
    ecovCoarrayWith eigh spacing a (.ff1 (reorder π s)) wl p' σ n "full" = .ok (.full (C.submatrix π π)) := by
  unfold ecovCoarrayWith at hC ⊢
  rw [((C61_vector p k).1 _).2 ⟨P, hp, rfl⟩] at hC
  rw [((C61_vector p' k).1 _).2 ⟨_, hp', rfl⟩]
  have hf : ∀ x : FF1D k, (Sources.ff1 x).isFF1 = true := fun _ => rfl
  simp only [hf, Bool.not_true, Bool.false_eq_true, if_false] at hC ⊢
  split at hC
  · cases hC
  rename_i hper
  rw [if_neg hper]
  cases hw : WeightFunction.init a with
  | error e => rw [hw] at hC; cases hC
  | ok wf =>
    rw [hw] at hC
    simp only at hC ⊢
    cases hF : (wf.selectionMatrix ℂ false).1 with
    | error e => rw [hF] at hC; cases hC
    | ok F =>
      rw [hF] at hC
      simp only at hC ⊢
      split at hC
      · cases hC
      rename_i hk
      rw [if_neg hk]
      cases hst : steering a.toArrayDesign (.ff1 s) wl false "all" with
      | error e => rw [hst] at hC; cases hC
      | ok out =>
        obtain ⟨out', ho', hA⟩ := steering_reorder π hel hst
        rw [hst] at hC
        rw [ho']
        simp only at hC ⊢
        cases hv : ula ((F.length + 1) / 2) (.scalar spacing) none {} with
        | error e => rw [hv] at hC; cases hC
        | ok v =>
          rw [hv] at hC
          simp only at hC ⊢
          cases hsp : steerPair v.toArrayDesign (.ff1 s) wl "all" with
          | error e => rw [hsp] at hC; cases hC
          | ok r =>
            obtain ⟨Av, DAv⟩ := r
            rw [hsp] at hC
            rw [steerPair_reorder π hsp]
            simp only at hC ⊢
            split at hC
            · rename_i h1
              rw [dif_pos h1]
              split at hC
              · cases hC
              rename_i hN
              have hN' := fun h => hN ((ecovCoarrayNaN_reorder π eigh (fun i => P i i) σ n Av DAv).1 h)
              refine (if_neg hN').trans ?_
              rw [reduceOutput_full_iff] at hC ⊢
              rw [hA, ← hC]
              exact ecovCoarrayCore_reorder π eigh _ (fun i => P i i) _ _ _ _ _
            · cases hC

/-- **C74** (sources, coarray MUSIC). List the sources and their powers in another order: the rows and columns of the error covariance of
coarray MUSIC are permuted in the same way. The virtual array, its spacing and the covariance behind it do not change. -/
theorem C74_coarray_sources (eigh : Eigh) (π : Fin k ≃ Fin k) {a : GridArray} (hel : a.toArrayDesign.element = .isotropicScalar)
    (s : FF1D k) (wl : ℝ) {p p' : PowerArg} {P : Matrix (Fin k) (Fin k) ℂ}
    (hp : PowerDenotes k p P) (hp' : PowerDenotes k p' (P.submatrix π π)) (σ : ℝ) (n : ℕ) (C : Matrix (Fin k) (Fin k) ℝ) :
    ecovCoarray eigh a (.ff1 (reorder π s)) wl p' σ n "full" = .ok (.full (C.submatrix π π)) ↔
      ecovCoarray eigh a (.ff1 s) wl p σ n "full" = .ok (.full C) := by
  have hs : reorder π.symm (reorder π s) = s := by
    unfold reorder
    simp only [Equiv.apply_symm_apply]
  have hM : ∀ {α : Type} (M : Matrix (Fin k) (Fin k) α), (M.submatrix π π).submatrix π.symm π.symm = M := fun M => by simp
  refine ⟨fun h => ?_, ecovCoarrayWith_reorder eigh _ π hel s wl hp hp' σ n C⟩
  have := ecovCoarrayWith_reorder eigh _ π.symm hel (reorder π s) wl hp' (p' := p) (by rw [hM]; exact hp) σ n _ h
  rwa [hs, hM] at this

/-! ### Renumbered and moved sensors -/

section
variable {l l' : List ℤ} {t : ℤ} (f : Fin l.length ≃ Fin l'.length) (hf : ∀ i, l'[f i] = l[i] + t)
include hf

theorem isLag_moved (d : ℤ) : IsLag l' d ↔ IsLag l d := by
  constructor
  · rintro ⟨i, j, rfl⟩
    have h0 : ∀ i, l'[i] = l[f.symm i] + t := fun i => by
      have := hf (f.symm i)
      simpa only [f.apply_symm_apply] using this
    have h1 := h0 i
    have h2 := h0 j
    exact ⟨f.symm i, f.symm j, by rw [h1, h2]; ring⟩
  · rintro ⟨i, j, rfl⟩
    exact ⟨f i, f j, by rw [hf, hf]; ring⟩

theorem isCentralSize_moved (v : ℕ) : IsCentralSize l' v ↔ IsCentralSize l v := by
  unfold IsCentralSize
  simp only [isLag_moved f hf]

theorem pairAverage_moved (R' : Fin l'.length → Fin l'.length → ℂ) (d : ℤ) :
    pairAverage l' R' d = pairAverage l (fun i j => R' (f i) (f j)) d := by
  have hmem : ∀ p : Fin l.length × Fin l.length, p ∈ pairs l d ↔ f.prodCongr f p ∈ pairs l' d := by
    intro p
    simp only [pairs, Finset.mem_filter, Finset.mem_univ, true_and, Equiv.prodCongr_apply, Prod.map]
    rw [hf, hf, add_sub_add_right_eq_sub]
  unfold pairAverage pairCount
  rw [Finset.card_equiv (f.prodCongr f) hmem,
    Finset.sum_equiv (f.prodCongr f) hmem (g := fun p => R' p.1 p.2) (f := fun p => R' (f p.1) (f p.2)) fun p _ => rfl]

end

theorem aug_apply {a : GridArray} {l : List ℤ} (h : Is1DGrid a l) (hne : l ≠ []) {w : WeightFunction} (hw : WeightFunction.init a = .ok w)
    {v : ℕ} (hv : IsCentralSize l v) (M : Matrix (Fin a.size) (Fin a.size) ℂ) (X : Matrix (Fin v) (Fin v) ℂ)
    (hX : (acmTransform w M "da").1 = .ok ⟨v, X⟩) (r c : Fin v) :
    X r c = pairAverage l (fun i j => M (Fin.cast h.2.2.symm i) (Fin.cast h.2.2.symm j)) ((r.1 : ℤ) - c.1) := by
  have key : ∀ (n : ℕ) (hn : n = l.length) (M : Matrix (Fin n) (Fin n) ℂ), (acmTransform w M "da").1 = .ok ⟨v, X⟩ →
      X r c = pairAverage l (fun i j => M (Fin.cast hn.symm i) (Fin.cast hn.symm j)) ((r.1 : ℤ) - c.1) := by
    rintro n rfl M hM
    obtain ⟨v', T, S, h1, h2, -, h4, -⟩ := C28_acm h hw .refl hne M
    cases h1.unique hv
    rw [hM] at h2
    cases h2
    exact h4 r c
  exact key _ h.2.2 M hX

/-- **C74** (sensors, coarray MUSIC). Two unperturbed grid lines with the same spacing: the second has the sensors of the first in another
order and possibly moved by `t` grid steps. Coarray MUSIC has the same error covariance for both, whatever eigenvectors are computed. -/
theorem C74_coarray_sensors (eigh eigh' : Eigh) {a a' : GridArray} {l l' : List ℤ} {δ : ℝ} (h : LinearGrid a l δ) (h' : LinearGrid a' l' δ)
    (f : Fin l.length ≃ Fin l'.length) (t : ℤ) (hf : ∀ i, l'[f i] = l[i] + t) (hne : l ≠ [])
    (hel : a.element = .isotropicScalar) (hpert : a.perts = []) (hel' : a'.element = .isotropicScalar) (hpert' : a'.perts = [])
    {v : ℕ} (hv : IsCentralSize l v) {s : FF1D k} {wl : ℝ} (hsc : UlaScene (wl / 2) wl v s) {p : PowerArg} {P : Matrix (Fin k) (Fin k) ℂ}
    (hp : PowerDenotes k p P) {q : Fin k → ℝ} (hq : ∀ i, 0 < q i) (hPq : ∀ i, P i i = (q i : ℂ)) (σ : ℝ) {n : ℕ} (hn : 1 ≤ n) :
    ∃ C : Matrix (Fin k) (Fin k) ℝ, ecovCoarray eigh a (.ff1 s) wl p σ n "full" = .ok (.full C) ∧
      ecovCoarray eigh' a' (.ff1 s) wl p σ n "full" = .ok (.full C) := by
  have : NeZero wl := ⟨hsc.wl_pos.ne'⟩
  have hw := weightFunction_init h.1
  have hw' := weightFunction_init h'.1
  have hv' := (isCentralSize_moved f hf v).2 hv
  have hne' : l' ≠ [] := by
    have := f.symm.bijective
    rintro rfl
    exact (f.trans (Equiv.refl _) ⟨0, List.length_pos_of_ne_nil hne⟩).elim0
  obtain ⟨T, S, Av, DAv, C, hT, -, -, hS, rfl, rfl, hC, hCf⟩ := ecovCoarrayWith_formula eigh h.1 hne hel hpert hv hsc hp hq hPq σ hn hw
  obtain ⟨T', S', Av', DAv', C', hT', -, -, hS', rfl, rfl, hC', hCf'⟩ :=
    ecovCoarrayWith_formula eigh' h'.1 hne' hel' hpert' hv' hsc hp hq hPq σ hn hw'
  obtain ⟨ω, hω⟩ := linear_phase (.ff1 s) rfl wl
  have hloc : ∀ {b : GridArray} {x : List ℤ} (hb : LinearGrid b x δ) (i : Fin x.length),
      b.toArrayDesign.locations.at0 i.1 0 = (x[i] : ℝ) * δ := fun hb i => hb.at0 i.1 i.2
  obtain ⟨S1, hS1, hv1⟩ := linear_steering a.toArrayDesign hel hpert h.1.2.1 (.ff1 s) wl ω hω
  obtain ⟨S1', hS1', hv1'⟩ := linear_steering a'.toArrayDesign hel' hpert' h'.1.2.1 (.ff1 s) wl ω hω
  rw [hS] at hS1
  rw [hS'] at hS1'
  cases hS1
  cases hS1'
  set e : Fin a.size ≃ Fin a'.size := (finCongr h.1.2.2).trans (f.trans (finCongr h'.1.2.2.symm)) with he
  have hTe : ∀ r c : Fin a.size, T' (single (e r) (e c) 1) = T (single r c 1) := by
    intro r c
    ext i j
    rw [aug_apply h.1 hne hw hv _ _ (hT _), aug_apply h'.1 hne' hw' hv' _ _ (hT' _), pairAverage_moved f hf]
    congr 1
    funext x y
    have e1 : ∀ x, Fin.cast h'.1.2.2.symm (f x) = e (Fin.cast h.1.2.2.symm x) := fun x => rfl
    rw [e1, e1]
    simp only [single, of_apply, EmbeddingLike.apply_eq_iff_eq]
  have hR : ∀ (o : Fin a.element.outputSize) (o' : Fin a'.element.outputSize) (r c : Fin a.size),
      modelCov (S'.A o') q σ (e r) (e c) = modelCov (S.A o) q σ r c := by
    intro o o' r c
    have hl : ∀ i : Fin a.size, a'.toArrayDesign.locations.at0 (e i).1 0 = a.toArrayDesign.locations.at0 i.1 0 + (t : ℝ) * δ := by
      intro i
      have h1 := hloc h ((finCongr h.1.2.2) i)
      have h2 := hloc h' (f ((finCongr h.1.2.2) i))
      rw [hf] at h2
      refine h2.trans ?_
      rw [show a.toArrayDesign.locations.at0 i.1 0 = _ from h1]
      push_cast
      ring
    rw [modelCov_apply, modelCov_apply]
    congr 1
    · refine Finset.sum_congr rfl fun x _ => ?_
      rw [hv1, hv1, hv1', hv1']
      have := hl r
      have h2 := hl c
      rw [mul_right_comm, mul_right_comm (Complex.exp (Complex.I * ↑(ω x * a.locations.at0 (↑r) 0))), exp_pair, exp_pair, this, h2]
      rw [show ω x * (a.toArrayDesign.locations.at0 r.1 0 + t * δ) - ω x * (a.toArrayDesign.locations.at0 c.1 0 + t * δ) =
        ω x * a.toArrayDesign.locations.at0 r.1 0 - ω x * a.toArrayDesign.locations.at0 c.1 0 by ring]
    · simp only [EmbeddingLike.apply_eq_iff_eq]
  refine ⟨C, hC, hC'.trans ?_⟩
  have hCC : C' = C := by
    ext i j
    have ho : 0 < a.element.outputSize := by rw [hel]; exact Nat.one_pos
    have ho' : 0 < a'.element.outputSize := by rw [hel']; exact Nat.one_pos
    rw [hCf i j ⟨0, ho⟩, hCf' i j ⟨0, ho'⟩]
    congr 2
    unfold snapshotCov
    rw [← Equiv.sum_comp e]
    refine Finset.sum_congr rfl fun r _ => ?_
    rw [← Equiv.sum_comp e]
    refine Finset.sum_congr rfl fun c _ => ?_
    rw [← Equiv.sum_comp e]
    refine Finset.sum_congr rfl fun r' _ => ?_
    rw [← Equiv.sum_comp e]
    refine Finset.sum_congr rfl fun c' _ => ?_
    beta_reduce
    rw [hTe, hTe, hR ⟨0, ho⟩, hR ⟨0, ho⟩]
  rw [hCC]

/-- Non-vacuity: sensors at 0, 1, 3 half wavelengths, and the same sensors three steps further and listed in another order; two sources with
powers 1 and 2, and the same sources listed the other way round. -/
example : ∃ (a a' : GridArray) (C : Matrix (Fin 2) (Fin 2) ℝ), Is1DGrid a [0, 1, 3] ∧ Is1DGrid a' [6, 3, 4] ∧
    ∀ eigh : Eigh, ecovCoarray eigh a (.ff1 (⟨![0, 1 / 2], "sin"⟩ : FF1D 2)) 1 (.list [1, 2]) 1 10 "full" = .ok (.full C) ∧
      ecovCoarray eigh a' (.ff1 (⟨![0, 1 / 2], "sin"⟩ : FF1D 2)) 1 (.list [1, 2]) 1 10 "full" = .ok (.full C) ∧
      ecovCoarray eigh a (.ff1 (⟨![1 / 2, 0], "sin"⟩ : FF1D 2)) 1 (.list [2, 1]) 1 10 "full" =
        .ok (.full (C.submatrix (Equiv.swap 0 1) (Equiv.swap 0 1))) := by
  obtain ⟨a, ha⟩ := gridInit_ok_of (idx := Mat.col [0, 1, 3]) (spec := .d0 (.scalar (1 / 2)))
    (name := some "x") (kw := {}) (d := []) (by simp [GridArgsMatch]) rfl
  obtain ⟨a', ha'⟩ := gridInit_ok_of (idx := Mat.col [6, 3, 4]) (spec := .d0 (.scalar (1 / 2)))
    (name := some "x") (kw := {}) (d := []) (by simp [GridArgsMatch]) rfl
  obtain ⟨hlg, -⟩ := linearGrid_of_init ha
  obtain ⟨hlg', -⟩ := linearGrid_of_init ha'
  obtain ⟨-, -, hel, hp1, -⟩ := gridInit_spec ha
  obtain ⟨-, -, hel', hp1', -⟩ := gridInit_spec ha'
  have hpert : a.perts = [] := by
    have : Except.ok [] = Except.ok a.perts := hp1
    exact (Except.ok.inj this).symm
  have hpert' : a'.perts = [] := by
    have : Except.ok [] = Except.ok a'.perts := hp1'
    exact (Except.ok.inj this).symm
  have hsc : UlaScene ((1 : ℝ) / 2) 1 4 (⟨![0, 1 / 2], "sin"⟩ : FF1D 2) := { exampleScene with few := by norm_num }
  have hp : PowerDenotes 2 (.list [1, 2]) (Matrix.diagonal fun i : Fin 2 => (([1, 2].getD i.1 0 : ℝ) : ℂ)) := ⟨rfl, rfl⟩
  have hp' : PowerDenotes 2 (.list [2, 1]) ((Matrix.diagonal fun i : Fin 2 => (([1, 2].getD i.1 0 : ℝ) : ℂ)).submatrix
      (Equiv.swap (0 : Fin 2) 1) (Equiv.swap (0 : Fin 2) 1)) := by
    refine ⟨rfl, ?_⟩
    ext i j
    fin_cases i <;> fin_cases j <;> simp
  have hq : ∀ i : Fin 2, 0 < (![1, 2] : Fin 2 → ℝ) i := by intro i; fin_cases i <;> simp
  have hPq : ∀ i : Fin 2, (Matrix.diagonal fun i : Fin 2 => (([1, 2].getD i.1 0 : ℝ) : ℂ)) i i = ((![1, 2] : Fin 2 → ℝ) i : ℂ) := by
    intro i; fin_cases i <;> simp
  have key := fun eigh eigh' => C74_coarray_sensors eigh eigh' hlg hlg' (finRotate 3) 3 (by intro i; fin_cases i <;> rfl) (by simp) hel hpert
    hel' hpert' three_sensors_central hsc hp hq hPq 1 (n := 10) (by norm_num)
  obtain ⟨C, -, hC⟩ := key someEigh someEigh
  have hs : reorder (Equiv.swap (0 : Fin 2) 1) (⟨![0, 1 / 2], "sin"⟩ : FF1D 2) = ⟨![1 / 2, 0], "sin"⟩ := by
    unfold reorder
    congr 1
    funext i
    fin_cases i <;> simp
  refine ⟨a, a', C, hlg.1, hlg'.1, fun eigh => ?_⟩
  obtain ⟨C1, h1, h1'⟩ := key eigh someEigh
  obtain ⟨C2, h2, h2'⟩ := key eigh eigh
  have e1 : C1 = C := by rw [hC] at h1'; cases h1'; rfl
  have e2 : C2 = C1 := by rw [h1] at h2; cases h2; rfl
  subst e2 e1
  refine ⟨h1, h2', ?_⟩
  have := (C74_coarray_sources eigh (Equiv.swap 0 1) hel (⟨![0, 1 / 2], "sin"⟩ : FF1D 2) 1 hp hp' 1 10 _).2 h1
  rwa [hs] at this

end Doa.Props
