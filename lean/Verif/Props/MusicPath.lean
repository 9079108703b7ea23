import Mathlib.Analysis.Calculus.DerivativeTest
import Verif.Lemmas.ImplicitPath
import Verif.Props.MusicErrors
import Verif.Props.CoarrayEstimation

/-!
# C64, C60: the estimates of MUSIC are differentiable functions of the covariance
-/

namespace Doa.Props

open Doa Doa.Spec Matrix Filter Topology
open scoped ComplexOrder

variable {m k : ℕ}

/-- The noise projection of a perturbed covariance matrix. -/
theorem noise_path {A : Matrix (Fin m) (Fin k) ℂ} (hA : Function.Injective A.mulVec) {P : Matrix (Fin k) (Fin k) ℂ}
    (hPu : IsUnit P.det) (hP : P.IsHermitian) (σ : ℝ) {T : Matrix (Fin m) (Fin m) ℂ} (hT : Tᴴ = T) :
    ∃ N : ℝ → Matrix (Fin m) (Fin m) ℂ, (∀ r c, ContDiffAt ℝ (⊤ : ℕ∞) (fun t => N t r c) 0) ∧ N 0 = complProj A ∧
      ∀ᶠ t : ℝ in 𝓝 0, (N t)ᴴ = N t ∧ N t * N t = N t ∧
        N t * (covModel A P σ + (t : ℂ) • T) = (covModel A P σ + (t : ℂ) • T) * N t := by
  have hR : (covModel A P σ)ᴴ = covModel A P σ := by
    unfold covModel
    rw [conjTranspose_add, conjTranspose_mul, conjTranspose_mul, conjTranspose_conjTranspose, hP.eq, conjTranspose_smul, conjTranspose_one,
      Complex.star_def, Complex.conj_ofReal, Matrix.mul_assoc]
  refine projection_path hR hT (complProj_herm hA) (complProj_idem hA) (s := (σ : ℂ)) ?_ ?_
  · unfold covModel
    rw [Matrix.add_mul, Matrix.mul_assoc, conj_mul_complProj hA, Matrix.mul_zero, zero_add, Matrix.smul_mul, Matrix.one_mul]
  · intro Y hY hRY
    have h1 : A * (P * (Aᴴ * Y)) = 0 := by
      have : covModel A P σ * Y = A * (P * (Aᴴ * Y)) + (σ : ℂ) • Y := by
        unfold covModel
        rw [Matrix.add_mul, Matrix.smul_mul, Matrix.one_mul]
        simp only [Matrix.mul_assoc]
      rw [this] at hRY
      exact add_eq_right.1 hRY
    have h2 : P * (Aᴴ * Y) = 0 := by
      have := congrArg (leftInv A * ·) h1
      simpa only [← Matrix.mul_assoc, leftInv_mul hA, Matrix.one_mul, Matrix.mul_zero] using this
    have h3 : Aᴴ * Y = 0 := by
      have := congrArg (P⁻¹ * ·) h2
      simpa only [← Matrix.mul_assoc, nonsing_inv_mul _ hPu, Matrix.one_mul, Matrix.mul_zero] using this
    have h4 : (1 - complProj A) * Y = 0 := by
      unfold complProj leftInv
      rw [sub_sub_cancel, Matrix.mul_assoc, Matrix.mul_assoc, h3, Matrix.mul_zero, Matrix.mul_zero]
    have h5 : (1 - complProj A) * (1 - complProj A) = 1 - complProj A := by
      rw [Matrix.sub_mul, Matrix.one_mul, Matrix.mul_sub, Matrix.mul_one, complProj_idem hA, sub_self, sub_zero]
    have h6 : (1 - complProj A) * Y = Y := by
      conv_lhs => rw [← hY]
      rw [← Matrix.mul_assoc, ← Matrix.mul_assoc, h5, hY]
    rw [← h6, h4]

theorem contDiffAt_deriv {f : ℝ → ℂ} {x : ℝ} (hf : ContDiffAt ℝ (⊤ : ℕ∞) f x) : ContDiffAt ℝ (⊤ : ℕ∞) (deriv f) x := by
  have h1 : ContDiffAt ℝ (⊤ : ℕ∞) (fderiv ℝ f) x := hf.fderiv_right (by simp)
  have h2 : deriv f = fun y => fderiv ℝ f y 1 := rfl
  rw [h2]
  exact h1.clm_apply contDiffAt_const

theorem eventually_hasDerivAt {f : ℝ → ℂ} {x : ℝ} (hf : ContDiffAt ℝ (⊤ : ℕ∞) f x) : ∀ᶠ y in 𝓝 x, HasDerivAt f (deriv f y) y := by
  have h1 : ContDiffAt ℝ 1 f x := hf.of_le (by exact_mod_cast le_top)
  have := h1.eventually (by simp)
  exact this.mono fun y hy => (hy.differentiableAt one_ne_zero).hasDerivAt

/-- Near the exact covariance MUSIC has, for every source and every Hermitian deviation, a differentiable estimate. -/
theorem musicPath_exists {A D : Matrix (Fin m) (Fin k) ℂ} (hA : Function.Injective A.mulVec) {P : Matrix (Fin k) (Fin k) ℂ}
    (hPu : IsUnit P.det) (hP : P.IsHermitian) (i : Fin k) (hD : ¬ ∃ x, A *ᵥ x = D.col i)
    (σ : ℝ) {T : Matrix (Fin m) (Fin m) ℂ} (hT : Tᴴ = T) {a : ℝ → Fin m → ℂ} {x₀ : ℝ} (ha : ∀ r, ContDiffAt ℝ (⊤ : ℕ∞) (fun x => a x r) x₀)
    (ha0 : a x₀ = A.col i) (hd0 : ∀ r, deriv (fun x => a x r) x₀ = D r i) :
    ∃ N θ θ', N 0 = complProj A ∧ θ 0 = x₀ ∧ MusicPath a (fun t => covModel A P σ + (t : ℂ) • T) N θ ∧ HasDerivAt θ θ' 0 := by
  obtain ⟨N, hNc, hN0, hN⟩ := noise_path hA hPu hP σ hT
  set d : ℝ → Fin m → ℂ := fun x r => deriv (fun x => a x r) x with hd
  set e : ℝ → Fin m → ℂ := fun x r => deriv (fun x => d x r) x with he
  have hdc : ∀ r, ContDiffAt ℝ (⊤ : ℕ∞) (fun x => d x r) x₀ := fun r => contDiffAt_deriv (ha r)
  have hec : ∀ r, ContDiffAt ℝ (⊤ : ℕ∞) (fun x => e x r) x₀ := fun r => contDiffAt_deriv (hdc r)
  have hda : ∀ᶠ x in 𝓝 x₀, ∀ r, HasDerivAt (fun x => a x r) (d x r) x := eventually_all.2 fun r => eventually_hasDerivAt (ha r)
  have hdd : ∀ᶠ x in 𝓝 x₀, ∀ r, HasDerivAt (fun x => d x r) (e x r) x := eventually_all.2 fun r => eventually_hasDerivAt (hdc r)
  have hd0' : d x₀ = D.col i := funext hd0
  have hPa : complProj A *ᵥ A.col i = 0 := congrArg (fun M : Matrix (Fin m) (Fin k) ℂ => M.col i) (complProj_mul hA)
  -- the stationarity condition
  let G : ℝ × ℝ → ℝ := fun p => (star (d p.2) ⬝ᵥ (N p.1 *ᵥ a p.2)).re
  let H : ℝ × ℝ → ℝ := fun p => (star (e p.2) ⬝ᵥ (N p.1 *ᵥ a p.2) + star (d p.2) ⬝ᵥ (N p.1 *ᵥ d p.2)).re
  have form : ∀ {x y : ℝ → Fin m → ℂ}, (∀ r, ContDiffAt ℝ (⊤ : ℕ∞) (fun t => x t r) x₀) → (∀ r, ContDiffAt ℝ (⊤ : ℕ∞) (fun t => y t r) x₀) →
      ContDiffAt ℝ (⊤ : ℕ∞) (fun p : ℝ × ℝ => (star (x p.2) ⬝ᵥ (N p.1 *ᵥ y p.2)).re) (0, x₀) := by
    intro x y hx hy
    have h1 : ∀ r, ContDiffAt ℝ (⊤ : ℕ∞) (fun p : ℝ × ℝ => x p.2 r) (0, x₀) := fun r => ContDiffAt.comp (0, x₀) (g := fun t => x t r) (hx r) contDiffAt_snd
    have h2 : ∀ r, ContDiffAt ℝ (⊤ : ℕ∞) (fun p : ℝ × ℝ => y p.2 r) (0, x₀) := fun r => ContDiffAt.comp (0, x₀) (g := fun t => y t r) (hy r) contDiffAt_snd
    have h3 : ∀ r c, ContDiffAt ℝ (⊤ : ℕ∞) (fun p : ℝ × ℝ => N p.1 r c) (0, x₀) := fun r c =>
      ContDiffAt.comp (0, x₀) (g := fun t => N t r c) (hNc r c) contDiffAt_fst
    have h4 : ContDiffAt ℝ (⊤ : ℕ∞) (fun p : ℝ × ℝ => ∑ r, star (x p.2 r) * ∑ c, N p.1 r c * y p.2 c) (0, x₀) := by
      refine ContDiffAt.sum fun r _ => ContDiffAt.mul ?_ (ContDiffAt.sum fun c _ => (h3 r c).mul (h2 c))
      exact Complex.conjCLE.contDiff.contDiffAt.comp _ (h1 r)
    exact Complex.reCLM.contDiff.contDiffAt.comp _ h4
  have hGc : ContDiffAt ℝ (⊤ : ℕ∞) G (0, x₀) := form hdc ha
  have hHc : ContinuousAt H (0, x₀) := by
    have : H = fun p => (star (e p.2) ⬝ᵥ (N p.1 *ᵥ a p.2)).re + (star (d p.2) ⬝ᵥ (N p.1 *ᵥ d p.2)).re := funext fun p => Complex.add_re _ _
    rw [this]
    exact (form hec ha).continuousAt.add (form hdc hdc).continuousAt
  have hG0 : G (0, x₀) = 0 := by
    show (star (d x₀) ⬝ᵥ (N 0 *ᵥ a x₀)).re = 0
    rw [hN0, ha0, hPa, dotProduct_zero, Complex.zero_re]
  have hH0 : 0 < H (0, x₀) := by
    show 0 < (star (e x₀) ⬝ᵥ (N 0 *ᵥ a x₀) + star (d x₀) ⬝ᵥ (N 0 *ᵥ d x₀)).re
    rw [hN0, ha0, hPa, dotProduct_zero, zero_add, hd0']
    have hγ : star (D.col i) ⬝ᵥ (complProj A *ᵥ D.col i) = Hmat A D i i := by
      rw [Hmat_entry hA, errLeft, star_mulVec, complProj_herm hA, ← dotProduct_mulVec, mulVec_mulVec, complProj_idem hA]
    rw [hγ]
    exact (Hmat_pos hA hD).1
  have hGx : ∀ t x, (∀ r, HasDerivAt (fun x => a x r) (d x r) x) → (∀ r, HasDerivAt (fun x => d x r) (e x r) x) →
      HasDerivAt (fun x => G (t, x)) (H (t, x)) x := by
    intro t x h1 h2
    have h3 := hasDerivAt_form (x := d) (y := a) (M := fun _ => N t) (M' := 0) h2 h1 fun r c => hasDerivAt_const _ _
    rw [zero_mulVec, dotProduct_zero, add_zero] at h3
    exact h3
  have hinj : ∀ Y : ℝ, HasDerivAt (fun τ : ℝ => G (0, x₀ + τ • Y)) 0 0 → Y = 0 := by
    intro Y hY
    have h1 : HasDerivAt (fun τ : ℝ => x₀ + τ • Y) Y 0 := by simpa using ((hasDerivAt_id (0 : ℝ)).smul_const Y).const_add x₀
    have h2 : HasDerivAt (fun x => G (0, x)) (H (0, x₀)) (x₀ + (0 : ℝ) • Y) := by
      rw [zero_smul, add_zero]
      exact hGx 0 x₀ hda.self_of_nhds hdd.self_of_nhds
    have h4 : HasDerivAt (fun τ : ℝ => G (0, x₀ + τ • Y)) (H (0, x₀) * Y) 0 := HasDerivAt.comp (0 : ℝ) (h₂ := fun x => G (0, x)) h2 h1
    have h3 := h4.unique hY
    exact (mul_eq_zero.1 h3).resolve_left hH0.ne'
  obtain ⟨θ, hθc, hθ0, hθ⟩ := implicit_path (by simp) hGc hG0 hinj
  have hθt : Tendsto θ (𝓝 0) (𝓝 x₀) := by
    have := hθc.continuousAt
    rwa [ContinuousAt, hθ0] at this
  refine ⟨N, θ, deriv θ 0, hN0, hθ0, ⟨fun r c => (hNc r c).differentiableAt (by simp), hN.mono fun t h => h.1, hN.mono fun t h => h.2.1, hN.mono fun t h => h.2.2, ?_⟩,
    (hθc.differentiableAt (by simp)).hasDerivAt⟩
  have hpair : Tendsto (fun t => (t, θ t)) (𝓝 0) (𝓝 ((0 : ℝ), x₀)) := by
    rw [nhds_prod_eq]
    exact tendsto_id.prodMk hθt
  have hHpos : ∀ᶠ t in 𝓝 0, 0 < H (t, θ t) := hpair.eventually (hHc.eventually (lt_mem_nhds hH0))
  filter_upwards [hHpos, hN, hθ, hθt.eventually hda.eventually_nhds, hθt.eventually hdd.eventually_nhds] with t h1 h2 h3 h4 h5
  have hder : ∀ x, (∀ r, HasDerivAt (fun x => a x r) (d x r) x) → HasDerivAt (fun x => (star (a x) ⬝ᵥ (N t *ᵥ a x)).re) (2 * G (t, x)) x := by
    intro x hx
    have h6 := hasDerivAt_form (x := a) (y := a) (M := fun _ => N t) (M' := 0) hx hx fun r c => hasDerivAt_const _ _
    rw [zero_mulVec, dotProduct_zero, add_zero, ← form_conj h2.1 (d x) (a x), Complex.add_re, Complex.star_def, Complex.conj_re] at h6
    refine h6.congr_deriv ?_
    show _ = 2 * (star (d x) ⬝ᵥ (N t *ᵥ a x)).re
    ring
  refine isLocalMin_of_deriv_deriv_pos ?_ ?_ (hder _ h4.self_of_nhds).continuousAt
  · have h7 : deriv (fun x => (star (a x) ⬝ᵥ (N t *ᵥ a x)).re) =ᶠ[𝓝 (θ t)] fun x => 2 * G (t, x) := h4.mono fun x hx => (hder x hx).deriv
    rw [h7.deriv_eq, ((hGx t (θ t) h4.self_of_nhds h5.self_of_nhds).const_mul 2).deriv]
    linarith
  · rw [(hder _ h4.self_of_nhds).deriv, h3, mul_zero]

/-- An array whose steering matrix with derivatives can be computed is usable. -/
theorem usable_of_steers {a : ArrayDesign} {s : FF1D k} {wl : ℝ} {mode : String} {A D : Matrix (Fin a.size) (Fin k) ℂ}
    (h : Steers a (.ff1 s) wl mode A D) : a.element = .isotropicScalar ∧ ∃ ps, Usable a mode ps := by
  obtain ⟨out, DA, h1, -⟩ := h
  have hel := element_of_deriv h1
  obtain ⟨ps, T, hrows, hps, hT, hsh, -⟩ := steering_iso_inv hel h1
  refine ⟨hel, ps, hps, hrows, ?_, hsh⟩
  rw [← validSensorDim_iff]
  have hT1 : s.phaseDelay _ wl true = .ok T := hT
  unfold FF1D.phaseDelay at hT1
  by_contra hc
  rw [Bool.not_eq_true] at hc
  rw [hc] at hT1
  cases hT1

/-- The columns of the steering matrix and of the derivative matrix in terms of the response of the array to one source. -/
theorem steers_columns {a : ArrayDesign} {s : FF1D k} (hs : Valid1D s) {wl : ℝ} {mode : String}
    {A D : Matrix (Fin a.size) (Fin k) ℂ} (h : Steers a (.ff1 s) wl mode A D) (l : Fin a.element.outputSize) (i : Fin k) :
    response a l wl s.unit mode (s.loc i) = A.col i ∧ ∀ r, deriv (fun x => response a l wl s.unit mode x r) (s.loc i) = D r i := by
  obtain ⟨hel, ps, hu⟩ := usable_of_steers h
  obtain ⟨out, DA, h1, -, h3, h4, h5⟩ := h
  obtain ⟨DA', g1, g2⟩ := C16_derivative a hel s hs.1 wl mode out h1
  have := steering_wl h1
  have hDA : DA' = DA := by rw [h3] at g1; exact (List.cons.inj g1).1.symm
  subst hDA
  have hT : ∀ s' : FF1D k, (Sources.ff1 s').phaseDelay _ wl false = .ok _ := fun s' => (FF1D.phaseDelay_eq s' _ wl).trans (if_pos hu.dim)
  have hcol : ∀ (s' : FF1D k) r c, entryOf (steering a (.ff1 s') wl false mode) l r c = response a l wl s'.unit mode (s'.loc c) r := by
    intro s' r c
    have hst := steering_iso hel hu.selected hu.rows (hT s') hu.shape
    rw [← steering_columns hel l wl mode s' hst r c, hst]
    rfl
  refine ⟨?_, fun r => ?_⟩
  · funext r
    rw [← hcol, (g2 l r i).1, h4]
    rfl
  · have := (g2 l r i).2
    have e : (fun t : ℝ => entryOf (steering a (.ff1 (FF1D.setLoc s i t)) wl false mode) l r i) = fun t => response a l wl s.unit mode t r := by
      funext t
      rw [hcol]
      simp [FF1D.setLoc]
    rw [e, h5] at this
    exact this.deriv

/-- **C64** (meaning). Let `A` and `D` be the steering matrix and its derivative, `P` the source covariance and
`R = A P Aᴴ + σ I`. Then `ecov_music_1d` returns `C i j = Cov(f i, f j) / n`, where `f i` is the first-order error of the `i`-th
estimate of MUSIC: for every Hermitian deviation `Δ` MUSIC applied to `R + t Δ`, with the response of the array as steering
vector, has an estimate `θ t` that starts at the `i`-th DOA and depends differentiably on `t`, and the derivative of every such
estimate at `t = 0` is `f i Δ`. -/
theorem C64_first_order (eigh : Eigh) {a : ArrayDesign} {s : FF1D k} (hs : Valid1D s) (hsin : s.unit = "sin" → ∀ c, |s.loc c| < 1)
    {wl : ℝ} {mode : String} {A D : Matrix (Fin a.size) (Fin k) ℂ} (hS : Steers a (.ff1 s) wl mode A D)
    {p : PowerArg} {P : Matrix (Fin k) (Fin k) ℂ} (hp : PowerDenotes k p P) (hP : P.PosDef) (σ : ℝ) (n : ℕ)
    {C : Matrix (Fin k) (Fin k) ℝ} (h : ecovMusic a (.ff1 s) wl p σ n mode "full" = .ok (.full C)) (l : Fin a.element.outputSize) :
    ∃ f : Fin k → Matrix (Fin a.size) (Fin a.size) ℂ →ₗ[ℂ] ℂ,
      (∀ i j, (C i j : ℂ) = (n : ℂ)⁻¹ * snapshotCov (covModel A P σ) (f i) (f j)) ∧
      ∀ (i : Fin k) (Δ : Matrix (Fin a.size) (Fin a.size) ℂ), Δ.IsHermitian →
        (∀ N θ θ', MusicPath (response a l wl s.unit mode) (fun t => covModel A P σ + (t : ℂ) • Δ) N θ →
          N 0 = getNoiseSubspace eigh (covModel A P σ) k * (getNoiseSubspace eigh (covModel A P σ) k)ᴴ →
          θ 0 = s.loc i → HasDerivAt θ θ' 0 → (θ' : ℂ) = f i Δ) ∧
        ∃ N θ θ', MusicPath (response a l wl s.unit mode) (fun t => covModel A P σ + (t : ℂ) • Δ) N θ ∧
          N 0 = getNoiseSubspace eigh (covModel A P σ) k * (getNoiseSubspace eigh (covModel A P σ) k)ᴴ ∧
          θ 0 = s.loc i ∧ HasDerivAt θ θ' 0 := by
  obtain ⟨hel, ps, hu⟩ := usable_of_steers hS
  have : NeZero wl := steering_wl hS.choose_spec.choose_spec.1
  have hS' := steers_iff.1 hS
  obtain ⟨_, _, P', A', D', h1, h2, h3⟩ := ecovMusic_full_iff.1 h
  cases powerDenotes_unique hp h1
  rw [hS'] at h2
  cases h2
  have := ecovMusicCore_n h3
  obtain ⟨hG, hPu, hnz, -⟩ := ecovMusicCore_iff.1 h3
  have hA := (fullRank_iff A).1 hG
  refine ⟨errorFun A D P, fun i j => ecovMusicCore_cov hP.isHermitian h3 i j, fun i Δ hΔ => ?_⟩
  have hD : ¬ ∃ x, A *ᵥ x = D.col i := (not_congr (Hmat_diag hG i)).1 (hnz i)
  have hk : 1 ≤ k := Nat.one_le_iff_ne_zero.2 fun h0 => by subst h0; exact i.elim0
  have hproj : getNoiseSubspace eigh (covModel A P σ) k * (getNoiseSubspace eigh (covModel A P σ) k)ᴴ = complProj A := by
    rw [getNoiseSubspace]
    refine noise_proj hk hA hP (eigh.spec _ ?_)
    unfold covModel Matrix.IsHermitian
    rw [conjTranspose_add, conjTranspose_mul, conjTranspose_mul, conjTranspose_conjTranspose, hP.isHermitian.eq, conjTranspose_smul, conjTranspose_one,
      Complex.star_def, Complex.conj_ofReal, Matrix.mul_assoc]
  have hx : s.unit = "sin" → |s.loc i| < 1 := fun hh => hsin hh i
  have hsm := fun r => response_contDiff hel hu l wl hx (⊤ : ℕ∞) r
  obtain ⟨hc1, hc2⟩ := steers_columns hs hS l i
  rw [hproj]
  constructor
  · intro N θ θ' hpath hN0 hθ0 hθ
    refine music_first_order_general hA hPu i hD hΔ.eq hc1 (d := fun x r => deriv (fun x => response a l wl s.unit mode x r) x)
      (funext hc2) (eventually_all.2 fun r => eventually_hasDerivAt (hsm r)) (fun r => (eventually_hasDerivAt (contDiffAt_deriv (hsm r))).self_of_nhds) hN0 hpath hθ hθ0
  · obtain ⟨N, θ, θ', g1, g2, g3, g4⟩ := musicPath_exists hA hPu hP.isHermitian i hD σ hΔ.eq hsm hc1 hc2
    exact ⟨N, θ, θ', g3, g1, g2, g4⟩

/-- Hypotheses of `C64_first_order`: two sources on a three-element ULA; the derivative of neither steering vector is a combination
of the steering vectors. -/
example : ∃ (a : ArrayDesign) (A D : Matrix (Fin a.size) (Fin 2) ℂ) (C : Matrix (Fin 2) (Fin 2) ℝ),
    Valid1D (⟨![0, 1 / 2], "sin"⟩ : FF1D 2) ∧ (∀ c : Fin 2, |(![0, 1 / 2] : Fin 2 → ℝ) c| < 1) ∧
    Steers a (.ff1 (⟨![0, 1 / 2], "sin"⟩ : FF1D 2)) 1 "all" A D ∧ PowerDenotes 2 (.scalar 1) 1 ∧ (1 : Matrix (Fin 2) (Fin 2) ℂ).PosDef ∧
    ecovMusic a (.ff1 (⟨![0, 1 / 2], "sin"⟩ : FF1D 2)) 1 (.scalar 1) 1 10 "all" "full" = .ok (.full C) ∧ ∀ i, ¬ ∃ x, A *ᵥ x = D.col i := by
  obtain ⟨a, ha⟩ := ula_ok 3 (1 / 2) none
  obtain ⟨A, D, h1, h2, h3⟩ := exampleScene.facts ha "all" (by simp)
  have hp : PowerDenotes 2 (.scalar 1) 1 := by simp [PowerDenotes]
  have hsz : a.toArrayDesign.size = 3 := (C01_ula_geometry 3 (1 / 2) none {} a ha).1
  obtain ⟨C, hC⟩ := (C64_returns a.toArrayDesign (src := .ff1 (⟨![0, 1 / 2], "sin"⟩ : FF1D 2)) rfl (by rw [hsz]; norm_num) 1 hp PosDef.one 1 10 (by norm_num) "all"
    (steers_iff.2 h1)).2 ⟨h2, h3⟩
  refine ⟨a.toArrayDesign, A, D, C, exampleScene.valid, fun c => ?_, steers_iff.2 h1, hp, PosDef.one, hC, h3⟩
  fin_cases c <;> simp <;> norm_num

/-- The steering vector of a ULA is a smooth function of the DOA away from endfire. -/
theorem ulaVec_contDiff (v : ℕ) (d wl : ℝ) {u : String} {x : ℝ} (hc : Real.cos (angleOf u x) ≠ 0) (r : Fin v) :
    ContDiffAt ℝ (⊤ : ℕ∞) (fun y => ulaVec v (phaseFactor d wl u y) r) x := by
  have hang : ContDiffAt ℝ (⊤ : ℕ∞) (angleOf u) x := by
    unfold angleOf at hc ⊢
    by_cases h1 : u = "deg"
    · simp only [h1, if_true]
      exact (contDiffAt_id.mul contDiffAt_const).div_const _
    · by_cases h2 : u = "sin"
      · subst h2
        simp only [h1, if_false, if_true] at hc ⊢
        rw [Real.cos_arcsin] at hc
        have h3 : 0 < 1 - x ^ 2 := by
          by_contra h
          exact hc (Real.sqrt_eq_zero_of_nonpos (not_lt.1 h))
        exact Real.contDiffAt_arcsin (by nlinarith) (by nlinarith)
      · simp only [h1, h2, if_false]
        exact contDiffAt_id
  unfold ulaVec phaseFactor
  refine ContDiffAt.pow (ContDiffAt.cexp ?_) _
  first
  | exact contDiffAt_const.mul (Complex.ofRealCLM.contDiff.contDiffAt.comp x (contDiffAt_const.mul hang.sin))
  | exact (Complex.ofRealCLM.contDiff.contDiffAt.comp x (contDiffAt_const.mul hang.sin)).mul contDiffAt_const

/-- **C60** (the estimates exist). In the situation of `C60_first_order_partial` there is, for every source away from endfire and
every Hermitian deviation `Δ`, an estimate of coarray MUSIC that starts at the DOA of the source and is a differentiable function
of the size of the deviation. Missing for the full claim: other base spacings, as there. -/
theorem C60_estimates_partial (eigh : Eigh) {a : GridArray} {l : List ℤ} {wl : ℝ} (h : LinearGrid a l (wl / 2)) (hnd : l.Nodup) (hne : l ≠ [])
    (hel : a.element = .isotropicScalar) (hpert : a.perts = []) {v : ℕ} (hv : IsCentralSize l v) {s : FF1D k} (hsc : UlaScene (wl / 2) wl v s)
    {q : Fin k → ℝ} (hq : ∀ i, 0 < q i)
    (σ : ℝ) {w : WeightFunction} (hw : WeightFunction.init a = .ok w) {S : Steering a.element.outputSize a.size k}
    (hS : steering a.toArrayDesign (.ff1 s) wl false "all" = .ok S) (o : Fin a.element.outputSize) :
    ∃ T : Matrix (Fin a.size) (Fin a.size) ℂ →ₗ[ℂ] Matrix (Fin v) (Fin v) ℂ,
      (∀ M, (acmTransform w M "da").1 = .ok ⟨v, T M⟩) ∧
      ∀ i, Real.cos (angleOf s.unit (s.loc i)) ≠ 0 → ∀ Δ : Matrix (Fin a.size) (Fin a.size) ℂ, Δ.IsHermitian → ∃ N θ θ',
        MusicPath (fun x => ulaVec v (phaseFactor (wl / 2) wl s.unit x)) (fun t => T (modelCov (S.A o) q σ + (t : ℂ) • Δ)) N θ ∧
        N 0 = getNoiseSubspace eigh (T (modelCov (S.A o) q σ)) k * (getNoiseSubspace eigh (T (modelCov (S.A o) q σ)) k)ᴴ ∧
        θ 0 = s.loc i ∧ HasDerivAt θ θ' 0 := by
  have : NeZero wl := steering_wl hS
  obtain ⟨T, S', Av, DAv, C, h1, h1h, h1t, h2, hAv, hDAv, h3, h4⟩ := ecovCoarrayWith_formula eigh h.1 hne hel hpert hv hsc
    (p := .vector (List.ofFn q)) (P := diagonal fun i => (q i : ℂ)) (by simp [PowerDenotes]) hq (fun i => by simp) σ le_rfl hw
  have hSS : S' = S := Except.ok.inj (h2.symm.trans hS)
  subst hSS
  have hz : Function.Injective fun c => phaseFactor (wl / 2) wl s.unit (s.loc c) := fun c e hce =>
    hsc.distinct (phaseFactor_inj hsc.d_pos hsc.wl_pos (hsc.valid.2 c) (hsc.valid.2 e) (hsc.unambiguous c e) hce)
  have hinj := ulaMat_injective (m := v) hz hsc.few.le
  have hT := aug_model h hnd hel hpert hw s hsc.valid wl h2 o q σ _ (h1 _)
  refine ⟨T, h1, fun i hcos Δ hΔ => ?_⟩
  have hk : 1 ≤ k := Nat.one_le_iff_ne_zero.2 fun h0 => by subst h0; exact i.elim0
  have hP : (Matrix.diagonal fun c => (q c : ℂ)).PosDef := diag_posDef hq
  rw [← hAv] at hinj
  have hspan : ¬ ∃ x, Av *ᵥ x = DAv.col i := by
    rw [hAv, hDAv]
    obtain ⟨b, hb⟩ := ula_ok v (wl / 2) none
    refine ulaDeriv_not_span (w := fun c => Complex.I * ((2 * Real.pi * (wl / 2) / wl * sineRate s.unit (s.loc c) : ℝ) : ℂ)) hz (fun c => phaseFactor_ne_zero _ _ _ _) (fun c => ?_) hsc.few i
    obtain ⟨A', D', g1, -, g3⟩ := hsc.facts hb "all" (by simp)
    rw [ula_steerPair hb s hsc.valid wl "all" (by simp)] at g1
    cases g1
    intro h0
    apply g3 c
    refine ⟨0, ?_⟩
    rw [mulVec_zero]
    funext r
    show (0 : ℂ) = Complex.I * ((2 * Real.pi * (wl / 2) / wl * sineRate s.unit (s.loc c) : ℝ) : ℂ) * _
    rw [h0, zero_mul]
  obtain ⟨N, θ, θ', g1, g2, g3, g4⟩ := musicPath_exists (D := DAv) hinj ((isUnit_iff_isUnit_det _).1 hP.isUnit) hP.isHermitian i hspan σ (h1h Δ hΔ).eq
    (a := fun x => ulaVec v (phaseFactor (wl / 2) wl s.unit x)) (x₀ := s.loc i) (fun r => ulaVec_contDiff v (wl / 2) wl hcos r)
    (by rw [hAv]; rfl) (fun r => by rw [((ulaVec_deriv v (wl / 2) wl hsc.valid.1 hcos).1.self_of_nhds r).deriv, hDAv]; rfl)
  refine ⟨N, θ, θ', ?_, ?_, g2, g4⟩
  · have e : (fun t : ℝ => T (modelCov (S'.A o) q σ + (t : ℂ) • Δ)) = fun t : ℝ => covModel Av (diagonal fun c => (q c : ℂ)) σ + (t : ℂ) • T Δ := by
      funext t
      rw [map_add, map_smul, hT, ← hAv]
      rfl
    rw [e]
    exact g3
  · rw [g1, getNoiseSubspace, hT, ← hAv]
    exact (noise_proj hk hinj hP (eigh.spec _ (modelCov_isHermitian Av q σ))).symm

end Doa.Props
