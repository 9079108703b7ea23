import Verif.Props.Beamforming
import Verif.Props.Search2D
import Verif.Props.Ura

/-!
# C77: a single source is located by the beamformers
-/

namespace Doa.Props

open Doa Doa.Spec Matrix
open scoped ComplexOrder

variable {m : ℕ}

/-- The squared norm of a response. -/
noncomputable def power (v : Fin m → ℂ) : ℝ := ∑ i, ‖v i‖ ^ 2

theorem power_eq (v : Fin m → ℂ) : star v ⬝ᵥ v = (power v : ℂ) := by
  unfold power
  push_cast
  refine Finset.sum_congr rfl fun i _ => ?_
  rw [Pi.star_apply, Complex.star_def, ← Complex.normSq_eq_conj_mul_self, Complex.normSq_eq_norm_sq]
  push_cast
  rfl

theorem power_pos {v : Fin m → ℂ} (h : v ≠ 0) : 0 < power v := by
  have := dotProduct_star_self_pos_iff.2 h
  rw [power_eq] at this
  exact_mod_cast this

/-- Strict Cauchy-Schwarz inequality. -/
theorem strict_cs {v w : Fin m → ℂ} (hv : v ≠ 0) (h : ∀ z : ℂ, w ≠ z • v) : ‖star v ⬝ᵥ w‖ ^ 2 < power v * power w := by
  have hp := power_pos hv
  have hpc : (power v : ℂ) ≠ 0 := by exact_mod_cast hp.ne'
  obtain ⟨q, hq⟩ : ∃ q, q = star v ⬝ᵥ w := ⟨_, rfl⟩
  have h1 : w - (q / power v) • v ≠ 0 := sub_ne_zero.2 (h _)
  have h2 := power_pos h1
  have hq' : star w ⬝ᵥ v = star q := by
    rw [hq]
    simp [dotProduct, mul_comm]
  have h3 : (power (w - (q / power v) • v) : ℂ) = ((power w - ‖q‖ ^ 2 / power v : ℝ) : ℂ) := by
    rw [← power_eq]
    simp only [star_sub, star_smul, sub_dotProduct, dotProduct_sub, smul_dotProduct, dotProduct_smul, smul_eq_mul, power_eq, ← hq, hq']
    have hn : q * star q = ((‖q‖ ^ 2 : ℝ) : ℂ) := by
      rw [Complex.star_def, Complex.mul_conj, Complex.normSq_eq_norm_sq]
    have hs : star (q / (power v : ℂ)) = star q / power v := by
      rw [star_div₀]
      simp
    rw [hs]
    push_cast
    have hn' : star q * q = ((‖q‖ : ℂ)) ^ 2 := by rw [mul_comm, hn]; push_cast; rfl
    have hn'' : q * star q = ((‖q‖ : ℂ)) ^ 2 := by rw [hn]; push_cast; rfl
    field_simp
    linear_combination (-1 : ℂ) * hn''
  have h4 : power (w - (q / power v) • v) = power w - ‖q‖ ^ 2 / power v := by exact_mod_cast h3
  rw [h4] at h2
  rw [← hq]
  have := (div_lt_iff₀ hp).1 (sub_pos.1 h2)
  linarith [mul_comm (power v) (power w)]

/-- The exact covariance of one source, applied to a vector. -/
theorem covModel_one (A : Matrix (Fin m) (Fin 1) ℂ) (P : Matrix (Fin 1) (Fin 1) ℂ) (σ : ℝ) (v : Fin m → ℂ) :
    covModel A P σ *ᵥ v = (P 0 0 * (star (A.col 0) ⬝ᵥ v)) • A.col 0 + (σ : ℂ) • v := by
  unfold covModel
  rw [add_mulVec, smul_mulVec, one_mulVec, ← mulVec_mulVec, ← mulVec_mulVec]
  congr 1
  funext i
  simp only [mulVec, dotProduct, Finset.univ_unique, Fin.default_eq_zero, Finset.sum_singleton, conjTranspose_apply, Pi.smul_apply, smul_eq_mul, Matrix.col_apply,
    Pi.star_apply]
  ring

/-- The source power. -/
theorem power_one {P : Matrix (Fin 1) (Fin 1) ℂ} (hP : P.PosDef) : ∃ p : ℝ, 0 < p ∧ P 0 0 = p := by
  have := hP.diag_pos (i := 0)
  exact ⟨(P 0 0).re, (Complex.pos_iff.1 this).1, Complex.ext rfl (by simp [← (Complex.pos_iff.1 this).2])⟩

/-- `fBartlett` for one source: `p |a0ᴴ v|² + σ ‖v‖²`. -/
theorem bartlett_one (A : Matrix (Fin m) (Fin 1) ℂ) {P : Matrix (Fin 1) (Fin 1) ℂ} {p : ℝ} (hp : P 0 0 = p) (σ : ℝ) (v : Fin m → ℂ) :
    (bartlettRaw (covModel A P σ) v).re = p * ‖star (A.col 0) ⬝ᵥ v‖ ^ 2 + σ * power v := by
  have hs : star v ⬝ᵥ A.col 0 = star (star (A.col 0) ⬝ᵥ v) := by
    simp [dotProduct, mul_comm]
  rw [bartlettRaw_eq, covModel_one, dotProduct_add, dotProduct_smul, dotProduct_smul, power_eq, hs, hp]
  simp only [smul_eq_mul]
  rw [mul_assoc, Complex.star_def, Complex.mul_conj, Complex.normSq_eq_norm_sq, Complex.add_re, ← Complex.ofReal_mul, ← Complex.ofReal_mul,
    Complex.ofReal_re, Complex.ofReal_re]

theorem covModel_one_posDef (A : Matrix (Fin m) (Fin 1) ℂ) {P : Matrix (Fin 1) (Fin 1) ℂ} (hP : P.PosDef) {σ : ℝ} (hσ : 0 < σ) :
    (covModel A P σ).PosDef := by
  unfold covModel
  refine PosDef.posSemidef_add (hP.posSemidef.mul_mul_conjTranspose_same A) ?_
  exact PosDef.one.smul (by exact_mod_cast hσ)

/-- The denominator of MVDR for one source. -/
theorem mvdr_one (A : Matrix (Fin m) (Fin 1) ℂ) {P : Matrix (Fin 1) (Fin 1) ℂ} (hP : P.PosDef) {p : ℝ} (hp0 : 0 < p) (hp : P 0 0 = p) {σ : ℝ}
    (hσ : 0 < σ) (v : Fin m → ℂ) :
    (mvdrRaw (covModel A P σ) v).re = (power v - p * ‖star (A.col 0) ⬝ᵥ v‖ ^ 2 / (σ + p * power (A.col 0))) / σ := by
  have hR := covModel_one_posDef A hP hσ
  have hN : 0 ≤ power (A.col 0) := Finset.sum_nonneg fun i _ => sq_nonneg _
  have hden : 0 < σ + p * power (A.col 0) := by positivity
  have hdc : (σ + p * power (A.col 0) : ℂ) ≠ 0 := by exact_mod_cast hden.ne'
  have hσc : (σ : ℂ) ≠ 0 := by exact_mod_cast hσ.ne'
  obtain ⟨q, hq⟩ : ∃ q, q = star (A.col 0) ⬝ᵥ v := ⟨_, rfl⟩
  have hinv : (covModel A P σ)⁻¹ *ᵥ v = (1 / (σ : ℂ)) • (v - (p * q / (σ + p * power (A.col 0))) • A.col 0) := by
    have hdet : IsUnit (covModel A P σ).det := (isUnit_iff_isUnit_det _).1 hR.isUnit
    have hy : covModel A P σ *ᵥ ((1 / (σ : ℂ)) • (v - (p * q / (σ + p * power (A.col 0))) • A.col 0)) = v := by
      rw [covModel_one, hp]
      simp only [dotProduct_smul, dotProduct_sub, smul_eq_mul, power_eq, ← hq]
      funext i
      simp only [Pi.add_apply, Pi.smul_apply, Pi.sub_apply, smul_eq_mul]
      field_simp
      ring
    conv_lhs => rw [← hy]
    rw [mulVec_mulVec, nonsing_inv_mul _ hdet, one_mulVec]
  have hs : star v ⬝ᵥ A.col 0 = star q := by
    rw [hq]
    simp [dotProduct, mul_comm]
  rw [mvdrRaw_eq hR, hinv, dotProduct_smul, dotProduct_sub, dotProduct_smul, power_eq, hs, ← hq]
  have hn : q * star q = ((‖q‖ ^ 2 : ℝ) : ℂ) := by
    rw [Complex.star_def, Complex.mul_conj, Complex.normSq_eq_norm_sq]
  have : (1 / (σ : ℂ)) • ((power v : ℂ) - (p * q / (σ + p * power (A.col 0))) • star q) =
      (((power v - p * ‖q‖ ^ 2 / (σ + p * power (A.col 0))) / σ : ℝ) : ℂ) := by
    simp only [smul_eq_mul]
    push_cast
    have hn' : q * star q = (‖q‖ : ℂ) ^ 2 := by rw [hn]; push_cast; rfl
    rw [← hn']
    field_simp
  rw [this, Complex.ofReal_re]

/-- The dictionary `L` has the response `a0` of the source at position `j0`, all entries have the power of `a0` and no other entry is a
multiple of `a0`. -/
structure Unambiguous (L : List (Fin m → ℂ)) (a0 : Fin m → ℂ) (j0 : ℕ) : Prop where
  nonzero : a0 ≠ 0
  at_source : L[j0]? = some a0
  equal_power : ∀ v ∈ L, power v = power a0
  different : ∀ (j : ℕ) (v : Fin m → ℂ), L[j]? = some v → j ≠ j0 → ∀ z : ℂ, v ≠ z • a0

/-- The Bartlett spectrum of one source is strictly largest at the source. -/
theorem bartlett_dominant {L : List (Fin m → ℂ)} {A : Matrix (Fin m) (Fin 1) ℂ} {j0 : ℕ} (h : Unambiguous L (A.col 0) j0)
    {P : Matrix (Fin 1) (Fin 1) ℂ} (hP : P.PosDef) (σ : ℝ) :
    Dominant (fBartlett (covModel A P σ) L) fun _ : Fin 1 => j0 := by
  obtain ⟨p, hp0, hp⟩ := power_one hP
  intro c j v w hj hv hw
  simp only [fBartlett, List.getElem?_map, h.at_source, Option.map_some, Option.some.injEq, Option.map_eq_some_iff] at hv hw
  obtain ⟨x, hx, rfl⟩ := hv
  rw [← hw, bartlett_one A hp, bartlett_one A hp, h.equal_power x (List.mem_of_getElem? hx), power_eq, Complex.norm_real, Real.norm_eq_abs, sq_abs]
  have := strict_cs h.nonzero (h.different j x hx (hj 0))
  rw [h.equal_power x (List.mem_of_getElem? hx)] at this
  nlinarith

/-- The MVDR spectrum of one source is strictly largest at the source. -/
theorem mvdr_dominant {L : List (Fin m → ℂ)} {A : Matrix (Fin m) (Fin 1) ℂ} {j0 : ℕ} (h : Unambiguous L (A.col 0) j0)
    {P : Matrix (Fin 1) (Fin 1) ℂ} (hP : P.PosDef) {σ : ℝ} (hσ : 0 < σ) :
    Dominant (fMvdr (covModel A P σ) L) fun _ : Fin 1 => j0 := by
  obtain ⟨p, hp0, hp⟩ := power_one hP
  intro c j v w hj hv hw
  simp only [fMvdr, List.getElem?_map, h.at_source, Option.map_some, Option.some.injEq, Option.map_eq_some_iff] at hv hw
  obtain ⟨x, hx, rfl⟩ := hv
  have hN := power_pos h.nonzero
  have hcs := strict_cs h.nonzero (h.different j x hx (hj 0))
  rw [← hw, mvdr_one A hP hp0 hp hσ, mvdr_one A hP hp0 hp hσ]
  rw [h.equal_power x (List.mem_of_getElem? hx)] at hcs ⊢
  rw [power_eq, Complex.norm_real, Real.norm_eq_abs, sq_abs]
  obtain ⟨N, hNe⟩ : ∃ N, N = power (A.col 0) := ⟨_, rfl⟩
  rw [← hNe] at hN hcs ⊢
  have hden : 0 < σ + p * N := by positivity
  have d0 : 0 < (N - p * N ^ 2 / (σ + p * N)) / σ := by
    have : N - p * N ^ 2 / (σ + p * N) = N * σ / (σ + p * N) := by field_simp; ring
    rw [this]
    positivity
  have d1 : (N - p * N ^ 2 / (σ + p * N)) / σ < (N - p * ‖star (A.col 0) ⬝ᵥ x‖ ^ 2 / (σ + p * N)) / σ := by
    apply div_lt_div_of_pos_right _ hσ
    apply sub_lt_sub_left
    apply div_lt_div_of_pos_right _ hden
    nlinarith
  unfold npRecip
  rw [if_neg d0.ne', if_neg (d0.trans d1).ne']
  exact_mod_cast one_div_lt_one_div_of_lt d0 d1

theorem beamArgs_ok {V : Type} (fsp : Matrix (Fin m) (Fin m) ℂ → List (Fin m → ℂ) → List V) (R : Matrix (Fin m) (Fin m) ℂ) (k : ℕ) (kw : EstKw) :
    beamArgs fsp R k kw = .ok ⟨fsp R, k, kw.refine, kw.density, kw.iters⟩ := by
  unfold beamArgs
  rw [((C42_covariance_guard_partial [m, m] m).1).2 ⟨m, rfl⟩]
  simp only [and_self, dif_pos]
  rfl

theorem fin_one_lt (c e : Fin 1) : ¬ c < e := by omega

/-- A one-dimensional grid search for one source returns the strictly highest grid point, if it is not at the border. -/
theorem recovers_one {β Atom : Type} [LinearOrder β] (cfg : EstCfg β Atom) {x : List ℝ} {names : List String} {u : String}
    (hg : cfg.grid = ⟨.ff1, [⟨x, false⟩], names, [u]⟩) (hu : Unit1D u) (hx : ∀ v ∈ x, InRange1D u v)
    (hpf : cfg.peakFinder = findPeaksSimple) (hsort : IsArgsort cfg.argsort)
    (ops : List (EstOp β Atom)) (f : Atom → List β) {rows : List (List ℝ)} (hrows : cfg.grid.placementRows = .ok rows)
    (hlen : (f (cfg.compute rows)).length = x.length) {j0 : ℕ} (h1 : 1 ≤ j0) (h2 : j0 + 1 < x.length) {v0 : ℝ} (hv : x[j0]? = some v0)
    (hdom : Dominant (f (cfg.compute rows)) fun _ : Fin 1 => j0) :
    ∃ o st', cfg.estimate (cfg.run ops).1 ⟨f, 1, false, 10, 3⟩ = (.ok o, st') ∧
      o.observe st' = (true, some (some ([[v0]], u)), f (cfg.compute rows)) := by
  have hsh : cfg.grid.shape = [x.length] := by rw [hg]; rfl
  have hpr : cfg.grid.shape.prod = x.length := by rw [hsh]; simp
  have hobs := recovers_dominant cfg (Or.inl ⟨x, names, u, hg, hu, hx⟩) hpf hsort ops ⟨f, 1, false, 10, 3⟩ le_rfl rfl hrows (by rw [hpr]; exact hlen)
    (fun _ => j0) (fun c e h => absurd h (fin_one_lt c e)) (fun _ => by rw [hpr]; omega)
    (by
      intro c
      rw [hsh]
      exact dominant_peak_1d hlen hdom (fun c e h => absurd h (fin_one_lt c e)) (fun _ => h1) (fun _ => h2) c) hdom
  have hpt : gridPoint cfg.grid (unravelIdx cfg.grid.shape j0) = [v0] := by
    rw [hsh, hg]
    simp [gridPoint, unravelIdx, hv]
  have hun : (cfg.grid.units[0]?).getD "" = u := by rw [hg]; rfl
  simp only [hpt, hun] at hobs
  unfold EstCfg.observe at hobs
  cases hest : cfg.estimate (cfg.run ops).1 ⟨f, 1, false, 10, 3⟩ with
  | mk r st' =>
    rw [hest] at hobs
    cases r with
    | error e => cases hobs
    | ok o =>
      refine ⟨o, st', rfl, ?_⟩
      have := Except.ok.inj hobs
      simpa [List.ofFn_succ] using this

/-- The atoms of the estimators satisfy `Unambiguous`. -/
theorem single_unambiguous {a : ArrayDesign} (hel : a.element = .isotropicScalar)
    (hknown : ∀ p ∈ a.perturbations, p.isKnown = true) {ps : List Perturbation} (hps : Usable a "all" ps)
    (l : Fin a.element.outputSize) (wl : ℝ) {x : List ℝ} {u : String}
    (src : FF1D 1) (hsu : src.unit = u) (j0 : ℕ) (hj : x[j0]? = some (src.loc 0))
    {S : Steering a.element.outputSize a.size 1} (hS : steering a (.ff1 src) wl false "all" = .ok S)
    (hne : response a l wl u "all" (src.loc 0) ≠ 0)
    (hpow : ∀ v ∈ x, power (response a l wl u "all" v) = power (response a l wl u "all" (src.loc 0)))
    (hdiff : ∀ j v, x[j]? = some v → j ≠ j0 → ∀ z : ℂ, response a l wl u "all" v ≠ z • response a l wl u "all" (src.loc 0)) :
    (atomColumns1D a l wl u (x.map fun v => [v])).length = x.length ∧
      Unambiguous (atomColumns1D a l wl u (x.map fun v => [v])) ((S.A l).col 0) j0 := by
  have : NeZero wl := steering_wl hS
  have hfk : a.filterPerturbations "known" = a.filterPerturbations "all" := by
    have hv : ∀ p ∈ a.perts.values, p.isKnown = true := hknown
    simp only [ArrayDesign.filterPerturbations, String.reduceEq, if_true, if_false]
    rw [List.filter_eq_self.2 hv]
  have hresp : ∀ v, response a l wl u "known" v = response a l wl u "all" v := fun v => by
    unfold response steering
    rw [hfk]
  have hcr : atomColumns1D a l wl u (x.map fun v => [v]) = x.map fun v => response a l wl u "all" v := by
    rw [atoms_eq hel l wl u _ (hfk.trans hps.selected) hps.rows hps.dim hps.shape]
    simp only [hresp, List.map_map]
    rfl
  have hcol : (S.A l).col 0 = response a l wl u "all" (src.loc 0) := by
    funext i
    rw [Matrix.col_apply, steering_columns hel l wl "all" src hS, hsu]
  have hun : Unambiguous (atomColumns1D a l wl u (x.map fun v => [v])) ((S.A l).col 0) j0 := by
    rw [hcr, hcol]
    refine ⟨hne, by simp [hj], ?_, ?_⟩
    · intro v hv
      obtain ⟨y, hy, rfl⟩ := List.mem_map.1 hv
      exact hpow y hy
    · intro j v hv hjj
      rw [List.getElem?_map, Option.map_eq_some_iff] at hv
      obtain ⟨y, hy, rfl⟩ := hv
      exact hdiff j y hy hjj
  exact ⟨by rw [hcr, List.length_map], hun⟩

/-- **C77** (one-dimensional grids). One source, at an interior point of the grid, seen by an array with isotropic scalar elements whose
perturbations are all known, with the exact covariance `p a aᴴ + σ I`: if all grid points have responses of the same power, none of the
other ones a multiple of the response to the source, then `BartlettBeamformer` and `MVDRBeamformer` return exactly the source, after every
history of calls. -/
theorem C77_one_dimensional {a : ArrayDesign} (hel : a.element = .isotropicScalar)
    (hknown : ∀ p ∈ a.perturbations, p.isKnown = true) {ps : List Perturbation} (hps : Usable a "all" ps)
    (l : Fin a.element.outputSize) (wl : ℝ) (cfg : EstCfg ℝ (List (Fin a.size → ℂ))) (cfg' : EstCfg (WithTop ℝ) (List (Fin a.size → ℂ)))
    {x : List ℝ} {names : List String} {u : String}
    (hg : cfg.grid = ⟨.ff1, [⟨x, false⟩], names, [u]⟩) (hg' : cfg'.grid = cfg.grid) (hu : Unit1D u) (hx : ∀ v ∈ x, InRange1D u v)
    (hpf : cfg.peakFinder = findPeaksSimple) (hpf' : cfg'.peakFinder = findPeaksSimple)
    (hsort : IsArgsort cfg.argsort) (hsort' : IsArgsort cfg'.argsort)
    (hcomp : cfg.compute = atomColumns1D a l wl u) (hcomp' : cfg'.compute = atomColumns1D a l wl u)
    (src : FF1D 1) (hsu : src.unit = u) (j0 : ℕ) (hj : x[j0]? = some (src.loc 0)) (h1 : 1 ≤ j0) (h2 : j0 + 1 < x.length)
    {S : Steering a.element.outputSize a.size 1} (hS : steering a (.ff1 src) wl false "all" = .ok S)
    (hne : response a l wl u "all" (src.loc 0) ≠ 0)
    (hpow : ∀ v ∈ x, power (response a l wl u "all" v) = power (response a l wl u "all" (src.loc 0)))
    (hdiff : ∀ j v, x[j]? = some v → j ≠ j0 → ∀ z : ℂ, response a l wl u "all" v ≠ z • response a l wl u "all" (src.loc 0))
    {P : Matrix (Fin 1) (Fin 1) ℂ} (hP : P.PosDef) :
    (∀ (σ : ℝ) (ops : List (EstOp ℝ (List (Fin a.size → ℂ)))),
      ∃ o st', bartlettEstimate cfg (cfg.run ops).1 (covModel (S.A l) P σ) 1 {} = (.ok o, st') ∧
        ∃ sp, o.observe st' = (true, some (some ([[src.loc 0]], u)), sp)) ∧
    ∀ (σ : ℝ) (_ : 0 < σ) (ops : List (EstOp (WithTop ℝ) (List (Fin a.size → ℂ)))),
      ∃ o st', mvdrEstimate cfg' (cfg'.run ops).1 (covModel (S.A l) P σ) 1 {} = (.ok o, st') ∧
        ∃ sp, o.observe st' = (true, some (some ([[src.loc 0]], u)), sp) := by
  have hrows := rows_1d hg hu hx
  obtain ⟨hcr, hun⟩ := single_unambiguous hel hknown hps l wl src hsu j0 hj hS hne hpow hdiff
  constructor
  · intro σ ops
    obtain ⟨o, st', e1, e2⟩ := recovers_one cfg hg hu hx hpf hsort ops (fBartlett (covModel (S.A l) P σ)) hrows
      (by rw [hcomp]; simp [fBartlett, hcr]) h1 h2 hj (by rw [hcomp]; exact bartlett_dominant hun hP σ)
    refine ⟨o, st', ?_, _, e2⟩
    unfold bartlettEstimate
    rw [beamArgs_ok]
    exact e1
  · intro σ hσ ops
    obtain ⟨o, st', e1, e2⟩ := recovers_one cfg' (hg'.trans hg) hu hx hpf' hsort' ops (fMvdr (covModel (S.A l) P σ)) (by rw [hg']; exact hrows)
      (by rw [hcomp']; simp [fMvdr, hcr]) h1 h2 hj (by rw [hcomp']; exact mvdr_dominant hun hP hσ)
    refine ⟨o, st', ?_, _, e2⟩
    unfold mvdrEstimate
    rw [beamArgs_ok]
    exact e1

/-- **C77** (two-dimensional grids). The same on azimuth/elevation grids, where the source may also lie on the border of the grid. -/
theorem C77_two_dimensional {a : ArrayDesign} (hel : a.element = .isotropicScalar)
    (hknown : ∀ p ∈ a.perturbations, p.isKnown = true) {ps : List Perturbation} (hps : Usable a "all" ps)
    (l : Fin a.element.outputSize) (wl : ℝ) (cfg : EstCfg ℝ (List (Fin a.size → ℂ))) (cfg' : EstCfg (WithTop ℝ) (List (Fin a.size → ℂ)))
    {ga gb : List ℝ} {names : List String} {u : String}
    (hg : cfg.grid = ⟨.ff2, [⟨ga, false⟩, ⟨gb, false⟩], names, [u, u]⟩) (hg' : cfg'.grid = cfg.grid) (hu : Unit2D u)
    (hx : ∀ v ∈ ga, ∀ w ∈ gb, InRange2D u (v, w))
    (hpf : cfg.peakFinder = findPeaksSimple) (hpf' : cfg'.peakFinder = findPeaksSimple)
    (hsort : IsArgsort cfg.argsort) (hsort' : IsArgsort cfg'.argsort)
    (hcomp : cfg.compute = atomColumns2D a l wl u) (hcomp' : cfg'.compute = atomColumns2D a l wl u)
    (src : FF2D 1) (hsu : src.unit = u) (i0 j0 : ℕ) (hi : ga[i0]? = some (src.loc 0).1) (hj : gb[j0]? = some (src.loc 0).2)
    {S : Steering a.element.outputSize a.size 1} (hS : steering a (.ff2 src) wl false "all" = .ok S)
    (hne : response2 a l wl u "all" (src.loc 0) ≠ 0)
    (hpow : ∀ v ∈ ga, ∀ w ∈ gb, power (response2 a l wl u "all" (v, w)) = power (response2 a l wl u "all" (src.loc 0)))
    (hdiff : ∀ i j v w, ga[i]? = some v → gb[j]? = some w → ¬ (i = i0 ∧ j = j0) →
      ∀ z : ℂ, response2 a l wl u "all" (v, w) ≠ z • response2 a l wl u "all" (src.loc 0))
    {P : Matrix (Fin 1) (Fin 1) ℂ} (hP : P.PosDef) :
    (∀ (σ : ℝ) (ops : List (EstOp ℝ (List (Fin a.size → ℂ)))),
      ∃ o st', bartlettEstimate cfg (cfg.run ops).1 (covModel (S.A l) P σ) 1 {} = (.ok o, st') ∧
        ∃ sp, o.observe st' = (true, some (some ([[(src.loc 0).1, (src.loc 0).2]], u)), sp)) ∧
    ∀ (σ : ℝ) (_ : 0 < σ) (ops : List (EstOp (WithTop ℝ) (List (Fin a.size → ℂ)))),
      ∃ o st', mvdrEstimate cfg' (cfg'.run ops).1 (covModel (S.A l) P σ) 1 {} = (.ok o, st') ∧
        ∃ sp, o.observe st' = (true, some (some ([[(src.loc 0).1, (src.loc 0).2]], u)), sp) := by
  have : NeZero wl := steering_wl hS
  have hfk : a.filterPerturbations "known" = a.filterPerturbations "all" := by
    have hv : ∀ p ∈ a.perts.values, p.isKnown = true := hknown
    simp only [ArrayDesign.filterPerturbations, String.reduceEq, if_true, if_false]
    rw [List.filter_eq_self.2 hv]
  have hresp : ∀ v, response2 a l wl u "known" v = response2 a l wl u "all" v := fun v => by
    unfold response2 steering
    rw [hfk]
  obtain ⟨rows, hr1, hr2, hr3⟩ := rows_2d hg hu hx
  have hcr : atomColumns2D a l wl u rows = rows.map fun r => response2 a l wl u "all" (azEl r) := by
    rw [atoms_eq2 hel l wl u rows ⟨hfk.trans hps.selected, hps.rows, hps.dim, hps.shape⟩]
    simp only [hresp]
  have hcol : (S.A l).col 0 = response2 a l wl u "all" (src.loc 0) := by
    funext i
    rw [Matrix.col_apply, steering_columns2 hel l wl "all" src hS, hsu]
  have hL : ∀ i j v w, ga[i]? = some v → gb[j]? = some w →
      (atomColumns2D a l wl u rows)[i * gb.length + j]? = some (response2 a l wl u "all" (v, w)) := by
    intro i j v w hv hw
    rw [hcr, List.getElem?_map, hr3 i j v w hv hw]
    rfl
  have hflat : ∀ (j : ℕ) (v : Fin a.size → ℂ), (atomColumns2D a l wl u rows)[j]? = some v →
      ∃ p q y z, j = p * gb.length + q ∧ ga[p]? = some y ∧ gb[q]? = some z ∧ v = response2 a l wl u "all" (y, z) := by
    intro j v hv
    have hjl : j < ga.length * gb.length := by
      have := (List.getElem?_eq_some_iff.1 hv).1
      rw [hcr, List.length_map, hr2] at this
      exact this
    obtain ⟨p, q, y, z, rfl, e1, e2⟩ := flat_2d hjl
    rw [hL _ _ _ _ e1 e2, Option.some.injEq] at hv
    exact ⟨p, q, y, z, rfl, e1, e2, hv.symm⟩
  have hun : Unambiguous (atomColumns2D a l wl u rows) ((S.A l).col 0) (i0 * gb.length + j0) := by
    rw [hcol]
    refine ⟨hne, hL _ _ _ _ hi hj, ?_, ?_⟩
    · intro v hv
      obtain ⟨j, hv⟩ := List.getElem?_of_mem hv
      obtain ⟨p, q, y, z, -, e1, e2, rfl⟩ := hflat j v hv
      exact hpow y (List.mem_of_getElem? e1) z (List.mem_of_getElem? e2)
    · intro j v hv hjj
      obtain ⟨p, q, y, z, rfl, e1, e2, rfl⟩ := hflat j v hv
      refine hdiff p q y z e1 e2 ?_
      rintro ⟨rfl, rfl⟩
      exact hjj rfl
  have hlen : (atomColumns2D a l wl u rows).length = ga.length * gb.length := by rw [hcr, List.length_map, hr2]
  constructor
  · intro σ ops
    obtain ⟨o, st', e1, e2⟩ := recovers_2d cfg hg hu hx hpf hsort ops ⟨fBartlett (covModel (S.A l) P σ), 1, false, 10, 3⟩ le_rfl rfl hr1
      (by rw [hcomp]; simp [fBartlett, hlen]) src (fun _ => i0) (fun _ => j0) (fun c => by fin_cases c; exact hi) (fun c => by fin_cases c; exact hj)
      (fun c e h => absurd h (fin_one_lt c e)) (fun c e => rfl) (by rw [hcomp]; exact bartlett_dominant hun hP σ)
    refine ⟨o, st', ?_, _, by simpa [List.ofFn_succ] using e2⟩
    unfold bartlettEstimate
    rw [beamArgs_ok]
    exact e1
  · intro σ hσ ops
    obtain ⟨o, st', e1, e2⟩ := recovers_2d cfg' (hg'.trans hg) hu hx hpf' hsort' ops ⟨fMvdr (covModel (S.A l) P σ), 1, false, 10, 3⟩ le_rfl rfl
      (by rw [hg']; exact hr1)
      (by rw [hcomp']; simp [fMvdr, hlen]) src (fun _ => i0) (fun _ => j0) (fun c => by fin_cases c; exact hi) (fun c => by fin_cases c; exact hj)
      (fun c e h => absurd h (fin_one_lt c e)) (fun c e => rfl) (by rw [hcomp']; exact mvdr_dominant hun hP hσ)
    refine ⟨o, st', ?_, _, by simpa [List.ofFn_succ] using e2⟩
    unfold mvdrEstimate
    rw [beamArgs_ok]
    exact e1

/-- The responses of an unambiguous uniform linear array. -/
theorem ula_single {n : ℕ} (hn : 2 ≤ n) {d wl : ℝ} (hd : 0 < d) (hwl : 0 < wl) {name : Option String} {a : GridArray}
    (ha : ula n (.scalar d) name {} = .ok a) (l : Fin a.element.outputSize)
    {x : List ℝ} {u : String} (hu : Unit1D u) (hx : ∀ v ∈ x, InRange1D u v)
    (hxd : x.Nodup) (hamb : ∀ v ∈ x, ∀ w ∈ x, d * |Real.sin (angleOf u v) - Real.sin (angleOf u w)| < wl)
    (src : FF1D 1) (hsu : src.unit = u) (j0 : ℕ) (hj : x[j0]? = some (src.loc 0)) :
    ∃ S, steering a.toArrayDesign (.ff1 src) wl false "all" = .ok S ∧ a.toArrayDesign.element = .isotropicScalar ∧
      (∀ p ∈ a.toArrayDesign.perturbations, p.isKnown = true) ∧ Usable a.toArrayDesign "all" [] ∧
      response a.toArrayDesign l wl u "all" (src.loc 0) ≠ 0 ∧
      (∀ v ∈ x, power (response a.toArrayDesign l wl u "all" v) = power (response a.toArrayDesign l wl u "all" (src.loc 0))) ∧
      ∀ j v, x[j]? = some v → j ≠ j0 → ∀ z : ℂ, response a.toArrayDesign l wl u "all" v ≠ z • response a.toArrayDesign l wl u "all" (src.loc 0) := by
  have : NeZero wl := ⟨hwl.ne'⟩
  have hsx : src.loc 0 ∈ x := List.mem_of_getElem? hj
  obtain ⟨S, hS, -⟩ := ula_steering ha src ⟨hsu ▸ hu, fun c => by fin_cases c; exact hsu ▸ hx _ hsx⟩ wl "all" (by simp)
  have hsize : a.size = n := (C01_ula_geometry n d name {} a ha).1
  have hdim : a.locations.ncols = 1 := (C01_ula_geometry n d name {} a ha).2.1
  have hel : a.toArrayDesign.element = .isotropicScalar := (gridInit_spec ha).2.2.1
  have hp : a.toArrayDesign.perts = [] := (Except.ok.inj (gridInit_spec ha).2.2.2.1).symm
  have hps : a.toArrayDesign.filterPerturbations "all" = .ok [] := by
    simp [ArrayDesign.filterPerturbations, hp, PyDict.values]
  have hr : ∀ v ∈ x, response a.toArrayDesign l wl u "all" v = ulaVec a.size (phaseFactor d wl u v) := by
    intro v hv
    obtain ⟨S1, hS1, hSA1⟩ := ula_steering ha (⟨![v], u⟩ : FF1D 1) ⟨hu, fun c => by fin_cases c; exact hx v hv⟩ wl "all" (by simp)
    funext i
    unfold response
    rw [hS1]
    exact hSA1 l i 0
  have hone : ∀ y, ‖phaseFactor d wl u y‖ = 1 := fun y => by
    simp only [phaseFactor]
    rw [mul_comm, Complex.norm_exp_ofReal_mul_I]
  have hpw : ∀ v ∈ x, power (response a.toArrayDesign l wl u "all" v) = a.size := by
    intro v hv
    rw [hr v hv]
    simp [power, ulaVec, hone]
  have hs2 : 2 ≤ a.size := hsize ▸ hn
  refine ⟨S, hS, hel, (by
      intro p hp'
      have : a.toArrayDesign.perturbations = [] := by simp [ArrayDesign.perturbations, hp, PyDict.values]
      rw [this] at hp'
      cases hp'), ⟨hps, rfl, by show 1 ≤ a.locations.ncols ∧ a.locations.ncols ≤ 3; omega, by simp⟩, ?_, ?_, ?_⟩
  · intro h0
    have := hpw _ hsx
    rw [h0] at this
    simp only [power, Pi.zero_apply, norm_zero] at this
    norm_num at this
    have hs0 : a.size = 0 := by exact_mod_cast this.symm
    omega
  · intro v hv
    rw [hpw v hv, hpw _ hsx]
  · intro j v hv hjj z hz
    have hvx := List.mem_of_getElem? hv
    rw [hr v hvx, hr _ hsx] at hz
    have e0 := congrFun hz ⟨0, by show 0 < a.size; omega⟩
    have e1 := congrFun hz ⟨1, by show 1 < a.size; omega⟩
    simp only [ulaVec, pow_zero, pow_one, Pi.smul_apply, smul_eq_mul, mul_one] at e0 e1
    rw [← e0, one_mul] at e1
    have h3 := phaseFactor_inj hd hwl (hx _ hvx) (hx _ hsx) (hamb _ hvx _ hsx) e1
    obtain ⟨hj1, hj2⟩ := List.getElem?_eq_some_iff.1 hv
    obtain ⟨hc1, hc2⟩ := List.getElem?_eq_some_iff.1 hj
    exact hjj ((List.Nodup.getElem_inj_iff hxd).1 (by rw [hj2, hc2, h3]))

/-- **C77** (uniform linear array). One source at an interior grid point of a ULA with at least two elements on a grid without grating
lobes: both beamformers return exactly the source. -/
theorem C77_ula {n : ℕ} (hn : 2 ≤ n) {d wl : ℝ} (hd : 0 < d) (hwl : 0 < wl) {name : Option String} {a : GridArray}
    (ha : ula n (.scalar d) name {} = .ok a) (l : Fin a.element.outputSize)
    (cfg : EstCfg ℝ (List (Fin a.size → ℂ))) (cfg' : EstCfg (WithTop ℝ) (List (Fin a.size → ℂ)))
    {x : List ℝ} {names : List String} {u : String}
    (hg : cfg.grid = ⟨.ff1, [⟨x, false⟩], names, [u]⟩) (hg' : cfg'.grid = cfg.grid) (hu : Unit1D u) (hx : ∀ v ∈ x, InRange1D u v)
    (hxd : x.Nodup) (hamb : ∀ v ∈ x, ∀ w ∈ x, d * |Real.sin (angleOf u v) - Real.sin (angleOf u w)| < wl)
    (hpf : cfg.peakFinder = findPeaksSimple) (hpf' : cfg'.peakFinder = findPeaksSimple)
    (hsort : IsArgsort cfg.argsort) (hsort' : IsArgsort cfg'.argsort)
    (hcomp : cfg.compute = atomColumns1D a.toArrayDesign l wl u) (hcomp' : cfg'.compute = atomColumns1D a.toArrayDesign l wl u)
    (src : FF1D 1) (hsu : src.unit = u) (j0 : ℕ) (hj : x[j0]? = some (src.loc 0)) (h1 : 1 ≤ j0) (h2 : j0 + 1 < x.length)
    {P : Matrix (Fin 1) (Fin 1) ℂ} (hP : P.PosDef) :
    ∃ S, steering a.toArrayDesign (.ff1 src) wl false "all" = .ok S ∧
    (∀ (σ : ℝ) (ops : List (EstOp ℝ (List (Fin a.size → ℂ)))),
      ∃ o st', bartlettEstimate cfg (cfg.run ops).1 (covModel (S.A l) P σ) 1 {} = (.ok o, st') ∧
        ∃ sp, o.observe st' = (true, some (some ([[src.loc 0]], u)), sp)) ∧
    ∀ (σ : ℝ) (_ : 0 < σ) (ops : List (EstOp (WithTop ℝ) (List (Fin a.size → ℂ)))),
      ∃ o st', mvdrEstimate cfg' (cfg'.run ops).1 (covModel (S.A l) P σ) 1 {} = (.ok o, st') ∧
        ∃ sp, o.observe st' = (true, some (some ([[src.loc 0]], u)), sp) := by
  obtain ⟨S, hS, hel, hkn, hus, hne, hpow, hdiff⟩ := ula_single hn hd hwl ha l hu hx hxd hamb src hsu j0 hj
  exact ⟨S, hS, C77_one_dimensional hel hkn hus l wl cfg cfg' hg hg' hu hx hpf hpf' hsort hsort' hcomp hcomp' src hsu j0 hj h1 h2 hS hne hpow
    hdiff hP⟩

/-- **C77** (uniform rectangular array). The same for one source anywhere on an azimuth/elevation grid with different direction cosines and
without grating lobes, and an array with at least two rows and columns. -/
theorem C77_ura {n1 n2 : ℕ} (hn1 : 2 ≤ n1) (hn2 : 2 ≤ n2) {d0 : D0Arg} {dx dy wl : ℝ} (hd : uraSpacing d0 = some (dx, dy)) (hdx : 0 < dx)
    (hdy : 0 < dy) (hwl : 0 < wl) {name : Option String} {a : GridArray} (haa : ura n1 n2 d0 name {} = .ok a)
    (l : Fin a.element.outputSize) (cfg : EstCfg ℝ (List (Fin a.size → ℂ))) (cfg' : EstCfg (WithTop ℝ) (List (Fin a.size → ℂ)))
    {ga gb : List ℝ} {names : List String} {u : String}
    (hg : cfg.grid = ⟨.ff2, [⟨ga, false⟩, ⟨gb, false⟩], names, [u, u]⟩) (hg' : cfg'.grid = cfg.grid) (hu : Unit2D u)
    (hx : ∀ v ∈ ga, ∀ w ∈ gb, InRange2D u (v, w))
    (hdist : ∀ (i i' j j' : ℕ) (v v' w w' : ℝ), ga[i]? = some v → ga[i']? = some v' → gb[j]? = some w → gb[j']? = some w' →
      dirCos u (v, w) = dirCos u (v', w') → i = i' ∧ j = j')
    (hamb : ∀ v ∈ ga, ∀ v' ∈ ga, ∀ w ∈ gb, ∀ w' ∈ gb, dx * |(dirCos u (v, w)).1 - (dirCos u (v', w')).1| < wl ∧
      dy * |(dirCos u (v, w)).2 - (dirCos u (v', w')).2| < wl)
    (hpf : cfg.peakFinder = findPeaksSimple) (hpf' : cfg'.peakFinder = findPeaksSimple)
    (hsort : IsArgsort cfg.argsort) (hsort' : IsArgsort cfg'.argsort)
    (hcomp : cfg.compute = atomColumns2D a.toArrayDesign l wl u) (hcomp' : cfg'.compute = atomColumns2D a.toArrayDesign l wl u)
    (src : FF2D 1) (hsu : src.unit = u) (i0 j0 : ℕ) (hi : ga[i0]? = some (src.loc 0).1) (hj : gb[j0]? = some (src.loc 0).2)
    {P : Matrix (Fin 1) (Fin 1) ℂ} (hP : P.PosDef) :
    ∃ S, steering a.toArrayDesign (.ff2 src) wl false "all" = .ok S ∧
    (∀ (σ : ℝ) (ops : List (EstOp ℝ (List (Fin a.size → ℂ)))),
      ∃ o st', bartlettEstimate cfg (cfg.run ops).1 (covModel (S.A l) P σ) 1 {} = (.ok o, st') ∧
        ∃ sp, o.observe st' = (true, some (some ([[(src.loc 0).1, (src.loc 0).2]], u)), sp)) ∧
    ∀ (σ : ℝ) (_ : 0 < σ) (ops : List (EstOp (WithTop ℝ) (List (Fin a.size → ℂ)))),
      ∃ o st', mvdrEstimate cfg' (cfg'.run ops).1 (covModel (S.A l) P σ) 1 {} = (.ok o, st') ∧
        ∃ sp, o.observe st' = (true, some (some ([[(src.loc 0).1, (src.loc 0).2]], u)), sp) := by
  have : NeZero wl := ⟨hwl.ne'⟩
  obtain ⟨hus, S, hS, -⟩ := ura_steering hd haa src (hsu ▸ hu) wl
  refine ⟨S, hS, ?_⟩
  have hsize : a.size = n1 * n2 := (C07_ura n1 n2 d0 dx dy hd name {} a haa).1
  have hel : a.toArrayDesign.element = .isotropicScalar := (gridInit_spec haa).2.2.1
  have hp : a.toArrayDesign.perts = [] := (Except.ok.inj (gridInit_spec haa).2.2.2.1).symm
  have hr : ∀ v, response2 a.toArrayDesign l wl u "all" v = uraVec n2 a.size (phasePair dx dy wl u v) := by
    intro v
    obtain ⟨-, S1, hS1, hSA1⟩ := ura_steering hd haa (⟨![v], u⟩ : FF2D 1) hu wl
    funext i
    unfold response2
    rw [hS1]
    show S1.A l i 0 = _
    rw [hSA1 l]
    rfl
  have hone : ∀ v, ‖(phasePair dx dy wl u v).1‖ = 1 ∧ ‖(phasePair dx dy wl u v).2‖ = 1 := fun y => by
    simp only [phasePair]
    rw [mul_comm Complex.I, Complex.norm_exp_ofReal_mul_I, mul_comm Complex.I, Complex.norm_exp_ofReal_mul_I]
    exact ⟨rfl, rfl⟩
  have hpw : ∀ v, power (response2 a.toArrayDesign l wl u "all" v) = a.size := by
    intro v
    rw [hr v]
    simp [power, uraVec, hone v]
  have hs2 : 4 ≤ a.size := by rw [hsize]; nlinarith
  have hn2s : n2 < a.size := by rw [hsize]; nlinarith
  refine C77_two_dimensional hel (by
      intro p hp'
      have : a.toArrayDesign.perturbations = [] := by simp [ArrayDesign.perturbations, hp, PyDict.values]
      rw [this] at hp'
      cases hp') hus l wl cfg cfg' hg hg' hu hx hpf hpf' hsort hsort' hcomp hcomp' src hsu i0 j0 hi hj hS ?_ ?_ ?_ hP
  · intro h0
    have := hpw (src.loc 0)
    rw [h0] at this
    simp only [power, Pi.zero_apply, norm_zero] at this
    norm_num at this
    have hs0 : a.size = 0 := by exact_mod_cast this.symm
    omega
  · intro v _ w _
    rw [hpw, hpw]
  · intro i j v w hv hw hne z hz
    rw [hr, hr] at hz
    have e0 := congrFun hz ⟨0, by show 0 < a.size; omega⟩
    have e1 := congrFun hz ⟨1, by show 1 < a.size; omega⟩
    have e2 := congrFun hz ⟨n2, by show n2 < a.size; omega⟩
    have q1 : 1 / n2 = 0 := Nat.div_eq_of_lt (by omega)
    have q2 : 1 % n2 = 1 := Nat.mod_eq_of_lt (by omega)
    have q3 : n2 / n2 = 1 := Nat.div_self (by omega)
    simp only [uraVec, Nat.zero_div, Nat.zero_mod, q1, q2, q3, Nat.mod_self, pow_zero, pow_one, Pi.smul_apply, smul_eq_mul, mul_one, one_mul] at e0 e1 e2
    rw [← e0, one_mul] at e1 e2
    obtain ⟨m1, m2⟩ := hamb v (List.mem_of_getElem? hv) _ (List.mem_of_getElem? hi) w (List.mem_of_getElem? hw) _ (List.mem_of_getElem? hj)
    exact hne (hdist i i0 j j0 v _ w _ hv hi hw hj (Prod.ext (exp_phase_inj hdx hwl m1 e2) (exp_phase_inj hdy hwl m2 e1)))

/-- The hypotheses hold for a source at `sin θ = 0.5` and two sensors at half wavelength spacing. -/
example : ∃ (a : GridArray) (S : Steering a.element.outputSize a.size 1) (i : Fin a.element.outputSize)
    (cfg : EstCfg ℝ (List (Fin a.size → ℂ))) (o : _) (st' : _),
    steering a.toArrayDesign (.ff1 ⟨![0.5], "sin"⟩) 1 false "all" = .ok S ∧
    bartlettEstimate cfg cfg.init (covModel (S.A i) 1 1) 1 {} = (.ok o, st') ∧
    ∃ sp, o.observe st' = (true, some (some ([[0.5]], "sin")), sp) := by
  obtain ⟨a, ha⟩ := ula_ok 2 (1 / 2) none
  have hla : 0 < a.element.outputSize := by rw [(gridInit_spec ha).2.2.1]; decide
  have hrg : ∀ y ∈ ([-0.8, 0, 0.5, 0.8] : List ℝ), -0.8 ≤ y ∧ y ≤ 0.8 := by
    intro y hy
    simp only [List.mem_cons, List.not_mem_nil, or_false] at hy
    rcases hy with rfl | rfl | rfl | rfl <;> norm_num
  have hsin : ∀ y ∈ ([-0.8, 0, 0.5, 0.8] : List ℝ), Real.sin (angleOf "sin" y) = y := by
    intro y hy
    have := hrg y hy
    simp only [angleOf, String.reduceEq, if_false, if_true]
    exact Real.sin_arcsin (by linarith [this.1]) (by linarith [this.2])
  have hx : ∀ y ∈ ([-0.8, 0, 0.5, 0.8] : List ℝ), InRange1D "sin" y := fun y hy =>
    Or.inr (Or.inr ⟨rfl, by linarith [(hrg y hy).1], by linarith [(hrg y hy).2]⟩)
  obtain ⟨S, hS, hb, -⟩ := C77_ula (n := 2) le_rfl (by norm_num : (0 : ℝ) < 1 / 2) one_pos ha ⟨0, hla⟩
    ⟨⟨.ff1, [⟨[-0.8, 0, 0.5, 0.8], false⟩], [], ["sin"]⟩, atomColumns1D a.toArrayDesign ⟨0, hla⟩ 1 "sin", findPeaksSimple, stableArgsort, true, false⟩
    ⟨⟨.ff1, [⟨[-0.8, 0, 0.5, 0.8], false⟩], [], ["sin"]⟩, atomColumns1D a.toArrayDesign ⟨0, hla⟩ 1 "sin", findPeaksSimple, stableArgsort, true, false⟩
    rfl rfl (Or.inr (Or.inr rfl)) hx (by norm_num)
    (by
      intro y hy z hz
      rw [hsin y hy, hsin z hz]
      have h1 := hrg y hy
      have h2 := hrg z hz
      have : |y - z| ≤ 1.6 := by rw [abs_le]; constructor <;> linarith [h1.1, h1.2, h2.1, h2.2]
      linarith) rfl rfl stableArgsort_isArgsort stableArgsort_isArgsort rfl rfl
    ⟨![0.5], "sin"⟩ rfl 2 rfl (by norm_num) (by norm_num) PosDef.one
  obtain ⟨o, st', e1, sp, e2⟩ := hb 1 []
  exact ⟨a, S, ⟨0, hla⟩, _, o, st', hS, e1, sp, e2⟩

end Doa.Props
