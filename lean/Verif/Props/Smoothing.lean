import Verif.Props.CoherentNear
import Verif.Props.Placement
import Verif.Props.SingleSource

/-!
# C103: what spatial smoothing leaves alone
-/

namespace Doa.Props

open Doa Doa.Spec Complex Matrix
open scoped ComplexOrder

variable {m k : ℕ}

/-- **C103** (Hermitian Toeplitz matrices). If `R` is Hermitian and constant along its diagonals, spatial smoothing with `l` subarrays returns
the leading block of `R`, forward and forward-backward. -/
theorem C103_toeplitz (h : MatHeap) (R : MatView) (hR : ViewOk h R) (hsh : R.shape = (m, m))
    (l : ℕ) (hl : 1 ≤ l) (hlm : l ≤ m) (fb cplx : Bool) (hreal : cplx = false → ∀ i j, (h.read R i j).im = 0)
    (hherm : ∀ i < m, ∀ j < m, h.read R i j = star (h.read R j i))
    (htoep : ∀ i j : ℕ, i + 1 < m → j + 1 < m → h.read R (i + 1) (j + 1) = h.read R i j) :
    ∃ h' v, spatialSmooth h R l fb cplx = .ok (h', v) ∧ v.shape = (m - l + 1, m - l + 1) ∧
      ∀ i j : Fin (m - l + 1), h'.read v i.1 j.1 = h.read R i.1 j.1 := by
  obtain ⟨h', v, e1, e2, -, -, e3⟩ := C49_smooth h R hR m hsh l hl hlm fb cplx hreal
  refine ⟨h', v, e1, e2, fun i j => ?_⟩
  have hshift : ∀ (s i j : ℕ), s + i < m → s + j < m → h.read R (s + i) (s + j) = h.read R i j := by
    intro s
    induction s with
    | zero => intro i j _ _; simp
    | succ s ih =>
      intro i j hi hj
      rw [show s + 1 + i = (s + i) + 1 by ring, show s + 1 + j = (s + j) + 1 by ring, htoep _ _ (by omega) (by omega),
        ih i j (by omega) (by omega)]
  have hl0 : (l : ℂ) ≠ 0 := by exact_mod_cast (by omega : l ≠ 0)
  have hmean : ∀ i j, i ≤ m - l → j ≤ m - l →
      (∑ s ∈ Finset.range l, h.read R (s + i) (s + j)) / (l : ℂ) = h.read R i j := by
    intro i j hi hj
    rw [Finset.sum_congr rfl fun s hs => hshift s i j (by have := Finset.mem_range.1 hs; omega) (by have := Finset.mem_range.1 hs; omega),
      Finset.sum_const, Finset.card_range, nsmul_eq_mul]
    field_simp
  rw [e3, hmean i.1 j.1 (by omega) (by omega), hmean (m - l - i.1) (m - l - j.1) (by omega) (by omega)]
  cases fb with
  | false => rfl
  | true =>
    have hflip : star (h.read R (m - l - i.1) (m - l - j.1)) = h.read R i.1 j.1 := by
      rw [← hherm _ (by omega) _ (by omega)]
      rcases le_total i.1 j.1 with hij | hij
      · have e1 := hshift i.1 0 (j.1 - i.1) (by omega) (by omega)
        have e2 := hshift (m - l - j.1) 0 (j.1 - i.1) (by omega) (by omega)
        rw [show i.1 + 0 = i.1 by ring, show i.1 + (j.1 - i.1) = j.1 by omega] at e1
        rw [show m - l - j.1 + 0 = m - l - j.1 by ring, show m - l - j.1 + (j.1 - i.1) = m - l - i.1 by omega] at e2
        rw [e1, e2]
      · have e1 := hshift j.1 (i.1 - j.1) 0 (by omega) (by omega)
        have e2 := hshift (m - l - i.1) (i.1 - j.1) 0 (by omega) (by omega)
        rw [show j.1 + 0 = j.1 by ring, show j.1 + (i.1 - j.1) = i.1 by omega] at e1
        rw [show m - l - i.1 + 0 = m - l - i.1 by ring, show m - l - i.1 + (i.1 - j.1) = m - l - j.1 by omega] at e2
        rw [e1, e2]
    rw [hflip]
    simp

/-- The entries of the covariance of uncorrelated sources on a ULA depend on the distance of the sensors only. -/
theorem cov_uncorrelated {z : Fin k → ℂ} (hz1 : ∀ c, ‖z c‖ = 1) (p : Fin k → ℝ) (σ : ℝ) (i j : Fin m) :
    covModel (ulaMat m z) (diagonal fun c => (p c : ℂ)) σ i j =
      (∑ c, (p c : ℂ) * z c ^ ((i.1 : ℤ) - (j.1 : ℤ))) + if i = j then (σ : ℂ) else 0 := by
  have hinv : ∀ c, star (z c) = (z c)⁻¹ := fun c => by
    rw [Complex.star_def, Complex.inv_def, Complex.normSq_eq_norm_sq, hz1]; simp
  have hz0 : ∀ c, z c ≠ 0 := fun c => norm_ne_zero_iff.1 (by rw [hz1]; exact one_ne_zero)
  simp only [covModel, Matrix.add_apply, Matrix.smul_apply, Matrix.one_apply, smul_eq_mul, mul_ite, mul_one, mul_zero]
  congr 1
  rw [Matrix.mul_apply]
  refine Finset.sum_congr rfl fun c _ => ?_
  rw [mul_diagonal, conjTranspose_apply]
  simp only [ulaMat, star_pow, hinv]
  rw [zpow_sub₀ (hz0 c), zpow_natCast, zpow_natCast, inv_pow]
  ring

/-- **C103** (uncorrelated sources). The exact covariance of uncorrelated sources on a ULA of `m` sensors is turned by spatial smoothing into the
exact covariance of the same sources, with the same powers and noise, on the ULA of `m - l + 1` sensors; forward and forward-backward. -/
theorem C103_uncorrelated {d wl : ℝ} [NeZero wl] {name nameb : Option String} {a b : GridArray} {l : ℕ} (hl : 1 ≤ l) (hlm : l ≤ m)
    (ha : ula m (.scalar d) name {} = .ok a) (hb : ula (m - l + 1 : ℕ) (.scalar d) nameb {} = .ok b)
    (ja : Fin a.element.outputSize) (jb : Fin b.element.outputSize) (src : FF1D k) (hs : Valid1D src) (p : Fin k → ℝ) (σ : ℝ)
    {S : Steering a.element.outputSize a.size k} (hS : steering a.toArrayDesign (.ff1 src) wl false "all" = .ok S)
    {S' : Steering b.element.outputSize b.size k} (hS' : steering b.toArrayDesign (.ff1 src) wl false "all" = .ok S')
    (h : MatHeap) (R : MatView) (hR : ViewOk h R) (hsh : R.shape = (m, m))
    (hcov : viewMat h R a.size = covModel (S.A ja) (diagonal fun c => (p c : ℂ)) σ) (fb : Bool) :
    ∃ h' v, spatialSmooth h R l fb true = .ok (h', v) ∧ v.shape = (m - l + 1, m - l + 1) ∧
      viewMat h' v b.size = covModel (S'.A jb) (diagonal fun c => (p c : ℂ)) σ := by
  obtain ⟨T, hT, hTA⟩ := ula_steering ha src hs wl "all" (by simp)
  obtain ⟨T', hT', hTA'⟩ := ula_steering hb src hs wl "all" (by simp)
  obtain rfl : S = T := Except.ok.inj (hS.symm.trans hT)
  obtain rfl : S' = T' := Except.ok.inj (hS'.symm.trans hT')
  have hma : a.size = m := (C01_ula_geometry m d name {} a ha).1
  have hmb : b.size = m - l + 1 := (C01_ula_geometry (m - l + 1 : ℕ) d nameb {} b hb).1
  obtain ⟨z, hz⟩ : ∃ z : Fin k → ℂ, z = fun c => phaseFactor d wl src.unit (src.loc c) := ⟨_, rfl⟩
  have hz1 : ∀ c, ‖z c‖ = 1 := fun c => by rw [hz]; exact phaseFactor_norm _ _ _ _
  have hSA : S.A ja = ulaMat a.size z := by
    ext i c
    rw [hTA, hz]
    rfl
  have hSA' : S'.A jb = ulaMat b.size z := by
    ext i c
    rw [hTA', hz]
    rfl
  rw [hSA] at hcov
  rw [hSA']
  have hread : ∀ i j : ℕ, i < m → j < m → h.read R i j =
      (∑ c, (p c : ℂ) * z c ^ ((i : ℤ) - (j : ℤ))) + if i = j then (σ : ℂ) else 0 := by
    intro i j hi hj
    have e := congrFun (congrFun hcov ⟨i, by omega⟩) ⟨j, by omega⟩
    rw [cov_uncorrelated hz1] at e
    simp only [viewMat, Fin.mk.injEq] at e
    exact e
  have hinv : ∀ c, star (z c) = (z c)⁻¹ := fun c => by
    rw [Complex.star_def, Complex.inv_def, Complex.normSq_eq_norm_sq, hz1]; simp
  obtain ⟨h', v, e1, e2, e3⟩ := C103_toeplitz h R hR hsh l hl hlm fb true (by simp)
    (by
      intro i hi j hj
      rw [hread i j hi hj, hread j i hj hi, star_add, star_sum]
      congr 1
      · refine Finset.sum_congr rfl fun c _ => ?_
        rw [star_mul', star_zpow₀, hinv, _root_.inv_zpow', neg_sub, Complex.star_def, Complex.conj_ofReal]
      · by_cases hij : i = j
        · rw [if_pos hij, if_pos hij.symm, Complex.star_def, Complex.conj_ofReal]
        · rw [if_neg hij, if_neg fun h => hij h.symm, star_zero])
    (by
      intro i j hi hj
      rw [hread _ _ hi hj, hread i j (by omega) (by omega)]
      simp)
  refine ⟨h', v, e1, e2, ?_⟩
  ext i j
  have hi : i.1 < m - l + 1 := by rw [← hmb]; exact i.2
  have hj : j.1 < m - l + 1 := by rw [← hmb]; exact j.2
  rw [cov_uncorrelated hz1]
  refine (e3 ⟨i.1, hi⟩ ⟨j.1, hj⟩).trans ?_
  rw [hread i.1 j.1 (by omega) (by omega)]
  simp [Fin.ext_iff]

/-- The candidates of a search with a ULA, for all values on the grid, in or out of the valid range. -/
theorem ula_atoms_any {n : ℕ} {d wl : ℝ} [NeZero wl] {name : Option String} {a : GridArray} (ha : ula n (.scalar d) name {} = .ok a)
    (l : Fin a.element.outputSize) (u : String) (rows : List (List ℝ)) :
    ∀ v ∈ atomColumns1D a.toArrayDesign l wl u rows, ∃ ζ : ℂ, ‖ζ‖ = 1 ∧ v = ulaVec a.size ζ := by
  obtain ⟨g1, g2, g3, g4, g5, g6, g7, g8, g9, g10⟩ := gridInit_spec ha
  obtain ⟨h1, h2, h3⟩ := C01_ula_geometry n d name {} a ha
  have hp : a.toArrayDesign.perts = [] := (Except.ok.inj g4).symm
  have hps : a.toArrayDesign.filterPerturbations "known" = .ok [] := by
    simp [ArrayDesign.filterPerturbations, hp, PyDict.values]
  have hd : a.locations.ncols = 1 := h2
  rw [atoms_eq g3 l wl u rows hps rfl (by simp [hd]) (by simp)]
  intro v hv
  obtain ⟨r, -, rfl⟩ := List.mem_map.1 hv
  obtain ⟨s, hs⟩ : ∃ s : FF1D 1, s = ⟨![r.headD 0], u⟩ := ⟨_, rfl⟩
  have hph : (Sources.ff1 s).phaseDelay a.locations wl false =
      .ok ⟨fun i c => 2 * Real.pi / wl * (s.dir c).1 * a.locations.at0 i 0, []⟩ := by
    refine (FF1D.phaseDelay_eq s a.locations wl).trans ?_
    rw [if_pos (by omega)]
    congr 2
    ext i c
    rw [Mat.at0_of_ge a.locations (i := i) (j := 1) (by omega)]; ring
  refine ⟨Complex.exp (((2 * Real.pi / wl * (s.dir 0).1 * d : ℝ) : ℂ) * I), Complex.norm_exp_ofReal_mul_I _, ?_⟩
  funext i
  have hi : i.1 < n := by rw [← h1]; exact i.2
  have hloc : a.locations.at0 i 0 = (i.1 : ℝ) * d := by rw [Mat.at0, h3 i.1 hi]; rfl
  unfold response
  rw [← hs, steering_iso (ps := []) g3 hps rfl hph (by simp)]
  simp only [entryOf, totalFactor, List.foldl_nil, Matrix.one_mul, ideal, Fin.val_cast, hloc, ulaVec]
  rw [← Complex.exp_nat_mul]
  congr 1
  push_cast
  ring

/-- Reversing and conjugating the response of a ULA only changes its phase. -/
theorem ulaVec_rev {ζ : ℂ} (h : ‖ζ‖ = 1) (i : Fin m) : star (ulaVec m ζ i.rev) = (star ζ) ^ (m - 1) * ulaVec m ζ i := by
  have hzz : star ζ * ζ = 1 := by
    rw [mul_comm, Complex.star_def, Complex.mul_conj, Complex.normSq_eq_norm_sq, h]; simp
  have hi : m - 1 = i.rev.1 + i.1 := by rw [Fin.val_rev]; omega
  simp only [ulaVec]
  rw [star_pow, hi, pow_add, mul_assoc, ← mul_pow, hzz, one_pow, mul_one]

/-- The Bartlett spectrum of the backward covariance of a ULA. -/
theorem bartlett_backward (M : Matrix (Fin m) (Fin m) ℂ) {ζ : ℂ} (h : ‖ζ‖ = 1) :
    (bartlettRaw (Matrix.of fun i j => star (M i.rev j.rev)) (ulaVec m ζ)).re = (bartlettRaw M (ulaVec m ζ)).re := by
  have hu : star ζ * ζ = 1 := by
    rw [mul_comm, Complex.star_def, Complex.mul_conj, Complex.normSq_eq_norm_sq, h]; simp
  have key : bartlettRaw (Matrix.of fun i j => star (M i.rev j.rev)) (ulaVec m ζ) = star (bartlettRaw M (ulaVec m ζ)) := by
    have e : ∀ i, ulaVec m ζ i = ζ ^ (m - 1) * star (ulaVec m ζ i.rev) := fun i => by
      rw [ulaVec_rev h, ← mul_assoc, ← mul_pow, mul_comm ζ, hu, one_pow, one_mul]
    unfold bartlettRaw
    simp only [mulVec, dotProduct, Finset.mul_sum, star_sum, star_mul', star_star, Matrix.of_apply]
    rw [← Equiv.sum_comp Fin.revPerm]
    refine Finset.sum_congr rfl fun i _ => ?_
    rw [← Equiv.sum_comp Fin.revPerm]
    refine Finset.sum_congr rfl fun j _ => ?_
    simp only [Fin.revPerm_apply, Fin.rev_rev]
    rw [e i.rev, e j.rev, Fin.rev_rev, Fin.rev_rev, star_mul', star_star, star_pow]
    have hpow : star ζ ^ (m - 1) * ζ ^ (m - 1) = 1 := by rw [← mul_pow, hu, one_pow]
    linear_combination (ulaVec m ζ i * star (M i j) * star (ulaVec m ζ j)) * hpow
  rw [key, Complex.star_def, Complex.conj_re]

/-- **C103** (forward-backward averaging). For a ULA and every matrix `R` whatsoever, averaging `R` with its backward version
(`spatial_smooth(R, 1, fb=True)`) changes nothing for the Bartlett beamformer: estimates, spectrum, exceptions and the state it is left in are
the same, for all grids and arguments, after every history. -/
theorem C103_bartlett {n : ℕ} {d wl : ℝ} [NeZero wl] {name : Option String} {a : GridArray} (ha : ula n (.scalar d) name {} = .ok a)
    (hn : 1 ≤ n) (l : Fin a.element.outputSize) (cfg : EstCfg ℝ (List (Fin a.size → ℂ))) {u : String}
    (hcomp : cfg.compute = atomColumns1D a.toArrayDesign l wl u) (h : MatHeap) (R : MatView) (hR : ViewOk h R) (hsh : R.shape = (n, n)) :
    ∃ h' v, spatialSmooth h R 1 true true = .ok (h', v) ∧ v.shape = (n, n) ∧
      ∀ (ops : List (EstOp ℝ (List (Fin a.size → ℂ)))) (k : ℕ) (kw : EstKw),
        bartlettEstimate cfg (cfg.run ops).1 (viewMat h' v a.size) k kw = bartlettEstimate cfg (cfg.run ops).1 (viewMat h R a.size) k kw := by
  obtain ⟨h', v, e1, e2, -, -, e3⟩ := C49_smooth h R hR n hsh 1 le_rfl hn true true (by simp)
  have hs : a.size = n := (C01_ula_geometry n d name {} a ha).1
  refine ⟨h', v, e1, by rw [e2]; congr 1 <;> omega, fun ops k kw => ?_⟩
  have hview : viewMat h' v a.size = (1 / 2 : ℂ) • (viewMat h R a.size + Matrix.of fun i j => star (viewMat h R a.size i.rev j.rev)) := by
    ext i j
    have hi : i.1 < n - 1 + 1 := by omega
    have hj : j.1 < n - 1 + 1 := by omega
    refine (e3 ⟨i.1, hi⟩ ⟨j.1, hj⟩).trans ?_
    have hr : ∀ i : Fin a.size, n - 1 - i.1 = i.rev.1 := fun i => by rw [Fin.val_rev]; omega
    simp only [if_true, Finset.sum_range_one, Nat.cast_one, div_one, zero_add, hr, viewMat, Matrix.smul_apply, Matrix.add_apply,
      Matrix.of_apply, smul_eq_mul]
    ring
  have hf : ∀ A : List (Fin a.size → ℂ), (∀ w ∈ A, ∃ ζ : ℂ, ‖ζ‖ = 1 ∧ w = ulaVec a.size ζ) →
      fBartlett (viewMat h' v a.size) A = fBartlett (viewMat h R a.size) A := by
    intro A hA
    unfold fBartlett
    refine List.map_congr_left fun w hw => ?_
    obtain ⟨ζ, hζ, rfl⟩ := hA w hw
    have e := bartlett_backward (viewMat h R a.size) hζ
    rw [hview]
    simp only [bartlettRaw_eq] at e ⊢
    rw [smul_mulVec, add_mulVec, dotProduct_smul, dotProduct_add, smul_eq_mul, show (1 / 2 : ℂ) = ((1 / 2 : ℝ) : ℂ) by push_cast; rfl,
      Complex.re_ofReal_mul, Complex.add_re, e]
    ring
  unfold bartlettEstimate
  rw [beamArgs_ok, beamArgs_ok]
  have hc : CfgEq (fun A A' => A = A' ∧ ∀ w ∈ A, ∃ ζ : ℂ, ‖ζ‖ = 1 ∧ w = ulaVec a.size ζ) cfg cfg :=
    ⟨rfl, rfl, rfl, rfl, rfl, fun rows => ⟨rfl, by rw [hcomp]; exact ula_atoms_any ha l u rows⟩⟩
  have hst : StateRel (fun A A' => A = A' ∧ ∀ w ∈ A, ∃ ζ : ℂ, ‖ζ‖ = 1 ∧ w = ulaVec a.size ζ) (cfg.run ops).1 (cfg.run ops).1 := by
    refine ⟨rfl, rfl, ?_⟩
    cases hat : (cfg.run ops).1.atom with
    | none => exact .none
    | some A =>
      obtain ⟨rows, -, rfl⟩ := (cfg.inv_run ops).atom A hat
      exact .some ⟨rfl, by rw [hcomp]; exact ula_atoms_any ha l u rows⟩
  obtain ⟨q1, q2⟩ := estimate_eq hc hst (fsp := fBartlett (viewMat h' v a.size)) (fsp' := fBartlett (viewMat h R a.size))
    (fun A A' hA => by obtain ⟨rfl, hA⟩ := hA; exact hf A hA) k kw.refine kw.density kw.iters
  refine Prod.ext q1 ?_
  obtain ⟨r1, r2, r3⟩ := q2
  generalize (cfg.estimate (cfg.run ops).1 ⟨fBartlett (viewMat h' v a.size), k, kw.refine, kw.density, kw.iters⟩).2 = s1 at r1 r2 r3
  generalize (cfg.estimate (cfg.run ops).1 ⟨fBartlett (viewMat h R a.size), k, kw.refine, kw.density, kw.iters⟩).2 = s2 at r1 r2 r3
  obtain ⟨a1, b1, c1⟩ := s1
  obtain ⟨a2, b2, c2⟩ := s2
  simp only at r1 r2 r3
  subst r1 r2
  cases r3 with
  | none => rfl
  | some h => rw [h.1]

/-- The hypotheses of `C103_uncorrelated` hold for five sensors, three subarrays and two sources of powers 2 and 3. -/
example (fb : Bool) : ∃ (b : GridArray) (S' : Steering b.element.outputSize b.size 2) (jb : Fin b.element.outputSize) (h : MatHeap) (R : MatView)
    (h' : MatHeap) (v : MatView), ula (3 : ℕ) (.scalar (1 / 2)) none {} = .ok b ∧
    steering b.toArrayDesign (.ff1 ⟨![-10, 20], "deg"⟩) 1 false "all" = .ok S' ∧ spatialSmooth h R 3 fb true = .ok (h', v) ∧
    viewMat h' v b.size = covModel (S'.A jb) (diagonal fun c => ((![2, 3] : Fin 2 → ℝ) c : ℂ)) 1 := by
  obtain ⟨a, ha⟩ := ula_ok 5 (1 / 2) none
  obtain ⟨b, hb⟩ := ula_ok 3 (1 / 2) none
  have hv : Valid1D (⟨![-10, 20], "deg"⟩ : FF1D 2) :=
    ⟨Or.inr (Or.inl rfl), fun c => Or.inr (Or.inl ⟨rfl, by fin_cases c <;> norm_num, by fin_cases c <;> norm_num⟩)⟩
  obtain ⟨S, hS, -⟩ := ula_steering ha _ hv 1 "all" (by simp)
  obtain ⟨S', hS', -⟩ := ula_steering hb _ hv 1 "all" (by simp)
  have hea : a.element = .isotropicScalar := (gridInit_spec ha).2.2.1
  have heb : b.element = .isotropicScalar := (gridInit_spec hb).2.2.1
  have hja : 0 < a.element.outputSize := by rw [hea]; decide
  have hjb : 0 < b.element.outputSize := by rw [heb]; decide
  have hsz : a.size = 5 := (C01_ula_geometry 5 _ _ {} a ha).1
  obtain ⟨h', v, e1, -, e2⟩ := C103_uncorrelated (m := 5) (l := 3) (by norm_num) (by norm_num) ha hb ⟨0, hja⟩ ⟨0, hjb⟩ _ hv ![2, 3] 1 hS hS'
    (heapOf (covModel (S.A ⟨0, hja⟩) (diagonal fun c => ((![2, 3] : Fin 2 → ℝ) c : ℂ)) 1)) ⟨0, (0, 0), (a.size, a.size)⟩
    (by show 0 < 1; norm_num) (by rw [hsz]) (heapOf_view _) fb
  exact ⟨b, S', ⟨0, hjb⟩, _, _, h', v, hb, hS', e1, e2⟩

/-- The hypotheses of `C103_bartlett` hold for three sensors and an arbitrary matrix. -/
example (M : Matrix (Fin 3) (Fin 3) ℂ) : ∃ (a : GridArray) (_ : Fin a.element.outputSize),
    ula (3 : ℕ) (.scalar (1 / 2)) none {} = .ok a ∧ ViewOk (heapOf M) ⟨0, (0, 0), (3, 3)⟩ := by
  obtain ⟨a, ha⟩ := ula_ok 3 (1 / 2) none
  have hea : a.element = .isotropicScalar := (gridInit_spec ha).2.2.1
  exact ⟨a, ⟨0, by rw [hea]; decide⟩, ha, by show 0 < 1; norm_num⟩

end Doa.Props
