import Verif.Lemmas.Subspace
import Verif.Props.Estimator
import Verif.Props.VirtualUla
import Verif.Props.Geometry

/-!
# C42-C44: input guards, MUSIC and Min-Norm
-/

namespace Doa.Props

open Doa Doa.Spec Matrix
open scoped ComplexOrder

variable {m k : ℕ}

/-! ### C42 -/

/-- **C42** (covariance guard, partial). `ensure_covariance_size` accepts exactly the 2-D arrays with
as many *rows* as the array has elements; everything else raises `ValueError`. The number of columns
is not checked, so the claim "exactly shape `(size, size)`" fails (`C42_nonsquare_accepted`). -/
theorem C42_covariance_guard_partial (shape : List ℕ) (size : ℕ) :
    (ensureCovarianceSize shape size = .ok () ↔ ∃ c, shape = [size, c]) ∧
    ((¬ ∃ c, shape = [size, c]) → ensureCovarianceSize shape size = .error .valueError) := by
  unfold ensureCovarianceSize
  match shape with
  | [] => simp
  | [_] => simp
  | [a, b] => by_cases h : a = size <;> simp [h]
  | _ :: _ :: _ :: _ => simp

/-- **C42** is violated: a `2 × 3` matrix is accepted for an array of two elements. -/
theorem C42_nonsquare_accepted : ensureCovarianceSize [2, 3] 2 = .ok () := rfl

/-- **C42** (number of sources). `ensure_n_resolvable_sources(k, max_k)` raises iff `k > max_k`. -/
theorem C42_n_resolvable (k maxK : ℤ) :
    (ensureNResolvable k maxK = .error .valueError ↔ k > maxK) ∧
    (ensureNResolvable k maxK = .ok () ↔ k ≤ maxK) := by
  unfold ensureNResolvable
  by_cases h : k > maxK <;> simp [h] <;> omega

/-- **C42** (MUSIC and Min-Norm). Both raise `ValueError` without any effect for a covariance with the
wrong number of rows and for `k ≥ size`, and otherwise, for square matrices, go on to the spectrum. -/
theorem C42_estimators (eigh : Eigh) {r c : ℕ} [NeZero m]
    (cfg : EstCfg (WithTop ℝ) (List (Fin m → ℂ))) (st : EstState (List (Fin m → ℂ)))
    (R : Matrix (Fin r) (Fin c) ℂ) (k : ℕ) (kw : EstKw) (h : r ≠ m ∨ m ≤ k) :
    musicEstimate eigh cfg st R k kw = (.error .valueError, st) ∧
    minNormEstimate eigh cfg st R k kw = (.error .valueError, st) := by
  have h1 : ∀ fsp : {d : ℕ} → Matrix (Fin m) (Fin d) ℂ → List (Fin m → ℂ) → List (WithTop ℝ),
      subspaceArgs (m := m) eigh fsp R k kw = .error .valueError := by
    intro fsp
    unfold subspaceArgs
    by_cases hr : r = m
    · have hk : m ≤ k := by
        rcases h with h | h
        · exact absurd hr h
        · exact h
      rw [((C42_covariance_guard_partial [r, c] m).1).2 ⟨c, by rw [hr]⟩]
      simp only
      rw [((C42_n_resolvable (k : ℤ) ((m : ℤ) - 1)).1).2 (by omega)]
    · rw [(C42_covariance_guard_partial [r, c] m).2 (by rintro ⟨c', h'⟩; simp at h'; exact hr h'.1)]
  unfold musicEstimate minNormEstimate
  rw [h1, h1]
  exact ⟨rfl, rfl⟩

theorem subspaceArgs_ok (eigh : Eigh)
    (fsp : {d : ℕ} → Matrix (Fin m) (Fin d) ℂ → List (Fin m → ℂ) → List (WithTop ℝ))
    (R : Matrix (Fin m) (Fin m) ℂ) (k : ℕ) (kw : EstKw) (hk : k < m) :
    subspaceArgs eigh fsp R k kw =
      .ok ⟨fsp (getNoiseSubspace eigh R k), k, kw.refine, kw.density, kw.iters⟩ := by
  unfold subspaceArgs
  rw [((C42_covariance_guard_partial [m, m] m).1).2 ⟨m, rfl⟩]
  simp only
  rw [((C42_n_resolvable (k : ℤ) ((m : ℤ) - 1)).2).2 (by omega)]
  simp only [and_self, dif_pos]
  rfl

example : ∃ (R : Matrix (Fin 2) (Fin 3) ℂ), ∀ (eigh : Eigh) (kw : EstKw),
    subspaceArgs (m := 2) eigh (fun En => fMusic En) R 1 kw = .error .linAlgError :=
  ⟨0, fun _ _ => rfl⟩

/-! ### C43 -/

theorem musicDenom_eq {d : ℕ} (En : Matrix (Fin m) (Fin d) ℂ) (a : Fin m → ℂ) :
    musicDenom En a = ∑ j, ‖(Enᴴ *ᵥ a) j‖ ^ 2 := by
  unfold musicDenom
  rw [Complex.re_sum]
  refine Finset.sum_congr rfl fun j _ => ?_
  rw [Complex.star_def, Complex.mul_conj, Complex.ofReal_re, Complex.normSq_eq_norm_sq]

theorem musicDenom_eq_zero {d : ℕ} (En : Matrix (Fin m) (Fin d) ℂ) (a : Fin m → ℂ) :
    0 ≤ musicDenom En a ∧ (musicDenom En a = 0 ↔ Enᴴ *ᵥ a = 0) := by
  rw [musicDenom_eq]
  refine ⟨Finset.sum_nonneg fun j _ => by positivity, ?_⟩
  rw [Finset.sum_eq_zero_iff_of_nonneg fun j _ => by positivity]
  constructor
  · intro h; funext j
    have := h j (Finset.mem_univ _)
    simpa using this
  · intro h j _
    rw [h]; simp

/-- **C43** (noise subspace). For `R = A P Aᴴ + σ I` with `P` positive definite and `A` of full column
rank `1 ≤ k < m`, whatever orthonormal eigenvectors `eigh` picks, `get_noise_subspace(R, k)` has
`m - k` orthonormal columns that are orthogonal to exactly the span of the columns of `A`. -/
theorem C43_noise_subspace (eigh : Eigh) {A : Matrix (Fin m) (Fin k) ℂ}
    {P : Matrix (Fin k) (Fin k) ℂ} {σ : ℝ} (hk : 1 ≤ k) (hA : Function.Injective A.mulVec)
    (hP : P.PosDef) :
    noiseDim m k = m - k ∧
    (getNoiseSubspace eigh (covModel A P σ) k)ᴴ * getNoiseSubspace eigh (covModel A P σ) k = 1 ∧
    ∀ a, (getNoiseSubspace eigh (covModel A P σ) k)ᴴ *ᵥ a = 0 ↔ ∃ x, a = A *ᵥ x := by
  have h := eigh.spec _ (covModel_isHermitian A hP.isHermitian σ)
  exact ⟨noiseDim_eq hk, h.noise_orth k, h.noise_zero_iff hk hA hP⟩

/-- **C43** (spectrum). In the situation of `C43_noise_subspace` the MUSIC spectrum evaluated at any
list of candidate steering vectors is infinite at those in the span of the columns of `A`, in
particular at the true sources, and finite and positive at all others. -/
theorem C43_music_spectrum (eigh : Eigh) {A : Matrix (Fin m) (Fin k) ℂ}
    {P : Matrix (Fin k) (Fin k) ℂ} {σ : ℝ} (hk : 1 ≤ k) (hA : Function.Injective A.mulVec)
    (hP : P.PosDef) (atoms : List (Fin m → ℂ)) :
    (fMusic (getNoiseSubspace eigh (covModel A P σ) k) atoms).length = atoms.length ∧
    ∀ (j : ℕ) (a : Fin m → ℂ), atoms[j]? = some a →
      ∃ v, (fMusic (getNoiseSubspace eigh (covModel A P σ) k) atoms)[j]? = some v ∧
        ((∃ x, a = A *ᵥ x) → v = ⊤) ∧ ((¬ ∃ x, a = A *ᵥ x) → ∃ y : ℝ, 0 < y ∧ v = (y : WithTop ℝ)) ∧
        ∀ c, a = A.col c → v = ⊤ := by
  obtain ⟨_, _, h⟩ := C43_noise_subspace eigh (σ := σ) hk hA hP
  refine ⟨by simp [fMusic], fun j a ha => ?_⟩
  refine ⟨npRecip (musicDenom (getNoiseSubspace eigh (covModel A P σ) k) a),
    by simp [fMusic, ha], ?_⟩
  obtain ⟨h0, h1⟩ := musicDenom_eq_zero (getNoiseSubspace eigh (covModel A P σ) k) a
  rw [h a] at h1
  have htop : (∃ x, a = A *ᵥ x) → npRecip (musicDenom (getNoiseSubspace eigh (covModel A P σ) k) a) = ⊤ := by
    intro hx
    rw [npRecip, if_pos (h1.2 hx)]
  refine ⟨htop, fun hx => ?_, fun c hc => htop ⟨Pi.single c 1, by rw [mulVec_single_one, hc]⟩⟩
  have hne : musicDenom (getNoiseSubspace eigh (covModel A P σ) k) a ≠ 0 := fun h' => hx (h1.1 h')
  refine ⟨1 / musicDenom (getNoiseSubspace eigh (covModel A P σ) k) a, ?_, by rw [npRecip, if_neg hne]⟩
  have : 0 < musicDenom (getNoiseSubspace eigh (covModel A P σ) k) a := lt_of_le_of_ne h0 (Ne.symm hne)
  positivity

/-- An implementation of `eigh` exists. -/
noncomputable def someEigh : Eigh := by
  classical
  exact ⟨fun {n} R => if h : R.IsHermitian then ((exists_isEigh R h).choose, (exists_isEigh R h).choose_spec.choose)
    else (0, 0), fun R h => by
    simp only [dif_pos h]
    exact (exists_isEigh R h).choose_spec.choose_spec⟩

/-- The hypotheses hold for two sources on a ULA of three sensors. -/
example : ∃ (A : Matrix (Fin 3) (Fin 2) ℂ) (P : Matrix (Fin 2) (Fin 2) ℂ),
    Function.Injective A.mulVec ∧ P.PosDef ∧
    ∀ a, (getNoiseSubspace someEigh (covModel A P 1) 2)ᴴ *ᵥ a = 0 ↔ ∃ x, a = A *ᵥ x := by
  have hA := ulaMat_injective (m := 3) (z := ![1, Complex.I]) (by
    intro i j hij
    fin_cases i <;> fin_cases j <;> simp_all [Complex.ext_iff]) (by norm_num)
  exact ⟨_, 1, hA, PosDef.one, (C43_noise_subspace someEigh (by norm_num) hA PosDef.one).2.2⟩

/-- The phase factor of a far-field source at `x` (in unit `u`) for sensors `d` apart. -/
noncomputable def phaseFactor (d wl : ℝ) (u : String) (x : ℝ) : ℂ :=
  Complex.exp (Complex.I * ((2 * Real.pi * d / wl * Real.sin (angleOf u x) : ℝ) : ℂ))

theorem dir_sin {k : ℕ} (s : FF1D k) (hs : Valid1D s) (c : Fin k) :
    (s.dir c).1 = Real.sin (angleOf s.unit (s.loc c)) := by
  obtain ⟨hu, hr⟩ := hs
  unfold FF1D.dir angleOf deg2rad
  have := hr c
  rcases hu with h | h | h
  · simp [h]
  · simp [h, mul_div_assoc]
  · rw [h] at this
    rcases this with ⟨h', _⟩ | ⟨h', _⟩ | ⟨_, h1, h2⟩
    · exact absurd h' (by decide)
    · exact absurd h' (by decide)
    · simp [h, Real.sin_arcsin h1 h2]

/-- The steering matrix of a ULA consists of powers of the phase factors. -/
theorem ula_steering {n : ℕ} {d : ℝ} {name : Option String} {a : GridArray}
    (ha : ula n (.scalar d) name {} = .ok a) {k : ℕ} (s : FF1D k) (hs : Valid1D s) (wl : ℝ) [NeZero wl]
    (mode : String) (hm : mode ∈ ["all", "known", "none"]) :
    ∃ S, steering a.toArrayDesign (.ff1 s) wl false mode = .ok S ∧
      ∀ l i c, S.A l i c = phaseFactor d wl s.unit (s.loc c) ^ i.1 := by
  obtain ⟨g1, g2, g3, g4, g5, g6, g7, g8, g9, g10⟩ := gridInit_spec ha
  obtain ⟨h1, h2, h3⟩ := C01_ula_geometry n d name {} a ha
  have hp : a.perts = [] := (Except.ok.inj g4).symm
  have hps : a.toArrayDesign.filterPerturbations mode = .ok [] := by
    have hp' : a.toArrayDesign.perts = [] := hp
    simp only [List.mem_cons, List.not_mem_nil, or_false] at hm
    rcases hm with rfl | rfl | rfl <;>
      simp [ArrayDesign.filterPerturbations, hp', PyDict.values]
  have hph : (Sources.ff1 s).phaseDelay a.locations wl false =
      .ok ⟨fun i c => 2 * Real.pi / wl * (s.dir c).1 * a.locations.at0 i 0, []⟩ := by
    have hd : a.locations.ncols = 1 := h2
    refine (FF1D.phaseDelay_eq s a.locations wl).trans ?_
    rw [if_pos (by omega)]
    congr 2
    ext i c
    rw [Mat.at0_of_ge a.locations (i := i) (j := 1) (by omega)]; ring
  refine ⟨_, steering_iso (ps := []) g3 hps rfl hph (by simp), ?_⟩
  intro l i c
  have hi : i.1 < n := by rw [← h1]; exact i.2
  have hloc : a.locations.at0 i 0 = (i.1 : ℝ) * d := by rw [Mat.at0, h3 i.1 hi]; rfl
  have : (totalFactor a.toArrayDesign.size [] : Matrix (Fin a.size) (Fin a.size) ℂ) = 1 := rfl
  simp only [totalFactor, List.foldl_nil, Matrix.one_mul, ideal, phaseFactor]
  rw [← Complex.exp_nat_mul, ← dir_sin s hs]
  congr 1
  have hloc' : a.locations.at0 (Fin.cast rfl i : Fin _).1 0 = (i.1 : ℝ) * d := hloc
  simp only [Fin.val_cast, hloc]
  push_cast
  ring

/-- The atom matrix of a ULA. -/
theorem ula_atoms {n : ℕ} {d : ℝ} {name : Option String} {a : GridArray}
    (ha : ula n (.scalar d) name {} = .ok a) (l : Fin a.element.outputSize) (wl : ℝ) [NeZero wl] (u : String)
    (hu : Unit1D u) (rows : List (List ℝ)) (hr : ∀ r ∈ rows, InRange1D u (r.headD 0)) :
    atomColumns1D a.toArrayDesign l wl u rows =
      rows.map fun r => ulaVec a.size (phaseFactor d wl u (r.headD 0)) := by
  obtain ⟨S, hS, hSv⟩ := ula_steering ha ⟨fun c : Fin rows.length => (rows.get c).headD 0, u⟩
    ⟨hu, fun i => hr _ (List.get_mem _ _)⟩ wl "known" (by simp)
  unfold atomColumns1D
  rw [hS]
  apply List.ext_getElem
  · simp
  · intro j h1 h2
    rw [List.getElem_ofFn, List.getElem_map]
    funext i
    simp only [hSv, ulaVec]
    rfl

/-- Well separated interior points with infinite values are peaks. -/
theorem infinite_is_peak {n k : ℕ} (sp : List (WithTop ℝ)) (hlen : sp.length = n) (idx : Fin k → ℕ)
    (hsep : ∀ c e, c < e → idx c + 1 < idx e) (h1 : ∀ c, 1 ≤ idx c) (h2 : ∀ c, idx c + 1 < n)
    (htop : ∀ j, j < n → (sp[j]? = some ⊤ ↔ ∃ c, j = idx c)) (c : Fin k) :
    [idx c] ∈ findPeaksSimple [n] sp := by
  classical
  simp only [findPeaksSimple, List.length_cons, List.length_nil, zero_add, if_true, findPeaks1,
    List.mem_map, List.mem_filter, List.mem_range, decide_eq_true_eq]
  refine ⟨idx c, ⟨by have := h2 c; omega, idx c, idx c, ⟨h1 c, le_rfl, by have := h2 c; omega, ⊤, ?_, ?_, ?_⟩, by omega⟩, rfl⟩
  · intro i hi hle hge
    have : i = idx c := by omega
    exact (htop i (by omega)).2 ⟨c, this⟩
  · intro v hv
    rw [lt_top_iff_ne_top]
    rintro rfl
    have hb := h1 c
    obtain ⟨e, he⟩ := (htop (idx c - 1) (by have := h2 c; omega)).1 hv
    rcases lt_trichotomy c e with h | h | h
    · have := hsep c e h; omega
    · subst h; omega
    · have := hsep e c h; omega
  · intro v hv
    rw [lt_top_iff_ne_top]
    rintro rfl
    obtain ⟨e, he⟩ := (htop (idx c + 1) (h2 c)).1 hv
    rcases lt_trichotomy c e with h | h | h
    · have := hsep c e h; omega
    · subst h; omega
    · have := hsep e c h; omega

/-- Selection of the infinite peaks: if `k` well separated interior points carry `⊤` and no other
point does, the `k` largest peaks are exactly these points. -/
theorem top_peaks_unique {n k : ℕ} (sp : List (WithTop ℝ)) (hlen : sp.length = n) (idx : Fin k → ℕ)
    (hsep : ∀ c e, c < e → idx c + 1 < idx e) (h1 : ∀ c, 1 ≤ idx c) (h2 : ∀ c, idx c + 1 < n)
    (htop : ∀ j, j < n → (sp[j]? = some ⊤ ↔ ∃ c, j = idx c)) (flat : List ℕ)
    (hflat : IsTopPeaks [n] sp (findPeaksSimple [n] sp) k flat) : flat = List.ofFn idx := by
  classical
  have hmono : StrictMono idx := fun c e h => by have := hsep c e h; omega
  have hpk := infinite_is_peak sp hlen idx hsep h1 h2 htop
  have hrav : ∀ j, j < n → ravelMultiIndex [n] [j] = .ok j := by
    intro j hj
    rw [ravelMultiIndex_eq (List.Forall₂.cons hj List.Forall₂.nil)]
    simp [ravelIdx]
  have hnd : flat.Nodup := hflat.increasing.imp fun h => ne_of_lt h
  have hsub : ∀ c, idx c ∈ flat := by
    by_contra hn
    push Not at hn
    obtain ⟨c, hc⟩ := hn
    have hall : ∀ i ∈ flat, ∃ e, e ≠ c ∧ i = idx e := by
      intro i hi
      have hlt := hflat.lt i hi
      simp only [List.prod_cons, List.prod_nil, mul_one] at hlt
      have hcl : idx c < n := by have := h2 c; omega
      have hv := hflat.largest i hi [idx c] (hpk c) (idx c) ⊤ sp[i] (hrav _ hcl) hc
        ((htop _ hcl).2 ⟨c, rfl⟩) (List.getElem?_eq_getElem _)
      have hv' : sp[i]? = some ⊤ := by
        rw [List.getElem?_eq_getElem (by omega), top_le_iff.1 hv]
      obtain ⟨e, he⟩ := (htop i hlt).1 hv'
      exact ⟨e, fun h => hc (h ▸ he ▸ hi), he⟩
    have hcard : flat.toFinset.card ≤ ((Finset.univ.erase c).image idx).card := by
      apply Finset.card_le_card
      intro i hi
      obtain ⟨e, he, rfl⟩ := hall i (List.mem_toFinset.1 hi)
      exact Finset.mem_image.2 ⟨e, Finset.mem_erase.2 ⟨he, Finset.mem_univ _⟩, rfl⟩
    rw [List.toFinset_card_of_nodup hnd, hflat.length,
      Finset.card_image_of_injective _ hmono.injective, Finset.card_erase_of_mem (Finset.mem_univ _),
      Finset.card_univ, Fintype.card_fin] at hcard
    have := c.2
    omega
  have hofn : (List.ofFn idx).Pairwise (· < ·) := by
    rw [List.pairwise_ofFn]
    exact fun i j h => hmono h
  have hperm : (List.ofFn idx).Perm flat := by
    have hndo : (List.ofFn idx).Nodup := hofn.imp fun h => ne_of_lt h
    have hs : (List.ofFn idx).Subperm flat := List.subperm_of_subset hndo (by
      intro i hi
      obtain ⟨c, rfl⟩ := List.mem_ofFn.1 hi
      exact hsub c)
    exact hs.perm_of_length_le (by rw [hflat.length]; simp)
  exact (hperm.eq_of_pairwise (fun a b _ _ h h' => absurd h' (by omega)) hofn hflat.increasing).symm

theorem rows_1d {g : SearchGrid} {x : List ℝ} {names : List String} {u : String}
    (hg : g = ⟨.ff1, [⟨x, false⟩], names, [u]⟩) (hu : Unit1D u) (hx : ∀ v ∈ x, InRange1D u v) :
    g.placementRows = .ok (x.map fun v => [v]) := by
  subst hg
  obtain ⟨rows, h1, h2, h3⟩ := ValidGrid.rows (g := ⟨.ff1, [⟨x, false⟩], names, [u]⟩)
    (Or.inl ⟨x, names, u, rfl, hu, hx⟩)
  rw [h1]
  congr 1
  simp only [SearchGrid.shape, List.map_cons, List.map_nil, List.prod_cons, List.prod_nil, mul_one] at h2 h3
  apply List.ext_getElem
  · simpa using h2
  · intro j hj1 hj2
    have hj : j < x.length := by simpa using hj2
    have h4 := h3 [j] j (by
      rw [ravelMultiIndex_eq (List.Forall₂.cons hj List.Forall₂.nil)]
      simp [ravelIdx])
    rw [List.getElem?_eq_getElem hj1, Option.some.injEq] at h4
    rw [h4]
    simp [gridPoint, List.getD_eq_getElem?_getD, List.getElem?_eq_getElem hj]

/-- **C43** (exact recovery on a grid). MUSIC with the exact covariance of `k` sources sitting on
interior, pairwise non-adjacent grid points, and no other grid point whose steering vector lies in
their span, returns exactly the sources, in every state an estimator can reach. `s x` is the steering
vector of location `x`. -/
theorem C43_music_recovers (eigh : Eigh) (cfg : EstCfg (WithTop ℝ) (List (Fin m → ℂ)))
    {x : List ℝ} {names : List String} {u : String}
    (hg : cfg.grid = ⟨.ff1, [⟨x, false⟩], names, [u]⟩) (hu : Unit1D u) (hx : ∀ v ∈ x, InRange1D u v)
    (hpf : cfg.peakFinder = findPeaksSimple) (hsort : IsArgsort cfg.argsort)
    (s : ℝ → Fin m → ℂ)
    (hcomp : ∀ rows, (∀ r ∈ rows, InRange1D u (r.headD 0)) →
      cfg.compute rows = rows.map fun r => s (r.headD 0))
    (idx : Fin k → ℕ) (hsep : ∀ c e, c < e → idx c + 1 < idx e) (h1 : ∀ c, 1 ≤ idx c)
    (h2 : ∀ c, idx c + 1 < x.length) (hk : 1 ≤ k) (hkm : k < m)
    (A : Matrix (Fin m) (Fin k) ℂ) (hAs : ∀ i c, A i c = s (x.getD (idx c) 0) i)
    (hA : Function.Injective A.mulVec)
    (hident : ∀ j, j < x.length → (∃ y, s (x.getD j 0) = A *ᵥ y) → ∃ c, j = idx c)
    {P : Matrix (Fin k) (Fin k) ℂ} (hP : P.PosDef) (σ : ℝ) (ops : List (EstOp (WithTop ℝ) (List (Fin m → ℂ)))) :
    ∃ o st', musicEstimate eigh cfg (cfg.run ops).1 (covModel A P σ) k {} = (.ok o, st') ∧
      ∃ sp, o.observe st' = (true, some (some (List.ofFn fun c => [x.getD (idx c) 0], u)), sp) := by
  have hvalid : ValidGrid cfg.grid := Or.inl ⟨x, names, u, hg, hu, hx⟩
  set En := getNoiseSubspace eigh (covModel A P σ) k with hEn
  have hargs := subspaceArgs_ok eigh (fun En => fMusic En) (covModel A P σ) k {} hkm
  obtain ⟨rows, hr1, hr2⟩ := C37_largest_peaks cfg hvalid hsort ops
    ⟨fMusic En, k, false, 10, 3⟩ hk rfl
  rw [rows_1d hg hu hx, Except.ok.injEq] at hr1
  have hsh : cfg.grid.shape = [x.length] := by rw [hg]; rfl
  have hcr : cfg.compute rows = x.map s := by
    rw [hcomp rows (by
      rw [← hr1]
      intro r hr
      obtain ⟨v, hv, rfl⟩ := List.mem_map.1 hr
      exact hx v hv), ← hr1]
    simp [List.map_map, Function.comp_def]
  obtain ⟨hl, hsp⟩ := C43_music_spectrum eigh (σ := σ) hk hA hP (x.map s)
  have htop : ∀ j, j < x.length → ((fMusic En (x.map s))[j]? = some ⊤ ↔ ∃ c, j = idx c) := by
    intro j hj
    have hjs : (x.map s)[j]? = some (s (x.getD j 0)) := by
      simp [List.getElem?_eq_getElem hj, List.getD_eq_getElem?_getD]
    obtain ⟨v, hv1, hv2, hv3, hv4⟩ := hsp j _ hjs
    rw [hv1, Option.some.injEq]
    constructor
    · intro hvt
      by_contra hn
      obtain ⟨y, _, hy⟩ := hv3 fun hy => hn (hident j hj hy)
      rw [hvt] at hy
      exact WithTop.coe_ne_top hy.symm
    · rintro ⟨c, rfl⟩
      exact hv4 c (by funext i; rw [← hAs]; rfl)
  have hlen : (fMusic En (x.map s)).length = cfg.grid.shape.prod := by
    rw [hl, hsh]; simp
  obtain ⟨hd1, hd2⟩ := C37_default_peak_finder cfg.grid.shape (fMusic En (x.map s)) hlen
  obtain ⟨hf, ht⟩ := hr2 (fMusic En (x.map s)) (by rw [hcr]) hlen (by rw [hpf]; exact hd1)
    (by rw [hpf]; exact hd2)
  have hkle : k ≤ (findPeaksSimple [x.length] (fMusic En (x.map s))).length := by
    by_contra hlt
    -- every `idx c` is a peak
    have hmono : StrictMono idx := fun c e h => by have := hsep c e h; omega
    have hnd : (List.ofFn fun c => [idx c]).Nodup := by
      rw [List.nodup_ofFn]
      intro c e h
      exact hmono.injective (by simpa using h)
    have hs : (List.ofFn fun c => [idx c]).Subperm (findPeaksSimple [x.length] (fMusic En (x.map s))) := by
      refine List.subperm_of_subset hnd ?_
      intro i hi
      obtain ⟨c, rfl⟩ := List.mem_ofFn.1 hi
      exact infinite_is_peak _ (by rw [hl]; simp) idx hsep h1 h2 htop c
    have := hs.length_le
    simp at this
    omega
  obtain ⟨flat, hflat, hobs⟩ := ht (by rw [hpf, hsh]; exact hkle)
  rw [hpf, hsh] at hflat
  have hfl := top_peaks_unique _ (by rw [hl]; simp) idx hsep h1 h2 htop flat hflat
  unfold musicEstimate
  rw [hargs]
  simp only
  unfold EstCfg.observe at hobs
  change ∃ o st', cfg.estimate (cfg.run ops).1 ⟨fMusic En, k, false, 10, 3⟩ = (.ok o, st') ∧ _
  cases hest : cfg.estimate (cfg.run ops).1 ⟨fMusic En, k, false, 10, 3⟩ with
  | mk r st' =>
    rw [hest] at hobs
    cases r with
    | error e => simp at hobs
    | ok o =>
      simp only [Except.ok.injEq] at hobs
      refine ⟨o, st', rfl, fMusic En (x.map s), ?_⟩
      rw [hobs, hfl, hg]
      simp only [SearchGrid.shape, List.map_cons, List.map_nil, List.map_ofFn, Function.comp_def]
      congr 5
      refine congrArg List.ofFn (funext fun c => ?_)
      have hidx : idx c < x.length := by have := h2 c; omega
      have : unravelIdx [x.length] (idx c) = [idx c] := by
        simp [unravelIdx, Nat.mod_eq_of_lt hidx]
      rw [this]
      simp [gridPoint]

/-- Two locations in range whose phase difference is less than a full turn have different phase
factors. -/
theorem phaseFactor_inj {d wl : ℝ} (hd : 0 < d) (hwl : 0 < wl) {u : String} {x y : ℝ}
    (hx : InRange1D u x) (hy : InRange1D u y)
    (hamb : d * |Real.sin (angleOf u x) - Real.sin (angleOf u y)| < wl)
    (h : phaseFactor d wl u x = phaseFactor d wl u y) : x = y := by
  have hpi := Real.pi_pos
  unfold phaseFactor at h
  rw [Complex.exp_eq_exp_iff_exists_int] at h
  obtain ⟨n, hn⟩ := h
  have h1 : (2 * Real.pi * d / wl * Real.sin (angleOf u x) : ℝ) =
      2 * Real.pi * d / wl * Real.sin (angleOf u y) + n * (2 * Real.pi) := by
    have h2 := congrArg Complex.im hn
    simpa [-Complex.ofReal_sin, -Complex.ofReal_mul, -Complex.ofReal_div] using h2
  have h2 : d * (Real.sin (angleOf u x) - Real.sin (angleOf u y)) = n * wl := by
    field_simp at h1
    linarith
  have h3 : |(n : ℝ)| < 1 := by
    have h4 : |(n : ℝ)| * wl < wl := by
      rw [← abs_of_pos hwl, ← abs_mul, ← h2, abs_mul, abs_of_pos hd, abs_of_pos hwl]
      exact hamb
    by_contra h5
    push Not at h5
    nlinarith
  have h4 : n = 0 := by
    have : |n| < 1 := by exact_mod_cast h3
    exact Int.abs_lt_one_iff.1 this
  subst h4
  have h5 : Real.sin (angleOf u x) = Real.sin (angleOf u y) := by
    have : d * (Real.sin (angleOf u x) - Real.sin (angleOf u y)) = 0 := by rw [h2]; simp
    rcases mul_eq_zero.1 this with h' | h'
    · linarith
    · linarith
  have h6 := Real.injOn_sin (Set.mem_Icc.2 (inRange1D_angle hx)) (Set.mem_Icc.2 (inRange1D_angle hy)) h5
  rw [← reprIn_angleOf hx, ← reprIn_angleOf hy, h6]

/-- **C43** (ULA, end to end). `MUSIC(ula, wavelength, grid)` with the default peak finder and the
exact covariance `S P Sᴴ + σ I` of `k < n` sources placed on interior, non-adjacent points of a 1-D
grid free of grating lobes (`d |sin v - sin w| < wavelength` for grid points `v`, `w`) returns
`resolved = True` and exactly the sources: for every array size, spacing, unit, source covariance,
noise variance, eigenvector choice and history of earlier calls. -/
theorem C43_music_ula (eigh : Eigh) {n : ℕ} {d wl : ℝ} (hd : 0 < d) (hwl : 0 < wl)
    {name : Option String} {a : GridArray} (ha : ula n (.scalar d) name {} = .ok a)
    (l : Fin a.element.outputSize) (cfg : EstCfg (WithTop ℝ) (List (Fin a.size → ℂ)))
    {x : List ℝ} {names : List String} {u : String}
    (hg : cfg.grid = ⟨.ff1, [⟨x, false⟩], names, [u]⟩) (hu : Unit1D u) (hx : ∀ v ∈ x, InRange1D u v)
    (hnd : x.Nodup)
    (hamb : ∀ v ∈ x, ∀ w ∈ x, d * |Real.sin (angleOf u v) - Real.sin (angleOf u w)| < wl)
    (hpf : cfg.peakFinder = findPeaksSimple) (hsort : IsArgsort cfg.argsort)
    (hcomp : cfg.compute = atomColumns1D a.toArrayDesign l wl u)
    (src : FF1D k) (hsu : src.unit = u) (idx : Fin k → ℕ)
    (hidx : ∀ c, x[idx c]? = some (src.loc c))
    (hsep : ∀ c e, c < e → idx c + 1 < idx e) (h1 : ∀ c, 1 ≤ idx c)
    (h2 : ∀ c, idx c + 1 < x.length) (hk : 1 ≤ k) (hkn : k < n)
    {P : Matrix (Fin k) (Fin k) ℂ} (hP : P.PosDef) (σ : ℝ)
    (ops : List (EstOp (WithTop ℝ) (List (Fin a.size → ℂ)))) :
    ∃ S, steering a.toArrayDesign (.ff1 src) wl false "all" = .ok S ∧
      ∃ o st', musicEstimate eigh cfg (cfg.run ops).1 (covModel (S.A l) P σ) k {} = (.ok o, st') ∧
        ∃ sp, o.observe st' = (true, some (some (List.ofFn fun c => [src.loc c], u)), sp) := by
  have : NeZero wl := ⟨hwl.ne'⟩
  have hsize := (C01_ula_geometry n d name {} a ha).1
  have hsx : ∀ c, src.loc c ∈ x := fun c => List.mem_of_getElem? (hidx c)
  have hgd : ∀ c, x.getD (idx c) 0 = src.loc c := fun c => by
    rw [List.getD_eq_getElem?_getD, hidx c]; rfl
  obtain ⟨S, hS, hSv⟩ := ula_steering ha src ⟨hsu ▸ hu, fun c => hsu ▸ hx _ (hsx c)⟩ wl "all" (by simp)
  refine ⟨S, hS, ?_⟩
  have hSm : S.A l = ulaMat a.size fun c => phaseFactor d wl u (src.loc c) := by
    funext i c
    rw [hSv, hsu]; rfl
  have hloc : Function.Injective src.loc := by
    intro c e h
    have h3 : idx c = idx e := by
      have hc := hidx c
      have he := hidx e
      obtain ⟨hc1, hc2⟩ := List.getElem?_eq_some_iff.1 hc
      obtain ⟨he1, he2⟩ := List.getElem?_eq_some_iff.1 he
      exact (List.Nodup.getElem_inj_iff hnd).1 (by rw [hc2, he2, h])
    rcases lt_trichotomy c e with h' | h' | h'
    · have := hsep c e h'; omega
    · exact h'
    · have := hsep e c h'; omega
  have hz : Function.Injective fun c => phaseFactor d wl u (src.loc c) := by
    intro c e h
    exact hloc (phaseFactor_inj hd hwl (hx _ (hsx c)) (hx _ (hsx e)) (hamb _ (hsx c) _ (hsx e)) h)
  have hka : k < a.size := by
    have : a.size = n := hsize
    omega
  have key := C43_music_recovers eigh cfg hg hu hx hpf hsort
    (fun v => ulaVec a.size (phaseFactor d wl u v)) (by
      intro rows hr
      rw [hcomp, ula_atoms ha l wl u hu rows hr]) idx hsep h1 h2 hk hka
    (S.A l) (by intro i c; rw [hgd, hSm]; rfl)
    (by rw [hSm]; exact ulaMat_injective hz (by omega))
    (by
      intro j hj hy
      rw [hSm, ulaVec_mem_span hz hka] at hy
      obtain ⟨c, hc⟩ := hy
      refine ⟨c, ?_⟩
      have hjx : x.getD j 0 ∈ x := by
        rw [List.getD_eq_getElem?_getD, List.getElem?_eq_getElem hj]
        exact List.getElem_mem hj
      have h3 := phaseFactor_inj hd hwl (hx _ hjx) (hx _ (hsx c)) (hamb _ hjx _ (hsx c)) hc
      obtain ⟨hc1, hc2⟩ := List.getElem?_eq_some_iff.1 (hidx c)
      rw [List.getD_eq_getElem?_getD, List.getElem?_eq_getElem hj, Option.getD_some, ← hc2] at h3
      exact (List.Nodup.getElem_inj_iff hnd).1 h3) hP σ ops
  simp only [hgd] at key
  exact key

/-- The hypotheses hold for two sources on a ULA of three sensors and a grid of five points. -/
example : ∃ (a : GridArray) (S : Steering a.element.outputSize a.size 2)
    (cfg : EstCfg (WithTop ℝ) (List (Fin a.size → ℂ))) (l : Fin a.element.outputSize) (o : _) (st' : _),
    ula 3 (.scalar (1 / 2)) none {} = .ok a ∧
    steering a.toArrayDesign (.ff1 ⟨![-0.4, 0.4], "sin"⟩) 1 false "all" = .ok S ∧
    musicEstimate someEigh cfg cfg.init (covModel (S.A l) 1 1) 2 {} = (.ok o, st') ∧
    ∃ sp, o.observe st' = (true, some (some ([[-0.4], [0.4]], "sin")), sp) := by
  obtain ⟨a, ha⟩ := ula_ok 3 (1 / 2) none
  have hel : a.element = .isotropicScalar := (gridInit_spec ha).2.2.1
  have hl : 0 < a.element.outputSize := by rw [hel]; decide
  let cfg : EstCfg (WithTop ℝ) (List (Fin a.size → ℂ)) :=
    ⟨⟨.ff1, [⟨[-0.8, -0.4, 0, 0.4, 0.8], false⟩], [], ["sin"]⟩,
      atomColumns1D a.toArrayDesign ⟨0, hl⟩ 1 "sin", findPeaksSimple, stableArgsort, true, false⟩
  have hr : ∀ v ∈ ([-0.8, -0.4, 0, 0.4, 0.8] : List ℝ), -0.8 ≤ v ∧ v ≤ 0.8 := by
    intro v hv
    simp only [List.mem_cons, List.not_mem_nil, or_false] at hv
    rcases hv with rfl | rfl | rfl | rfl | rfl <;> norm_num
  have hs : ∀ v ∈ ([-0.8, -0.4, 0, 0.4, 0.8] : List ℝ), Real.sin (angleOf "sin" v) = v := by
    intro v hv
    have := hr v hv
    simp only [angleOf, String.reduceEq, if_false, if_true]
    exact Real.sin_arcsin (by linarith [this.1]) (by linarith [this.2])
  obtain ⟨S, hS, o, st', h1, sp, h2⟩ := C43_music_ula (k := 2) someEigh (d := 1 / 2) (wl := 1) (by norm_num)
    (by norm_num) ha ⟨0, hl⟩ cfg (x := [-0.8, -0.4, 0, 0.4, 0.8]) rfl (Or.inr (Or.inr rfl))
    (fun v hv => Or.inr (Or.inr ⟨rfl, by linarith [(hr v hv).1], by linarith [(hr v hv).2]⟩))
    (by norm_num)
    (by
      intro v hv w hw
      rw [hs v hv, hs w hw]
      have h1 := hr v hv
      have h2 := hr w hw
      have : |v - w| ≤ 1.6 := by rw [abs_le]; constructor <;> linarith [h1.1, h1.2, h2.1, h2.2]
      linarith)
    rfl stableArgsort_isArgsort rfl ⟨![-0.4, 0.4], "sin"⟩ rfl ![1, 3]
    (by intro c; fin_cases c <;> rfl)
    (by intro c e h; fin_cases c <;> fin_cases e <;> simp_all)
    (by intro c; fin_cases c <;> simp) (by intro c; fin_cases c <;> simp) (by norm_num) (by norm_num)
    (P := 1) PosDef.one 1 []
  exact ⟨a, S, cfg, ⟨0, hl⟩, o, st', ha, hS, h1, sp, by rw [h2]; simp⟩

/-! ### C44 -/

theorem normSq_mulVec {d : ℕ} {En : Matrix (Fin m) (Fin d) ℂ} (hE : Enᴴ * En = 1) (x : Fin d → ℂ) :
    ∑ i, ‖(En *ᵥ x) i‖ ^ 2 = ∑ j, ‖x j‖ ^ 2 := by
  have h : ∀ {n : ℕ} (v : Fin n → ℂ), star v ⬝ᵥ v = ((∑ i, ‖v i‖ ^ 2 : ℝ) : ℂ) := by
    intro n v
    simp only [dotProduct, Pi.star_apply, Complex.ofReal_sum]
    refine Finset.sum_congr rfl fun i _ => ?_
    rw [Complex.star_def, mul_comm, Complex.mul_conj, Complex.normSq_eq_norm_sq]
  have h1 : star (En *ᵥ x) ⬝ᵥ (En *ᵥ x) = star x ⬝ᵥ x := by
    rw [star_mulVec, ← dotProduct_mulVec, mulVec_mulVec, hE, one_mulVec]
  rw [h, h] at h1
  exact_mod_cast h1

/-- **C44** (the vector). For a noise subspace with orthonormal columns and a non-zero first row, the
Min-Norm vector lies in the noise subspace, has first entry 1, has the smallest norm among all such
vectors and is orthogonal to everything the noise subspace is orthogonal to. -/
theorem C44_min_norm_vector {d : ℕ} [NeZero m] (En : Matrix (Fin m) (Fin d) ℂ) (hE : Enᴴ * En = 1)
    (hc : ∃ j, En 0 j ≠ 0) :
    (∃ x, minNormVec En = En *ᵥ x) ∧ minNormVec En 0 = 1 ∧
    (∀ v, (∃ x, v = En *ᵥ x) → v 0 = 1 → ∑ i, ‖minNormVec En i‖ ^ 2 ≤ ∑ i, ‖v i‖ ^ 2) ∧
    ∀ a, Enᴴ *ᵥ a = 0 → minNormDenom En a = 0 := by
  set N : ℝ := ∑ l, ‖En 0 l‖ ^ 2 with hN
  have hpos : 0 < N := by
    obtain ⟨j, hj⟩ := hc
    refine Finset.sum_pos' (fun l _ => by positivity) ⟨j, Finset.mem_univ _, ?_⟩
    have := norm_pos_iff.2 hj
    positivity
  have hNc : (N : ℂ) ≠ 0 := Complex.ofReal_ne_zero.2 hpos.ne'
  refine ⟨⟨_, rfl⟩, ?_, ?_, ?_⟩
  · simp only [minNormVec, mulVec, dotProduct]
    rw [← hN]
    have : ∀ j, En 0 j * (star (En 0 j) / (N : ℂ)) = ((‖En 0 j‖ ^ 2 : ℝ) : ℂ) / N := by
      intro j
      rw [← mul_div_assoc, Complex.star_def, Complex.mul_conj, Complex.normSq_eq_norm_sq]
    rw [Finset.sum_congr rfl fun j _ => this j, ← Finset.sum_div, ← Complex.ofReal_sum, ← hN,
      div_self hNc]
  · rintro v ⟨x, rfl⟩ hv
    rw [normSq_mulVec hE x]
    have h1 : ∑ i, ‖minNormVec En i‖ ^ 2 = 1 / N := by
      unfold minNormVec
      rw [normSq_mulVec hE, ← hN]
      have : ∀ j, ‖star (En 0 j) / (N : ℂ)‖ ^ 2 = ‖En 0 j‖ ^ 2 / N ^ 2 := by
        intro j
        rw [norm_div, norm_star, div_pow, Complex.norm_real, Real.norm_eq_abs, sq_abs]
      rw [Finset.sum_congr rfl fun j _ => this j, ← Finset.sum_div, ← hN]
      field_simp
    rw [h1, div_le_iff₀ hpos]
    have h2 : ‖∑ j, En 0 j * x j‖ ^ 2 ≤ N * ∑ j, ‖x j‖ ^ 2 := by
      calc ‖∑ j, En 0 j * x j‖ ^ 2 ≤ (∑ j, ‖En 0 j‖ * ‖x j‖) ^ 2 := by
            have : ‖∑ j, En 0 j * x j‖ ≤ ∑ j, ‖En 0 j‖ * ‖x j‖ := by
              refine (norm_sum_le _ _).trans (le_of_eq ?_)
              simp
            exact pow_le_pow_left₀ (norm_nonneg _) this 2
        _ ≤ _ := Finset.sum_mul_sq_le_sq_mul_sq _ _ _
    have h3 : ∑ j, En 0 j * x j = 1 := hv
    rw [h3, norm_one, one_pow, mul_comm] at h2
    exact h2
  · intro a ha
    unfold minNormDenom minNormVec
    rw [star_mulVec, ← dotProduct_mulVec, ha]
    simp

/-- **C44** (spectrum). With the exact covariance the Min-Norm spectrum is infinite at every candidate
in the span of the true steering vectors, whenever the noise subspace has a non-zero first row. -/
theorem C44_min_norm_spectrum [NeZero m] (eigh : Eigh) {A : Matrix (Fin m) (Fin k) ℂ}
    {P : Matrix (Fin k) (Fin k) ℂ} {σ : ℝ} (hk : 1 ≤ k) (hA : Function.Injective A.mulVec)
    (hP : P.PosDef) (hc : ∃ j, getNoiseSubspace eigh (covModel A P σ) k 0 j ≠ 0)
    (atoms : List (Fin m → ℂ)) (j : ℕ) (a : Fin m → ℂ) (ha : atoms[j]? = some a)
    (hx : ∃ x, a = A *ᵥ x) :
    (fMinNorm (getNoiseSubspace eigh (covModel A P σ) k) atoms)[j]? = some ⊤ := by
  obtain ⟨_, h1, h2⟩ := C43_noise_subspace eigh (σ := σ) hk hA hP
  have h3 := (C44_min_norm_vector _ h1 hc).2.2.2 a ((h2 a).2 hx)
  simp [fMinNorm, ha, npRecip, h3]

/-- **C44** (ULA). For the exact covariance of `k < m` sources on a ULA the first row of the noise
subspace never vanishes, so the hypothesis of the two theorems above holds for every choice of
eigenvectors. -/
theorem C44_first_row_ula [NeZero m] (eigh : Eigh) {z : Fin k → ℂ} (hz : Function.Injective z)
    (hz0 : ∀ c, z c ≠ 0) {P : Matrix (Fin k) (Fin k) ℂ} {σ : ℝ} (hk : 1 ≤ k) (hkm : k < m)
    (hP : P.PosDef) : ∃ j, getNoiseSubspace eigh (covModel (ulaMat m z) P σ) k 0 j ≠ 0 := by
  by_contra hn
  push Not at hn
  obtain ⟨_, _, h⟩ := C43_noise_subspace eigh (σ := σ) hk (ulaMat_injective hz hkm.le) hP
  have h1 : (getNoiseSubspace eigh (covModel (ulaMat m z) P σ) k)ᴴ *ᵥ ulaVec m 0 = 0 := by
    funext j
    simp only [mulVec, dotProduct, conjTranspose_apply, Pi.zero_apply]
    refine Finset.sum_eq_zero fun i _ => ?_
    by_cases hi : i = 0
    · rw [hi, hn j]; simp
    · have : i.1 ≠ 0 := fun h0 => hi (Fin.ext (by simpa using h0))
      simp [ulaVec, this]
  obtain ⟨c, hc⟩ := (ulaVec_mem_span hz hkm 0).1 ((h _).1 h1)
  exact hz0 c hc.symm

example : ∃ (z : Fin 2 → ℂ), Function.Injective z ∧ (∀ c, z c ≠ 0) ∧
    ∃ j, getNoiseSubspace someEigh (covModel (ulaMat 3 z) 1 1) 2 0 j ≠ 0 := by
  have hz : Function.Injective (![1, Complex.I] : Fin 2 → ℂ) := by
    intro i j hij
    fin_cases i <;> fin_cases j <;> simp_all [Complex.ext_iff]
  have h0 : ∀ c, (![1, Complex.I] : Fin 2 → ℂ) c ≠ 0 := by intro c; fin_cases c <;> simp
  exact ⟨_, hz, h0, C44_first_row_ula someEigh hz h0 (by norm_num) (by norm_num) PosDef.one⟩

end Doa.Props
