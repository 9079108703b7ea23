import Verif.Model.Sparse
import Verif.Props.L1lsq
import Verif.Props.VirtualUla
import Verif.Props.Subspace

/-!
# Sparse covariance matching and group sparsity: C55, C67
-/

namespace Doa.Props

open Doa Doa.Spec Matrix

variable {m k : ℕ}

/-- `Σ_c x_c · column_c`. -/
def linComb {n : ℕ} (cols : List (Fin n → ℝ)) (xs : List ℝ) : Fin n → ℝ :=
  fun r => (List.zipWith (fun c x => c r * x) cols xs).sum

theorem linComb_append {n : ℕ} (c1 c2 : List (Fin n → ℝ)) (x1 x2 : List ℝ) (h : c1.length = x1.length) :
    linComb (c1 ++ c2) (x1 ++ x2) = linComb c1 x1 + linComb c2 x2 := by
  funext r
  simp only [linComb, Pi.add_apply]
  rw [List.zipWith_append h, List.sum_append]

theorem linComb_map {n : ℕ} {α : Type} (g : α → Fin n → ℝ) (l : List α) (x : Fin l.length → ℝ) (r : Fin n) :
    linComb (l.map g) (List.ofFn x) r = ∑ c, g (l.get c) r * x c := by
  unfold linComb
  rw [← List.sum_ofFn]
  congr 1
  apply List.ext_getElem
  · simp
  · intro i h1 h2
    simp

theorem linComb_ofFn {n K : ℕ} (cols : List (Fin n → ℝ)) (h : cols.length = K) (x : Fin K → ℝ) :
    (Matrix.of fun i (c : Fin K) => cols.get (Fin.cast h.symm c) i) *ᵥ x = linComb cols (List.ofFn x) := by
  subst h
  funext r
  have := linComb_map (fun c => c) cols x r
  rw [List.map_id'] at this
  rw [this]
  rfl

theorem solve_ofCols {M K n : ℕ} (p : L1Problem M K) (sv : CvxSolver (Fin K → ℝ)) (st : L1Params M K × sv.S)
    (cols : List (Fin M → ℝ)) (h : cols.length = K) (b : Fin n → ℝ) (l : ℝ) :
    p.solve sv st (ofCols cols) b l = p.solve sv st (Matrix.of fun i (c : Fin K) => cols.get (Fin.cast h.symm c) i) b l := by
  subst h
  rfl

/-- The columns of the atom matrix. -/
theorem scmAtoms_eq (nk : Bool) (cols : List (Fin m → ℂ)) :
    scmAtoms nk cols =
      (cols.map fun a => stackReIm fun r => star (a (finProdFinEquiv.symm r).1) * a (finProdFinEquiv.symm r).2) ++
      (if nk then [] else [stackReIm (vec (1 : Matrix (Fin m) (Fin m) ℂ))]) := by
  have h1 : ∀ n (f : Fin n → Fin (m * m) → ℂ), (List.ofFn f).map stackReIm = List.ofFn fun c => stackReIm (f c) := by
    intro n f; rw [List.map_ofFn]; rfl
  have h2 : (List.ofFn fun c : Fin cols.length => stackReIm ((Matrix.of fun (r : Fin (m * m)) (i : Fin cols.length) =>
        (ofCols cols).map star (finProdFinEquiv.symm r).1 i * ofCols cols (finProdFinEquiv.symm r).2 i).col c)) =
      cols.map fun a => stackReIm fun r => star (a (finProdFinEquiv.symm r).1) * a (finProdFinEquiv.symm r).2 := by
    apply List.ext_getElem
    · simp
    · intro i h1 h2
      simp [ofCols, Matrix.col]
      rfl
  unfold scmAtoms
  simp only [khatriRao_ok]
  cases nk
  · simp only [Bool.not_false, if_true, List.map_append, h1, h2]
    simp
  · simp only [Bool.not_true, Bool.false_eq_true, if_false, if_true, h1, h2]
    simp

theorem scmAtoms_length (nk : Bool) (cols : List (Fin m → ℂ)) :
    (scmAtoms nk cols).length = if !nk then cols.length + 1 else cols.length := by
  rw [scmAtoms_eq]
  cases nk <;> simp

theorem signal_part (cols : List (Fin m → ℂ)) (p : Fin cols.length → ℝ) :
    linComb (cols.map fun a => stackReIm fun r => star (a (finProdFinEquiv.symm r).1) * a (finProdFinEquiv.symm r).2)
      (List.ofFn p) = stackReIm (vec (modelCov (ofCols cols) p 0)) := by
  funext r
  rw [linComb_map]
  refine Fin.addCases (fun r => ?_) (fun r => ?_) r
  · simp only [stackReIm, Fin.append_left, vec, modelCov_apply, Complex.ofReal_zero, ite_self, add_zero, Complex.re_sum]
    refine Finset.sum_congr rfl fun c _ => ?_
    simp only [ofCols, Matrix.of_apply, Complex.star_def, Complex.mul_re, Complex.conj_re, Complex.conj_im, Complex.ofReal_re,
      Complex.ofReal_im, Complex.mul_im]
    ring
  · simp only [stackReIm, Fin.append_right, vec, modelCov_apply, Complex.ofReal_zero, ite_self, add_zero, Complex.im_sum]
    refine Finset.sum_congr rfl fun c _ => ?_
    simp only [ofCols, Matrix.of_apply, Complex.star_def, Complex.mul_re, Complex.conj_re, Complex.conj_im, Complex.ofReal_re,
      Complex.ofReal_im, Complex.mul_im]
    ring

/-- **C55** (covariance model). For every list of grid steering vectors, powers `p` and noise power `σ`,
the stacked real and imaginary parts of `vec(R)` for `R = A diag(p) A^H + σ I` are `Φ [p; σ]` if the noise
is unknown, and those of `vec(R - σ I)` are `Φ p` if it is known. -/
theorem C55_linear_model (cols : List (Fin m → ℂ)) (p : Fin cols.length → ℝ) (σ : ℝ) :
    stackReIm (vec (modelCov (ofCols cols) p σ)) = linComb (scmAtoms false cols) (List.ofFn p ++ [σ]) ∧
    ∃ R', subNoise (m := m) (modelCov (ofCols cols) p σ) σ = .ok R' ∧
      stackReIm (vec R') = linComb (scmAtoms true cols) (List.ofFn p) := by
  constructor
  · rw [scmAtoms_eq]
    simp only [Bool.false_eq_true, if_false]
    rw [linComb_append _ _ _ _ (by simp), signal_part]
    funext r
    refine Fin.addCases (fun r => ?_) (fun r => ?_) r
    · simp only [stackReIm, Pi.add_apply, Fin.append_left, vec, modelCov_apply, linComb, List.zipWith_cons_cons,
        List.zipWith_nil_left, List.sum_cons, List.sum_nil, Matrix.one_apply]
      split <;> simp
    · simp only [stackReIm, Pi.add_apply, Fin.append_right, vec, modelCov_apply, linComb, List.zipWith_cons_cons,
        List.zipWith_nil_left, List.sum_cons, List.sum_nil, Matrix.one_apply]
      split <;> simp
  · refine ⟨modelCov (ofCols cols) p σ - (σ : ℂ) • (1 : Matrix (Fin m) (Fin m) ℂ), ?_, ?_⟩
    · rw [subNoise, dif_pos ⟨rfl, rfl⟩]
      rfl
    · rw [scmAtoms_eq]
      simp only [if_true, List.append_nil]
      rw [signal_part]
      congr 2
      simp [modelCov]

/-! ### Exact recovery -/

/-- With a dictionary of linearly independent columns, consistent data `b = A x0`, `x0 ≥ 0`, and the
regularisation parameter at its exact-data value, `x0` is the only solution of each formulation. -/
theorem exact_solution {M K : ℕ} {A : Matrix (Fin M) (Fin K) ℝ} (hA : Function.Injective A.mulVec) {x0 : Fin K → ℝ}
    (h0 : ∀ i, 0 ≤ x0 i) {formulation : String} {l : ℝ}
    (hl : (formulation = "penalizedl1" ∧ l = 0) ∨ (formulation = "constrainedl2" ∧ l = 0) ∨
      (formulation = "constrainedl1" ∧ l = ∑ i, x0 i)) (y : Fin K → ℝ) :
    IsL1Solution formulation true A (A *ᵥ x0) l y ↔ y = x0 := by
  have habs : ∑ i, |x0 i| = ∑ i, x0 i := Finset.sum_congr rfl fun i _ => abs_of_nonneg (h0 i)
  have hz : ‖WithLp.toLp 2 (A *ᵥ x0 - A *ᵥ x0)‖ = 0 := by rw [sub_self]; simp
  have hinj : ∀ y, ‖WithLp.toLp 2 (A *ᵥ y - A *ᵥ x0)‖ = 0 → y = x0 := by
    intro y h
    rw [norm_eq_zero] at h
    apply hA
    have h1 := congrArg WithLp.ofLp h
    exact sub_eq_zero.1 h1
  have hf0 : L1Feasible formulation true A (A *ᵥ x0) l x0 := by
    refine ⟨fun h => ?_, fun h => ?_, fun _ => h0⟩
    · rcases hl with ⟨h', _⟩ | ⟨h', _⟩ | ⟨_, h'⟩
      · rw [h] at h'; exact absurd h' (by decide)
      · rw [h] at h'; exact absurd h' (by decide)
      · rw [habs, h']
    · rcases hl with ⟨h', _⟩ | ⟨_, h'⟩ | ⟨h', _⟩
      · rw [h] at h'; exact absurd h' (by decide)
      · rw [hz, h']
      · rw [h] at h'; exact absurd h' (by decide)
  rcases hl with ⟨rfl, rfl⟩ | ⟨rfl, rfl⟩ | ⟨rfl, rfl⟩
  · constructor
    · intro h
      apply hinj
      have := h.2 x0 hf0
      simp only [L1Value, if_true, hz, zero_mul, add_zero] at this
      have h2 := sq_nonneg ‖WithLp.toLp 2 (A *ᵥ y - A *ᵥ x0)‖
      have h3 : ‖WithLp.toLp 2 (A *ᵥ y - A *ᵥ x0)‖ ^ 2 = 0 := by nlinarith
      exact pow_eq_zero_iff (by norm_num) |>.1 h3
    · rintro rfl
      refine ⟨hf0, fun z _ => ?_⟩
      simp only [L1Value, if_true, hz, zero_mul, add_zero]
      nlinarith [sq_nonneg ‖WithLp.toLp 2 (A *ᵥ z - A *ᵥ y)‖]
  · constructor
    · intro h
      exact hinj y (le_antisymm (h.1.2.1 rfl) (norm_nonneg _))
    · rintro rfl
      refine ⟨hf0, fun z hzf => ?_⟩
      rw [hinj z (le_antisymm (hzf.2.1 rfl) (norm_nonneg _))]
  · constructor
    · intro h
      apply hinj
      have := h.2 x0 hf0
      simp only [L1Value, String.reduceEq, if_false, if_true, hz] at this
      have h2 := sq_nonneg ‖WithLp.toLp 2 (A *ᵥ y - A *ᵥ x0)‖
      have h3 : ‖WithLp.toLp 2 (A *ᵥ y - A *ᵥ x0)‖ ^ 2 = 0 := by nlinarith
      exact pow_eq_zero_iff (by norm_num) |>.1 h3
    · rintro rfl
      refine ⟨hf0, fun z _ => ?_⟩
      simp only [L1Value, String.reduceEq, if_false, if_true, hz]
      nlinarith [sq_nonneg ‖WithLp.toLp 2 (A *ᵥ z - A *ᵥ y)‖]

/-- A nonnegative spectrum supported on well separated interior points has exactly these peaks. -/
theorem support_peaks {n k : ℕ} (sp : List ℝ) (hlen : sp.length = n) (idx : Fin k → ℕ)
    (hsep : ∀ c e, c < e → idx c + 1 < idx e) (h1 : ∀ c, 1 ≤ idx c) (h2 : ∀ c, idx c + 1 < n)
    (hpos : ∀ c v, sp[idx c]? = some v → 0 < v) (hzero : ∀ j v, (∀ c, j ≠ idx c) → sp[j]? = some v → v = 0) :
    k ≤ (findPeaksSimple [n] sp).length ∧
    ∀ flat, IsTopPeaks [n] sp (findPeaksSimple [n] sp) k flat → flat = List.ofFn idx := by
  classical
  have hmono : StrictMono idx := fun c e h => by have := hsep c e h; omega
  have hnb : ∀ c (j : ℕ) v, (j + 1 = idx c ∨ j = idx c + 1) → sp[j]? = some v → v = 0 := by
    intro c j v hj hv
    refine hzero j v (fun e he => ?_) hv
    rcases lt_trichotomy c e with h | h | h
    · have := hsep c e h; omega
    · subst h; omega
    · have := hsep e c h; omega
  have hpk : ∀ c, [idx c] ∈ findPeaksSimple [n] sp := by
    intro c
    have hb := h1 c
    have hc := h2 c
    have hv : sp[idx c]? = some sp[idx c] := List.getElem?_eq_getElem (by omega)
    simp only [findPeaksSimple, List.length_cons, List.length_nil, zero_add, if_true, findPeaks1,
      List.mem_map, List.mem_filter, List.mem_range, decide_eq_true_eq]
    refine ⟨idx c, ⟨by omega, idx c, idx c, ⟨hb, le_rfl, by omega, sp[idx c], ?_, ?_, ?_⟩, by omega⟩, rfl⟩
    · intro i hi hle hge
      have : i = idx c := by omega
      rw [this, hv]
    · intro w hw
      rw [hnb c (idx c - 1) w (Or.inl (by omega)) hw]
      exact hpos c _ hv
    · intro w hw
      rw [hnb c (idx c + 1) w (Or.inr rfl) hw]
      exact hpos c _ hv
  have hnd : (List.ofFn fun c => [idx c]).Nodup := by
    rw [List.nodup_ofFn]
    intro c e h
    exact hmono.injective (by simpa using h)
  refine ⟨?_, fun flat hflat => ?_⟩
  · have hs : (List.ofFn fun c => [idx c]).Subperm (findPeaksSimple [n] sp) := by
      refine List.subperm_of_subset hnd ?_
      intro i hi
      obtain ⟨c, rfl⟩ := List.mem_ofFn.1 hi
      exact hpk c
    have := hs.length_le
    simpa using this
  · have hmem : ∀ i ∈ flat, ∃ c, i = idx c := by
      intro i hi
      obtain ⟨c, hc, hr⟩ := hflat.peak i hi
      obtain ⟨t, l, r, rfl, hlt, hlr, -, vl, vm, vr, e1, e2, e3, hv1, -⟩ := C37_peaks_1d_interior n sp c hc
      obtain ⟨hvc, rfl⟩ := ravelMultiIndex_ok hr
      have ht : ravelIdx [n] [t] = t := by simp [ravelIdx]
      rw [ht]
      by_contra hn
      push Not at hn
      have hm0 : vm = 0 := hzero t vm hn e2
      have hl0 : 0 ≤ vl := by
        by_cases hc : ∃ c, l = idx c
        · obtain ⟨c, rfl⟩ := hc
          exact (hpos c vl e1).le
        · push Not at hc
          rw [hzero l vl hc e1]
      linarith
    have hofn : (List.ofFn idx).Pairwise (· < ·) := by
      rw [List.pairwise_ofFn]
      exact fun i j h => hmono h
    have hndf : flat.Nodup := hflat.increasing.imp fun h => ne_of_lt h
    have hs : flat.Subperm (List.ofFn idx) := List.subperm_of_subset hndf (by
      intro i hi
      obtain ⟨c, rfl⟩ := hmem i hi
      exact List.mem_ofFn.2 ⟨c, rfl⟩)
    have hperm := hs.perm_of_length_le (by rw [hflat.length]; simp)
    exact hperm.eq_of_pairwise (fun a b _ _ h h' => absurd h' (by omega)) hflat.increasing hofn

/-- The estimates returned for a spectrum supported on the sources. -/
theorem estimate_support {Atom : Type} (cfg : EstCfg ℝ Atom)
    {x : List ℝ} {names : List String} {u : String}
    (hg : cfg.grid = ⟨.ff1, [⟨x, false⟩], names, [u]⟩) (hu : Unit1D u) (hx : ∀ v ∈ x, InRange1D u v)
    (hpf : cfg.peakFinder = findPeaksSimple) (hsort : IsArgsort cfg.argsort)
    (idx : Fin k → ℕ) (hsep : ∀ c e, c < e → idx c + 1 < idx e) (h1 : ∀ c, 1 ≤ idx c)
    (h2 : ∀ c, idx c + 1 < x.length) (hk : 1 ≤ k) (sp : List ℝ) (hlen : sp.length = x.length)
    (hpos : ∀ c v, sp[idx c]? = some v → 0 < v) (hzero : ∀ j v, (∀ c, j ≠ idx c) → sp[j]? = some v → v = 0)
    (ops : List (EstOp ℝ Atom)) :
    ∃ o st', cfg.estimate (cfg.run ops).1 ⟨fun _ => sp, k, false, 10, 3⟩ = (.ok o, st') ∧
      o.observe st' = (true, some (some (List.ofFn fun c => [x.getD (idx c) 0], u)), sp) := by
  have hvalid : ValidGrid cfg.grid := Or.inl ⟨x, names, u, hg, hu, hx⟩
  obtain ⟨rows, hr1, hr2⟩ := C37_largest_peaks cfg hvalid hsort ops ⟨fun _ => sp, k, false, 10, 3⟩ hk rfl
  have hsh : cfg.grid.shape = [x.length] := by rw [hg]; rfl
  have hlen' : sp.length = cfg.grid.shape.prod := by rw [hlen, hsh]; simp
  obtain ⟨hd1, hd2⟩ := C37_default_peak_finder cfg.grid.shape sp hlen'
  obtain ⟨-, ht⟩ := hr2 sp rfl hlen' (by rw [hpf]; exact hd1) (by rw [hpf]; exact hd2)
  obtain ⟨s1, s2⟩ := support_peaks sp hlen idx hsep h1 h2 hpos hzero
  obtain ⟨flat, hflat, hobs⟩ := ht (by rw [hpf, hsh]; exact s1)
  rw [hpf, hsh] at hflat
  have hfl := s2 flat hflat
  unfold EstCfg.observe at hobs
  cases hest : cfg.estimate (cfg.run ops).1 ⟨fun _ => sp, k, false, 10, 3⟩ with
  | mk r st' =>
    rw [hest] at hobs
    cases r with
    | error e => simp at hobs
    | ok o =>
      simp only [Except.ok.injEq] at hobs
      refine ⟨o, st', rfl, ?_⟩
      rw [hobs, hfl, hg]
      simp only [SearchGrid.shape, List.map_cons, List.map_nil, List.map_ofFn, Function.comp_def]
      congr 5
      refine congrArg List.ofFn (funext fun c => ?_)
      have hidx : idx c < x.length := by have := h2 c; omega
      have : unravelIdx [x.length] (idx c) = [idx c] := by
        simp [unravelIdx, Nat.mod_eq_of_lt hidx]
      rw [this]
      simp [gridPoint]

/-- Powers of the sources as powers of grid points. -/
noncomputable def gridPowers (idx : Fin k → ℕ) (pw : Fin k → ℝ) (n : ℕ) : Fin n → ℝ :=
  fun j => ∑ c, if idx c = j.1 then pw c else 0

theorem gridPowers_at {idx : Fin k → ℕ} (hinj : Function.Injective idx) (pw : Fin k → ℝ) {n : ℕ} (c : Fin k)
    (h : idx c < n) : gridPowers idx pw n ⟨idx c, h⟩ = pw c := by
  unfold gridPowers
  rw [Finset.sum_eq_single c]
  · simp
  · intro e _ he
    rw [if_neg]
    exact fun h' => he (hinj h')
  · simp

theorem gridPowers_zero {idx : Fin k → ℕ} (pw : Fin k → ℝ) {n : ℕ} (j : Fin n) (h : ∀ c, j.1 ≠ idx c) :
    gridPowers idx pw n j = 0 := by
  unfold gridPowers
  refine Finset.sum_eq_zero fun c _ => ?_
  rw [if_neg]
  exact fun h' => h c h'.symm

theorem gridPowers_sum (idx : Fin k → ℕ) (pw : Fin k → ℝ) {n : ℕ} (h : ∀ c, idx c < n) (f : Fin n → ℂ) :
    ∑ j, f j * (gridPowers idx pw n j : ℂ) = ∑ c, f ⟨idx c, h c⟩ * (pw c : ℂ) := by
  unfold gridPowers
  push_cast
  simp only [Finset.mul_sum]
  rw [Finset.sum_comm]
  refine Finset.sum_congr rfl fun c _ => ?_
  rw [Finset.sum_eq_single ⟨idx c, h c⟩]
  · simp
  · intro j _ hj
    rw [if_neg, Complex.ofReal_zero, mul_zero]
    intro h'
    exact hj (Fin.ext h'.symm)
  · simp

/-- **C55** (exact recovery). Sparse covariance matching on a 1-D far-field grid, with the exact
covariance of `k` uncorrelated sources sitting on interior, pairwise non-adjacent grid points, an atom
matrix with linearly independent columns, the regularisation parameter at its exact-data value and a solver
that does not fail on solvable problems: the call returns exactly the sources, and the spectrum consists of
the source powers; for any history of the estimator, any state of the problem object and of the solver.
`s x` is the steering vector of location `x`. -/
theorem C55_recovers (cfg : EstCfg ℝ (List (Fin (m * m + m * m) → ℝ)))
    {x : List ℝ} {names : List String} {u : String}
    (hg : cfg.grid = ⟨.ff1, [⟨x, false⟩], names, [u]⟩) (hu : Unit1D u) (hx : ∀ v ∈ x, InRange1D u v)
    (hpf : cfg.peakFinder = findPeaksSimple) (hsort : IsArgsort cfg.argsort)
    (s : ℝ → Fin m → ℂ) (nk : Bool)
    (hcomp : ∀ rows, (∀ r ∈ rows, InRange1D u (r.headD 0)) →
      cfg.compute rows = scmAtoms nk (rows.map fun r => s (r.headD 0)))
    (hinj : ∀ xs ys : List ℝ, xs.length = (scmAtoms nk (x.map s)).length → ys.length = (scmAtoms nk (x.map s)).length →
      linComb (scmAtoms nk (x.map s)) xs = linComb (scmAtoms nk (x.map s)) ys → xs = ys)
    (idx : Fin k → ℕ) (hsep : ∀ c e, c < e → idx c + 1 < idx e) (h1 : ∀ c, 1 ≤ idx c)
    (h2 : ∀ c, idx c + 1 < x.length) (hk : 1 ≤ k)
    (pw : Fin k → ℝ) (hpw : ∀ c, 0 < pw c) (σ : ℝ) (hσ : 0 ≤ σ) {formulation : String} {l : ℝ}
    (hl : (formulation = "penalizedl1" ∧ l = 0) ∨ (formulation = "constrainedl2" ∧ l = 0) ∨
      (formulation = "constrainedl1" ∧ l = ∑ c, pw c + if nk then 0 else σ))
    {p : L1Problem (m * m + m * m) (if !nk then x.length + 1 else x.length)}
    (hp : scmInit m x.length true nk formulation = .ok p)
    (sv : CvxSolver (Fin (if !nk then x.length + 1 else x.length) → ℝ)) (hsv : sv.Complete)
    (ops : List (EstOp ℝ (List (Fin (m * m + m * m) → ℝ))))
    (ps : L1Params (m * m + m * m) (if !nk then x.length + 1 else x.length) × sv.S) :
    ∃ o st' ps', scmEstimate cfg p sv nk (cfg.run ops).1 ps
        (modelCov (Matrix.of fun i c => s (x.getD (idx c) 0) i) pw σ) k l (if nk then some σ else none) false =
        (.ok o, st', ps') ∧
      ∃ sp, o.observe st' = (true, some (some (List.ofFn fun c => [x.getD (idx c) 0], u)), sp) ∧
        sp.length = x.length ∧ (∀ c, sp[idx c]? = some (pw c)) ∧ ∀ j v, (∀ c, j ≠ idx c) → sp[j]? = some v → v = 0 := by
  have hmono : StrictMono idx := fun c e h => by have := hsep c e h; omega
  have hlt : ∀ c, idx c < x.length := fun c => by have := h2 c; omega
  have hxl : (x.map s).length = x.length := List.length_map _
  -- the covariance in terms of the grid
  let pg : Fin (x.map s).length → ℝ := gridPowers idx pw (x.map s).length
  have hR : modelCov (Matrix.of fun i c => s (x.getD (idx c) 0) i) pw σ = modelCov (ofCols (x.map s)) pg σ := by
    ext i j
    rw [modelCov_apply, modelCov_apply]
    congr 1
    have := gridPowers_sum idx pw (n := (x.map s).length) (fun c => by rw [hxl]; exact hlt c)
      (fun c => ofCols (x.map s) i c * star (ofCols (x.map s) j c))
    calc _ = ∑ c, (ofCols (x.map s) i ⟨idx c, by rw [hxl]; exact hlt c⟩ *
            star (ofCols (x.map s) j ⟨idx c, by rw [hxl]; exact hlt c⟩)) * (pw c : ℂ) := by
          refine Finset.sum_congr rfl fun c _ => ?_
          have he : ∀ i, ofCols (x.map s) i ⟨idx c, by rw [hxl]; exact hlt c⟩ = s (x.getD (idx c) 0) i := by
            intro i
            simp [ofCols, List.getD_eq_getElem?_getD, List.getElem?_eq_getElem (hlt c)]
          rw [he, he, Matrix.of_apply, Matrix.of_apply]
          ring
      _ = _ := by
          rw [← this]
          refine Finset.sum_congr rfl fun c _ => ?_
          ring
  have hpg0 : ∀ j, 0 ≤ pg j := by
    intro j
    refine Finset.sum_nonneg fun c _ => ?_
    split
    · exact (hpw c).le
    · exact le_rfl
  have hpgs : ∑ j, pg j = ∑ c, pw c := by
    have := gridPowers_sum idx pw (n := (x.map s).length) (fun c => by rw [hxl]; exact hlt c) (fun _ => 1)
    simp only [one_mul] at this
    have h' : ((∑ j, pg j : ℝ) : ℂ) = ((∑ c, pw c : ℝ) : ℂ) := by push_cast; exact this
    exact Complex.ofReal_injective h'
  -- the solution vector
  let xs : List ℝ := if nk then List.ofFn pg else List.ofFn pg ++ [σ]
  have hxs : xs.length = if !nk then x.length + 1 else x.length := by
    simp only [xs]; cases nk <;> simp
  have hΦ : (scmAtoms nk (x.map s)).length = if !nk then x.length + 1 else x.length := by
    rw [scmAtoms_length, hxl]
  have hxs0 : ∀ v ∈ xs, 0 ≤ v := by
    intro v hv
    have h' : ∀ v ∈ List.ofFn pg, 0 ≤ v := by
      intro v hv
      obtain ⟨j, rfl⟩ := List.mem_ofFn.1 hv
      exact hpg0 j
    simp only [xs] at hv
    cases nk
    · simp only [Bool.false_eq_true, if_false, List.mem_append, List.mem_singleton] at hv
      rcases hv with hv | rfl
      · exact h' v hv
      · exact hσ
    · exact h' v (by simpa using hv)
  have hxss : xs.sum = ∑ c, pw c + if nk then 0 else σ := by
    simp only [xs]
    cases nk
    · simp only [Bool.false_eq_true, if_false, List.sum_append, List.sum_ofFn, hpgs]; simp
    · simp only [if_true, List.sum_ofFn, hpgs]; simp
  let x0 : Fin (if !nk then x.length + 1 else x.length) → ℝ := fun i => xs.get (Fin.cast hxs.symm i)
  have hx0 : List.ofFn x0 = xs := by
    apply List.ext_getElem
    · simp [hxs]
    · intro i h3 h4; simp [x0]
  set A : Matrix (Fin (m * m + m * m)) (Fin (if !nk then x.length + 1 else x.length)) ℝ :=
    Matrix.of fun i c => (scmAtoms nk (x.map s)).get (Fin.cast hΦ.symm c) i with hA
  have hAl : ∀ y, A *ᵥ y = linComb (scmAtoms nk (x.map s)) (List.ofFn y) := fun y => linComb_ofFn _ hΦ y
  have hAinj : Function.Injective A.mulVec := by
    intro y z hyz
    rw [hAl, hAl] at hyz
    exact List.ofFn_injective (hinj _ _ (by simp [hΦ]) (by simp [hΦ]) hyz)
  have hsol := exact_solution hAinj (x0 := x0) (fun i => hxs0 _ (List.get_mem _ _)) (formulation := formulation) (l := l) (by
    have hsum : ∑ i, x0 i = ∑ c, pw c + if nk then 0 else σ := by rw [← List.sum_ofFn, hx0, hxss]
    rw [hsum]
    exact hl)
  have hl0 : 0 ≤ l := by
    rcases hl with ⟨_, rfl⟩ | ⟨_, rfl⟩ | ⟨_, rfl⟩
    · exact le_rfl
    · exact le_rfl
    · have : 0 ≤ ∑ c, pw c := Finset.sum_nonneg fun c _ => (hpw c).le
      split <;> linarith
  -- the call of the solver
  have hcall : ∀ (b : Fin (m * m + m * m) → ℝ), b = A *ᵥ x0 →
      ∃ ps', p.solve sv ps (ofCols (scmAtoms nk (x.map s))) b l = (.ok x0, ps') := by
    intro b hb
    rw [solve_ofCols p sv ps _ hΦ b l, hb]
    obtain ⟨f, cs, f1, f2, f3⟩ := solve_any_state hp A (A *ᵥ x0) l hl0
    obtain ⟨g1, g2⟩ := (hsol x0).2 rfl
    obtain ⟨y, s1, e1⟩ := hsv ps.2 f cs ⟨x0, (f2 x0).2 g1, fun y hy => by
      rw [f1, f1]; exact g2 y ((f2 y).1 hy)⟩
    obtain ⟨e2, e3⟩ := (f3 sv ps).2.2 y s1 e1
    rw [(hsol y).1 e3] at e2
    exact ⟨_, Prod.ext e2 rfl⟩
  -- the spectrum
  have hspec : ∀ (R' : Matrix (Fin m) (Fin m) ℂ), stackReIm (vec R') = A *ᵥ x0 →
      ∃ ps', scmSpectrum p sv ps nk (scmAtoms nk (x.map s)) R' l = (.ok (List.ofFn pg), ps') := by
    intro R' hR'
    obtain ⟨ps', e⟩ := hcall _ hR'
    refine ⟨ps', ?_⟩
    simp only [scmSpectrum, e, hx0]
    simp only [xs]
    cases nk <;> simp
  have hvalid : ValidGrid cfg.grid := Or.inl ⟨x, names, u, hg, hu, hx⟩
  obtain ⟨st1, ha1, -, -⟩ := (cfg.inv_run ops).atomMatrix_ok (rows_1d hg hu hx)
  have hcr : cfg.compute (x.map fun v => [v]) = scmAtoms nk (x.map s) := by
    rw [hcomp _ (by
      intro r hr
      obtain ⟨v, hv, rfl⟩ := List.mem_map.1 hr
      exact hx v hv)]
    simp [List.map_map, Function.comp_def]
  rw [hcr] at ha1
  have hpgl : (List.ofFn pg).length = x.length := by simp
  have hat : ∀ c, (List.ofFn pg)[idx c]? = some (pw c) := by
    intro c
    rw [List.getElem?_eq_getElem (by rw [hpgl]; exact hlt c), List.getElem_ofFn]
    exact congrArg some (gridPowers_at hmono.injective pw c (by rw [hxl]; exact hlt c))
  have hzero : ∀ j v, (∀ c, j ≠ idx c) → (List.ofFn pg)[j]? = some v → v = 0 := by
    intro j v hj hv
    obtain ⟨hj', rfl⟩ := List.getElem?_eq_some_iff.1 hv
    rw [List.getElem_ofFn]
    exact gridPowers_zero pw _ hj
  obtain ⟨o, st', he, hobs⟩ := estimate_support cfg hg hu hx hpf hsort idx hsep h1 h2 hk (List.ofFn pg) hpgl
    (fun c v hv => by rw [hat c] at hv; exact Option.some.inj hv ▸ hpw c) hzero ops
  have hcov : ensureCovarianceSize [m, m] m = .ok () := by simp [ensureCovarianceSize]
  obtain ⟨lm1, R', lm2, lm3⟩ := C55_linear_model (x.map s) pg σ
  rw [hR]
  cases nk
  · obtain ⟨ps', hs'⟩ := hspec (modelCov (ofCols (x.map s)) pg σ) (by rw [hAl, hx0]; exact lm1)
    refine ⟨o, st', ps', ?_, List.ofFn pg, hobs, hpgl, hat, hzero⟩
    simp only [scmEstimate, hcov, ha1, Bool.false_eq_true, if_false]
    simp only [hs', he]
  · obtain ⟨ps', hs'⟩ := hspec R' (by rw [hAl, hx0]; exact lm3)
    refine ⟨o, st', ps', ?_, List.ofFn pg, hobs, hpgl, hat, hzero⟩
    simp only [scmEstimate, hcov, ha1, Bool.false_eq_true, if_false, if_true, lm2]
    simp only [hs', he]

/-- **C55** (identifiability on a ULA). For grid steering vectors `[1, z, z², ...]` with distinct nonzero
`z` the atom matrix has linearly independent columns if the grid has at most `m - 1` points (unknown noise)
or `m` points (known noise). -/
theorem C55_ula_identifiable {zs : List ℂ} (hnd : zs.Nodup) (hz : ∀ z ∈ zs, z ≠ 0) (nk : Bool)
    (hm : zs.length + (if nk then 0 else 1) ≤ m) (hm0 : 0 < m) (xs ys : List ℝ)
    (hxs : xs.length = (scmAtoms nk (zs.map (ulaVec m))).length)
    (hys : ys.length = (scmAtoms nk (zs.map (ulaVec m))).length)
    (h : linComb (scmAtoms nk (zs.map (ulaVec m))) xs = linComb (scmAtoms nk (zs.map (ulaVec m))) ys) : xs = ys := by
  have hl : (scmAtoms nk (zs.map (ulaVec m))).length = zs.length + (if nk then 0 else 1) := by
    rw [scmAtoms_length]; cases nk <;> simp
  rw [hl] at hxs hys
  -- split off the noise coefficient
  have split : ∀ ws : List ℝ, ws.length = zs.length + (if nk then 0 else 1) →
      ∃ (p : Fin (zs.map (ulaVec m)).length → ℝ) (t : ℝ), ws = List.ofFn p ++ (if nk then [] else [t]) ∧ (nk = true → t = 0) := by
    intro ws hws
    have hlen : (zs.map (ulaVec m)).length = zs.length := by simp
    cases nk
    · simp only [Bool.false_eq_true, if_false] at hws ⊢
      refine ⟨fun i => ws[i.1]'(by have := i.2; omega), ws[zs.length]'(by omega), ?_, by simp⟩
      apply List.ext_getElem
      · simp [hws]
      · intro i h1 h2
        by_cases hi : i < zs.length
        · rw [List.getElem_append_left (by simpa using hi)]; simp
        · have : i = zs.length := by omega
          subst this
          rw [List.getElem_append_right (by simp)]; simp
    · simp only [if_true, add_zero] at hws ⊢
      refine ⟨fun i => ws[i.1]'(by have := i.2; omega), 0, ?_, fun _ => rfl⟩
      apply List.ext_getElem
      · simp [hws]
      · intro i h1 h2; simp
  obtain ⟨p, t, rfl, ht⟩ := split xs hxs
  obtain ⟨q, w, rfl, hw⟩ := split ys hys
  -- in terms of covariance matrices
  have key : stackReIm (vec (modelCov (ofCols (zs.map (ulaVec m))) p t)) =
      stackReIm (vec (modelCov (ofCols (zs.map (ulaVec m))) q w)) := by
    cases nk
    · rw [(C55_linear_model _ p t).1, (C55_linear_model _ q w).1]
      simpa using h
    · rw [ht rfl, hw rfl]
      rw [scmAtoms_eq] at h
      simp only [if_true, List.append_nil] at h
      rw [← signal_part, ← signal_part]
      exact h
  have hcov : ∀ i : Fin m, modelCov (ofCols (zs.map (ulaVec m))) p t i ⟨0, hm0⟩ =
      modelCov (ofCols (zs.map (ulaVec m))) q w i ⟨0, hm0⟩ := by
    intro i
    have e1 := congrFun key (Fin.castAdd _ (finProdFinEquiv ((⟨0, hm0⟩ : Fin m), i)))
    have e2 := congrFun key (Fin.natAdd _ (finProdFinEquiv ((⟨0, hm0⟩ : Fin m), i)))
    simp only [stackReIm, Fin.append_left, Fin.append_right, vec, Equiv.symm_apply_apply] at e1 e2
    exact Complex.ext e1 e2
  have heq : ∀ i : Fin m, ∑ c, (zs.get (Fin.cast (by simp) c)) ^ i.1 * ((p c : ℂ) - (q c : ℂ)) +
      (if i.1 = 0 then (t : ℂ) - (w : ℂ) else 0) = 0 := by
    intro i
    have := hcov i
    rw [modelCov_apply, modelCov_apply] at this
    have hi : (i = (⟨0, hm0⟩ : Fin m)) = (i.1 = 0) := by rw [Fin.ext_iff]
    simp only [hi] at this
    have hval : ∀ c (j : Fin m), ofCols (zs.map (ulaVec m)) j c = (zs.get (Fin.cast (by simp) c)) ^ j.1 := by
      intro c j; simp [ofCols, ulaVec]
    simp only [hval, pow_zero, star_one, mul_one] at this
    simp only [mul_sub, Finset.sum_sub_distrib]
    by_cases hc : i.1 = 0
    · rw [if_pos hc, if_pos hc] at this
      rw [if_pos hc]
      linear_combination this
    · rw [if_neg hc, if_neg hc] at this
      rw [if_neg hc]
      linear_combination this
  have hzinj : Function.Injective fun c : Fin (zs.map (ulaVec m)).length => zs.get (Fin.cast (by simp) c) := by
    intro a b hab
    have := List.nodup_iff_injective_get.1 hnd hab
    exact Fin.cast_injective _ this
  have hd : ∀ c, p c = q c := by
    by_cases hnk : nk = true
    · have ht0 := ht hnk
      have hw0 := hw hnk
      have hinj := ulaMat_injective (m := m) hzinj (by simp only [hnk, if_true, add_zero] at hm; simpa using hm)
      have : (fun c => (p c : ℂ) - (q c : ℂ)) = 0 := by
        apply hinj
        rw [mulVec_zero]
        funext i
        have := heq i
        rw [ht0, hw0] at this
        simpa [mulVec, dotProduct, ulaMat] using this
      intro c
      have := congrFun this c
      exact Complex.ofReal_injective (sub_eq_zero.1 this)
    · have hinj := ulaMat_injective (m := m - 1) hzinj (by
        have : nk = false := by simpa using hnk
        simp only [this, Bool.false_eq_true, if_false] at hm
        simp only [List.length_map]
        omega)
      have : (fun c => zs.get (Fin.cast (by simp) c) * ((p c : ℂ) - (q c : ℂ))) = 0 := by
        apply hinj
        rw [mulVec_zero]
        funext i
        have := heq ⟨i.1 + 1, by omega⟩
        simp only [Nat.add_eq_zero_iff, one_ne_zero, and_false, if_false, add_zero] at this
        simp only [mulVec, dotProduct, ulaMat, Pi.zero_apply]
        rw [← this]
        refine Finset.sum_congr rfl fun c _ => ?_
        ring
      intro c
      have := congrFun this c
      simp only [Pi.zero_apply, mul_eq_zero] at this
      rcases this with h' | h'
      · exact absurd h' (hz _ (List.get_mem _ _))
      · exact Complex.ofReal_injective (sub_eq_zero.1 h')
  have hpq : p = q := funext hd
  have htw : t = w := by
    have := heq ⟨0, hm0⟩
    simp only [hd, sub_self, mul_zero, Finset.sum_const_zero, zero_add, if_true] at this
    exact Complex.ofReal_injective (sub_eq_zero.1 this)
  rw [hpq, htw]

/-- **C55** (arguments). `estimate` raises `ValueError` without touching any state if
`'refine_estimates'` is passed at all, if the covariance has the wrong number of rows, or if the noise is
known and `sigma` is missing. The covariance matrix of the caller is never written to (it is an argument
of the model, not part of its state). -/
theorem C55_guards {K r c : ℕ} (cfg : EstCfg ℝ (List (Fin (m * m + m * m) → ℝ)))
    (p : L1Problem (m * m + m * m) K) (sv : CvxSolver (Fin K → ℝ)) (nk : Bool)
    (st : EstState (List (Fin (m * m + m * m) → ℝ))) (ps : L1Params (m * m + m * m) K × sv.S)
    (R : Matrix (Fin r) (Fin c) ℂ) (k : ℕ) (l : ℝ) (sigma : Option ℝ) (refineGiven : Bool)
    (h : refineGiven = true ∨ r ≠ m ∨ (nk = true ∧ sigma = none)) :
    scmEstimate cfg p sv nk st ps R k l sigma refineGiven = (.error .valueError, st, ps) := by
  unfold scmEstimate
  by_cases h1 : refineGiven = true
  · rw [if_pos h1]
  · rw [if_neg h1]
    by_cases h2 : r = m
    · have h3 : nk = true ∧ sigma = none := by
        rcases h with h | h | h
        · exact absurd h h1
        · exact absurd h2 h
        · exact h
      have hcov : ensureCovarianceSize [r, c] m = .ok () := by simp [ensureCovarianceSize, h2]
      simp [hcov, h3.1, h3.2]
    · have hcov : ensureCovarianceSize [r, c] m = .error .valueError := by simp [ensureCovarianceSize, h2]
      simp [hcov]

/-- **C42** is violated by sparse covariance matching too (known noise): a single column passed in place of a covariance matrix is not
refused but broadcast, and used as if all columns of the matrix were that column. -/
theorem C42_sparse_column {K : ℕ} (cfg : EstCfg ℝ (List (Fin (m * m + m * m) → ℝ)))
    (p : L1Problem (m * m + m * m) K) (sv : CvxSolver (Fin K → ℝ))
    (st : EstState (List (Fin (m * m + m * m) → ℝ))) (ps : L1Params (m * m + m * m) K × sv.S)
    (R : Matrix (Fin m) (Fin 1) ℂ) (k : ℕ) (l : ℝ) (sigma : Option ℝ) (refineGiven : Bool) :
    scmEstimate cfg p sv true st ps R k l sigma refineGiven =
      scmEstimate cfg p sv true st ps (Matrix.of fun (i _ : Fin m) => R i 0) k l sigma refineGiven := by
  have hc : ∀ c, ensureCovarianceSize [m, c] m = .ok () := fun c => by simp [ensureCovarianceSize]
  have hsub : ∀ sg, subNoise (m := m) R sg = subNoise (m := m) (Matrix.of fun (i _ : Fin m) => R i 0) sg := by
    intro sg
    rw [show subNoise (m := m) (Matrix.of fun (i _ : Fin m) => R i 0) sg =
      .ok ((Matrix.of fun (i _ : Fin m) => R i 0) - (sg : ℂ) • (1 : Matrix (Fin m) (Fin m) ℂ)) from dif_pos ⟨rfl, rfl⟩]
    by_cases h1 : m = 1
    · subst h1
      rw [show subNoise (m := 1) R sg = .ok (R - (sg : ℂ) • (1 : Matrix (Fin 1) (Fin 1) ℂ)) from dif_pos ⟨rfl, rfl⟩]
      congr 2
      ext i j
      rw [Matrix.of_apply, Subsingleton.elim j 0]
    · unfold subNoise
      rw [dif_neg (by rintro ⟨-, h⟩; exact h1 h.symm), dif_pos ⟨rfl, rfl⟩]
      rfl
  unfold scmEstimate
  simp only [hc, hsub, if_true]

/-- **C42** (sparse covariance matching, known noise): matrices with the right number of rows but neither one column nor as many columns as the
array has elements raise `ValueError` without touching any state. -/
theorem C42_sparse_shape {K c : ℕ} (cfg : EstCfg ℝ (List (Fin (m * m + m * m) → ℝ)))
    (p : L1Problem (m * m + m * m) K) (sv : CvxSolver (Fin K → ℝ))
    (st : EstState (List (Fin (m * m + m * m) → ℝ))) (ps : L1Params (m * m + m * m) K × sv.S)
    (R : Matrix (Fin m) (Fin c) ℂ) (k : ℕ) (l : ℝ) (sigma : Option ℝ) (refineGiven : Bool) (h1 : c ≠ 1) (hm : c ≠ m) :
    scmEstimate cfg p sv true st ps R k l sigma refineGiven = (.error .valueError, st, ps) := by
  have hc : ensureCovarianceSize [m, c] m = .ok () := by simp [ensureCovarianceSize]
  have hsub : ∀ sg, subNoise (m := m) R sg = .error .valueError := by
    intro sg
    unfold subNoise
    rw [dif_neg (by rintro ⟨-, h⟩; exact hm h), dif_neg (by rintro ⟨-, h⟩; exact h1 h)]
  unfold scmEstimate
  simp only [hc, hsub]
  cases sigma <;> cases refineGiven <;> simp

/-- The column case is not empty: with two elements and a column, both calls go on to the solver. -/
example (c : ℂ) (sg : ℝ) : ∃ R', subNoise (m := 2) (Matrix.of fun (_ : Fin 2) (_ : Fin 1) => c) sg = .ok R' :=
  ⟨_, (dif_neg (by norm_num)).trans (dif_pos ⟨rfl, rfl⟩)⟩

/-- **C55** (uniform linear arrays, end to end). A ULA of `n` elements, a 1-D grid of at most `n - 1`
distinct points in range that the array does not alias, the sources on interior, pairwise non-adjacent grid
points: sparse covariance matching with unknown noise and the exact covariance of the array output (steering
matrix with all perturbations) returns exactly the sources. -/
theorem C55_ula {n : ℕ} {d wl : ℝ} (hd : 0 < d) (hwl : 0 < wl) {name : Option String} {a : GridArray}
    (ha : ula n (.scalar d) name {} = .ok a) (l : Fin a.toArrayDesign.element.outputSize)
    (cfg : EstCfg ℝ (List (Fin (a.toArrayDesign.size * a.toArrayDesign.size + a.toArrayDesign.size * a.toArrayDesign.size) → ℝ)))
    {x : List ℝ} {names : List String} {u : String}
    (hg : cfg.grid = ⟨.ff1, [⟨x, false⟩], names, [u]⟩) (hu : Unit1D u) (hx : ∀ v ∈ x, InRange1D u v)
    (hpf : cfg.peakFinder = findPeaksSimple) (hsort : IsArgsort cfg.argsort)
    (hcomp : cfg.compute = fun rows => scmAtoms false (atomColumns1D a.toArrayDesign l wl u rows))
    (hnd : x.Nodup)
    (hamb : ∀ v ∈ x, ∀ w ∈ x, d * |Real.sin (angleOf u v) - Real.sin (angleOf u w)| < wl)
    (hn : x.length + 1 ≤ a.toArrayDesign.size)
    (idx : Fin k → ℕ) (hsep : ∀ c e, c < e → idx c + 1 < idx e) (h1 : ∀ c, 1 ≤ idx c)
    (h2 : ∀ c, idx c + 1 < x.length) (hk : 1 ≤ k)
    (pw : Fin k → ℝ) (hpw : ∀ c, 0 < pw c) (σ : ℝ) (hσ : 0 ≤ σ) {formulation : String} {reg : ℝ}
    (hl : (formulation = "penalizedl1" ∧ reg = 0) ∨ (formulation = "constrainedl2" ∧ reg = 0) ∨
      (formulation = "constrainedl1" ∧ reg = ∑ c, pw c + σ))
    {p : L1Problem _ (if !false then x.length + 1 else x.length)}
    (hp : scmInit a.toArrayDesign.size x.length true false formulation = .ok p)
    (sv : CvxSolver (Fin (if !false then x.length + 1 else x.length) → ℝ)) (hsv : sv.Complete)
    (ops : List (EstOp ℝ (List (Fin (a.toArrayDesign.size * a.toArrayDesign.size + a.toArrayDesign.size * a.toArrayDesign.size) → ℝ))))
    (ps : L1Params _ (if !false then x.length + 1 else x.length) × sv.S) :
    ∃ S, steering a.toArrayDesign (.ff1 ⟨fun c => x.getD (idx c) 0, u⟩) wl false "all" = .ok S ∧
    ∃ o st' ps', scmEstimate cfg p sv false (cfg.run ops).1 ps (modelCov (S.A l) pw σ) k reg none false =
        (.ok o, st', ps') ∧
      ∃ sp, o.observe st' = (true, some (some (List.ofFn fun c => [x.getD (idx c) 0], u)), sp) := by
  have : NeZero wl := ⟨hwl.ne'⟩
  have hlt : ∀ c, idx c < x.length := fun c => by have := h2 c; omega
  have hmem : ∀ c, x.getD (idx c) 0 ∈ x := by
    intro c
    rw [List.getD_eq_getElem?_getD, List.getElem?_eq_getElem (hlt c)]
    exact List.getElem_mem _
  obtain ⟨S, hS, hSv⟩ := ula_steering ha ⟨fun c => x.getD (idx c) 0, u⟩ ⟨hu, fun c => hx _ (hmem c)⟩ wl "all" (by simp)
  refine ⟨S, hS, ?_⟩
  have hid := C55_ula_identifiable (m := a.toArrayDesign.size) (zs := x.map (phaseFactor d wl u)) (by
      refine List.Nodup.map_on ?_ hnd
      intro v hv w hw hvw
      exact phaseFactor_inj hd hwl (hx v hv) (hx w hw) (hamb v hv w hw) hvw)
    (by
      intro z hz
      obtain ⟨v, _, rfl⟩ := List.mem_map.1 hz
      exact Complex.exp_ne_zero _) false (by simpa using hn) (by omega)
  rw [List.map_map] at hid
  obtain ⟨o, st', ps', e1, sp, e2, -⟩ := C55_recovers cfg hg hu hx hpf hsort
    (fun v => ulaVec a.toArrayDesign.size (phaseFactor d wl u v)) false
    (fun rows hr => by rw [hcomp]; simp only; rw [ula_atoms ha l wl u hu rows hr]) hid idx hsep h1 h2 hk pw hpw σ hσ
    (by simpa using hl) hp sv hsv ops ps
  refine ⟨o, st', ps', ?_, sp, e2⟩
  have hA : S.A l = Matrix.of fun i c => ulaVec a.toArrayDesign.size (phaseFactor d wl u (x.getD (idx c) 0)) i := by
    ext i c
    exact hSv l i c
  rw [hA]
  exact e1

/-! ### C67: group-sparse estimation -/

/-- **C67** (arguments). -/
theorem C67_guards {K n r c : ℕ} (cfg : EstCfg ℝ (List (Fin m → ℂ)))
    (sv : CvxSolver (Matrix (Fin K) (Fin n) ℂ)) (st : EstState (List (Fin m → ℂ))) (ps : L21Params m K n × sv.S)
    (Y : Matrix (Fin r) (Fin c) ℂ) (k : ℕ) (l : ℝ) (refineGiven : Bool)
    (h : refineGiven = true ∨ r ≠ m ∨ c ≠ n) :
    groupSparseEstimate cfg sv st ps Y k l refineGiven = (.error .valueError, st, ps) := by
  unfold groupSparseEstimate
  by_cases h1 : refineGiven = true
  · rw [if_pos h1]
  · rw [if_neg h1]
    by_cases h2 : r = m
    · rw [if_neg (by simpa using h2), if_pos]
      rcases h with h | h | h
      · exact absurd h h1
      · exact absurd h2 h
      · exact h
    · rw [if_pos h2]

theorem l21Solve_ofCols {M K n r' c' : ℕ} (sv : CvxSolver (Matrix (Fin K) (Fin n) ℂ)) (st : L21Params M K n × sv.S)
    (cols : List (Fin M → ℂ)) (h : cols.length = K) (B : Matrix (Fin r') (Fin c') ℂ) (l : ℝ) :
    l21Solve sv st (ofCols cols) B l = l21Solve sv st (Matrix.of fun i (c : Fin K) => cols.get (Fin.cast h.symm c) i) B l := by
  subst h
  rfl

/-- With consistent data, independent columns and `l = 0` the `l_{2,1}` problem has one solution. -/
theorem exact_solution_l21 {M K n : ℕ} {A : Matrix (Fin M) (Fin K) ℂ} (hA : Function.Injective A.mulVec)
    (X0 X : Matrix (Fin K) (Fin n) ℂ) : IsL21Solution A (A * X0) 0 X ↔ X = X0 := by
  constructor
  · intro h
    have := h X0
    simp only [sub_self, Matrix.zero_apply, norm_zero, ne_eq, OfNat.ofNat_ne_zero, not_false_eq_true, zero_pow,
      Finset.sum_const_zero, mul_zero, zero_mul, add_zero] at this
    have h0 : ∀ i j, ‖(A * X - A * X0) i j‖ ^ 2 = 0 := by
      have hs : ∑ i, ∑ j, ‖(A * X - A * X0) i j‖ ^ 2 = 0 := by
        have : 0 ≤ ∑ i, ∑ j, ‖(A * X - A * X0) i j‖ ^ 2 :=
          Finset.sum_nonneg fun i _ => Finset.sum_nonneg fun j _ => sq_nonneg _
        linarith
      intro i j
      have h1 := (Finset.sum_eq_zero_iff_of_nonneg (fun i _ => Finset.sum_nonneg fun j _ => sq_nonneg _)).1 hs i (Finset.mem_univ _)
      exact (Finset.sum_eq_zero_iff_of_nonneg (fun j _ => sq_nonneg _)).1 h1 j (Finset.mem_univ _)
    have h1 : A * X = A * X0 := by
      ext i j
      have := pow_eq_zero_iff (by norm_num) |>.1 (h0 i j)
      rw [norm_eq_zero, Matrix.sub_apply, sub_eq_zero] at this
      exact this
    ext i j
    have h2 : A *ᵥ X.col j = A *ᵥ X0.col j := by
      funext i
      have := congrFun (congrFun h1 i) j
      simpa [Matrix.mul_apply, mulVec, dotProduct] using this
    exact congrFun (hA h2) i
  · rintro rfl Y
    simp only [sub_self, Matrix.zero_apply, norm_zero, ne_eq, OfNat.ofNat_ne_zero, not_false_eq_true, zero_pow,
      Finset.sum_const_zero, mul_zero, zero_mul, add_zero]
    have : 0 ≤ ∑ i, ∑ j, ‖(A * Y - A * X) i j‖ ^ 2 :=
      Finset.sum_nonneg fun i _ => Finset.sum_nonneg fun j _ => sq_nonneg _
    linarith

/-- **C67** (exact recovery). Group-sparse estimation on a 1-D far-field grid with at most `m` points of
linearly independent steering vectors, noise-free snapshots `Y = A X` of sources on interior, pairwise
non-adjacent grid points (every source emits in some snapshot), `l = 0` and a solver that does not fail on
solvable problems: the call returns exactly the sources and the spectrum value of a source is the Euclidean
norm of its signal. -/
theorem C67_recovers {n : ℕ} (cfg : EstCfg ℝ (List (Fin m → ℂ)))
    {x : List ℝ} {names : List String} {u : String}
    (hg : cfg.grid = ⟨.ff1, [⟨x, false⟩], names, [u]⟩) (hu : Unit1D u) (hx : ∀ v ∈ x, InRange1D u v)
    (hpf : cfg.peakFinder = findPeaksSimple) (hsort : IsArgsort cfg.argsort)
    (s : ℝ → Fin m → ℂ)
    (hcomp : ∀ rows, (∀ r ∈ rows, InRange1D u (r.headD 0)) → cfg.compute rows = rows.map fun r => s (r.headD 0))
    (hinj : Function.Injective (Matrix.of fun i (j : Fin x.length) => s (x.get j) i).mulVec)
    (idx : Fin k → ℕ) (hsep : ∀ c e, c < e → idx c + 1 < idx e) (h1 : ∀ c, 1 ≤ idx c)
    (h2 : ∀ c, idx c + 1 < x.length) (hk : 1 ≤ k)
    (X : Matrix (Fin k) (Fin n) ℂ) (hX : ∀ c, ∃ t, X c t ≠ 0)
    (sv : CvxSolver (Matrix (Fin x.length) (Fin n) ℂ)) (hsv : sv.Complete)
    (ops : List (EstOp ℝ (List (Fin m → ℂ)))) (ps : L21Params m x.length n × sv.S) :
    ∃ o st' ps', groupSparseEstimate cfg sv (cfg.run ops).1 ps
        ((Matrix.of fun i c => s (x.getD (idx c) 0) i) * X) k 0 false = (.ok o, st', ps') ∧
      ∃ sp, o.observe st' = (true, some (some (List.ofFn fun c => [x.getD (idx c) 0], u)), sp) ∧
        ∀ c, sp[idx c]? = some (Real.sqrt (∑ t, ‖X c t‖ ^ 2)) := by
  have hmono : StrictMono idx := fun c e h => by have := hsep c e h; omega
  have hlt : ∀ c, idx c < x.length := fun c => by have := h2 c; omega
  let X0 : Matrix (Fin x.length) (Fin n) ℂ := Matrix.of fun j t => ∑ c, if idx c = j.1 then X c t else 0
  have hX0 : ∀ c t, X0 ⟨idx c, hlt c⟩ t = X c t := by
    intro c t
    simp only [X0, Matrix.of_apply]
    rw [Finset.sum_eq_single c]
    · simp
    · intro e _ he
      rw [if_neg]
      exact fun h' => he (hmono.injective h')
    · simp
  have hX0' : ∀ j t, (∀ c, j.1 ≠ idx c) → X0 j t = 0 := by
    intro j t h
    simp only [X0, Matrix.of_apply]
    refine Finset.sum_eq_zero fun c _ => ?_
    rw [if_neg]
    exact fun h' => h c h'.symm
  set A : Matrix (Fin m) (Fin x.length) ℂ := Matrix.of fun i j => s (x.get j) i with hA
  have hY : (Matrix.of fun i c => s (x.getD (idx c) 0) i) * X = A * X0 := by
    ext i t
    rw [Matrix.mul_apply, Matrix.mul_apply]
    simp only [X0, A, Matrix.of_apply, Finset.mul_sum]
    rw [Finset.sum_comm]
    refine Finset.sum_congr rfl fun c _ => ?_
    rw [Finset.sum_eq_single ⟨idx c, hlt c⟩]
    · simp [List.getD_eq_getElem?_getD, List.getElem?_eq_getElem (hlt c)]
    · intro j _ hj
      rw [if_neg, mul_zero]
      intro h'
      exact hj (Fin.ext h'.symm)
    · simp
  have hxl : (x.map s).length = x.length := List.length_map _
  have hcall : ∃ ps', l21Solve sv ps (ofCols (x.map s)) (A * X0) 0 = (.ok X0, ps') := by
    rw [l21Solve_ofCols sv ps _ hxl]
    have : (Matrix.of fun i (c : Fin x.length) => (x.map s).get (Fin.cast hxl.symm c) i) = A := by
      ext i c; simp [A]
    rw [this]
    obtain ⟨f, f1, f2⟩ := C63_solve_l21 A (A * X0) (l := 0) le_rfl
    have hsol := (exact_solution_l21 hinj X0 X0).2 rfl
    obtain ⟨Z, s1, e1⟩ := hsv ps.2 f [] ⟨X0, by simp, fun Z _ => by rw [f1, f1]; exact hsol Z⟩
    obtain ⟨e2, e3⟩ := (f2 sv ps).2.2 Z s1 e1
    rw [(exact_solution_l21 hinj X0 Z).1 e3] at e2
    exact ⟨_, Prod.ext e2 rfl⟩
  obtain ⟨ps', hcall⟩ := hcall
  obtain ⟨st1, ha1, -, -⟩ := (cfg.inv_run ops).atomMatrix_ok (rows_1d hg hu hx)
  have hcr : cfg.compute (x.map fun v => [v]) = x.map s := by
    rw [hcomp _ (by
      intro r hr
      obtain ⟨v, hv, rfl⟩ := List.mem_map.1 hr
      exact hx v hv)]
    simp [List.map_map, Function.comp_def]
  rw [hcr] at ha1
  have hat : ∀ c, (List.ofFn fun i => vecNorm (X0 i))[idx c]? = some (Real.sqrt (∑ t, ‖X c t‖ ^ 2)) := by
    intro c
    rw [List.getElem?_eq_getElem (by simpa using hlt c), List.getElem_ofFn]
    simp only [vecNorm, hX0]
  obtain ⟨o, st', he, hobs⟩ := estimate_support cfg hg hu hx hpf hsort idx hsep h1 h2 hk (List.ofFn fun i => vecNorm (X0 i))
    (by simp)
    (fun c v hv => by
      rw [hat c] at hv
      rw [← Option.some.inj hv]
      apply Real.sqrt_pos.2
      obtain ⟨t, ht⟩ := hX c
      exact Finset.sum_pos' (fun _ _ => sq_nonneg _) ⟨t, Finset.mem_univ _, by have := norm_pos_iff.2 ht; positivity⟩)
    (fun j v hj hv => by
      obtain ⟨hj', rfl⟩ := List.getElem?_eq_some_iff.1 hv
      rw [List.getElem_ofFn]
      simp only [vecNorm]
      rw [Finset.sum_eq_zero fun t _ => by rw [hX0' _ t hj]; simp]
      simp) ops
  refine ⟨o, st', ps', ?_, _, hobs, hat⟩
  rw [hY]
  simp only [groupSparseEstimate, Bool.false_eq_true, if_false, ne_eq, not_true_eq_false, ha1, hcall, he]

/-! ### C68: failed solvers -/

/-- **C68** (1-D grids). If the solver finishes with a status other than `'optimal'`, sparse covariance
matching on a 1-D grid reports `resolved = False` and no estimates, for every `k ≥ 1`. -/
theorem C68_failure_1d_partial (cfg : EstCfg ℝ (List (Fin (m * m + m * m) → ℝ)))
    {x : List ℝ} {names : List String} {u : String}
    (hg : cfg.grid = ⟨.ff1, [⟨x, false⟩], names, [u]⟩) (hu : Unit1D u) (hx : ∀ v ∈ x, InRange1D u v)
    (hpf : cfg.peakFinder = findPeaksSimple) (hsort : IsArgsort cfg.argsort)
    (hcomp : ∀ rows : List (List ℝ), (cfg.compute rows).length = rows.length + 1)
    {formulation : String} {p : L1Problem (m * m + m * m) (if !false then x.length + 1 else x.length)}
    (hp : scmInit m x.length true false formulation = .ok p)
    (sv : CvxSolver (Fin (if !false then x.length + 1 else x.length) → ℝ))
    (ops : List (EstOp ℝ (List (Fin (m * m + m * m) → ℝ))))
    (ps : L1Params (m * m + m * m) (if !false then x.length + 1 else x.length) × sv.S)
    (hfail : ∀ f cs, ∃ status y s', sv.run ps.2 f cs = (.finished status y, s') ∧ status ≠ "optimal")
    (R : Matrix (Fin m) (Fin m) ℂ) (hk : 1 ≤ k) {l : ℝ} (hl : 0 ≤ l) :
    ∃ o st' ps', scmEstimate cfg p sv false (cfg.run ops).1 ps R k l none false = (.ok o, st', ps') ∧
      o.observe st' = (false, none, List.replicate x.length 0) := by
  have hvalid : ValidGrid cfg.grid := Or.inl ⟨x, names, u, hg, hu, hx⟩
  have hcov : ensureCovarianceSize [m, m] m = .ok () := by simp [ensureCovarianceSize]
  obtain ⟨st1, ha1, -, -⟩ := (cfg.inv_run ops).atomMatrix_ok (rows_1d hg hu hx)
  have hlen : (cfg.compute (x.map fun v => [v])).length = if !false then x.length + 1 else x.length := by
    rw [hcomp]; simp
  have hsp : ∃ ps', scmSpectrum p sv ps false (cfg.compute (x.map fun v => [v])) R l =
      (.ok (List.replicate x.length 0), ps') := by
    obtain ⟨f, cs, -, -, f3⟩ := solve_any_state hp (Matrix.of fun i (c : Fin (if !false then x.length + 1 else x.length)) =>
      (cfg.compute (x.map fun v => [v])).get (Fin.cast hlen.symm c) i) (stackReIm (vec R)) l hl
    obtain ⟨status, y, s', e1, e2⟩ := hfail f cs
    have e3 := (f3 sv ps).2.1 status y s' e1 e2
    rw [← solve_ofCols p sv ps _ hlen] at e3
    cases hh : p.solve sv ps (ofCols (cfg.compute (x.map fun v => [v]))) (stackReIm (vec R)) l with
    | mk r1 ps1 =>
      rw [hh] at e3
      simp only at e3
      subst e3
      refine ⟨ps1, ?_⟩
      simp only [scmSpectrum, hh]
      have : (List.ofFn (0 : Fin (if !false then x.length + 1 else x.length) → ℝ)) = List.replicate (x.length + 1) 0 := by
        simp only [Pi.zero_def, List.ofFn_const]; rfl
      rw [this]
      simp [List.replicate_succ']
  obtain ⟨ps', hsp⟩ := hsp
  obtain ⟨rows, hr1, hr2⟩ := C37_largest_peaks cfg hvalid hsort ops ⟨fun _ => List.replicate x.length 0, k, false, 10, 3⟩ hk rfl
  have hsh : cfg.grid.shape = [x.length] := by rw [hg]; rfl
  have hlen' : (List.replicate x.length (0 : ℝ)).length = cfg.grid.shape.prod := by rw [hsh]; simp
  obtain ⟨hd1, hd2⟩ := C37_default_peak_finder cfg.grid.shape (List.replicate x.length (0 : ℝ)) hlen'
  obtain ⟨ht, -⟩ := hr2 _ rfl hlen' (by rw [hpf]; exact hd1) (by rw [hpf]; exact hd2)
  have hnil : findPeaksSimple [x.length] (List.replicate x.length (0 : ℝ)) = [] := by
    rw [List.eq_nil_iff_forall_not_mem]
    intro c hc
    obtain ⟨t, l, r, rfl, hlt, hlr, -, vl, vm, vr, e1, e2, e3, hv1, -⟩ := C37_peaks_1d_interior _ _ c hc
    obtain ⟨_, rfl⟩ := List.getElem?_eq_some_iff.1 e1
    obtain ⟨_, rfl⟩ := List.getElem?_eq_some_iff.1 e2
    simp at hv1
  have hobs := ht (by rw [hpf, hsh, hnil]; exact hk)
  unfold EstCfg.observe at hobs
  cases hest : cfg.estimate (cfg.run ops).1 ⟨fun _ => List.replicate x.length 0, k, false, 10, 3⟩ with
  | mk r st' =>
    rw [hest] at hobs
    cases r with
    | error e => simp at hobs
    | ok o =>
      simp only [Except.ok.injEq] at hobs
      refine ⟨o, st', ps', ?_, hobs⟩
      simp only [scmEstimate, hcov, ha1, Bool.false_eq_true, if_false, hsp, hest]

/-- **C68** is violated for 2-D grids: an all-zero spectrum makes every grid point a peak, so a failed
solver is reported as `resolved = True` with the last `k` grid points in sorting order as estimates. -/
theorem C68_failure_2d (cfg : EstCfg ℝ (List (Fin (m * m + m * m) → ℝ)))
    {a b : List ℝ} {names : List String} {u : String}
    (hg : cfg.grid = ⟨.ff2, [⟨a, false⟩, ⟨b, false⟩], names, [u, u]⟩) (hu : Unit2D u)
    (hx : ∀ v ∈ a, ∀ w ∈ b, InRange2D u (v, w))
    (hpf : cfg.peakFinder = findPeaksSimple) (hsort : IsArgsort cfg.argsort)
    (hcomp : ∀ rows : List (List ℝ), (cfg.compute rows).length = rows.length + 1)
    {formulation : String} {p : L1Problem (m * m + m * m) (if !false then a.length * b.length + 1 else a.length * b.length)}
    (hp : scmInit m (a.length * b.length) true false formulation = .ok p)
    (sv : CvxSolver (Fin (if !false then a.length * b.length + 1 else a.length * b.length) → ℝ))
    (ops : List (EstOp ℝ (List (Fin (m * m + m * m) → ℝ))))
    (ps : L1Params (m * m + m * m) (if !false then a.length * b.length + 1 else a.length * b.length) × sv.S)
    (hfail : ∀ f cs, ∃ status y s', sv.run ps.2 f cs = (.finished status y, s') ∧ status ≠ "optimal")
    (R : Matrix (Fin m) (Fin m) ℂ) (hk : 1 ≤ k) (hkg : k ≤ a.length * b.length) {l : ℝ} (hl : 0 ≤ l) :
    ∃ o st' ps', scmEstimate cfg p sv false (cfg.run ops).1 ps R k l none false = (.ok o, st', ps') ∧
      (o.observe st').1 = true ∧ (o.observe st').2.1.isSome := by
  have hvalid : ValidGrid cfg.grid := Or.inr ⟨a, b, names, u, hg, hu, hx⟩
  have hcov : ensureCovarianceSize [m, m] m = .ok () := by simp [ensureCovarianceSize]
  have hsh : cfg.grid.shape = [a.length, b.length] := by rw [hg]; rfl
  obtain ⟨rows, hrows, hrl, -⟩ := hvalid.rows
  have hrl' : rows.length = a.length * b.length := by rw [hrl, hsh]; simp
  obtain ⟨st1, ha1, -, -⟩ := (cfg.inv_run ops).atomMatrix_ok hrows
  have hlen : (cfg.compute rows).length = if !false then a.length * b.length + 1 else a.length * b.length := by
    rw [hcomp, hrl']; simp
  have hsp : ∃ ps', scmSpectrum p sv ps false (cfg.compute rows) R l =
      (.ok (List.replicate (a.length * b.length) 0), ps') := by
    obtain ⟨f, cs, -, -, f3⟩ := solve_any_state hp
      (Matrix.of fun i (c : Fin (if !false then a.length * b.length + 1 else a.length * b.length)) =>
      (cfg.compute rows).get (Fin.cast hlen.symm c) i) (stackReIm (vec R)) l hl
    obtain ⟨status, y, s', e1, e2⟩ := hfail f cs
    have e3 := (f3 sv ps).2.1 status y s' e1 e2
    rw [← solve_ofCols p sv ps _ hlen] at e3
    cases hh : p.solve sv ps (ofCols (cfg.compute rows)) (stackReIm (vec R)) l with
    | mk r1 ps1 =>
      rw [hh] at e3
      simp only at e3
      subst e3
      refine ⟨ps1, ?_⟩
      simp only [scmSpectrum, hh]
      have : (List.ofFn (0 : Fin (if !false then a.length * b.length + 1 else a.length * b.length) → ℝ)) =
          List.replicate (a.length * b.length + 1) 0 := by
        simp only [Pi.zero_def, List.ofFn_const]; rfl
      rw [this]
      simp [List.replicate_succ']
  obtain ⟨ps', hsp⟩ := hsp
  obtain ⟨rows', hr1, hr2⟩ := C37_largest_peaks cfg hvalid hsort ops
    ⟨fun _ => List.replicate (a.length * b.length) 0, k, false, 10, 3⟩ hk rfl
  have hlen' : (List.replicate (a.length * b.length) (0 : ℝ)).length = cfg.grid.shape.prod := by rw [hsh]; simp
  obtain ⟨hd1, hd2⟩ := C37_default_peak_finder cfg.grid.shape (List.replicate (a.length * b.length) (0 : ℝ)) hlen'
  obtain ⟨-, ht⟩ := hr2 _ rfl hlen' (by rw [hpf]; exact hd1) (by rw [hpf]; exact hd2)
  have hall : (findPeaksSimple [a.length, b.length] (List.replicate (a.length * b.length) (0 : ℝ))).length =
      a.length * b.length := by
    classical
    unfold findPeaksSimple
    rw [if_neg (by simp), findPeaksND, List.filter_eq_self.2]
    · simp
    · intro c _
      simp only [decide_eq_true_eq]
      intro d _ _ v w hv hw
      obtain ⟨_, rfl⟩ := List.getElem?_eq_some_iff.1 hv
      obtain ⟨_, rfl⟩ := List.getElem?_eq_some_iff.1 hw
      simp
  obtain ⟨flat, -, hobs⟩ := ht (by rw [hpf, hsh, hall]; exact hkg)
  unfold EstCfg.observe at hobs
  cases hest : cfg.estimate (cfg.run ops).1 ⟨fun _ => List.replicate (a.length * b.length) 0, k, false, 10, 3⟩ with
  | mk r st' =>
    rw [hest] at hobs
    cases r with
    | error e => simp at hobs
    | ok o =>
      simp only [Except.ok.injEq] at hobs
      refine ⟨o, st', ps', ?_, by rw [hobs], by rw [hobs]; rfl⟩
      simp only [scmEstimate, hcov, ha1, Bool.false_eq_true, if_false, hsp, hest]

/-! ### The hypotheses can be met -/

/-- A solver that always gives up. -/
def failingSolver (X : Type) [Zero X] : CvxSolver X :=
  { S := Unit
    run := fun _ _ _ => (.finished "solver_error" 0, ())
    spec := by
      intro s obj cons x s' h
      simp at h }

theorem sinGrid : ∀ v ∈ ([-0.8, -0.4, 0, 0.4, 0.8] : List ℝ), InRange1D "sin" v ∧ -0.8 ≤ v ∧ v ≤ 0.8 ∧
    Real.sin (angleOf "sin" v) = v := by
  intro v hv
  have h : -0.8 ≤ v ∧ v ≤ 0.8 := by
    simp only [List.mem_cons, List.not_mem_nil, or_false] at hv
    rcases hv with rfl | rfl | rfl | rfl | rfl <;> norm_num
  refine ⟨Or.inr (Or.inr ⟨rfl, by linarith [h.1], by linarith [h.2]⟩), h.1, h.2, ?_⟩
  simp only [angleOf, String.reduceEq, if_false, if_true]
  exact Real.sin_arcsin (by linarith [h.1]) (by linarith [h.2])

/-- Two sources on a ULA of six sensors and a grid of five points are recovered. -/
example : ∃ (a : GridArray) (S : Steering a.toArrayDesign.element.outputSize a.toArrayDesign.size 2)
    (l : Fin a.toArrayDesign.element.outputSize)
    (cfg : EstCfg ℝ (List (Fin (a.toArrayDesign.size * a.toArrayDesign.size + a.toArrayDesign.size * a.toArrayDesign.size) → ℝ)))
    (p : L1Problem _ (if !false then 5 + 1 else 5)) (o : _) (st' : _) (ps' : _),
    ula 6 (.scalar (1 / 2)) none {} = .ok a ∧
    scmInit a.toArrayDesign.size 5 true false "penalizedl1" = .ok p ∧
    steering a.toArrayDesign (.ff1 ⟨fun c => [-0.8, -0.4, 0, 0.4, 0.8].getD (![1, 3] c) 0, "sin"⟩) 1 false "all" = .ok S ∧
    scmEstimate cfg p (idealSolver _) false (cfg.run []).1 ({}, ()) (modelCov (S.A l) ![2, 3] 1) 2 0 none false =
      (.ok o, st', ps') ∧
    ∃ sp, o.observe st' = (true, some (some ([[-0.4], [0.4]], "sin")), sp) := by
  obtain ⟨a, ha⟩ := ula_ok 6 (1 / 2) none
  have hel : a.element = .isotropicScalar := (gridInit_spec ha).2.2.1
  have hl : 0 < a.element.outputSize := by rw [hel]; decide
  have hsz : a.toArrayDesign.size = 6 := (C01_ula_geometry _ _ _ _ _ ha).1
  obtain ⟨p, hp⟩ := (C63_init (a.toArrayDesign.size * a.toArrayDesign.size + a.toArrayDesign.size * a.toArrayDesign.size)
    (5 + 1) "penalizedl1" true).1.2 (by simp)
  let cfg : EstCfg ℝ (List (Fin (a.toArrayDesign.size * a.toArrayDesign.size + a.toArrayDesign.size * a.toArrayDesign.size) → ℝ)) :=
    ⟨⟨.ff1, [⟨[-0.8, -0.4, 0, 0.4, 0.8], false⟩], [], ["sin"]⟩,
      fun rows => scmAtoms false (atomColumns1D a.toArrayDesign ⟨0, hl⟩ 1 "sin" rows), findPeaksSimple, stableArgsort, true, false⟩
  obtain ⟨S, hS, o, st', ps', h1, sp, h2⟩ := C55_ula (k := 2) (d := 1 / 2) (wl := 1) (by norm_num)
    (by norm_num) ha ⟨0, hl⟩ cfg (x := [-0.8, -0.4, 0, 0.4, 0.8]) rfl (Or.inr (Or.inr rfl))
    (fun v hv => (sinGrid v hv).1) rfl stableArgsort_isArgsort rfl (by norm_num)
    (by
      intro v hv w hw
      obtain ⟨-, v1, v2, v3⟩ := sinGrid v hv
      obtain ⟨-, w1, w2, w3⟩ := sinGrid w hw
      rw [v3, w3]
      have : |v - w| < 2 := by rw [abs_lt]; constructor <;> linarith
      linarith)
    (by rw [hsz]; decide) ![1, 3]
    (by intro c e h; fin_cases c <;> fin_cases e <;> simp_all)
    (by intro c; fin_cases c <;> simp) (by intro c; fin_cases c <;> simp) (by norm_num) ![2, 3]
    (by intro c; fin_cases c <;> simp) 1 zero_le_one (Or.inl ⟨rfl, rfl⟩) hp (idealSolver _) idealSolver_complete [] ({}, ())
  exact ⟨a, S, ⟨0, hl⟩, cfg, p, o, st', ps', ha, hp, hS, h1, sp, by simpa using h2⟩

/-- Group-sparse estimation of two sources from one snapshot of a ULA of five sensors. -/
example : ∃ (cfg : EstCfg ℝ (List (Fin 5 → ℂ))) (o : _) (st' : _) (ps' : _) (s : ℝ → Fin 5 → ℂ),
    groupSparseEstimate cfg (idealSolver (Matrix (Fin 5) (Fin 1) ℂ)) (cfg.run []).1 ({}, ())
      ((Matrix.of fun i c => s ([-0.8, -0.4, 0, 0.4, 0.8].getD (![1, 3] c) 0) i) * !![Complex.I; 2]) 2 0 false = (.ok o, st', ps') ∧
    ∃ sp, o.observe st' = (true, some (some ([[-0.4], [0.4]], "sin")), sp) := by
  let s : ℝ → Fin 5 → ℂ := fun v => ulaVec 5 ((v : ℝ) : ℂ)
  let cfg : EstCfg ℝ (List (Fin 5 → ℂ)) :=
    ⟨⟨.ff1, [⟨[-0.8, -0.4, 0, 0.4, 0.8], false⟩], [], ["sin"]⟩, fun rows => rows.map fun r => s (r.headD 0),
      findPeaksSimple, stableArgsort, true, false⟩
  have hinj : Function.Injective (Matrix.of fun i (j : Fin ([-0.8, -0.4, 0, 0.4, 0.8] : List ℝ).length) =>
      s (([-0.8, -0.4, 0, 0.4, 0.8] : List ℝ).get j) i).mulVec := by
    have := ulaMat_injective (m := 5) (z := fun j => (((([-0.8, -0.4, 0, 0.4, 0.8] : List ℝ).get j : ℝ)) : ℂ)) (by
      intro i j hij
      have h := Complex.ofReal_injective hij
      exact List.nodup_iff_injective_get.1 (by norm_num : ([-0.8, -0.4, 0, 0.4, 0.8] : List ℝ).Nodup) h) (by norm_num)
    exact this
  obtain ⟨o, st', ps', h1, sp, h2, -⟩ := C67_recovers (k := 2) (n := 1) cfg (x := [-0.8, -0.4, 0, 0.4, 0.8]) rfl
    (Or.inr (Or.inr rfl)) (fun v hv => (sinGrid v hv).1) rfl stableArgsort_isArgsort s (fun _ _ => rfl) hinj ![1, 3]
    (by intro c e h; fin_cases c <;> fin_cases e <;> simp_all)
    (by intro c; fin_cases c <;> simp) (by intro c; fin_cases c <;> simp) (by norm_num) !![Complex.I; 2]
    (by intro c; exact ⟨0, by fin_cases c <;> simp⟩) (idealSolver _) idealSolver_complete [] ({}, ())
  exact ⟨cfg, o, st', ps', s, h1, sp, by simpa using h2⟩

/-- A failing solver on a 1-D grid is reported, on a 2-D grid it is not. -/
example : ∃ (cfg cfg' : EstCfg ℝ (List (Fin (1 * 1 + 1 * 1) → ℝ))) (p : L1Problem (1 * 1 + 1 * 1) (3 + 1))
    (p' : L1Problem (1 * 1 + 1 * 1) (2 * 2 + 1)) (o o' : _) (st st' : _) (ps ps' : _),
    scmEstimate (m := 1) cfg p (failingSolver _) false (cfg.run []).1 ({}, ()) (1 : Matrix (Fin 1) (Fin 1) ℂ) 1 1 none false =
      (.ok o, st, ps) ∧ (o.observe st).1 = false ∧
    scmEstimate (m := 1) cfg' p' (failingSolver _) false (cfg'.run []).1 ({}, ()) (1 : Matrix (Fin 1) (Fin 1) ℂ) 1 1 none false =
      (.ok o', st', ps') ∧ (o'.observe st').1 = true := by
  obtain ⟨p, hp⟩ := (C63_init (1 * 1 + 1 * 1) (3 + 1) "penalizedl1" true).1.2 (by simp)
  obtain ⟨p', hp'⟩ := (C63_init (1 * 1 + 1 * 1) (2 * 2 + 1) "penalizedl1" true).1.2 (by simp)
  let cfg : EstCfg ℝ (List (Fin (1 * 1 + 1 * 1) → ℝ)) :=
    ⟨⟨.ff1, [⟨[0, 0.1, 0.2], false⟩], [], ["sin"]⟩, fun rows => (rows.map fun _ => 0) ++ [0],
      findPeaksSimple, stableArgsort, true, false⟩
  let cfg' : EstCfg ℝ (List (Fin (1 * 1 + 1 * 1) → ℝ)) :=
    ⟨⟨.ff2, [⟨[0, 0.1], false⟩, ⟨[0, 0.1], false⟩], [], ["deg", "deg"]⟩, fun rows => (rows.map fun _ => 0) ++ [0],
      findPeaksSimple, stableArgsort, true, false⟩
  obtain ⟨o, st, ps, h1, h2⟩ := C68_failure_1d_partial (m := 1) (k := 1) cfg (x := [0, 0.1, 0.2]) rfl (Or.inr (Or.inr rfl))
    (by
      intro v hv
      simp only [List.mem_cons, List.not_mem_nil, or_false] at hv
      rcases hv with rfl | rfl | rfl <;> exact Or.inr (Or.inr ⟨rfl, by norm_num, by norm_num⟩))
    rfl stableArgsort_isArgsort (by intro rows; simp [cfg]) hp (failingSolver _) [] ({}, ())
    (fun _ _ => ⟨"solver_error", 0, (), rfl, by decide⟩) 1 le_rfl (l := 1) zero_le_one
  obtain ⟨o', st', ps', h3, h4, -⟩ := C68_failure_2d (m := 1) (k := 1) cfg' (a := [0, 0.1]) (b := [0, 0.1]) rfl (by simp [Unit2D])
    (by
      intro v hv w hw
      simp only [List.mem_cons, List.not_mem_nil, or_false] at hv hw
      rcases hv with rfl | rfl <;> rcases hw with rfl | rfl <;> right <;> norm_num)
    rfl stableArgsort_isArgsort (by intro rows; simp [cfg']) hp' (failingSolver _) [] ({}, ())
    (fun _ _ => ⟨"solver_error", 0, (), rfl, by decide⟩) 1 le_rfl (by norm_num) (l := 1) zero_le_one
  exact ⟨cfg, cfg', p, p', o, o', st, st', ps, ps', h1, by rw [h2], h3, h4⟩

end Doa.Props
