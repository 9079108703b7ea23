import Mathlib.Analysis.Complex.Polynomial.Basic
import Verif.Lemmas.Esprit
import Verif.Props.Subspace
import Verif.Props.Sources

/-!
# ESPRIT: C47, C52
-/

namespace Doa.Props

open Doa Matrix Doa.Spec Complex
open scoped ComplexOrder

/-! ### C52 -/

/-- The loop of `get_default_row_weights`. -/
theorem rawRowWeights_loop (m : ℕ) : ∀ j, j ≤ m / 2 →
    (List.range j).foldl (fun w i => (w.set i (i + 1 : ℝ)).set (m - i - 1) (i + 1 : ℝ))
      (List.replicate m (0 : ℝ)) =
    (List.range m).map fun i => if i < j ∨ m - i - 1 < j then ((min (i + 1) (m - i) : ℕ) : ℝ) else 0 := by
  intro j
  induction j with
  | zero =>
    intro _
    apply List.ext_getElem <;> simp
  | succ j ih =>
    intro hj
    rw [List.range_succ, List.foldl_append, ih (by omega)]
    simp only [List.foldl_cons, List.foldl_nil]
    apply List.ext_getElem
    · simp
    · intro i h1 h2
      have hi : i < m := by simpa using h2
      simp only [List.getElem_set, List.getElem_map, List.getElem_range]
      by_cases h3 : m - j - 1 = i
      · rw [if_pos h3, if_pos (by omega), show min (i + 1) (m - i) = j + 1 by omega]
        push_cast; rfl
      · rw [if_neg h3]
        by_cases h4 : j = i
        · rw [if_pos h4, if_pos (by omega), show min (i + 1) (m - i) = j + 1 by omega]
          push_cast; rfl
        · rw [if_neg h4]
          by_cases h5 : i < j ∨ m - i - 1 < j
          · rw [if_pos h5, if_pos (by omega)]
          · rw [if_neg h5, if_neg (by omega)]

theorem rawRowWeights_eq (m : ℕ) :
    rawRowWeights m = (List.range m).map fun i => ((min (i + 1) (m - i) : ℕ) : ℝ) := by
  unfold rawRowWeights
  simp only
  rw [rawRowWeights_loop m (m / 2) le_rfl]
  apply List.ext_getElem
  · split_ifs <;> simp
  · intro i h1 h2
    have hi : i < m := by simpa using h2
    split_ifs with h
    · simp only [List.getElem_set, List.getElem_map, List.getElem_range]
      by_cases h3 : m / 2 = i
      · rw [if_pos h3, show min (i + 1) (m - i) = m / 2 + 1 by omega]
        obtain ⟨q, hq⟩ : ∃ q, m = 2 * q + 1 := ⟨m / 2, by omega⟩
        rw [show m / 2 = q by omega, hq]
        push_cast; ring
      · rw [if_neg h3, if_pos (by omega)]
    · simp only [List.getElem_map, List.getElem_range]
      rw [if_pos (by omega)]

/-- **C52**. `get_default_row_weights(m)` has length `m` and entries `sqrt(min(i + 1, m - i))`; so
they are positive (at least 1), symmetric, and increase up to the middle. -/
theorem C52_default_row_weights (m : ℕ) :
    (getDefaultRowWeights m).length = m ∧
    (∀ i < m, (getDefaultRowWeights m)[i]? = some (Real.sqrt ((min (i + 1) (m - i) : ℕ) : ℝ))) ∧
    (∀ x ∈ getDefaultRowWeights m, 1 ≤ x) ∧
    (getDefaultRowWeights m).reverse = getDefaultRowWeights m ∧
    ∀ i, 2 * i + 2 ≤ m → ∀ x y, (getDefaultRowWeights m)[i]? = some x →
      (getDefaultRowWeights m)[i + 1]? = some y → if 2 * i + 2 = m then x = y else x < y := by
  have hget : ∀ i < m, (getDefaultRowWeights m)[i]? = some (Real.sqrt ((min (i + 1) (m - i) : ℕ) : ℝ)) := by
    intro i hi
    simp [getDefaultRowWeights, rawRowWeights_eq, hi]
  have hlen : (getDefaultRowWeights m).length = m := by simp [getDefaultRowWeights, rawRowWeights_eq]
  refine ⟨hlen, hget, ?_, ?_, ?_⟩
  · intro x hx
    simp only [getDefaultRowWeights, rawRowWeights_eq, List.map_map, List.mem_map, List.mem_range,
      Function.comp_apply] at hx
    obtain ⟨i, hi, rfl⟩ := hx
    rw [Real.one_le_sqrt]
    exact_mod_cast (by omega : 1 ≤ min (i + 1) (m - i))
  · apply List.ext_getElem
    · simp
    · intro i h1 h2
      have hi : i < m := by rw [hlen] at h2; exact h2
      rw [List.getElem_reverse]
      have e1 := hget i hi
      have e2 := hget (m - 1 - i) (by omega)
      rw [List.getElem?_eq_getElem (by omega)] at e1 e2
      simp only [hlen]
      rw [Option.some.inj e1, Option.some.inj e2]
      congr 2
      omega
  · intro i hi x y hx hy
    rw [hget i (by omega)] at hx
    rw [hget (i + 1) (by omega)] at hy
    obtain rfl := Option.some.inj hx
    obtain rfl := Option.some.inj hy
    split_ifs with h
    · congr 2; omega
    · apply Real.sqrt_lt_sqrt (by positivity)
      exact_mod_cast (by omega : min (i + 1) (m - i) < min (i + 1 + 1) (m - (i + 1)))

example : getDefaultRowWeights 3 = [1, Real.sqrt 2, 1] := by
  norm_num [getDefaultRowWeights, rawRowWeights_eq, List.range_succ]

/-! ### C47 -/

/-- **C47** (guards). `ValueError` for a displacement below 1, for more than `m - displacement`
sources, and for row weights that are neither `'none'`, `'default'` nor a vector of length
`m - displacement`. -/
theorem C47_guards_partial (eigh : Eigh) (ev : NpEigvals) (wl : ℝ) {m : ℕ}
    (R : Matrix (Fin m) (Fin m) ℂ) (k : ℕ) (d0 : Option ℝ) (disp : ℤ) (form : String)
    (rw : RowWeights) (unit : String)
    (h : disp < 1 ∨ (m : ℤ) - disp < k ∨
      (∃ s, rw = .str s ∧ s ≠ "none" ∧ s ≠ "default") ∨
      (∃ w : List ℝ, rw = .vec w ∧ (w.length : ℤ) ≠ m - disp) ∨ rw = .ndarrayOther ∨ rw = .other) :
    espritEstimate eigh ev wl R k d0 disp form rw unit = .error .valueError := by
  unfold espritEstimate
  by_cases h1 : disp < 1
  · rw [if_pos h1]
  rw [if_neg h1]
  by_cases h2 : (m : ℤ) - disp < k
  · unfold ensureNResolvable
    rw [if_pos (by omega)]
  unfold ensureNResolvable
  rw [if_neg (by omega)]
  simp only
  have h3 : resolveWeights rw (m - disp.toNat) = .error .valueError := by
    rcases h with h | h | ⟨s, rfl, h3, h4⟩ | ⟨w, rfl, h3⟩ | rfl | rfl
    · exact absurd h h1
    · exact absurd h h2
    · simp [resolveWeights, h3, h4]
    · simp only [resolveWeights]
      rw [if_pos (by omega)]
    · rfl
    · rfl
  rw [h3]

/-- The total weight does not matter when the two subarrays do not overlap. -/
theorem totalWeight_shift {n d : ℕ} (w : List ℝ) (hw : w.length = n - d) (hn : n ≤ 2 * d) (r : ℕ)
    (hr : r < n - d) :
    totalWeight (some w) d r = w.getD r 1 ∧ totalWeight (some w) d (r + d) = w.getD r 1 := by
  unfold totalWeight
  simp only
  rw [if_neg (by omega), if_pos (by omega), Nat.add_sub_cancel]
  constructor
  · simp
  · rw [List.getD_eq_getElem?_getD (i := r + d), List.getElem?_eq_none (by omega), Option.getD_none,
      one_mul]

/-- Rotation matrices when corresponding rows of the two subarrays carry the same weight. -/
theorem rotation_exact (eigh : Eigh) {m k d : ℕ} {z : Fin k → ℂ} (hz : Function.Injective z)
    (hk : k ≤ m - d) {T : Matrix (Fin k) (Fin k) ℂ} (hT : IsUnit T.det) (rw : Option (List ℝ))
    (hw : ∀ r < m - d, totalWeight rw d r ≠ 0 ∧ totalWeight rw d (r + d) = totalWeight rw d r) :
    let buf := applyWeights (ulaMat m z * T) d rw
    phiLS (es1View buf d) (es2View buf d) = .ok (T⁻¹ * diagonal (fun c => z c ^ d) * T) ∧
    phiTLS eigh (es1View buf d) (es2View buf d) = .ok (T⁻¹ * diagonal (fun c => z c ^ d) * T) := by
  intro buf
  obtain ⟨h1, h2⟩ := views_ula (m := m) (z := z) T d rw
  have h3 : (diagonal fun r : Fin (m - d) => (totalWeight rw d (r.1 + d) : ℂ)) =
      diagonal fun r : Fin (m - d) => (totalWeight rw d r.1 : ℂ) := by
    congr 1
    funext r
    rw [(hw r.1 r.2).2]
  rw [h3] at h2
  have hB : Function.Injective
      ((diagonal fun r : Fin (m - d) => (totalWeight rw d r.1 : ℂ)) * ulaMat (m - d) z).mulVec := by
    intro x y hxy
    simp only [← mulVec_mulVec] at hxy
    apply ulaMat_injective hz hk
    funext r
    have := congrFun hxy r
    simp only [mulVec_diagonal] at this
    exact mul_left_cancel₀ (by exact_mod_cast (hw r.1 r.2).1) this
  show phiLS (es1View (applyWeights (ulaMat m z * T) d rw) d) (es2View _ d) = _ ∧
    phiTLS eigh (es1View (applyWeights (ulaMat m z * T) d rw) d) (es2View _ d) = _
  rw [h1, h2]
  exact ⟨phiLS_exact hB hT, phiTLS_exact eigh hB hT⟩

/-- **C47** (rotation matrix, partial). For the exact covariance of a ULA with distinct phase factors
`z c` and `k ≤ m - d` sources, whatever eigenvectors are returned, the LS and the TLS rotation matrix
are the same matrix and it is similar to `diag(z c ^ d)`, provided that no row weights are used or the
two subarrays do not overlap (`m ≤ 2 d`) and the weights are non-zero.  (For overlapping weighted
subarrays the claim fails, see `C47_default_weights_wrong`.) -/
theorem C47_rotation_partial (eigh : Eigh) {m k d : ℕ} {z : Fin k → ℂ}
    (hz : Function.Injective z) (hk : k ≤ m - d) (hkm : k ≤ m) {P : Matrix (Fin k) (Fin k) ℂ}
    (hP : P.PosDef) (σ : ℝ) (rw : Option (List ℝ))
    (hw : rw = none ∨ m ≤ 2 * d ∧ ∃ w, rw = some w ∧ w.length = m - d ∧ ∀ x ∈ w, x ≠ 0) :
    let buf := applyWeights (signalCols (eigh.run (covModel (ulaMat m z) P σ)).2 hkm) d rw
    ∃ T : Matrix (Fin k) (Fin k) ℂ, IsUnit T.det ∧
      phiLS (es1View buf d) (es2View buf d) = .ok (T⁻¹ * diagonal (fun c => z c ^ d) * T) ∧
      phiTLS eigh (es1View buf d) (es2View buf d) = .ok (T⁻¹ * diagonal (fun c => z c ^ d) * T) := by
  intro buf
  obtain ⟨T, hT, hfac⟩ := signal_factor (ulaMat_injective hz hkm) hP
    (eigh.spec _ (covModel_isHermitian (ulaMat m z) hP.1 σ)) hkm
  refine ⟨T, hT, ?_⟩
  have hbuf : buf = applyWeights (ulaMat m z * T) d rw := by rw [← hfac]
  rw [hbuf]
  refine rotation_exact eigh hz hk hT rw fun r hr => ?_
  rcases hw with rfl | ⟨hn, w, rfl, hl, hx⟩
  · simp [totalWeight]
  · obtain ⟨h1, h2⟩ := totalWeight_shift w hl hn r hr
    rw [h1, h2]
    refine ⟨?_, rfl⟩
    rw [List.getD_eq_getElem?_getD, List.getElem?_eq_getElem (by omega), Option.getD_some]
    exact hx _ (List.getElem_mem _)

/-- Non-vacuity: 5 sensors, 2 sources, displacement 3 with weights. -/
example (eigh : Eigh) :
    let buf := applyWeights (signalCols (eigh.run (covModel (ulaMat 5 ![1, I]) 1 2)).2
      (by decide : 2 ≤ 5)) 3 (some [2, 3])
    ∃ T : Matrix (Fin 2) (Fin 2) ℂ, IsUnit T.det ∧ phiLS (es1View buf 3) (es2View buf 3) =
      .ok (T⁻¹ * diagonal (fun c => (![1, I] : Fin 2 → ℂ) c ^ 3) * T) := by
  intro buf
  obtain ⟨T, h1, h2, _⟩ := C47_rotation_partial eigh (m := 5) (d := 3) (z := ![1, I])
    (by
      intro a b h
      fin_cases a <;> fin_cases b <;> simp_all [Complex.ext_iff])
    (by decide) (by decide) PosDef.one 2 (some [2, 3])
    (Or.inr ⟨by decide, _, rfl, rfl, by simp⟩)
  exact ⟨T, h1, h2⟩

theorem inj_of_sin {k : ℕ} {src : FF1D k} (hsrc : Valid1D src) (hinj : Function.Injective src.loc)
    {d wl : ℝ} (hd : 0 < d) (hwl : 0 < wl) {disp : ℕ} (hdisp : 1 ≤ disp)
    (hamb : ∀ c, |2 * Real.pi * (d * disp) / wl * Real.sin (angleOf src.unit (src.loc c))| < Real.pi) :
    Function.Injective fun c => phaseFactor d wl src.unit (src.loc c) := by
  intro c e h
  apply hinj
  refine phaseFactor_inj hd hwl (hsrc.2 c) (hsrc.2 e) ?_ h
  have hpi := Real.pi_pos
  have hd1 : (1 : ℝ) ≤ disp := by exact_mod_cast hdisp
  have key : ∀ x, |2 * Real.pi * (d * disp) / wl * x| < Real.pi → d * |x| < wl / 2 := by
    intro x hx
    rw [abs_mul, abs_of_pos (by positivity)] at hx
    have h1 : 2 * (d * disp) * |x| < wl := by
      have h2 : 2 * Real.pi * (d * disp) / wl * |x| = Real.pi * (2 * (d * disp) * |x| / wl) := by
        field_simp
      rw [h2] at hx
      have h3 : 2 * (d * disp) * |x| / wl < 1 := by
        by_contra hn
        have := mul_le_mul_of_nonneg_left (not_lt.1 hn) hpi.le
        linarith
      rwa [div_lt_one hwl] at h3
    have h4 : d * |x| ≤ d * disp * |x| := by
      apply mul_le_mul_of_nonneg_right _ (abs_nonneg _)
      nlinarith
    linarith
  have h1 := key _ (hamb c)
  have h2 := key _ (hamb e)
  have h3 := abs_sub (Real.sin (angleOf src.unit (src.loc c))) (Real.sin (angleOf src.unit (src.loc e)))
  nlinarith

/-- **C47** (end to end, partial). `Esprit1D(wavelength).estimate(R, k, d0, displacement, formulation,
row_weights, unit)` on the exact covariance of `k ≤ n - displacement` distinct sources in the
unambiguous range, seen by a ULA of `n` sensors with spacing `d0`: it succeeds, and the returned
placement holds exactly the true DOAs in the requested unit, ascending. For both formulations, every
eigenvector and eigenvalue order choice, every source covariance and noise variance; with
`row_weights='none'`, or with weights if the two subarrays do not overlap. -/
theorem C47_esprit_partial (eigh : Eigh) (ev : NpEigvals) {n : ℕ} {d wl : ℝ} (hd : 0 < d) (hwl : 0 < wl)
    {name : Option String} {a : GridArray} (ha : ula n (.scalar d) name {} = .ok a)
    (l : Fin a.element.outputSize) {k : ℕ} (src : FF1D k) (hsrc : Valid1D src)
    (hinj : Function.Injective src.loc) (disp : ℕ) (hdisp : 1 ≤ disp) (hk : k + disp ≤ n)
    (hamb : ∀ c, |2 * Real.pi * (d * disp) / wl * Real.sin (angleOf src.unit (src.loc c))| < Real.pi)
    (d0 : Option ℝ) (hd0 : d0 = some d ∨ d0 = none ∧ d = wl / 2)
    (form : String) (hform : form = "ls" ∨ form = "tls") (rw : RowWeights)
    (hrw : rw = .str "none" ∨ n ≤ 2 * disp ∧
      (rw = .str "default" ∨ ∃ w, rw = .vec w ∧ w.length = n - disp ∧ ∀ x ∈ w, x ≠ 0))
    {P : Matrix (Fin k) (Fin k) ℂ} (hP : P.PosDef) (σ : ℝ) (unit : String) (hunit : Unit1D unit) :
    ∃ S, steering a.toArrayDesign (.ff1 src) wl false "all" = .ok S ∧
      ∃ s, espritEstimate eigh ev wl (covModel (S.A l) P σ) k d0 disp form rw unit = .ok s ∧
        s.unit = unit ∧ Monotone s.loc ∧
        ∃ π : Equiv.Perm (Fin k), ∀ i, s.loc i = reprIn unit (angleOf src.unit (src.loc (π i))) := by
  have : NeZero wl := ⟨hwl.ne'⟩
  have hsize := (C01_ula_geometry n d name {} a ha).1
  obtain ⟨S, hS, hSv⟩ := ula_steering ha src hsrc wl "all" (by simp)
  refine ⟨S, hS, ?_⟩
  set z : Fin k → ℂ := fun c => phaseFactor d wl src.unit (src.loc c) with hz
  have hSm : S.A l = ulaMat a.size z := by
    funext i c
    exact hSv l i c
  have hsz : a.toArrayDesign.size = n := hsize
  have hzinj : Function.Injective z := inj_of_sin hsrc hinj hd hwl hdisp hamb
  rw [hSm]
  -- the weights
  obtain ⟨w, hw1, hw2⟩ : ∃ w, resolveWeights rw (a.size - disp) = .ok w ∧
      (w = none ∨ a.size ≤ 2 * disp ∧ ∃ w', w = some w' ∧ w'.length = a.size - disp ∧ ∀ x ∈ w', x ≠ 0) := by
    rcases hrw with rfl | ⟨hn, rfl | ⟨w, rfl, hl, hx⟩⟩
    · exact ⟨none, by simp [resolveWeights], Or.inl rfl⟩
    · obtain ⟨h1, _, h3, _⟩ := C52_default_row_weights (a.size - disp)
      refine ⟨some (getDefaultRowWeights (a.size - disp)), by simp [resolveWeights], Or.inr
        ⟨by omega, _, rfl, h1, fun x hx => ?_⟩⟩
      have := h3 x hx
      positivity
    · refine ⟨some w, ?_, Or.inr ⟨by omega, w, rfl, by omega, hx⟩⟩
      simp only [resolveWeights]
      rw [if_neg (by omega)]
  have hkm : k ≤ a.size := by omega
  obtain ⟨T, hT, hls, htls⟩ := C47_rotation_partial eigh (m := a.size) (d := disp) hzinj (by omega) hkm
    hP σ w hw2
  obtain ⟨π, hπ⟩ := eigvals_similar ev hT fun c => z c ^ disp
  -- `from_z`
  have hzpow : ∀ c, z c ^ disp = Complex.exp (I *
      ((2 * Real.pi * (d * disp) / wl * Real.sin (angleOf src.unit (src.loc c)) : ℝ) : ℂ)) := by
    intro c
    rw [hz]
    simp only [phaseFactor]
    rw [← Complex.exp_nat_mul]
    congr 1
    push_cast
    ring
  obtain ⟨s, hs1, hs2, hs3, ρ, hs4⟩ := C21_from_z (fun i => angleOf src.unit (src.loc (π i))) (fun _ => 1)
    wl (d * disp) hwl (by positivity) (fun i => Or.inl ⟨rfl, inRange1D_angle (hsrc.2 _)⟩) (fun _ => one_pos)
    (fun i => hamb (π i)) unit hunit
  have hdd : d0.getD (wl / 2) = d := by
    rcases hd0 with rfl | ⟨rfl, h⟩
    · rfl
    · exact h.symm
  refine ⟨s, ?_, hs2, hs3, ρ.trans π, fun i => hs4 i⟩
  · unfold espritEstimate
    rw [if_neg (by omega)]
    unfold ensureNResolvable
    rw [if_neg (by omega)]
    simp only [Int.toNat_natCast, hw1, dif_pos hkm, hdd]
    have hphi : (if form = "tls" then phiTLS eigh (es1View (applyWeights (signalCols
          (eigh.run (covModel (ulaMat a.size z) P σ)).2 hkm) disp w) disp) (es2View (applyWeights
          (signalCols (eigh.run (covModel (ulaMat a.size z) P σ)).2 hkm) disp w) disp)
        else if form = "ls" then phiLS (es1View (applyWeights (signalCols
          (eigh.run (covModel (ulaMat a.size z) P σ)).2 hkm) disp w) disp) (es2View (applyWeights
          (signalCols (eigh.run (covModel (ulaMat a.size z) P σ)).2 hkm) disp w) disp)
        else .error .valueError) = .ok (T⁻¹ * diagonal (fun c => z c ^ disp) * T) := by
      rcases hform with rfl | rfl
      · simp only [String.reduceEq, if_false, if_true]; exact hls
      · simp only [if_true]; exact htls
    rw [hphi]
    simp only
    rw [show ev.run (T⁻¹ * diagonal (fun c => z c ^ disp) * T) = fun i => ((1 : ℝ) : ℂ) *
      Complex.exp (I * ((2 * Real.pi * (d * disp) / wl *
        Real.sin (angleOf src.unit (src.loc (π i))) : ℝ) : ℂ)) by
      funext i
      rw [hπ i, hzpow, Complex.ofReal_one, one_mul]]
    exact hs1

/-- An `eigvals` implementation exists. -/
noncomputable def someEigvals : NpEigvals where
  run := fun M i => M.charpoly.roots.toList.getD i.1 0
  spec := by
    intro n M
    have hc : M.charpoly.roots.toList.length = n := by
      rw [Multiset.length_toList, Polynomial.splits_iff_card_roots.1 (IsAlgClosed.splits M.charpoly),
        Matrix.charpoly_natDegree_eq_dim, Fintype.card_fin]
    rw [Fin.univ_val_map]
    conv_rhs => rw [← Multiset.coe_toList M.charpoly.roots]
    congr 1
    apply List.ext_getElem
    · simp only [List.length_ofFn]; exact hc.symm
    · intro i h1 h2
      rw [List.getElem_ofFn, List.getD_eq_getElem?_getD, List.getElem?_eq_getElem h2, Option.getD_some]

/-- Non-vacuity: five sensors, two sources at `sin θ = -0.4, 0.7`, displacement 1, TLS without
weights. -/
example : ∃ (a : GridArray) (l : Fin a.element.outputSize) (S : Steering a.element.outputSize a.size 2)
    (s : FF1D 2), ula 5 (.scalar (1 / 2)) none {} = .ok a ∧
    steering a.toArrayDesign (.ff1 ⟨![0.7, -0.4], "sin"⟩) 1 false "all" = .ok S ∧
    espritEstimate someEigh someEigvals 1 (covModel (S.A l) 1 3) 2 none 1 "tls" (.str "none") "rad" = .ok s ∧
    Monotone s.loc := by
  obtain ⟨a, ha⟩ := ula_ok 5 (1 / 2) none
  have hel : a.element = .isotropicScalar := (gridInit_spec ha).2.2.1
  have hl : 0 < a.element.outputSize := by rw [hel]; decide
  have hpi := Real.pi_pos
  obtain ⟨S, hS, s, h1, _, h2, _⟩ := C47_esprit_partial someEigh someEigvals (d := 1 / 2) (wl := 1)
    (by norm_num) (by norm_num) ha ⟨0, hl⟩ (k := 2) ⟨![0.7, -0.4], "sin"⟩
    ⟨Or.inr (Or.inr rfl), fun c => Or.inr (Or.inr ⟨rfl, by fin_cases c <;> norm_num⟩)⟩
    (by intro c e h; fin_cases c <;> fin_cases e <;> first | rfl | (norm_num at h)) 1 le_rfl (by norm_num)
    (by
      intro c
      have hs : Real.sin (angleOf "sin" ((![0.7, -0.4] : Fin 2 → ℝ) c)) = (![0.7, -0.4] : Fin 2 → ℝ) c := by
        simp only [angleOf, String.reduceEq, if_false, if_true]
        apply Real.sin_arcsin <;> fin_cases c <;> norm_num
      rw [hs, abs_lt]
      fin_cases c
      · constructor <;> simp <;> nlinarith
      · constructor <;> simp <;> nlinarith)
    none (Or.inr ⟨rfl, rfl⟩) "tls" (Or.inr rfl) (.str "none") (Or.inl rfl) (P := 1) PosDef.one 3 "rad"
    (Or.inl rfl)
  exact ⟨a, ⟨0, hl⟩, S, s, ha, hS, by exact_mod_cast h1, h2⟩

/-- Entries of the weighted views of a single unit-modulus source. -/
theorem single_source_phi {m d : ℕ} {z : ℂ} (hz : ‖z‖ = 1) (hm : 1 ≤ m - d)
    {T : Matrix (Fin 1) (Fin 1) ℂ} (hT : IsUnit T.det) (rw : Option (List ℝ))
    (hw : ∀ r < m, 0 < totalWeight rw d r) :
    let buf := applyWeights (ulaMat m (fun _ : Fin 1 => z) * T) d rw
    ∃ ρ : ℝ, 0 < ρ ∧ phiLS (es1View buf d) (es2View buf d) =
      .ok (T⁻¹ * diagonal (fun _ => (ρ : ℂ) * z ^ d) * T) := by
  intro buf
  obtain ⟨h1, h2⟩ := views_ula (m := m) (z := fun _ : Fin 1 => z) T d rw
  set t := T 0 0 with ht
  have ht0 : t ≠ 0 := by
    have := hT.ne_zero
    rwa [det_fin_one] at this
  have hTd : T = diagonal fun _ => t := by
    ext i j
    rw [Subsingleton.elim i 0, Subsingleton.elim j 0, diagonal_apply_eq]
  have hzz : ∀ r : ℕ, star (z ^ r) * z ^ r = 1 := by
    intro r
    rw [star_pow, ← mul_pow, Complex.star_def, mul_comm, Complex.mul_conj, Complex.normSq_eq_norm_sq, hz]
    simp
  set n1 : ℝ := ∑ r : Fin (m - d), totalWeight rw d r.1 ^ 2 with hn1
  set n2 : ℝ := ∑ r : Fin (m - d), totalWeight rw d r.1 * totalWeight rw d (r.1 + d) with hn2
  have hn1p : 0 < n1 := by
    apply Finset.sum_pos (fun r _ => pow_pos (hw _ (by omega)) 2)
    exact ⟨⟨0, hm⟩, Finset.mem_univ _⟩
  have hn2p : 0 < n2 := by
    apply Finset.sum_pos (fun r _ => mul_pos (hw _ (by omega)) (hw _ (by omega)))
    exact ⟨⟨0, hm⟩, Finset.mem_univ _⟩
  have hE1 : ∀ r, es1View buf d r 0 = totalWeight rw d r.1 * (z ^ r.1 * t) := by
    intro r
    rw [show es1View buf d = _ from h1, Matrix.mul_assoc, diagonal_mul]
    congr 1
    simp [Matrix.mul_apply, ulaMat, ht]
  have hE2 : ∀ r, es2View buf d r 0 = totalWeight rw d (r.1 + d) * (z ^ r.1 * (z ^ d * t)) := by
    intro r
    rw [show es2View buf d = _ from h2, Matrix.mul_assoc, Matrix.mul_assoc, diagonal_mul]
    congr 1
    simp [Matrix.mul_apply, ulaMat, ht]
  have hG : (es1View buf d)ᴴ * es1View buf d = diagonal fun _ => (n1 : ℂ) * (star t * t) := by
    ext i j
    rw [Subsingleton.elim i 0, Subsingleton.elim j 0, diagonal_apply_eq, Matrix.mul_apply, hn1,
      Complex.ofReal_sum, Finset.sum_mul]
    refine Finset.sum_congr rfl fun r _ => ?_
    rw [conjTranspose_apply, hE1, star_mul, star_mul]
    have := hzz r.1
    simp only [Complex.star_def, Complex.conj_ofReal, Complex.ofReal_pow] at this ⊢
    linear_combination (totalWeight rw d r.1 : ℂ) ^ 2 * ((starRingEnd ℂ) t * t) * this
  have hH : (es1View buf d)ᴴ * es2View buf d = diagonal fun _ => (n2 : ℂ) * z ^ d * (star t * t) := by
    ext i j
    rw [Subsingleton.elim i 0, Subsingleton.elim j 0, diagonal_apply_eq, Matrix.mul_apply, hn2,
      Complex.ofReal_sum, Finset.sum_mul, Finset.sum_mul]
    refine Finset.sum_congr rfl fun r _ => ?_
    rw [conjTranspose_apply, hE1, hE2, star_mul, star_mul]
    have := hzz r.1
    simp only [Complex.star_def, Complex.conj_ofReal, Complex.ofReal_mul] at this ⊢
    linear_combination (totalWeight rw d r.1 : ℂ) * totalWeight rw d (r.1 + d) * z ^ d *
      ((starRingEnd ℂ) t * t) * this
  have hne : (n1 : ℂ) * (star t * t) ≠ 0 :=
    mul_ne_zero (by exact_mod_cast hn1p.ne') (mul_ne_zero (star_ne_zero.2 ht0) ht0)
  refine ⟨n2 / n1, div_pos hn2p hn1p, ?_⟩
  unfold phiLS npSolve
  have hu : IsUnit ((es1View buf d)ᴴ * es1View buf d).det := by
    rw [hG, det_diagonal]; simpa using hne
  rw [if_pos hu]
  congr 1
  have key : (es1View buf d)ᴴ * es2View buf d =
      ((es1View buf d)ᴴ * es1View buf d) * (T⁻¹ * diagonal (fun _ => ((n2 / n1 : ℝ) : ℂ) * z ^ d) * T) := by
    have hTc : T⁻¹ * diagonal (fun _ => ((n2 / n1 : ℝ) : ℂ) * z ^ d) * T =
        diagonal (fun _ => ((n2 / n1 : ℝ) : ℂ) * z ^ d) := by
      have : diagonal (fun _ : Fin 1 => ((n2 / n1 : ℝ) : ℂ) * z ^ d) * T =
          T * diagonal (fun _ : Fin 1 => ((n2 / n1 : ℝ) : ℂ) * z ^ d) := by
        rw [hTd, diagonal_mul_diagonal, diagonal_mul_diagonal]
        congr 1; funext i; ring
      rw [Matrix.mul_assoc, this, ← Matrix.mul_assoc, nonsing_inv_mul _ hT, Matrix.one_mul]
    rw [hG, hH, hTc, diagonal_mul_diagonal]
    congr 1
    funext i
    have : (n1 : ℂ) ≠ 0 := by exact_mod_cast hn1p.ne'
    push_cast
    field_simp
  rw [key, ← Matrix.mul_assoc, nonsing_inv_mul _ hu, Matrix.one_mul]

/-- The eigenvector of the smaller eigenvalue of a `2 × 2` matrix with off-diagonal entry `b`. -/
theorem eigh_two {M E : Matrix (Fin (1 + 1)) (Fin (1 + 1)) ℂ} {w : Fin (1 + 1) → ℝ} (h : IsEigh M w E) {a : ℝ} {b : ℂ} (ha : M 0 0 = a) (hb : M 0 1 = b)
    (hb' : M 1 0 = star b) (hb0 : b ≠ 0) : E 1 0 ≠ 0 ∧ ∃ κ : ℝ, 0 < κ ∧ -(E 0 0) = κ * b * E 1 0 := by
  have hcol : ∀ i, M i 0 * E 0 0 + M i 1 * E 1 0 = E i 0 * (w 0 : ℂ) := by
    intro i
    have := congrFun (congrFun h.eig i) 0
    rw [mul_diagonal] at this
    rw [← this, Matrix.mul_apply, Fin.sum_univ_two]
  have e0 := hcol 0
  have e1 := hcol 1
  rw [ha, hb] at e0
  rw [hb'] at e1
  have hunit : star (E 0 0) * E 0 0 + star (E 1 0) * E 1 0 = 1 := by
    have := congrFun (congrFun h.orth 0) 0
    rw [Matrix.mul_apply, Fin.sum_univ_two] at this
    simpa using this
  have hb1 : star b ≠ 0 := star_ne_zero.2 hb0
  have hy : E 1 0 ≠ 0 := by
    intro hy
    rw [hy, mul_zero, add_zero, zero_mul] at e1
    have hx := (mul_eq_zero.1 e1).resolve_left hb1
    rw [hx, hy] at hunit
    simp at hunit
  have hray : w 0 ≤ a := by
    have h1 : M * (E * Eᴴ) = E * (diagonal fun j => (w j : ℂ)) * Eᴴ := by rw [← Matrix.mul_assoc, h.eig]
    rw [h.orth', Matrix.mul_one] at h1
    have h2 := congrFun (congrFun h1 0) 0
    rw [ha, Matrix.mul_apply, Fin.sum_univ_two, mul_diagonal, mul_diagonal, conjTranspose_apply, conjTranspose_apply] at h2
    have h3 := congrFun (congrFun h.orth' 0) 0
    rw [Matrix.mul_apply, Fin.sum_univ_two, conjTranspose_apply, conjTranspose_apply] at h3
    have hs : ∀ x : ℂ, x * star x = ((‖x‖ ^ 2 : ℝ) : ℂ) := fun x => by
      rw [Complex.star_def, Complex.mul_conj, Complex.normSq_eq_norm_sq]
    have h4 : a = w 0 * ‖E 0 0‖ ^ 2 + w 1 * ‖E 0 1‖ ^ 2 := by
      have : (a : ℂ) = ((w 0 * ‖E 0 0‖ ^ 2 + w 1 * ‖E 0 1‖ ^ 2 : ℝ) : ℂ) := by
        rw [h2, mul_right_comm, mul_right_comm (E 0 1), hs, hs]
        push_cast
        ring
      exact_mod_cast this
    have h5 : ‖E 0 0‖ ^ 2 + ‖E 0 1‖ ^ 2 = 1 := by
      rw [hs, hs] at h3
      have : ((‖E 0 0‖ ^ 2 + ‖E 0 1‖ ^ 2 : ℝ) : ℂ) = 1 := by push_cast at h3 ⊢; exact h3
      exact_mod_cast this
    have h6 := mul_le_mul_of_nonneg_right (h.mono (show (0 : Fin (1 + 1)) ≤ 1 by decide)) (sq_nonneg ‖E 0 1‖)
    have h7 : w 0 * (‖E 0 0‖ ^ 2 + ‖E 0 1‖ ^ 2) = w 0 := by rw [h5, mul_one]
    linarith
  have hlt : w 0 < a := by
    refine lt_of_le_of_ne hray fun heq => ?_
    rw [heq] at e0
    have : b * E 1 0 = 0 := by linear_combination e0
    exact (mul_ne_zero hb0 hy) this
  refine ⟨hy, 1 / (a - w 0), by rw [one_div]; exact inv_pos.2 (by linarith), ?_⟩
  have hne : ((a : ℂ) - (w 0 : ℂ)) ≠ 0 := by
    have : (a - w 0 : ℝ) ≠ 0 := by linarith
    exact_mod_cast this
  push_cast
  field_simp
  linear_combination -e0

/-- The same for total least squares. -/
theorem single_source_tls (eigh : Eigh) {m d : ℕ} {z : ℂ} (hz : ‖z‖ = 1) (hm : 1 ≤ m - d)
    {T : Matrix (Fin 1) (Fin 1) ℂ} (hT : IsUnit T.det) (rw : Option (List ℝ))
    (hw : ∀ r < m, 0 < totalWeight rw d r) :
    let buf := applyWeights (ulaMat m (fun _ : Fin 1 => z) * T) d rw
    ∃ ρ : ℝ, 0 < ρ ∧ phiTLS eigh (es1View buf d) (es2View buf d) =
      .ok (T⁻¹ * diagonal (fun _ => (ρ : ℂ) * z ^ d) * T) := by
  intro buf
  obtain ⟨ρ, hρ, hLS⟩ := single_source_phi hz hm hT rw hw
  have hG0 : ∃ n1 : ℝ, 0 < n1 ∧ ((es1View buf d)ᴴ * es1View buf d) 0 0 = n1 := by
    by_cases hu : IsUnit ((es1View buf d)ᴴ * es1View buf d).det
    · refine ⟨∑ r, ‖es1View buf d r 0‖ ^ 2, ?_, ?_⟩
      · refine lt_of_le_of_ne (Finset.sum_nonneg fun _ _ => by positivity) fun h0 => ?_
        have h1 : ∀ r, es1View buf d r 0 = 0 := fun r => by
          have := (Finset.sum_eq_zero_iff_of_nonneg fun r _ => by positivity).1 h0.symm r (Finset.mem_univ _)
          simpa using this
        have h2 : ((es1View buf d)ᴴ * es1View buf d).det = 0 := by
          rw [det_fin_one, Matrix.mul_apply]
          simp [h1]
        rw [h2] at hu
        simp at hu
      · rw [Matrix.mul_apply, Complex.ofReal_sum]
        refine Finset.sum_congr rfl fun r _ => ?_
        rw [conjTranspose_apply, mul_comm, Complex.star_def, Complex.mul_conj, Complex.normSq_eq_norm_sq]
    · exfalso
      have h1 : phiLS (es1View buf d) (es2View buf d) = .error .linAlgError := by
        unfold phiLS npSolve
        rw [if_neg hu]
      rw [h1] at hLS
      cases hLS
  obtain ⟨n1, hn1, hn1e⟩ := hG0
  set Φ := T⁻¹ * diagonal (fun _ => (ρ : ℂ) * z ^ d) * T with hΦ
  have hΦe : Φ = diagonal fun _ => (ρ : ℂ) * z ^ d := by
    have hc : diagonal (fun _ : Fin 1 => (ρ : ℂ) * z ^ d) * T = T * diagonal (fun _ : Fin 1 => (ρ : ℂ) * z ^ d) := by
      ext i j
      rw [diagonal_mul, mul_diagonal, mul_comm]
    rw [hΦ, Matrix.mul_assoc, hc, ← Matrix.mul_assoc, nonsing_inv_mul _ hT, Matrix.one_mul]
  have hH : ((es1View buf d)ᴴ * es2View buf d) 0 0 = (n1 : ℂ) * ((ρ : ℂ) * z ^ d) := by
    have hu : IsUnit ((es1View buf d)ᴴ * es1View buf d).det := by
      rw [det_fin_one, hn1e, isUnit_iff_ne_zero]
      exact_mod_cast hn1.ne'
    have h1 : .ok (((es1View buf d)ᴴ * es1View buf d)⁻¹ * ((es1View buf d)ᴴ * es2View buf d)) = (.ok Φ : Res _) := by
      rw [← hLS]
      unfold phiLS npSolve
      rw [if_pos hu]
    have h2 := Except.ok.inj h1
    have h3 : (es1View buf d)ᴴ * es2View buf d = ((es1View buf d)ᴴ * es1View buf d) * Φ := by
      rw [← h2, ← Matrix.mul_assoc, mul_nonsing_inv _ hu, Matrix.one_mul]
    rw [h3, hΦe, mul_diagonal, hn1e]
  set C := hstack2 (es1View buf d) (es2View buf d) with hC
  have hl : ∀ r, C r 0 = es1View buf d r 0 := fun r => by
    rw [hC]; exact Fin.addCases_left (m := 1) (n := 1) (motive := fun _ => ℂ) (0 : Fin 1)
  have hr : ∀ r, C r 1 = es2View buf d r 0 := fun r => by
    rw [hC]; exact Fin.addCases_right (m := 1) (n := 1) (motive := fun _ => ℂ) (0 : Fin 1)
  have h00 : (Cᴴ * C) 0 0 = (n1 : ℂ) := by
    rw [← hn1e, Matrix.mul_apply, Matrix.mul_apply]
    exact Finset.sum_congr rfl fun r _ => by rw [conjTranspose_apply, conjTranspose_apply, hl]
  have h01 : (Cᴴ * C) 0 1 = (n1 : ℂ) * ((ρ : ℂ) * z ^ d) := by
    rw [← hH, Matrix.mul_apply, Matrix.mul_apply]
    exact Finset.sum_congr rfl fun r _ => by rw [conjTranspose_apply, conjTranspose_apply, hl, hr]
  have hherm := isHermitian_conjTranspose_mul_self C
  have h10 : (Cᴴ * C) 1 0 = star ((n1 : ℂ) * ((ρ : ℂ) * z ^ d)) := by
    rw [← h01, ← hherm.apply]
  have hz0 : z ^ d ≠ 0 := pow_ne_zero _ fun h => by rw [h] at hz; simp at hz
  have hb0 : (n1 : ℂ) * ((ρ : ℂ) * z ^ d) ≠ 0 :=
    mul_ne_zero (by exact_mod_cast hn1.ne') (mul_ne_zero (by exact_mod_cast hρ.ne') hz0)
  obtain ⟨hy, κ, hκ, hv⟩ := eigh_two (eigh.spec _ hherm) h00 h01 h10 hb0
  refine ⟨κ * n1 * ρ, by positivity, ?_⟩
  set E := (eigh.run (Cᴴ * C)).2 with hE
  have hΦe' : T⁻¹ * diagonal (fun _ => ((κ * n1 * ρ : ℝ) : ℂ) * z ^ d) * T = diagonal fun _ => ((κ * n1 * ρ : ℝ) : ℂ) * z ^ d := by
    have hc : diagonal (fun _ : Fin 1 => ((κ * n1 * ρ : ℝ) : ℂ) * z ^ d) * T = T * diagonal (fun _ : Fin 1 => ((κ * n1 * ρ : ℝ) : ℂ) * z ^ d) := by
      ext i j
      rw [diagonal_mul, mul_diagonal, mul_comm]
    rw [Matrix.mul_assoc, hc, ← Matrix.mul_assoc, nonsing_inv_mul _ hT, Matrix.one_mul]
  rw [hΦe']
  have hV22 : (fun i j => E (Fin.natAdd 1 i) (Fin.natAdd 1 j).rev : Matrix (Fin 1) (Fin 1) ℂ)ᵀ = diagonal fun _ => E 1 0 := by
    ext i j
    rw [Subsingleton.elim i 0, Subsingleton.elim j 0, diagonal_apply_eq]
    rfl
  have hV12 : (fun i j => E (Fin.castAdd 1 i) (Fin.natAdd 1 j).rev : Matrix (Fin 1) (Fin 1) ℂ)ᵀ = diagonal fun _ => E 0 0 := by
    ext i j
    rw [Subsingleton.elim i 0, Subsingleton.elim j 0, diagonal_apply_eq]
    rfl
  unfold phiTLS
  simp only [← hC, ← hE, hV22, hV12]
  unfold npSolve
  have hdet : IsUnit (diagonal fun _ : Fin 1 => E 1 0).det := by
    rw [det_diagonal]
    simpa using hy
  rw [if_pos hdet]
  simp only [Except.ok.injEq]
  have hsol : (diagonal fun _ : Fin 1 => E 0 0) = (diagonal fun _ : Fin 1 => E 1 0) * -(diagonal fun _ : Fin 1 => ((κ * n1 * ρ : ℝ) : ℂ) * z ^ d) := by
    rw [Matrix.mul_neg, diagonal_mul_diagonal, diagonal_neg]
    congr 1
    funext i
    push_cast
    linear_combination -hv
  rw [hsol, ← Matrix.mul_assoc, nonsing_inv_mul _ hdet, Matrix.one_mul, transpose_neg, neg_neg, diagonal_transpose]

/-- **C47** (one source). With a single source, least squares and total least squares are exact for
the default row weights and for any positive row weights, also for overlapping subarrays. -/
theorem C47_single_source (eigh : Eigh) (ev : NpEigvals) {n : ℕ} {d wl : ℝ} (hd : 0 < d) (hwl : 0 < wl)
    {name : Option String} {a : GridArray} (ha : ula n (.scalar d) name {} = .ok a)
    (l : Fin a.element.outputSize) (src : FF1D 1) (hsrc : Valid1D src) (disp : ℕ) (hdisp : 1 ≤ disp)
    (hk : 1 + disp ≤ n)
    (hamb : |2 * Real.pi * (d * disp) / wl * Real.sin (angleOf src.unit (src.loc 0))| < Real.pi)
    (d0 : Option ℝ) (hd0 : d0 = some d ∨ d0 = none ∧ d = wl / 2) (rw : RowWeights)
    (hrw : rw = .str "none" ∨ rw = .str "default" ∨
      ∃ w, rw = .vec w ∧ w.length = n - disp ∧ ∀ x ∈ w, 0 < x)
    (form : String) (hform : form = "ls" ∨ form = "tls")
    {P : Matrix (Fin 1) (Fin 1) ℂ} (hP : P.PosDef) (σ : ℝ) (unit : String) (hunit : Unit1D unit) :
    ∃ S, steering a.toArrayDesign (.ff1 src) wl false "all" = .ok S ∧
      ∃ s, espritEstimate eigh ev wl (covModel (S.A l) P σ) 1 d0 disp form rw unit = .ok s ∧
        s.unit = unit ∧ s.loc 0 = reprIn unit (angleOf src.unit (src.loc 0)) := by
  have : NeZero wl := ⟨hwl.ne'⟩
  have hsize := (C01_ula_geometry n d name {} a ha).1
  obtain ⟨S, hS, hSv⟩ := ula_steering ha src hsrc wl "all" (by simp)
  refine ⟨S, hS, ?_⟩
  set z : ℂ := phaseFactor d wl src.unit (src.loc 0) with hz
  have hSm : S.A l = ulaMat a.size fun _ : Fin 1 => z := by
    funext i c
    rw [hSv l i c, Subsingleton.elim c 0]; rfl
  have hsz : a.toArrayDesign.size = n := hsize
  rw [hSm]
  obtain ⟨w, hw1, hw2⟩ : ∃ w, resolveWeights rw (a.size - disp) = .ok w ∧
      ∀ r, 0 < totalWeight w disp r := by
    have hpos : ∀ w : List ℝ, (∀ x ∈ w, 0 < x) → ∀ r, 0 < totalWeight (some w) disp r := by
      intro w hw r
      have h1 : ∀ i, 0 < w.getD i 1 := by
        intro i
        rw [List.getD_eq_getElem?_getD]
        cases h : w[i]? with
        | none => simp
        | some x => exact hw x (List.mem_of_getElem? h)
      unfold totalWeight
      simp only
      split_ifs
      · exact mul_pos (h1 _) (h1 _)
      · simpa using h1 r
    rcases hrw with rfl | rfl | ⟨w, rfl, hl, hx⟩
    · exact ⟨none, by simp [resolveWeights], fun r => by simp [totalWeight]⟩
    · obtain ⟨h1, _, h3, _⟩ := C52_default_row_weights (a.size - disp)
      exact ⟨some (getDefaultRowWeights (a.size - disp)), by simp [resolveWeights],
        hpos _ fun x hx => lt_of_lt_of_le one_pos (h3 x hx)⟩
    · refine ⟨some w, ?_, hpos w hx⟩
      simp only [resolveWeights]
      rw [if_neg (by omega)]
  have hkm : 1 ≤ a.size := by omega
  have hzn : ‖z‖ = 1 := by
    rw [hz]; unfold phaseFactor
    rw [mul_comm, Complex.norm_exp_ofReal_mul_I]
  obtain ⟨T, hT, hfac⟩ := signal_factor (ulaMat_injective (m := a.size) (z := fun _ : Fin 1 => z)
    (fun x y _ => Subsingleton.elim x y) hkm) hP (eigh.spec _ (covModel_isHermitian _ hP.1 σ)) hkm
  obtain ⟨ρ, hρ, hphi⟩ : ∃ ρ : ℝ, 0 < ρ ∧
      (if form = "tls" then phiTLS eigh (es1View (applyWeights (ulaMat a.size (fun _ : Fin 1 => z) * T) disp w) disp)
          (es2View (applyWeights (ulaMat a.size (fun _ : Fin 1 => z) * T) disp w) disp)
        else if form = "ls" then phiLS (es1View (applyWeights (ulaMat a.size (fun _ : Fin 1 => z) * T) disp w) disp)
          (es2View (applyWeights (ulaMat a.size (fun _ : Fin 1 => z) * T) disp w) disp)
        else .error .valueError) = .ok (T⁻¹ * diagonal (fun _ => (ρ : ℂ) * z ^ disp) * T) := by
    rcases hform with rfl | rfl
    · simp only [String.reduceEq, if_false, if_true]
      exact single_source_phi (m := a.size) (d := disp) hzn (by omega) hT w fun r _ => hw2 r
    · simp only [if_true]
      exact single_source_tls eigh (m := a.size) (d := disp) hzn (by omega) hT w fun r _ => hw2 r
  obtain ⟨π, hπ⟩ := eigvals_similar ev hT fun _ => (ρ : ℂ) * z ^ disp
  have hzpow : z ^ disp = Complex.exp (I *
      ((2 * Real.pi * (d * disp) / wl * Real.sin (angleOf src.unit (src.loc 0)) : ℝ) : ℂ)) := by
    rw [hz]
    simp only [phaseFactor]
    rw [← Complex.exp_nat_mul]
    congr 1
    push_cast
    ring
  obtain ⟨s, hs1, hs2, hs3, τ, hs4⟩ := C21_from_z (k := 1) (fun _ => angleOf src.unit (src.loc 0))
    (fun _ => ρ) wl (d * disp) hwl (by positivity) (fun i => Or.inl ⟨rfl, inRange1D_angle (hsrc.2 _)⟩)
    (fun _ => hρ) (fun _ => hamb) unit hunit
  have hdd : d0.getD (wl / 2) = d := by
    rcases hd0 with rfl | ⟨rfl, h⟩
    · rfl
    · exact h.symm
  refine ⟨s, ?_, hs2, hs4 0⟩
  unfold espritEstimate
  rw [if_neg (by omega)]
  unfold ensureNResolvable
  rw [if_neg (by push_cast; omega)]
  simp only [Int.toNat_natCast, hw1, dif_pos hkm, hdd, hfac, hphi]
  rw [show ev.run (T⁻¹ * diagonal (fun _ => (ρ : ℂ) * z ^ disp) * T) = fun i => (ρ : ℂ) *
      Complex.exp (I * ((2 * Real.pi * (d * disp) / wl *
        Real.sin (angleOf src.unit (src.loc 0)) : ℝ) : ℂ)) by
    funext i
    rw [hπ i, hzpow]]
  exact hs1

/-- A source at 0.3 rad, six sensors, overlapping subarrays, the default weights and total least squares. -/
example : ∃ (a : GridArray) (l : Fin a.element.outputSize) (S : Steering a.element.outputSize a.size 1) (s : FF1D 1),
    ula 6 (.scalar (1 / 2)) none {} = .ok a ∧ steering a.toArrayDesign (.ff1 (⟨fun _ => 0.3, "rad"⟩ : FF1D 1)) 1 false "all" = .ok S ∧
      espritEstimate someEigh someEigvals 1 (covModel (S.A l) (1 : Matrix (Fin 1) (Fin 1) ℂ) 3) 1 none 1 "tls" (.str "default") "rad" = .ok s ∧
      s.loc 0 = 0.3 := by
  obtain ⟨a, ha⟩ := ula_ok 6 (1 / 2) none
  have hl : 0 < a.element.outputSize := by
    have hel : a.element = .isotropicScalar := (gridInit_spec ha).2.2.1
    rw [hel]; decide
  have hpi := Real.pi_gt_three
  have hs1 : Real.sin 0.3 < 1 := lt_of_le_of_lt (Real.sin_le (by norm_num)) (by norm_num)
  have hs0 : 0 < Real.sin 0.3 := Real.sin_pos_of_pos_of_lt_pi (by norm_num) (by linarith)
  obtain ⟨S, hS, s, h1, -, h2⟩ := C47_single_source someEigh someEigvals (n := 6) (d := 1 / 2) (wl := 1) (by norm_num) one_pos ha ⟨0, hl⟩
    (⟨fun _ => 0.3, "rad"⟩ : FF1D 1) ⟨Or.inl rfl, fun _ => Or.inl ⟨rfl, by norm_num; linarith, by norm_num; linarith⟩⟩ 1 le_rfl (by norm_num)
    (by
      have : angleOf "rad" (0.3 : ℝ) = 0.3 := by simp [angleOf]
      simp only [this, Nat.cast_one]
      rw [abs_of_pos (by positivity)]
      nlinarith)
    none (Or.inr ⟨rfl, rfl⟩) (.str "default") (Or.inr (Or.inl rfl)) "tls" (Or.inr rfl) (P := 1) PosDef.one 3 "rad" (Or.inl rfl)
  refine ⟨a, ⟨0, hl⟩, S, s, ha, hS, by exact_mod_cast h1, ?_⟩
  rw [h2]
  simp [reprIn, angleOf]

/-- Characteristic equation of the least-squares solution. -/
theorem ls_eigenvalue (ev : NpEigvals) {k : ℕ} {G H T : Matrix (Fin k) (Fin k) ℂ} (hG : IsUnit G.det)
    (hT : IsUnit T.det) (i : Fin k) :
    ((ev.run (T⁻¹ * (G⁻¹ * H) * T) i) • G - H).det = 0 := by
  set lam := ev.run (T⁻¹ * (G⁻¹ * H) * T) i with hlam
  have h1 : lam ∈ (T⁻¹ * (G⁻¹ * H) * T).charpoly.roots := by
    rw [← ev.spec]
    exact Multiset.mem_map_of_mem _ (Finset.mem_univ_val i)
  have h2 : (T⁻¹ * (G⁻¹ * H) * T).charpoly = (G⁻¹ * H).charpoly := by
    obtain ⟨U, hU⟩ := (isUnit_iff_isUnit_det T).2 hT
    have := charpoly_units_conj' U (G⁻¹ * H)
    rw [hU] at this
    rw [← this, ← hU]
  rw [h2] at h1
  have h3 := Polynomial.isRoot_of_mem_roots h1
  rw [Polynomial.IsRoot, eval_charpoly] at h3
  have h4 : lam • G - H = G * (scalar (Fin k) lam - G⁻¹ * H) := by
    rw [mul_sub, ← Matrix.mul_assoc, mul_nonsing_inv _ hG, Matrix.one_mul]
    congr 1
    ext a b
    simp [mul_comm]
  rw [h4, det_mul, h3, mul_zero]

/-- Least squares with weights `W1`, `W2` on the two views. -/
theorem phiLS_weighted {n k : ℕ} {A1 : Matrix (Fin n) (Fin k) ℂ} {W1 W2 : Matrix (Fin n) (Fin n) ℂ}
    {D T : Matrix (Fin k) (Fin k) ℂ} (hT : IsUnit T.det)
    (hG : IsUnit (A1ᴴ * W1ᴴ * W1 * A1).det) :
    phiLS (W1 * A1 * T) (W2 * A1 * D * T) =
      .ok (T⁻¹ * ((A1ᴴ * W1ᴴ * W1 * A1)⁻¹ * (A1ᴴ * W1ᴴ * W2 * A1 * D)) * T) := by
  unfold phiLS npSolve
  have hTh : IsUnit Tᴴ.det := by rw [det_conjTranspose]; exact hT.star
  have e1 : (W1 * A1 * T)ᴴ * (W1 * A1 * T) = Tᴴ * (A1ᴴ * W1ᴴ * W1 * A1) * T := by
    simp only [conjTranspose_mul, Matrix.mul_assoc]
  have e2 : (W1 * A1 * T)ᴴ * (W2 * A1 * D * T) = Tᴴ * (A1ᴴ * W1ᴴ * W2 * A1 * D) * T := by
    simp only [conjTranspose_mul, Matrix.mul_assoc]
  rw [e1, e2]
  set G := A1ᴴ * W1ᴴ * W1 * A1
  set H := A1ᴴ * W1ᴴ * W2 * A1 * D
  have hu : IsUnit (Tᴴ * G * T).det := by
    rw [det_mul, det_mul]; exact (hTh.mul hG).mul hT
  rw [if_pos hu]
  congr 1
  have h : Tᴴ * H * T = (Tᴴ * G * T) * (T⁻¹ * (G⁻¹ * H) * T) := by
    have h1 : Tᴴ * G * T * (T⁻¹ * (G⁻¹ * H) * T) = Tᴴ * (G * ((T * T⁻¹) * (G⁻¹ * H))) * T := by
      simp only [Matrix.mul_assoc]
    rw [h1, mul_nonsing_inv _ hT, Matrix.one_mul, ← Matrix.mul_assoc G, mul_nonsing_inv _ hG,
      Matrix.one_mul]
  rw [h, ← Matrix.mul_assoc, nonsing_inv_mul _ hu, Matrix.one_mul]

/-- **C47** is violated for overlapping subarrays with the *default* row weights: four sensors at half
wavelength spacing, two sources at 0 and `π / 6`, displacement 1, default arguments, exact covariance
with any source covariance and any noise variance. No returned DOA is 0.  The cause: `Es1` and `Es2`
are views of one buffer, so that the weights of each are also applied to the other. -/
theorem C47_default_weights_wrong (eigh : Eigh) (ev : NpEigvals) {name : Option String}
    {a : GridArray} (ha : ula 4 (.scalar (1 / 2)) name {} = .ok a) (l : Fin a.element.outputSize)
    {P : Matrix (Fin 2) (Fin 2) ℂ} (hP : P.PosDef) (σ : ℝ) :
    ∃ S, steering a.toArrayDesign (.ff1 ⟨![0, Real.pi / 6], "rad"⟩) 1 false "all" = .ok S ∧
      ∀ s, espritEstimate eigh ev 1 (covModel (S.A l) P σ) 2 none 1 "ls" (.str "default") "rad" = .ok s →
        ∀ i, s.loc i ≠ 0 := by
  have hpi := Real.pi_pos
  have hsize := (C01_ula_geometry 4 (1 / 2) name {} a ha).1
  have hsrc : Valid1D (⟨![0, Real.pi / 6], "rad"⟩ : FF1D 2) := by
    refine ⟨Or.inl rfl, fun c => Or.inl ⟨rfl, ?_⟩⟩
    fin_cases c
    · constructor <;> simp <;> linarith
    · constructor <;> simp <;> linarith
  obtain ⟨S, hS, hSv⟩ := ula_steering ha ⟨![0, Real.pi / 6], "rad"⟩ hsrc 1 "all" (by simp)
  refine ⟨S, hS, ?_⟩
  have hsz : a.toArrayDesign.size = 4 := hsize
  have hz : ∀ c : Fin 2, phaseFactor (1 / 2) 1 "rad" ((![0, Real.pi / 6] : Fin 2 → ℝ) c) =
      (![1, I] : Fin 2 → ℂ) c := by
    intro c
    fin_cases c
    · simp [phaseFactor, angleOf]
    · simp only [phaseFactor, angleOf, String.reduceEq, if_false, Fin.mk_one, Matrix.cons_val_one,
        Matrix.cons_val_fin_one, Real.sin_pi_div_six]
      rw [show (2 * Real.pi * (1 / 2) / 1 * (1 / 2) : ℝ) = Real.pi / 2 by ring]
      push_cast
      rw [mul_comm, Complex.exp_pi_div_two_mul_I]
  have hSm : S.A l = ulaMat a.size ![1, I] := by
    funext i c
    rw [hSv l i c]
    simp only [ulaMat, ← hz c]
  rw [hSm]
  generalize a.toArrayDesign.size = m at hsz
  subst hsz
  have hinj : Function.Injective (![1, I] : Fin 2 → ℂ) := by
    intro x y h
    fin_cases x <;> fin_cases y <;> simp_all [Complex.ext_iff]
  intro s hs i h0
  obtain ⟨T, hT, hfac⟩ := signal_factor (ulaMat_injective (m := 4) hinj (by decide)) hP
    (eigh.spec _ (covModel_isHermitian _ hP.1 σ)) (by decide : 2 ≤ 4)
  obtain ⟨h1, h2⟩ := views_ula (m := 4) (z := ![1, I]) T 1 (some (getDefaultRowWeights 3))
  have hdw : getDefaultRowWeights 3 = [1, Real.sqrt 2, 1] := by
    norm_num [getDefaultRowWeights, rawRowWeights_eq, List.range_succ]
  set q := Real.sqrt 2 with hq
  have hq2 : q * q = 2 := Real.mul_self_sqrt (by norm_num)
  have hqC : (q : ℂ) * q = 2 := by exact_mod_cast hq2
  set A1 : Matrix (Fin 3) (Fin 2) ℂ := ulaMat 3 ![1, I] with hA1
  set W1 : Matrix (Fin 3) (Fin 3) ℂ := diagonal ![1, (q : ℂ), q] with hW1
  set W2 : Matrix (Fin 3) (Fin 3) ℂ := diagonal ![(q : ℂ), q, 1] with hW2
  set D : Matrix (Fin 2) (Fin 2) ℂ := diagonal fun c => (![1, I] : Fin 2 → ℂ) c ^ 1 with hD
  have hw1 : (fun r : Fin 3 => (totalWeight (some (getDefaultRowWeights 3)) 1 r.1 : ℂ)) = ![1, (q : ℂ), q] := by
    funext r
    fin_cases r <;> simp [totalWeight, hdw]
  have hw2 : (fun r : Fin 3 => (totalWeight (some (getDefaultRowWeights 3)) 1 (r.1 + 1) : ℂ)) =
      ![(q : ℂ), q, 1] := by
    funext r
    fin_cases r <;> simp [totalWeight, hdw]
  have h1' : es1View (applyWeights (ulaMat 4 ![1, I] * T) 1 (some (getDefaultRowWeights 3))) 1 =
      W1 * A1 * T := by rw [h1]; exact congrArg (fun w => diagonal w * A1 * T) hw1
  have h2' : es2View (applyWeights (ulaMat 4 ![1, I] * T) 1 (some (getDefaultRowWeights 3))) 1 =
      W2 * A1 * D * T := by rw [h2]; exact congrArg (fun w => diagonal w * A1 * D * T) hw2
  have hA1v : A1 = !![1, 1; 1, I; 1, -1] := by
    ext i j
    fin_cases i <;> fin_cases j <;> simp [hA1, ulaMat]
  have hGv : A1ᴴ * W1ᴴ * W1 * A1 = !![5, -1 + 2 * I; -1 - 2 * I, 5] := by
    rw [hA1v, hW1]
    ext i j
    fin_cases i <;> fin_cases j <;>
      simp [Matrix.mul_apply, Fin.sum_univ_three, diagonal, Matrix.of_apply]
    · linear_combination 2 * hqC
    · linear_combination (I - 1) * hqC
    · linear_combination -(I + 1) * hqC
    · linear_combination 2 * hqC - q * q * Complex.I_mul_I
  have hHv : A1ᴴ * W1ᴴ * W2 * A1 * D = !![2 + 2 * (q : ℂ), -2; -2 * I, (2 + 2 * q) * I] := by
    rw [hA1v, hW1, hW2, hD]
    ext i j
    fin_cases i <;> fin_cases j <;>
      simp [Matrix.mul_apply, Fin.sum_univ_three, diagonal, Matrix.of_apply]
    · linear_combination hqC
    · linear_combination (q * q : ℂ) * Complex.I_mul_I - hqC
    · linear_combination I * hqC
    · linear_combination hqC - q * q * Complex.I_mul_I
  have hG : IsUnit (A1ᴴ * W1ᴴ * W1 * A1).det := by
    rw [hGv, det_fin_two_of, isUnit_iff_ne_zero]
    intro h
    have := congrArg Complex.re h
    norm_num at this
  have hphi := phiLS_weighted (A1 := A1) (W1 := W1) (W2 := W2) (D := D) hT hG
  unfold espritEstimate at hs
  rw [if_neg (by norm_num)] at hs
  unfold ensureNResolvable at hs
  rw [if_neg (by norm_num)] at hs
  simp only [Int.toNat_one, resolveWeights, String.reduceEq, if_false, if_true, dif_pos (by decide : 2 ≤ 4),
    hfac] at hs
  have e : phiLS (es1View (applyWeights (ulaMat 4 ![1, I] * T) 1 (some (getDefaultRowWeights (4 - 1)))) 1)
      (es2View (applyWeights (ulaMat 4 ![1, I] * T) 1 (some (getDefaultRowWeights (4 - 1)))) 1) =
      .ok (T⁻¹ * ((A1ᴴ * W1ᴴ * W1 * A1)⁻¹ * (A1ᴴ * W1ᴴ * W2 * A1 * D)) * T) := by
    refine Eq.trans ?_ hphi
    exact congrArg₂ phiLS h1' h2'
  rw [e] at hs
  simp only [Option.getD_none] at hs
  set Phi := T⁻¹ * ((A1ᴴ * W1ᴴ * W1 * A1)⁻¹ * (A1ᴴ * W1ᴴ * W2 * A1 * D)) * T with hPhi
  -- a returned zero is a nonnegative real eigenvalue
  obtain ⟨j, hj⟩ : ∃ j, (ev.run Phi j).arg = 0 := by
    unfold FF1D.fromZ at hs
    rw [if_neg one_ne_zero] at hs
    simp only [String.reduceEq, if_false, if_true] at hs
    split at hs
    · cases hs
    rw [FF1D.init_ok (Or.inl rfl) (sortVec fun i => Real.arcsin _) fun i => Or.inl ⟨rfl,
      (by exact Real.neg_pi_div_two_le_arcsin _), (by exact Real.arcsin_le_pi_div_two _)⟩] at hs
    obtain rfl := Except.ok.inj hs
    simp only [sortVec, Function.comp_apply, Real.arcsin_eq_zero_iff, div_eq_zero_iff] at h0
    refine ⟨_, h0.resolve_right ?_⟩
    norm_num
  have hdet := ls_eigenvalue ev (H := A1ᴴ * W1ᴴ * W2 * A1 * D) hG hT j
  rw [← hPhi, hGv, hHv] at hdet
  obtain ⟨x, hx⟩ : ∃ x : ℝ, ev.run Phi j = x := by
    rw [Complex.arg_eq_zero_iff_zero_le] at hj
    exact ⟨_, (Complex.eq_re_of_ofReal_le hj)⟩
  rw [hx, det_fin_two] at hdet
  have hre := congrArg Complex.re hdet
  have him := congrArg Complex.im hdet
  simp at hre him
  have hq0 : 0 ≤ q := Real.sqrt_nonneg 2
  have e1 : x * (20 * x - (10 * q + 4)) = 0 := by linear_combination hre
  have e2 : x * (10 * q + 4) = 8 + 8 * q := by linear_combination -him + 4 * hq2
  have hx0 : x ≠ 0 := by
    rintro rfl
    rw [zero_mul] at e2
    linarith
  have e3 := (mul_eq_zero.1 e1).resolve_left hx0
  have e4 : 80 * q = 56 := by
    linear_combination -20 * e2 + (10 * q + 4) * e3 + 100 * hq2
  nlinarith

end Doa.Props
