import Verif.Props.Mirror
import Verif.Props.Capon

/-!
# C105: the resolution limit of the Bartlett beamformer
-/

namespace Doa.Props

open Doa Doa.Spec Matrix
open scoped ComplexOrder Topology
open MeasureTheory Filter

variable {m k : ℕ}

/-! ### Specification -/

/-- The sine of the broadside angle denoted by `v` in the unit `u`. -/
noncomputable def sineOf (u : String) (v : ℝ) : ℝ := Real.sin (angleOf u v)

/-- Two sources are within the resolution limit of an array on a line: the difference of their sines times the distance between any two
sensors is less than half a wavelength; and the sensors are not all at one place. -/
structure WithinLimit (a : ArrayDesign) (wl s t : ℝ) : Prop where
  aperture : ∀ i j, i < a.size → j < a.size → |a.locations.at0 i 0 - a.locations.at0 j 0| * |s - t| < wl / 2
  spread : ∃ i j, i < a.size ∧ j < a.size ∧ a.locations.at0 i 0 ≠ a.locations.at0 j 0

/-! ### The spectrum -/

theorem sineOf_sin {u : String} (hu : u = "sin") {v : ℝ} (h : InRange1D u v) : sineOf u v = v := by
  subst hu
  rcases h with ⟨h, -⟩ | ⟨h, -⟩ | ⟨-, h1, h2⟩
  · exact absurd h (by decide)
  · exact absurd h (by decide)
  · simp only [sineOf, angleOf, String.reduceEq, if_false, if_true]
    exact Real.sin_arcsin h1 h2

theorem dir_sine {s : FF1D k} {c : Fin k} (h : InRange1D s.unit (s.loc c)) : (s.dir c).1 = sineOf s.unit (s.loc c) := by
  by_cases hs : s.unit = "sin"
  · rw [sineOf_sin hs h, FF1D.dir, if_pos hs]
  · unfold FF1D.dir sineOf angleOf
    rw [if_neg hs]
    by_cases hd : s.unit = "deg"
    · rw [if_pos hd, if_pos hd, deg2rad, mul_div_assoc]
    · rw [if_neg hd, if_neg hd, if_neg hs]

theorem angleOf_range {u : String} {v : ℝ} (h : InRange1D u v) : -(Real.pi / 2) ≤ angleOf u v ∧ angleOf u v ≤ Real.pi / 2 := by
  rcases h with ⟨rfl, h1, h2⟩ | ⟨rfl, h1, h2⟩ | ⟨rfl, h1, h2⟩
  · exact ⟨h1, h2⟩
  · have := Real.pi_pos
    simp only [angleOf, if_true]
    constructor <;> nlinarith
  · simp only [angleOf, String.reduceEq, if_false, if_true]
    exact ⟨Real.neg_pi_div_two_le_arcsin v, Real.arcsin_le_pi_div_two v⟩

/-- The sine grows with the location, in every unit. -/
theorem sineOf_lt {u : String} {v w : ℝ} (hv : InRange1D u v) (hw : InRange1D u w) (h : v < w) : sineOf u v < sineOf u w := by
  refine Real.sin_lt_sin_of_lt_of_le_pi_div_two (angleOf_range hv).1 (angleOf_range hw).2 ?_
  rcases hv with ⟨rfl, h1, h2⟩ | ⟨rfl, h1, h2⟩ | ⟨rfl, h1, h2⟩
  · exact h
  · have := Real.pi_pos
    simp only [angleOf, if_true]
    nlinarith
  · simp only [angleOf, String.reduceEq, if_false, if_true]
    rcases hw with ⟨h', -⟩ | ⟨h', -⟩ | ⟨-, h3, h4⟩
    · exact absurd h' (by decide)
    · exact absurd h' (by decide)
    · exact Real.arcsin_lt_arcsin h1 h h4

theorem response_line {a : ArrayDesign} (h : OnLine a) (l : Fin a.element.outputSize) (wl : ℝ) [NeZero wl] {u : String}
    {mode : String} (hm : mode ∈ ["all", "known", "none"]) {v : ℝ} (hv : InRange1D u v) (i : Fin a.size) :
    response a l wl u mode v i = Complex.exp (Complex.I * ((2 * Real.pi / wl * sineOf u v * a.locations.at0 i.1 0 : ℝ) : ℂ)) := by
  obtain ⟨S, h1, h2⟩ := line_steering h (⟨![v], u⟩ : FF1D 1) wl mode hm
  simp only [response, h1, entryOf]
  rw [h2, dir_sine (s := (⟨![v], u⟩ : FF1D 1)) (c := 0) hv]
  rfl

/-- Squared magnitude of the inner product of two vectors of phases. -/
theorem phases_inner (f g : Fin m → ℝ) (v w : Fin m → ℂ) (hv : ∀ i, v i = Complex.exp (Complex.I * (f i : ℂ)))
    (hw : ∀ i, w i = Complex.exp (Complex.I * (g i : ℂ))) :
    ‖star v ⬝ᵥ w‖ ^ 2 = ∑ i, ∑ j, Real.cos ((g i - f i) - (g j - f j)) := by
  have e : star v ⬝ᵥ w = ∑ i, Complex.exp (Complex.I * ((g i - f i : ℝ) : ℂ)) := by
    refine Finset.sum_congr rfl fun i _ => ?_
    rw [Pi.star_apply, hv, hw, Complex.star_def, ← Complex.exp_conj, ← Complex.exp_add]
    congr 1
    rw [map_mul, Complex.conj_I, Complex.conj_ofReal]
    push_cast
    ring
  rw [← Complex.normSq_eq_norm_sq, ← Complex.ofReal_re (Complex.normSq _), ← Complex.mul_conj, e, map_sum, Finset.sum_mul_sum, Complex.re_sum]
  refine Finset.sum_congr rfl fun i _ => ?_
  rw [Complex.re_sum]
  refine Finset.sum_congr rfl fun j _ => ?_
  rw [← Complex.exp_conj, ← Complex.exp_add, map_mul, Complex.conj_I, Complex.conj_ofReal]
  have : Complex.I * ((g i - f i : ℝ) : ℂ) + -Complex.I * ((g j - f j : ℝ) : ℂ) = (((g i - f i) - (g j - f j) : ℝ) : ℂ) * Complex.I := by
    push_cast
    ring
  rw [this, Complex.exp_ofReal_mul_I_re]

/-- The Bartlett spectrum of two uncorrelated sources of equal power. -/
theorem bartlett_two (A : Matrix (Fin m) (Fin 2) ℂ) (p σ : ℝ) (v : Fin m → ℂ) :
    (bartlettRaw (covModel A ((p : ℂ) • (1 : Matrix (Fin 2) (Fin 2) ℂ)) σ) v).re =
      p * (‖star v ⬝ᵥ A.col 0‖ ^ 2 + ‖star v ⬝ᵥ A.col 1‖ ^ 2) + σ * (star v ⬝ᵥ v).re := by
  have hq : ∀ w : Fin m → ℂ, star v ⬝ᵥ w * star (star v ⬝ᵥ w) = ((‖star v ⬝ᵥ w‖ ^ 2 : ℝ) : ℂ) := fun w => by
    rw [Complex.star_def, Complex.mul_conj, Complex.normSq_eq_norm_sq]
  have hA : star v ⬝ᵥ (A * Aᴴ) *ᵥ v = ∑ c, star v ⬝ᵥ A.col c * star (star v ⬝ᵥ A.col c) := by
    rw [← mulVec_mulVec, dotProduct_mulVec]
    refine Finset.sum_congr rfl fun c _ => ?_
    congr 1
    simp only [mulVec, dotProduct, star_sum, star_mul', star_star, conjTranspose_apply, col_apply, Pi.star_apply]
    exact Finset.sum_congr rfl fun i _ => mul_comm _ _
  rw [bartlettRaw_eq, covModel, Matrix.mul_smul, Matrix.smul_mul, Matrix.mul_one, add_mulVec, dotProduct_add, smul_mulVec, smul_mulVec, dotProduct_smul,
    dotProduct_smul, one_mulVec, hA, Fin.sum_univ_two, hq, hq, ← Complex.ofReal_add, smul_eq_mul, smul_eq_mul, Complex.add_re, Complex.re_ofReal_mul,
    Complex.re_ofReal_mul, Complex.ofReal_re]

/-- The spectrum as a sum over pairs of sensors, at distance `t` (in sine) from the middle of the sources. -/
theorem bartlett_line {a : ArrayDesign} (h : OnLine a) (l : Fin a.element.outputSize) {wl : ℝ} [NeZero wl] (src : FF1D 2)
    (hr : ∀ c, InRange1D src.unit (src.loc c)) {S : Steering a.element.outputSize a.size 2} (hS : steering a (.ff1 src) wl false "all" = .ok S)
    (p σ : ℝ) {v : ℝ} (hv : InRange1D src.unit v) :
    (bartlettRaw (covModel (S.A l) ((p : ℂ) • (1 : Matrix (Fin 2) (Fin 2) ℂ)) σ) (response a l wl src.unit "all" v)).re =
      2 * p * (∑ i : Fin a.size, ∑ j : Fin a.size,
        Real.cos (2 * Real.pi / wl * (a.locations.at0 i 0 - a.locations.at0 j 0) *
          ((sineOf src.unit (src.loc 0) - sineOf src.unit (src.loc 1)) / 2)) *
        Real.cos (2 * Real.pi / wl * (a.locations.at0 i 0 - a.locations.at0 j 0) *
          (sineOf src.unit v - (sineOf src.unit (src.loc 0) + sineOf src.unit (src.loc 1)) / 2))) + σ * a.size := by
  obtain ⟨S', h1, h2⟩ := line_steering h src wl "all" (by simp)
  obtain rfl : S' = S := by rw [h1] at hS; injection hS
  have hresp := response_line h l wl (mode := "all") (by simp) hv
  rw [bartlett_two]
  have hcol : ∀ c, ‖star (response a l wl src.unit "all" v) ⬝ᵥ (S'.A l).col c‖ ^ 2 = _ := fun c =>
    phases_inner (fun i => 2 * Real.pi / wl * sineOf src.unit v * a.locations.at0 i.1 0)
      (fun i => 2 * Real.pi / wl * sineOf src.unit (src.loc c) * a.locations.at0 i.1 0) _ _ hresp
      (fun i => by rw [col_apply, h2, dir_sine (hr c)])
  have hpow : (star (response a l wl src.unit "all" v) ⬝ᵥ response a l wl src.unit "all" v).re = a.size := by
    have : star (response a l wl src.unit "all" v) ⬝ᵥ response a l wl src.unit "all" v = ∑ _i : Fin a.size, (1 : ℂ) := by
      refine Finset.sum_congr rfl fun i _ => ?_
      rw [Pi.star_apply, hresp, Complex.star_def, mul_comm, Complex.mul_conj, Complex.normSq_eq_norm_sq, mul_comm Complex.I,
        Complex.norm_exp_ofReal_mul_I]
      simp
    rw [this]
    simp
  rw [hcol 0, hcol 1, hpow, ← Finset.sum_add_distrib, mul_comm (2 : ℝ) p, mul_assoc p 2, Finset.mul_sum (a := (2 : ℝ))]
  congr 2
  refine Finset.sum_congr rfl fun i _ => ?_
  rw [← Finset.sum_add_distrib, Finset.mul_sum]
  refine Finset.sum_congr rfl fun j _ => ?_
  rw [Real.cos_add_cos, ← mul_assoc, mul_assoc (2 : ℝ), mul_comm (Real.cos _) (Real.cos _), mul_assoc (2 : ℝ)]
  congr 2
  · congr 1
    ring
  · rw [← Real.cos_neg]
    congr 1
    ring

/-- **C105** (the spectrum). Below the resolution limit the Bartlett spectrum of two uncorrelated sources of equal power has a single maximum: of
two directions whose sine is no further from the mean of the sines of the sources than the distance of the sources, the one closer to the
mean has the larger value. -/
theorem C105_spectrum {a : ArrayDesign} (h : OnLine a) (l : Fin a.element.outputSize) {wl : ℝ} (hwl : 0 < wl) (src : FF1D 2)
    (hs : Valid1D src) {S : Steering a.element.outputSize a.size 2} (hS : steering a (.ff1 src) wl false "all" = .ok S)
    (hlim : WithinLimit a wl (sineOf src.unit (src.loc 0)) (sineOf src.unit (src.loc 1))) {p : ℝ} (hp : 0 < p) (σ : ℝ)
    {v w : ℝ} (hv : InRange1D src.unit v) (hw : InRange1D src.unit w)
    (hnear : |sineOf src.unit v - (sineOf src.unit (src.loc 0) + sineOf src.unit (src.loc 1)) / 2| <
      |sineOf src.unit w - (sineOf src.unit (src.loc 0) + sineOf src.unit (src.loc 1)) / 2|)
    (hfar : |sineOf src.unit w - (sineOf src.unit (src.loc 0) + sineOf src.unit (src.loc 1)) / 2| ≤
      |sineOf src.unit (src.loc 0) - sineOf src.unit (src.loc 1)|) :
    (bartlettRaw (covModel (S.A l) ((p : ℂ) • (1 : Matrix (Fin 2) (Fin 2) ℂ)) σ) (response a l wl src.unit "all" w)).re <
      (bartlettRaw (covModel (S.A l) ((p : ℂ) • (1 : Matrix (Fin 2) (Fin 2) ℂ)) σ) (response a l wl src.unit "all" v)).re := by
  have : NeZero wl := ⟨hwl.ne'⟩
  rw [bartlett_line h l src hs.2 hS p σ hv, bartlett_line h l src hs.2 hS p σ hw]
  generalize sineOf src.unit v - (sineOf src.unit (src.loc 0) + sineOf src.unit (src.loc 1)) / 2 = tv at hnear
  generalize sineOf src.unit w - (sineOf src.unit (src.loc 0) + sineOf src.unit (src.loc 1)) / 2 = tw at hnear hfar
  set D := sineOf src.unit (src.loc 0) - sineOf src.unit (src.loc 1) with hD
  have hpi := Real.pi_pos
  -- phase differences between two sensors
  have hκ : ∀ i j : Fin a.size, |2 * Real.pi / wl * (a.locations.at0 i 0 - a.locations.at0 j 0)| * |D| < Real.pi := by
    intro i j
    have h1 := hlim.aperture i j i.2 j.2
    rw [abs_mul, abs_of_pos (by positivity : 0 < 2 * Real.pi / wl), mul_assoc]
    calc 2 * Real.pi / wl * (|a.locations.at0 i 0 - a.locations.at0 j 0| * |D|) < 2 * Real.pi / wl * (wl / 2) :=
          mul_lt_mul_of_pos_left h1 (by positivity)
      _ = Real.pi := by field_simp
  have hpos : ∀ i j : Fin a.size, 0 < Real.cos (2 * Real.pi / wl * (a.locations.at0 i 0 - a.locations.at0 j 0) * (D / 2)) := by
    intro i j
    refine Real.cos_pos_of_mem_Ioo (abs_lt.1 ?_)
    rw [abs_mul, abs_div, abs_two]
    linarith [hκ i j]
  have hle : ∀ i j : Fin a.size, Real.cos (2 * Real.pi / wl * (a.locations.at0 i 0 - a.locations.at0 j 0) * tw) ≤
      Real.cos (2 * Real.pi / wl * (a.locations.at0 i 0 - a.locations.at0 j 0) * tv) := by
    intro i j
    rw [← Real.cos_abs, ← Real.cos_abs (_ * tv), abs_mul, abs_mul _ tv]
    refine Real.cos_le_cos_of_nonneg_of_le_pi (by positivity) ?_ (mul_le_mul_of_nonneg_left hnear.le (abs_nonneg _))
    exact (mul_le_mul_of_nonneg_left hfar (abs_nonneg _)).trans (hκ i j).le
  obtain ⟨i, j, hi, hj, hij⟩ := hlim.spread
  have hlt : Real.cos (2 * Real.pi / wl * (a.locations.at0 i 0 - a.locations.at0 j 0) * tw) <
      Real.cos (2 * Real.pi / wl * (a.locations.at0 i 0 - a.locations.at0 j 0) * tv) := by
    rw [← Real.cos_abs, ← Real.cos_abs (_ * tv), abs_mul, abs_mul _ tv]
    refine Real.cos_lt_cos_of_nonneg_of_le_pi (by positivity) ?_ (mul_lt_mul_of_pos_left hnear ?_)
    · exact (mul_le_mul_of_nonneg_left hfar (abs_nonneg _)).trans (hκ ⟨i, hi⟩ ⟨j, hj⟩).le
    · exact abs_pos.2 (mul_ne_zero (by positivity) (sub_ne_zero.2 hij))
  refine add_lt_add_left (mul_lt_mul_of_pos_left ?_ (by positivity)) _
  refine Finset.sum_lt_sum (fun i _ => Finset.sum_le_sum fun j _ => mul_le_mul_of_nonneg_left (hle i j) (hpos i j).le) ⟨⟨i, hi⟩, Finset.mem_univ _, ?_⟩
  exact Finset.sum_lt_sum (fun j _ => mul_le_mul_of_nonneg_left (hle _ j) (hpos _ j).le)
    ⟨⟨j, hj⟩, Finset.mem_univ _, mul_lt_mul_of_pos_left hlt (hpos ⟨i, hi⟩ ⟨j, hj⟩)⟩

/-! ### The estimator -/

/-- A grid position with a larger value next to it is not a peak. -/
theorem not_peak {β : Type} [LinearOrder β] {sp : List β} {j i : ℕ} (hij : i + 1 = j ∨ j + 1 = i) {v w : β} (hv : sp[i]? = some v)
    (hw : sp[j]? = some w) (h : w < v) : [j] ∉ findPeaksSimple [sp.length] sp := by
  classical
  intro hmem
  simp only [findPeaksSimple, List.length_cons, List.length_nil, if_true, zero_add, findPeaks1] at hmem
  obtain ⟨m, hm, hmj⟩ := List.mem_map.1 hmem
  obtain rfl : m = j := by simpa using hmj
  have := (List.mem_filter.1 hm).2
  simp only [decide_eq_true_eq] at this
  obtain ⟨l, r, ⟨h1, h2, h3, v', h4, h5, h6⟩, rfl⟩ := this
  have hwv := h4 _ (by omega) (by omega : l ≤ (l + r) / 2) (by omega)
  rw [hw, Option.some.injEq] at hwv
  subst hwv
  have hil := (List.getElem?_eq_some_iff.1 hv).1
  by_cases hin : l ≤ i ∧ i ≤ r
  · have := h4 i hil hin.1 hin.2
    rw [hv, Option.some.injEq] at this
    exact h.ne' this
  · rcases Nat.lt_or_ge i l with hlt | hge
    · obtain rfl : i = l - 1 := by omega
      exact lt_asymm h (h5 v hv)
    · obtain rfl : i = r + 1 := by omega
      exact lt_asymm h (h6 v hv)

/-- If every grid point between two grid points `s < t` has a larger value of the spectrum than both, neither is returned. -/
theorem bartlett_excludes {a : ArrayDesign} (l : Fin a.element.outputSize) {wl : ℝ}
    (cfg : EstCfg ℝ (List (Fin a.size → ℂ))) {x : List ℝ} {names : List String} {u : String}
    (hg : cfg.grid = ⟨.ff1, [⟨x, false⟩], names, [u]⟩) (hu : Unit1D u) (hx : ∀ v ∈ x, InRange1D u v) (hxs : x.Pairwise (· < ·))
    (hpf : cfg.peakFinder = findPeaksSimple) (hsort : IsArgsort cfg.argsort)
    (hat : cfg.compute (x.map fun v => [v]) = x.map fun v => response a l wl u "all" v)
    (loc : Fin 2 → ℝ) (hbtw : ∃ v ∈ x, loc 0 < v ∧ v < loc 1) (R : Matrix (Fin a.size) (Fin a.size) ℂ)
    (hval : ∀ w ∈ x, loc 0 < w → w < loc 1 → ∀ c : Fin 2,
      (bartlettRaw R (response a l wl u "all" (loc c))).re < (bartlettRaw R (response a l wl u "all" w)).re)
    (ops : List (EstOp ℝ (List (Fin a.size → ℂ)))) {k : ℕ} (hk : 1 ≤ k) :
    ∃ o st', bartlettEstimate cfg (cfg.run ops).1 R k {} = (.ok o, st') ∧
      ∃ found est sp, o.observe st' = (found, est, sp) ∧ ∀ locs u', est = some (some (locs, u')) → ∀ c, [loc c] ∉ locs := by
  obtain ⟨rows, hrows, hspec⟩ := C37_largest_peaks cfg (Or.inl ⟨x, names, u, hg, hu, hx⟩) hsort ops ⟨fBartlett R, k, false, 10, 3⟩ hk rfl
  rw [rows_1d hg hu hx, Except.ok.injEq] at hrows
  subst hrows
  have hsh : cfg.grid.shape = [x.length] := by rw [hg]; rfl
  obtain ⟨hsmall, hlarge⟩ := hspec _ rfl (by rw [hat, hsh]; simp [fBartlett])
    (by
      rw [hpf]
      exact (C37_default_peak_finder _ _ (by rw [hat, hsh]; simp [fBartlett])).1)
    (by
      rw [hpf]
      exact (C37_default_peak_finder _ _ (by rw [hat, hsh]; simp [fBartlett])).2)
  have hsp : fBartlett R (cfg.compute (x.map fun v => [v])) = x.map fun v => (bartlettRaw R (response a l wl u "all" v)).re := by
    rw [hat, fBartlett, List.map_map]
    rfl
  obtain ⟨v, hvx, hv0, hv1⟩ := hbtw
  have hinc : ∀ i j (hi : i < x.length) (hj : j < x.length), x[i] < x[j] → i < j := by
    intro i j hi hj hlt
    by_contra hle
    rcases Nat.lt_or_ge j i with h' | h'
    · exact lt_asymm hlt (List.pairwise_iff_getElem.1 hxs j i hj hi h')
    · obtain rfl : i = j := by omega
      exact lt_irrefl _ hlt
  have hnot : ∀ (j : ℕ) (c : Fin 2), x[j]? = some (loc c) → [j] ∉ findPeaksSimple [x.length] (fBartlett R (cfg.compute (x.map fun v => [v]))) := by
    intro j c hj
    obtain ⟨jm, hjm, hjv⟩ := List.getElem_of_mem hvx
    obtain ⟨hjl, hjc⟩ := List.getElem?_eq_some_iff.1 hj
    have hlen : (fBartlett R (cfg.compute (x.map fun v => [v]))).length = x.length := by rw [hsp]; simp
    have hnb : ∃ i, ∃ hi : i < x.length, (i + 1 = j ∨ j + 1 = i) ∧ loc 0 < x[i] ∧ x[i] < loc 1 := by
      fin_cases c
      · simp only [Fin.zero_eta] at hjc
        have h1 : j < jm := hinc j jm hjl hjm (by rw [hjc, hjv]; exact hv0)
        refine ⟨j + 1, by omega, Or.inr rfl, ?_, ?_⟩
        · rw [← hjc]
          exact List.pairwise_iff_getElem.1 hxs _ _ _ _ (by omega)
        · rcases Nat.lt_or_ge (j + 1) jm with h2 | h2
          · exact (List.pairwise_iff_getElem.1 hxs _ _ _ hjm h2).trans (by rw [hjv]; exact hv1)
          · obtain rfl : j + 1 = jm := by omega
            rw [hjv]
            exact hv1
      · simp only [Fin.mk_one] at hjc
        have h1 : jm < j := hinc jm j hjm hjl (by rw [hjc, hjv]; exact hv1)
        refine ⟨j - 1, by omega, Or.inl (by omega), ?_, ?_⟩
        · rcases Nat.lt_or_ge jm (j - 1) with h2 | h2
          · refine lt_trans ?_ (List.pairwise_iff_getElem.1 hxs _ _ hjm (by omega) h2)
            rw [hjv]
            exact hv0
          · obtain rfl : jm = j - 1 := by omega
            rw [hjv]
            exact hv0
        · rw [← hjc]
          exact List.pairwise_iff_getElem.1 hxs _ _ _ _ (by omega)
    obtain ⟨i, hi, hij, hi0, hi1⟩ := hnb
    rw [← hlen]
    refine not_peak hij (v := (bartlettRaw R (response a l wl u "all" x[i])).re) (w := (bartlettRaw R (response a l wl u "all" (loc c))).re) ?_ ?_
      (hval _ (List.getElem_mem hi) hi0 hi1 c)
    · rw [hsp, List.getElem?_map, List.getElem?_eq_getElem hi]
      rfl
    · rw [hsp, List.getElem?_map, hj]
      rfl
  -- what the call returns
  have hobs : ∀ y, cfg.observe (cfg.run ops).1 ⟨fBartlett R, k, false, 10, 3⟩ = .ok y →
      ∃ o st', bartlettEstimate cfg (cfg.run ops).1 R k {} = (.ok o, st') ∧ o.observe st' = y := by
    intro y hy
    unfold bartlettEstimate
    rw [beamArgs_ok]
    unfold EstCfg.observe at hy
    change ∃ o st', cfg.estimate (cfg.run ops).1 ⟨fBartlett R, k, false, 10, 3⟩ = (.ok o, st') ∧ _
    split at hy
    · cases hy
    · rename_i o st' he
      exact ⟨o, st', he, by injection hy⟩
  rw [hpf, hsh] at hsmall hlarge
  rcases Nat.lt_or_ge (findPeaksSimple [x.length] (fBartlett R (cfg.compute (x.map fun v => [v])))).length k with hlt | hge
  · obtain ⟨o, st', h1, h2⟩ := hobs _ (hsmall hlt)
    exact ⟨o, st', h1, _, _, _, h2, fun locs u' he => by cases he⟩
  · obtain ⟨flat, htop, hres⟩ := hlarge hge
    obtain ⟨o, st', h1, h2⟩ := hobs _ hres
    refine ⟨o, st', h1, _, _, _, h2, fun locs u' he c hc => ?_⟩
    simp only [Option.some.injEq, Prod.mk.injEq] at he
    rw [← he.1] at hc
    obtain ⟨i, hi, hgp⟩ := List.mem_map.1 hc
    obtain ⟨c', hc', hrav⟩ := htop.peak i hi
    have hil := htop.lt i hi
    simp only [List.prod_cons, List.prod_nil, mul_one] at hil
    obtain ⟨hvc, rfl⟩ := ravelMultiIndex_ok hrav
    obtain ⟨j, rfl⟩ : ∃ j, c' = [j] := by
      cases hvc with
      | cons _ ht =>
        cases ht
        exact ⟨_, rfl⟩
    have hj : ravelIdx [x.length] [j] = j := by simp [ravelIdx]
    rw [hj] at hgp hil
    refine hnot j c ?_ hc'
    simp only [gridPoint, hg, unravelIdx, List.prod_nil, Nat.div_one, List.zipWith_cons_cons, List.zipWith_nil_left, List.cons.injEq, and_true] at hgp
    rw [List.getElem?_eq_getElem hil, ← hgp]
    simp [List.getD_eq_getElem?_getD, hil]

/-- **C105** (the estimator). Two uncorrelated sources of equal power below the resolution limit, both on the grid with at least one grid point
between them: `BartlettBeamformer.estimate` returns neither of them, from the exact covariance matrix for any noise power and from every matrix
close enough to it, for any number of requested sources and after any history of calls. -/
theorem C105_unresolved {a : ArrayDesign} (h : OnLine a) (l : Fin a.element.outputSize) {wl : ℝ} (hwl : 0 < wl)
    (cfg : EstCfg ℝ (List (Fin a.size → ℂ))) {x : List ℝ} {names : List String} {u : String}
    (hg : cfg.grid = ⟨.ff1, [⟨x, false⟩], names, [u]⟩) (hu : Unit1D u) (hx : ∀ v ∈ x, InRange1D u v) (hxs : x.Pairwise (· < ·))
    (hpf : cfg.peakFinder = findPeaksSimple) (hsort : IsArgsort cfg.argsort) (hcomp : cfg.compute = atomColumns1D a l wl u)
    (src : FF1D 2) (hsu : src.unit = u) (hmem : ∀ c, src.loc c ∈ x) (hbtw : ∃ v ∈ x, src.loc 0 < v ∧ v < src.loc 1)
    {S : Steering a.element.outputSize a.size 2} (hS : steering a (.ff1 src) wl false "all" = .ok S)
    (hlim : WithinLimit a wl (sineOf u (src.loc 0)) (sineOf u (src.loc 1))) {p : ℝ} (hp : 0 < p) (σ : ℝ) :
    ∃ δ > 0, ∀ R : Matrix (Fin a.size) (Fin a.size) ℂ,
      (∀ i j, ‖R i j - covModel (S.A l) ((p : ℂ) • (1 : Matrix (Fin 2) (Fin 2) ℂ)) σ i j‖ < δ) →
      ∀ (ops : List (EstOp ℝ (List (Fin a.size → ℂ)))) (k : ℕ), 1 ≤ k →
        ∃ o st', bartlettEstimate cfg (cfg.run ops).1 R k {} = (.ok o, st') ∧
          ∃ found est sp, o.observe st' = (found, est, sp) ∧ ∀ locs u', est = some (some (locs, u')) → ∀ c, [src.loc c] ∉ locs := by
  have : NeZero wl := ⟨hwl.ne'⟩
  set R := covModel (S.A l) ((p : ℂ) • (1 : Matrix (Fin 2) (Fin 2) ℂ)) σ with hR
  have hps : a.filterPerturbations "known" = .ok [] := by simp [ArrayDesign.filterPerturbations, h.perts, PyDict.values]
  have hat : cfg.compute (x.map fun v => [v]) = x.map fun v => response a l wl u "all" v := by
    rw [hcomp]
    exact atoms_known h.element (by simp [ArrayDesign.perturbations, h.perts, PyDict.values]) (ps := [])
      ⟨by simp [ArrayDesign.filterPerturbations, h.perts, PyDict.values], rfl, by simp [h.dim], by simp⟩ l wl u x
  have hrange : ∀ c, InRange1D u (src.loc c) := fun c => hx _ (hmem c)
  have hval : ∀ (c : Fin 2) (w : ℝ), w ∈ x → src.loc 0 < w → w < src.loc 1 →
      (bartlettRaw R (response a l wl u "all" (src.loc c))).re < (bartlettRaw R (response a l wl u "all" w)).re := by
    intro c w hwx hw0 hw1
    have e0 := sineOf_lt (hrange 0) (hx w hwx) hw0
    have e1 := sineOf_lt (hx w hwx) (hrange 1) hw1
    have hmid : |sineOf u (src.loc c) - (sineOf u (src.loc 0) + sineOf u (src.loc 1)) / 2| =
        |sineOf u (src.loc 0) - sineOf u (src.loc 1)| / 2 := by
      rw [← abs_two (α := ℝ), ← abs_div, abs_two]
      fin_cases c
      · congr 1
        simp only [Fin.zero_eta]
        ring
      · rw [← abs_neg]
        congr 1
        simp only [Fin.mk_one]
        ring
    subst hsu
    refine C105_spectrum h l hwl src ⟨hu, hrange⟩ hS hlim hp σ (hx w hwx) (hrange c) ?_ ?_
    · rw [hmid, abs_lt, abs_of_neg (by linarith)]
      constructor <;> linarith
    · rw [hmid]
      linarith [abs_nonneg (sineOf src.unit (src.loc 0) - sineOf src.unit (src.loc 1))]
  have hnear : ∀ᶠ R' in 𝓝 R, ∀ w ∈ x, src.loc 0 < w → w < src.loc 1 → ∀ c : Fin 2,
      (bartlettRaw R' (response a l wl u "all" (src.loc c))).re < (bartlettRaw R' (response a l wl u "all" w)).re := by
    have hcont : ∀ b : Fin a.size → ℂ, Continuous fun R' : Matrix (Fin a.size) (Fin a.size) ℂ => (bartlettRaw R' b).re := fun b =>
      Complex.continuous_re.comp (Continuous.dotProduct continuous_const (Continuous.matrix_mulVec continuous_id continuous_const))
    have hfin : {w | w ∈ x}.Finite := x.finite_toSet
    refine (Filter.eventually_all_finite hfin).2 fun w hw => ?_
    by_cases h1 : src.loc 0 < w ∧ w < src.loc 1
    · have : ∀ c : Fin 2, ∀ᶠ R' in 𝓝 R,
          (bartlettRaw R' (response a l wl u "all" (src.loc c))).re < (bartlettRaw R' (response a l wl u "all" w)).re := fun c =>
        (hcont _).continuousAt.eventually_lt (hcont _).continuousAt (hval c w hw h1.1 h1.2)
      filter_upwards [Filter.eventually_all.2 this] with R' hR' _ _
      exact hR'
    · exact Filter.Eventually.of_forall fun R' h2 h3 => absurd ⟨h2, h3⟩ h1
  obtain ⟨δ, hδ, hn⟩ := near_entries hnear
  exact ⟨δ, hδ, fun R' hR' ops k hk => bartlett_excludes l cfg hg hu hx hxs hpf hsort hat src.loc hbtw R' (hn R' hR') ops hk⟩

/-- **C105** (snapshots). The probability that `BartlettBeamformer` returns one of the two sources from the sample covariance matrix of `n`
snapshots tends to 0. -/
theorem C105_snapshots {sqrtm : Sqrtm} (hs : IsSqrtm sqrtm) {a : ArrayDesign} (h : OnLine a) (l : Fin a.element.outputSize) {wl : ℝ}
    (hwl : 0 < wl) (cfg : EstCfg ℝ (List (Fin a.size → ℂ))) {x : List ℝ} {names : List String} {u : String}
    (hg : cfg.grid = ⟨.ff1, [⟨x, false⟩], names, [u]⟩) (hu : Unit1D u) (hx : ∀ v ∈ x, InRange1D u v) (hxs : x.Pairwise (· < ·))
    (hpf : cfg.peakFinder = findPeaksSimple) (hsort : IsArgsort cfg.argsort) (hcomp : cfg.compute = atomColumns1D a l wl u)
    (src : FF1D 2) (hsu : src.unit = u) (hmem : ∀ c, src.loc c ∈ x) (hbtw : ∃ v ∈ x, src.loc 0 < v ∧ v < src.loc 1)
    (hlim : WithinLimit a wl (sineOf u (src.loc 0)) (sineOf u (src.loc 1))) {p : ℝ} (hp : 0 < p) {σ : ℝ} (hσ : 0 ≤ σ)
    {C1 C2 : CovArg} {g1 : StoGen 2} {g2 : StoGen a.size} (hg1 : stoInit sqrtm 2 C1 = .ok g1) (hg2 : stoInit sqrtm a.size C2 = .ok g2)
    (hPd : Denotes 2 C1 ((p : ℂ) • (1 : Matrix (Fin 2) (Fin 2) ℂ)))
    (hQd : Denotes a.size C2 ((σ : ℂ) • (1 : Matrix (Fin a.size) (Fin a.size) ℂ)))
    {ν : Measure ℝ} [IsProbabilityMeasure ν] (hν : UnitLaw ν) :
    Tendsto (fun n => (Measure.pi fun _ : Fin n => Measure.pi fun _ => ν)
      {d : Fin n → SnapshotDraw 2 a.size | ¬ ∃ Y R, experiment a (.ff1 src) wl g1 g2 n d = .ok ⟨n, Y, R⟩ ∧
        ∀ (ops : List (EstOp ℝ (List (Fin a.size → ℂ)))) (k : ℕ), 1 ≤ k → ∃ o st', bartlettEstimate cfg (cfg.run ops).1 (R l) k {} = (.ok o, st') ∧
          ∃ found est sp, o.observe st' = (found, est, sp) ∧ ∀ locs u', est = some (some (locs, u')) → ∀ c, [src.loc c] ∉ locs})
      atTop (𝓝 0) := by
  have : NeZero wl := ⟨hwl.ne'⟩
  obtain ⟨S, hS, -⟩ := line_steering h src wl "all" (by simp)
  obtain ⟨δ, hδ, hn⟩ := C105_unresolved h l hwl cfg hg hu hx hxs hpf hsort hcomp src hsu hmem hbtw hS hlim hp σ
  exact C84_probability hs a (.ff1 src) wl S hS (by rw [h.element]; rfl) hg1 hg2 hPd hQd
    (PosDef.one.smul (Complex.zero_lt_real.2 hp)).posSemidef (scaled_one_posSemidef hσ) hν l _ ⟨δ, hδ, fun R _ hR => hn R hR⟩

/-- On a uniform linear array of `n` sensors the limit is `(n - 1) d |sin θ₀ - sin θ₁| < λ / 2`. -/
theorem withinLimit_ula {a : ArrayDesign} {d wl s t : ℝ} (hd : 0 < d) (hloc : ∀ i, i < a.size → a.locations.at0 i 0 = (i : ℝ) * d)
    (hn : 2 ≤ a.size) (h : ((a.size : ℝ) - 1) * d * |s - t| < wl / 2) : WithinLimit a wl s t := by
  constructor
  · intro i j hi hj
    rw [hloc i hi, hloc j hj, ← sub_mul, abs_mul, abs_of_pos hd]
    refine lt_of_le_of_lt ?_ h
    refine mul_le_mul_of_nonneg_right (mul_le_mul_of_nonneg_right ?_ hd.le) (abs_nonneg _)
    have h1 : (i : ℝ) + 1 ≤ a.size := by exact_mod_cast hi
    have h2 : (j : ℝ) + 1 ≤ a.size := by exact_mod_cast hj
    have h3 : (0 : ℝ) ≤ i := Nat.cast_nonneg i
    have h4 : (0 : ℝ) ≤ j := Nat.cast_nonneg j
    rw [abs_le]
    constructor <;> linarith
  · refine ⟨0, 1, by omega, by omega, ?_⟩
    rw [hloc 0 (by omega), hloc 1 (by omega)]
    push_cast
    linarith

/-- **C105** (comparison). On a uniform linear array and an unambiguous grid there is a noise level below which, for two uncorrelated sources of
equal power within the resolution limit, `MVDRBeamformer` returns exactly the two sources and `BartlettBeamformer` neither, from the same
covariance matrix and grid and after any history of calls. -/
theorem C105_mvdr {a : ArrayDesign} (h : OnLine a) {d wl : ℝ} (hd : 0 < d) (hwl : 0 < wl)
    (hloc : ∀ i, i < a.size → a.locations.at0 i 0 = (i : ℝ) * d) (hn : 3 ≤ a.size) (l : Fin a.element.outputSize)
    (cfg : EstCfg ℝ (List (Fin a.size → ℂ))) (cfg' : EstCfg (WithTop ℝ) (List (Fin a.size → ℂ)))
    {x : List ℝ} {names : List String} {u : String} (hg : cfg.grid = ⟨.ff1, [⟨x, false⟩], names, [u]⟩) (hg' : cfg'.grid = cfg.grid)
    (hu : Unit1D u) (hx : ∀ v ∈ x, InRange1D u v) (hxs : x.Pairwise (· < ·))
    (hamb : ∀ v ∈ x, ∀ w ∈ x, d * |sineOf u v - sineOf u w| < wl)
    (hpf : cfg.peakFinder = findPeaksSimple) (hpf' : cfg'.peakFinder = findPeaksSimple) (hsort : IsArgsort cfg.argsort)
    (hsort' : IsArgsort cfg'.argsort) (hcomp : cfg.compute = atomColumns1D a l wl u) (hcomp' : cfg'.compute = atomColumns1D a l wl u)
    (src : FF1D 2) (hsu : src.unit = u) (i j : ℕ) (hi : 1 ≤ i) (hij : i + 1 < j) (hj : j + 1 < x.length)
    (hxi : x[i]? = some (src.loc 0)) (hxj : x[j]? = some (src.loc 1))
    (hlim : ((a.size : ℝ) - 1) * d * |sineOf u (src.loc 0) - sineOf u (src.loc 1)| < wl / 2) {p : ℝ} (hp : 0 < p) :
    ∃ S, steering a (.ff1 src) wl false "all" = .ok S ∧ ∃ σ₀ > 0, ∀ σ : ℝ, 0 < σ → σ < σ₀ →
      (∀ ops, ∃ o st', mvdrEstimate cfg' (cfg'.run ops).1 (covModel (S.A l) ((p : ℂ) • (1 : Matrix (Fin 2) (Fin 2) ℂ)) σ) 2 {} = (.ok o, st') ∧
        ∃ sp, o.observe st' = (true, some (some ([[src.loc 0], [src.loc 1]], u)), sp)) ∧
      (∀ ops, ∃ o st', bartlettEstimate cfg (cfg.run ops).1 (covModel (S.A l) ((p : ℂ) • (1 : Matrix (Fin 2) (Fin 2) ℂ)) σ) 2 {} = (.ok o, st') ∧
        ∃ found est sp, o.observe st' = (found, est, sp) ∧ ∀ locs u', est = some (some (locs, u')) → ∀ c, [src.loc c] ∉ locs) := by
  have hpert : a.perturbations = [] := by simp [ArrayDesign.perturbations, h.perts, PyDict.values]
  have hps : Usable a "all" a.perturbations := by
    rw [hpert]
    exact ⟨by simp [ArrayDesign.filterPerturbations, h.perts, PyDict.values], rfl, by simp [h.dim], by simp⟩
  obtain ⟨S, hS, σ₀, hσ₀, hm⟩ := C95_ula h.element (by simp [hpert]) hps (by simp [hpert]) (by simp [hpert]) (by simp [hpert, totalFactor]) hd hwl h.dim
    hloc l cfg' (hg'.trans hg) hu hx (hxs.imp fun h => ne_of_lt h) hamb hpf' hsort' hcomp' src hsu ![i, j] (fun c => by fin_cases c <;> simp [hxi, hxj])
    (by
      intro c e hce
      fin_cases c <;> fin_cases e <;> simp_all)
    (by intro c; fin_cases c <;> simp <;> omega) (by intro c; fin_cases c <;> simp <;> omega) (by norm_num) (by omega)
    (P := (p : ℂ) • (1 : Matrix (Fin 2) (Fin 2) ℂ)) (PosDef.one.smul (Complex.zero_lt_real.2 hp))
  refine ⟨S, hS, σ₀, hσ₀, fun σ h1 h2 => ⟨fun ops => ?_, fun ops => ?_⟩⟩
  · obtain ⟨δ, hδ, hr⟩ := hm σ h1 h2
    obtain ⟨o, st', ho, sp, hsp⟩ := hr _ (fun i j => by rw [sub_self, norm_zero]; exact hδ) ops
    refine ⟨o, st', ho, sp, ?_⟩
    rw [hsp]
    simp [List.ofFn_succ]
  · obtain ⟨hil, hiv⟩ := List.getElem?_eq_some_iff.1 hxi
    obtain ⟨hjl, hjv⟩ := List.getElem?_eq_some_iff.1 hxj
    have hmem : ∀ c, src.loc c ∈ x := by
      intro c
      fin_cases c
      · exact hiv ▸ List.getElem_mem _
      · exact hjv ▸ List.getElem_mem _
    have hb0 : src.loc 0 < x[i + 1] := by
      rw [← hiv]
      exact List.pairwise_iff_getElem.1 hxs _ _ _ _ (by omega)
    have hb1 : x[i + 1] < src.loc 1 := by
      rw [← hjv]
      exact List.pairwise_iff_getElem.1 hxs _ _ _ _ (by omega)
    obtain ⟨δ, hδ, hr⟩ := C105_unresolved h l hwl cfg hg hu hx hxs hpf hsort hcomp src hsu hmem ⟨x[i + 1], List.getElem_mem _, hb0, hb1⟩ hS
      (withinLimit_ula hd hloc (by omega) hlim) hp σ
    exact hr _ (fun i j => by rw [sub_self, norm_zero]; exact hδ) ops 2 (by norm_num)

/-! ### Sources that are far enough apart -/

/-- Sources of equal power with orthogonal responses dominate the Bartlett spectrum. -/
theorem bartlett_orthogonal {A : Matrix (Fin m) (Fin k) ℂ} {q : ℝ} (hq : 0 < q) (hA : Aᴴ * A = (q : ℂ) • (1 : Matrix (Fin k) (Fin k) ℂ)) {p : ℝ}
    (hp : 0 < p) (σ : ℝ) {L : List (Fin m → ℂ)} {idx : Fin k → ℕ} (hL : ∀ c, L[idx c]? = some (A.col c)) (hpow : ∀ v ∈ L, power v = q)
    (hident : ∀ (j : ℕ) (v : Fin m → ℂ), L[j]? = some v → (∃ y, v = A *ᵥ y) → ∃ c, j = idx c) :
    Dominant (fBartlett (covModel A ((p : ℂ) • (1 : Matrix (Fin k) (Fin k) ℂ)) σ) L) idx := by
  have hqc : (q : ℂ) ≠ 0 := by exact_mod_cast hq.ne'
  have hval : ∀ v : Fin m → ℂ, power v = q → (bartlettRaw (covModel A ((p : ℂ) • (1 : Matrix (Fin k) (Fin k) ℂ)) σ) v).re =
      p * (star v ⬝ᵥ (A * Aᴴ) *ᵥ v).re + σ * q := by
    intro v hv
    rw [bartlettRaw_eq, covModel, Matrix.mul_smul, Matrix.smul_mul, Matrix.mul_one, add_mulVec, dotProduct_add, smul_mulVec, smul_mulVec,
      dotProduct_smul, dotProduct_smul, one_mulVec, power_eq, hv, smul_eq_mul, smul_eq_mul, Complex.add_re, Complex.re_ofReal_mul,
      Complex.re_ofReal_mul, Complex.ofReal_re]
  intro c j v w hj hv hw
  simp only [fBartlett, List.getElem?_map, hL c, Option.map_some, Option.some.injEq, Option.map_eq_some_iff] at hv hw
  obtain ⟨x, hx, rfl⟩ := hv
  have hpx := hpow x (List.mem_of_getElem? hx)
  rw [← hw, hval x hpx, hval _ (hpow _ (List.mem_of_getElem? (hL c)))]
  refine add_lt_add_left (mul_lt_mul_of_pos_left ?_ hp) _
  -- at a source
  have hsrc : star (A.col c) ⬝ᵥ (A * Aᴴ) *ᵥ A.col c = ((q * q : ℝ) : ℂ) := by
    rw [quad_col, Matrix.mul_assoc A, hA, Matrix.mul_smul, Matrix.mul_smul, Matrix.mul_one, hA, smul_smul, Matrix.smul_apply, one_apply_eq, smul_eq_mul, mul_one]
    push_cast
    rfl
  rw [hsrc, Complex.ofReal_re]
  -- elsewhere
  set Q : Matrix (Fin m) (Fin m) ℂ := 1 - (q : ℂ)⁻¹ • (A * Aᴴ) with hQ
  have hQh : Qᴴ = Q := by
    rw [hQ, conjTranspose_sub, conjTranspose_one, conjTranspose_smul, conjTranspose_mul, conjTranspose_conjTranspose, star_inv₀, Complex.star_def,
      Complex.conj_ofReal]
  have hAA : A * Aᴴ * (A * Aᴴ) = (q : ℂ) • (A * Aᴴ) := by
    rw [Matrix.mul_assoc, ← Matrix.mul_assoc Aᴴ, hA, Matrix.smul_mul, Matrix.one_mul, Matrix.mul_smul]
  have hQQ : Q * Q = Q := by
    rw [hQ, Matrix.sub_mul, Matrix.one_mul, Matrix.mul_sub, Matrix.mul_one, Matrix.smul_mul, Matrix.mul_smul, hAA, smul_smul, smul_smul,
      mul_assoc, inv_mul_cancel₀ hqc, mul_one, sub_self, sub_zero]
  have hne : Q *ᵥ x ≠ 0 := by
    intro h0
    obtain ⟨e, he⟩ := hident j x hx ⟨(q : ℂ)⁻¹ • Aᴴ *ᵥ x, by
      rw [hQ, Matrix.sub_mulVec, one_mulVec, smul_mulVec, sub_eq_zero, ← mulVec_mulVec] at h0
      rw [mulVec_smul]
      exact h0⟩
    exact hj e he
  have hpos := power_pos hne
  have e : ((power (Q *ᵥ x) : ℝ) : ℂ) = (q : ℂ) - (q : ℂ)⁻¹ * (star x ⬝ᵥ (A * Aᴴ) *ᵥ x) := by
    rw [← power_eq, star_mulVec, hQh, ← dotProduct_mulVec, mulVec_mulVec, hQQ, hQ, Matrix.sub_mulVec, one_mulVec, smul_mulVec, dotProduct_sub,
      dotProduct_smul, power_eq, hpx, smul_eq_mul]
  have e2 := congrArg Complex.re e
  rw [Complex.ofReal_re, Complex.sub_re, Complex.ofReal_re, ← Complex.ofReal_inv, Complex.re_ofReal_mul] at e2
  rw [e2] at hpos
  have h3 : q⁻¹ * (star x ⬝ᵥ (A * Aᴴ) *ᵥ x).re < q := by linarith
  rwa [inv_mul_lt_iff₀ hq] at h3

/-- **C105** (sources far apart). On a uniform linear array of `n` sensors with spacing `d` and an unambiguous grid, sources of equal power whose
sines differ by multiples of `λ / (n d)` are returned exactly by `BartlettBeamformer`, from the covariance matrix for every noise power and
from every matrix close enough to it. -/
theorem C105_orthogonal {a : ArrayDesign} (h : OnLine a) {d wl : ℝ} (hd : 0 < d) (hwl : 0 < wl)
    (hloc : ∀ i, i < a.size → a.locations.at0 i 0 = (i : ℝ) * d) (l : Fin a.element.outputSize)
    (cfg : EstCfg ℝ (List (Fin a.size → ℂ))) {x : List ℝ} {names : List String} {u : String} (hg : cfg.grid = ⟨.ff1, [⟨x, false⟩], names, [u]⟩)
    (hu : Unit1D u) (hx : ∀ v ∈ x, InRange1D u v) (hxd : x.Nodup) (hamb : ∀ v ∈ x, ∀ w ∈ x, d * |sineOf u v - sineOf u w| < wl)
    (hpf : cfg.peakFinder = findPeaksSimple) (hsort : IsArgsort cfg.argsort) (hcomp : cfg.compute = atomColumns1D a l wl u)
    (src : FF1D k) (hsu : src.unit = u) (idx : Fin k → ℕ) (hidx : ∀ c, x[idx c]? = some (src.loc c))
    (hsep : ∀ c e, c < e → idx c + 1 < idx e) (h1 : ∀ c, 1 ≤ idx c) (h2 : ∀ c, idx c + 1 < x.length) (hk : 1 ≤ k) (hka : k < a.size)
    (horth : ∀ c e, ∃ z : ℤ, a.size * d * (sineOf u (src.loc e) - sineOf u (src.loc c)) = z * wl) {p : ℝ} (hp : 0 < p) :
    ∃ S, steering a (.ff1 src) wl false "all" = .ok S ∧ ∀ σ : ℝ, ∃ δ > 0, ∀ R : Matrix (Fin a.size) (Fin a.size) ℂ,
      (∀ i j, ‖R i j - covModel (S.A l) ((p : ℂ) • (1 : Matrix (Fin k) (Fin k) ℂ)) σ i j‖ < δ) →
      ∀ ops : List (EstOp ℝ (List (Fin a.size → ℂ))), ∃ o st', bartlettEstimate cfg (cfg.run ops).1 R k {} = (.ok o, st') ∧
        ∃ sp, o.observe st' = (true, some (some (List.ofFn fun c => [src.loc c], u)), sp) := by
  have : NeZero wl := ⟨hwl.ne'⟩
  have hpert : a.perturbations = [] := by simp [ArrayDesign.perturbations, h.perts, PyDict.values]
  have hps : Usable a "all" a.perturbations := by
    rw [hpert]
    exact ⟨by simp [ArrayDesign.filterPerturbations, h.perts, PyDict.values], rfl, by simp [h.dim], by simp⟩
  obtain ⟨S, hS, hSA, hinj, hident⟩ := uniform_identified h.element hps (by simp [hpert]) (by simp [hpert]) (by simp [hpert, totalFactor]) hd hwl
    h.dim hloc l hu hx hxd hamb src hsu idx hidx hsep hka
  refine ⟨S, hS, fun σ => ?_⟩
  have hat : cfg.compute (x.map fun v => [v]) = x.map fun v => response a l wl u "all" v := by
    rw [hcomp]
    exact atoms_known h.element (by simp [hpert]) hps l wl u x
  have hL : ∀ c, (x.map fun v => response a l wl u "all" v)[idx c]? = some ((S.A l).col c) := by
    intro c
    rw [List.getElem?_map, hidx c, Option.map_some, Option.some.injEq]
    funext i
    rw [Matrix.col_apply, steering_columns h.element l wl "all" src hS, hsu]
  have hpow : ∀ v ∈ x.map fun v => response a l wl u "all" v, power v = a.size := by
    intro w hw
    obtain ⟨v, hv, rfl⟩ := List.mem_map.1 hw
    unfold power
    have : ∀ i, ‖response a l wl u "all" v i‖ = 1 := fun i => by
      rw [response_line h l wl (by simp) (hx v hv), mul_comm Complex.I, Complex.norm_exp_ofReal_mul_I]
    simp [this]
  have hne : ∀ v ∈ x.map fun v => response a l wl u "all" v, v ≠ 0 := by
    intro v hv h0
    have := hpow v hv
    rw [h0] at this
    have h0 : ((a.size : ℕ) : ℝ) = 0 := by
      rw [← this]
      simp [power]
    have : a.size = 0 := by exact_mod_cast h0
    omega
  -- orthogonality
  have hcol : ∀ i c, S.A l i c = phaseFactor d wl u (src.loc c) ^ (i : ℕ) := by
    intro i c
    rw [hSA, hpert]
    simp [totalFactor, ulaMat]
  have hgram : (S.A l)ᴴ * S.A l = (((a.size : ℕ) : ℝ) : ℂ) • (1 : Matrix (Fin k) (Fin k) ℂ) := by
    ext c e
    have hsum : ((S.A l)ᴴ * S.A l) c e = ∑ i ∈ Finset.range a.size, (star (phaseFactor d wl u (src.loc c)) * phaseFactor d wl u (src.loc e)) ^ i := by
      rw [Matrix.mul_apply, ← Fin.sum_univ_eq_sum_range]
      refine Finset.sum_congr rfl fun i _ => ?_
      rw [conjTranspose_apply, hcol, hcol, mul_pow, star_pow]
    rw [hsum, Matrix.smul_apply, smul_eq_mul]
    by_cases hce : c = e
    · subst hce
      have : star (phaseFactor d wl u (src.loc c)) * phaseFactor d wl u (src.loc c) = 1 := by
        rw [Complex.star_def, Complex.conj_mul', phaseFactor_norm']
        norm_num
      rw [this]
      simp
    · rw [one_apply_ne hce, mul_zero]
      set ζ := star (phaseFactor d wl u (src.loc c)) * phaseFactor d wl u (src.loc e) with hζ
      have hζe : ζ = Complex.exp (Complex.I * ((2 * Real.pi / wl * (d * (sineOf u (src.loc e) - sineOf u (src.loc c))) : ℝ) : ℂ)) := by
        rw [hζ, phaseFactor, phaseFactor, Complex.star_def, ← Complex.exp_conj, ← Complex.exp_add]
        congr 1
        rw [map_mul, Complex.conj_I, Complex.conj_ofReal]
        unfold sineOf
        push_cast
        ring
      have hpow1 : ζ ^ a.size = 1 := by
        obtain ⟨z, hz⟩ := horth c e
        rw [hζe, ← Complex.exp_nat_mul, Complex.exp_eq_one_iff]
        refine ⟨z, ?_⟩
        have hz' : (a.size : ℂ) * d * ((sineOf u (src.loc e) : ℂ) - sineOf u (src.loc c)) = z * wl := by exact_mod_cast hz
        have hwc : (wl : ℂ) ≠ 0 := by exact_mod_cast hwl.ne'
        push_cast
        calc _ = 2 * Real.pi / wl * ((a.size : ℂ) * d * ((sineOf u (src.loc e) : ℂ) - sineOf u (src.loc c))) * Complex.I := by ring
          _ = _ := by
            rw [hz']
            field_simp
      have hne1 : ζ ≠ 1 := by
        intro h1
        have hzz : phaseFactor d wl u (src.loc e) = phaseFactor d wl u (src.loc c) := by
          have h2 : phaseFactor d wl u (src.loc c) * ζ = phaseFactor d wl u (src.loc e) := by
            rw [hζ, ← mul_assoc, Complex.star_def, Complex.mul_conj', phaseFactor_norm']
            norm_num
          rw [← h2, h1, mul_one]
        have hs : (Pi.single c 1 : Fin k → ℂ) = Pi.single e 1 := by
          refine hinj ?_
          rw [mulVec_single_one, mulVec_single_one]
          funext i
          rw [col_apply, col_apply, hcol, hcol, hzz]
        have := congrFun hs c
        rw [Pi.single_eq_same, Pi.single_eq_of_ne hce] at this
        exact one_ne_zero this
      have := mul_neg_geom_sum ζ a.size
      rw [hpow1, sub_self] at this
      exact (mul_eq_zero.1 this).resolve_left (sub_ne_zero.2 hne1.symm)
  have hdom := bartlett_orthogonal (q := ((a.size : ℕ) : ℝ)) (by
    have : 0 < a.size := by omega
    exact_mod_cast this) hgram hp σ hL hpow (by
      intro j v hv hy
      rw [List.getElem?_map, Option.map_eq_some_iff] at hv
      obtain ⟨t, ht, rfl⟩ := hv
      exact hident j t ht hy)
  exact (C83_beamformers cfg ⟨cfg.grid, cfg.compute, findPeaksSimple, stableArgsort, true, false⟩ hg rfl hu hx hpf rfl hsort stableArgsort_isArgsort
    (by simp) hne hat hat idx hk hsep h1 h2 src.loc hidx _).1 hdom

/-- Non-vacuity: sources at sines -1/6 and 1/6, a uniform linear array of three sensors at half-wavelength spacing and a grid of five points. -/
example : ∃ (a : GridArray) (l : Fin a.element.outputSize) (cfg : EstCfg ℝ (List (Fin a.size → ℂ))) (S : Steering a.element.outputSize a.size 2),
    ula 3 (.scalar (1 / 2)) none {} = .ok a ∧ steering a.toArrayDesign (.ff1 ⟨![-1 / 6, 1 / 6], "sin"⟩) 1 false "all" = .ok S ∧
    cfg.grid = ⟨.ff1, [⟨[-1 / 2, -1 / 6, 0, 1 / 6, 1 / 2], false⟩], [], ["sin"]⟩ ∧
    ∃ σ > 0, ∃ o st', bartlettEstimate cfg cfg.init (covModel (S.A l) (((1 : ℝ) : ℂ) • (1 : Matrix (Fin 2) (Fin 2) ℂ)) σ) 2 {} = (.ok o, st') ∧
      ∃ found est sp, o.observe st' = (found, est, sp) ∧ ∀ locs u', est = some (some (locs, u')) → [-1 / 6] ∉ locs ∧ [1 / 6] ∉ locs := by
  obtain ⟨a, ha⟩ := ula_ok 3 (1 / 2) none
  obtain ⟨h1, h2, h3⟩ := C01_ula_geometry 3 (1 / 2) none {} a ha
  have hline : OnLine a.toArrayDesign := C104_linear ha
  have hloc : ∀ i, i < a.size → a.locations.at0 i 0 = (i : ℝ) * (1 / 2) := fun i hi => by rw [Mat.at0, h3 i (by omega)]; rfl
  have hla : 0 < a.element.outputSize := by rw [hline.element]; decide
  have hgr : ∀ v ∈ ([-1 / 2, -1 / 6, 0, 1 / 6, 1 / 2] : List ℝ), -(1 / 2) ≤ v ∧ v ≤ 1 / 2 := by
    intro v hv
    simp only [List.mem_cons, List.not_mem_nil, or_false] at hv
    rcases hv with rfl | rfl | rfl | rfl | rfl <;> norm_num
  have hx : ∀ v ∈ ([-1 / 2, -1 / 6, 0, 1 / 6, 1 / 2] : List ℝ), InRange1D "sin" v := fun v hv =>
    Or.inr (Or.inr ⟨rfl, by linarith [(hgr v hv).1], by linarith [(hgr v hv).2]⟩)
  have hsin : ∀ v ∈ ([-1 / 2, -1 / 6, 0, 1 / 6, 1 / 2] : List ℝ), sineOf "sin" v = v := fun v hv => sineOf_sin rfl (hx v hv)
  let cfg : EstCfg ℝ (List (Fin a.size → ℂ)) :=
    ⟨⟨.ff1, [⟨[-1 / 2, -1 / 6, 0, 1 / 6, 1 / 2], false⟩], [], ["sin"]⟩, atomColumns1D a.toArrayDesign ⟨0, hla⟩ 1 "sin", findPeaksSimple,
      stableArgsort, true, false⟩
  let cfg' : EstCfg (WithTop ℝ) (List (Fin a.size → ℂ)) :=
    ⟨⟨.ff1, [⟨[-1 / 2, -1 / 6, 0, 1 / 6, 1 / 2], false⟩], [], ["sin"]⟩, atomColumns1D a.toArrayDesign ⟨0, hla⟩ 1 "sin", findPeaksSimple,
      stableArgsort, true, false⟩
  obtain ⟨S, hS, σ₀, hσ₀, hboth⟩ := C105_mvdr hline (d := 1 / 2) (wl := 1) (by norm_num) one_pos hloc (by omega) ⟨0, hla⟩ cfg cfg' rfl rfl
    (Or.inr (Or.inr rfl)) hx (by norm_num [List.pairwise_cons])
    (by
      intro v hv w hw
      rw [hsin v hv, hsin w hw]
      have := hgr v hv
      have := hgr w hw
      have : |v - w| ≤ 1 := by rw [abs_le]; constructor <;> linarith
      linarith)
    rfl rfl stableArgsort_isArgsort stableArgsort_isArgsort rfl rfl ⟨![-1 / 6, 1 / 6], "sin"⟩ rfl 1 3 (by norm_num) (by norm_num) (by simp) rfl rfl
    (by
      simp only [Matrix.cons_val_zero, Matrix.cons_val_one]
      rw [hsin (-1 / 6) (by simp), hsin (1 / 6) (by simp), h1]
      norm_num [abs_of_neg])
    one_pos
  obtain ⟨o, st', h4, found, est, sp, h5, h6⟩ := (hboth (σ₀ / 2) (by linarith) (by linarith)).2 []
  exact ⟨a, ⟨0, hla⟩, cfg, S, ha, hS, rfl, σ₀ / 2, by linarith, o, st', h4, found, est, sp, h5, fun locs u' he => ⟨h6 locs u' he 0, h6 locs u' he 1⟩⟩

/-- Non-vacuity of `C105_orthogonal`: sources at sines -1/4 and 1/4 on a uniform linear array of four sensors. -/
example : ∃ (a : GridArray) (l : Fin a.element.outputSize) (cfg : EstCfg ℝ (List (Fin a.size → ℂ))) (S : Steering a.element.outputSize a.size 2),
    ula 4 (.scalar (1 / 2)) none {} = .ok a ∧ steering a.toArrayDesign (.ff1 ⟨![-1 / 4, 1 / 4], "sin"⟩) 1 false "all" = .ok S ∧
    ∃ o st', bartlettEstimate cfg cfg.init (covModel (S.A l) (((1 : ℝ) : ℂ) • (1 : Matrix (Fin 2) (Fin 2) ℂ)) 1) 2 {} = (.ok o, st') ∧
      ∃ sp, o.observe st' = (true, some (some ([[-1 / 4], [1 / 4]], "sin")), sp) := by
  obtain ⟨a, ha⟩ := ula_ok 4 (1 / 2) none
  obtain ⟨h1, h2, h3⟩ := C01_ula_geometry 4 (1 / 2) none {} a ha
  have hline : OnLine a.toArrayDesign := C104_linear ha
  have hloc : ∀ i, i < a.size → a.locations.at0 i 0 = (i : ℝ) * (1 / 2) := fun i hi => by rw [Mat.at0, h3 i (by omega)]; rfl
  have hla : 0 < a.element.outputSize := by rw [hline.element]; decide
  have hgr : ∀ v ∈ ([-1 / 2, -1 / 4, 0, 1 / 4, 1 / 2] : List ℝ), -(1 / 2) ≤ v ∧ v ≤ 1 / 2 := by
    intro v hv
    simp only [List.mem_cons, List.not_mem_nil, or_false] at hv
    rcases hv with rfl | rfl | rfl | rfl | rfl <;> norm_num
  have hx : ∀ v ∈ ([-1 / 2, -1 / 4, 0, 1 / 4, 1 / 2] : List ℝ), InRange1D "sin" v := fun v hv =>
    Or.inr (Or.inr ⟨rfl, by linarith [(hgr v hv).1], by linarith [(hgr v hv).2]⟩)
  have hsin : ∀ v ∈ ([-1 / 2, -1 / 4, 0, 1 / 4, 1 / 2] : List ℝ), sineOf "sin" v = v := fun v hv => sineOf_sin rfl (hx v hv)
  let cfg : EstCfg ℝ (List (Fin a.size → ℂ)) :=
    ⟨⟨.ff1, [⟨[-1 / 2, -1 / 4, 0, 1 / 4, 1 / 2], false⟩], [], ["sin"]⟩, atomColumns1D a.toArrayDesign ⟨0, hla⟩ 1 "sin", findPeaksSimple,
      stableArgsort, true, false⟩
  have e1 : sineOf "sin" (-1 / 4) = -1 / 4 := hsin _ (by simp)
  have e2 : sineOf "sin" (1 / 4) = 1 / 4 := hsin _ (by simp)
  obtain ⟨S, hS, hr⟩ := C105_orthogonal (k := 2) hline (d := 1 / 2) (wl := 1) (by norm_num) one_pos hloc ⟨0, hla⟩ cfg rfl
    (Or.inr (Or.inr rfl)) hx (by norm_num)
    (by
      intro v hv w hw
      rw [hsin v hv, hsin w hw]
      have := hgr v hv
      have := hgr w hw
      have : |v - w| ≤ 1 := by rw [abs_le]; constructor <;> linarith
      linarith)
    rfl stableArgsort_isArgsort rfl ⟨![-1 / 4, 1 / 4], "sin"⟩ rfl ![1, 3] (by intro c; fin_cases c <;> rfl) (by decide) (by decide) (by decide)
    (by norm_num) (by omega)
    (by
      intro c e
      have hs : ((a.size : ℕ) : ℝ) = 4 := by rw [h1]; norm_num
      rw [hs]
      fin_cases c <;> fin_cases e <;> simp only [Fin.zero_eta, Fin.mk_one, Matrix.cons_val_zero, Matrix.cons_val_one, e1, e2]
      · exact ⟨0, by norm_num⟩
      · exact ⟨1, by norm_num⟩
      · exact ⟨-1, by norm_num⟩
      · exact ⟨0, by norm_num⟩)
    one_pos
  obtain ⟨δ, hδ, hn⟩ := hr 1
  obtain ⟨o, st', h4, sp, h5⟩ := hn _ (fun i j => by rw [sub_self, norm_zero]; exact hδ) []
  refine ⟨a, ⟨0, hla⟩, cfg, S, ha, hS, o, st', h4, sp, ?_⟩
  rw [h5]
  simp [List.ofFn_succ]

end Doa.Props
