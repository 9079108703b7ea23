import Verif.Lemmas.SearchGrid

/-!
# C31 (grid points), C34, C35, C36, C41: search grids
-/

namespace Doa.Props

open Doa Doa.Spec

/-- The documented default range of a 1-D grid. -/
noncomputable def defaults1D (u : String) : ℝ × ℝ :=
  if u = "rad" then (-(Real.pi / 2), Real.pi / 2) else if u = "deg" then (-90, 90) else (-1, 1)

theorem defaultRange1D_eq {u : String} (hu : Unit1D u) : defaultRange1D u = .ok (defaults1D u) := by
  rcases hu with rfl | rfl | rfl
  · simp [defaultRange1D, defaults1D, neg_div]
  · simp [defaultRange1D, defaults1D]
  · simp [defaultRange1D, defaults1D]

theorem defaults1D_range {u : String} (hu : Unit1D u) : (defaults1D u).1 < (defaults1D u).2 ∧
    InRange1D u (defaults1D u).1 ∧ InRange1D u (defaults1D u).2 := by
  have := Real.pi_pos
  rcases hu with rfl | rfl | rfl
  · simp only [defaults1D, if_true, InRange1D]
    refine ⟨by linarith, ?_, ?_⟩ <;> left <;> refine ⟨trivial, ?_, ?_⟩ <;> linarith
  · simp only [defaults1D, InRange1D, String.reduceEq, if_true, if_false]
    norm_num
  · simp only [defaults1D, InRange1D, String.reduceEq, if_true, if_false]
    norm_num

theorem inRange1D_of_between {u : String} {a b x : ℝ} (ha : InRange1D u a) (hb : InRange1D u b)
    (h1 : a ≤ x) (h2 : x ≤ b) : InRange1D u x := by
  rcases ha with ⟨rfl, ha⟩ | ⟨rfl, ha⟩ | ⟨rfl, ha⟩
  all_goals
    simp [InRange1D] at hb ⊢
    constructor <;> linarith [ha.1, ha.2, hb.1, hb.2]

/-- **C34** (1-D grids). `FarField1DSearchGrid(start, stop, size, unit)` has the `size` points
`start + i (stop - start) / size`, all in `[start, stop)` if `start < stop`; an omitted bound is the
documented default; if the bounds are valid for the unit (in particular for the defaults),
`source_placement` does not raise and consists of exactly these points. -/
theorem C34_grid_1d (start stop : Option ℝ) (n : ℕ) {u : String} (hu : Unit1D u) (a b : ℝ)
    (ha : a = start.getD (defaults1D u).1) (hb : b = stop.getD (defaults1D u).2) :
    ∃ (g : SearchGrid) (x : List ℝ), ff1dGrid (.uniform start stop n) u = .ok g ∧
      g.kind = .ff1 ∧ g.axes = [⟨x, false⟩] ∧ g.units = [u] ∧ g.shape = [n] ∧ g.size = n ∧
      (∀ i < n, x[i]? = some (a + i * (b - a) / n)) ∧
      (a < b → ∀ v ∈ x, a ≤ v ∧ v < b) ∧
      (a < b → InRange1D u a → InRange1D u b →
        ∃ s : FF1D n, g.createPlacement = .ok ⟨n, .ff1 s⟩ ∧ s.unit = u ∧
          ∀ i : Fin n, s.loc i = a + i * (b - a) / n) := by
  have e1 : orDefault start ((defaultRange1D u).map Prod.fst) = .ok a := by
    cases start with
    | some x => simp [orDefault, ha]
    | none => simp [orDefault, defaultRange1D_eq hu, Except.map, ha]
  have e2 : orDefault stop ((defaultRange1D u).map Prod.snd) = .ok b := by
    cases stop with
    | some x => simp [orDefault, hb]
    | none => simp [orDefault, defaultRange1D_eq hu, Except.map, hb]
  have hmem : a < b → ∀ v ∈ linspaceOpen a b n, a ≤ v ∧ v < b := by
    intro hab v hv
    obtain ⟨i, hi, rfl⟩ := List.mem_iff_getElem.1 hv
    rw [getElem_linspaceOpen]
    exact linspaceOpen_mem_Ico hab (by simpa [length_linspaceOpen] using hi)
  refine ⟨⟨.ff1, [⟨linspaceOpen a b n, false⟩], ["DOA"], [u]⟩, linspaceOpen a b n,
    by simp [ff1dGrid, e1, e2], rfl, rfl, rfl, ?_, ?_, ?_, hmem, ?_⟩
  · simp [SearchGrid.shape, length_linspaceOpen]
  · simp [SearchGrid.size, SearchGrid.shape, length_linspaceOpen]
  · intro i hi
    rw [getElem?_linspaceOpen _ _ _ _ hi, mul_div_assoc]
  · intro hab hra hrb
    have hok := createPlacement_ff1 (x := linspaceOpen a b n) (names := ["DOA"]) hu
      (fun v hv => inRange1D_of_between hra hrb (hmem hab v hv).1 (hmem hab v hv).2.le)
    rw [hok]
    have key : ∀ (x : List ℝ) (m : ℕ) (hm : x.length = m), (∀ i : Fin m, x[i.1]? = some (a + i * (b - a) / n)) →
        ∃ s : FF1D m, (Except.ok ⟨x.length, .ff1 ⟨x.get, u⟩⟩ : Res (Σ k, Sources k)) = .ok ⟨m, .ff1 s⟩ ∧
          s.unit = u ∧ ∀ i : Fin m, s.loc i = a + i * (b - a) / n := by
      intro x m hm hx
      subst hm
      refine ⟨_, rfl, rfl, fun i => ?_⟩
      have := hx i
      rw [List.getElem?_eq_getElem i.2, Option.some.injEq] at this
      exact this
    exact key _ n (length_linspaceOpen a b n) (fun i => by
      rw [getElem?_linspaceOpen _ _ _ _ i.2, mul_div_assoc])

/-- **C34** (defaults are valid): with both bounds omitted the placement never raises. -/
theorem C34_default_1d (n : ℕ) {u : String} (hu : Unit1D u) :
    ∃ g s, ff1dGrid (.uniform none none n) u = .ok g ∧ g.createPlacement = .ok ⟨n, .ff1 s⟩ := by
  obtain ⟨h1, h2, h3⟩ := defaults1D_range hu
  obtain ⟨g, x, hg, _, _, _, _, _, _, _, h⟩ := C34_grid_1d none none n hu _ _ rfl rfl
  obtain ⟨s, hs, _⟩ := h h1 h2 h3
  exact ⟨g, s, hg, hs⟩

/-- The documented defaults of a 2-D grid: `(start, stop)`. -/
noncomputable def defaults2D (u : String) : (ℝ × ℝ) × (ℝ × ℝ) :=
  if u = "rad" then ((-Real.pi, 0), (Real.pi, Real.pi / 2)) else ((-180, 0), (180, 90))

theorem defaultRange2D_eq {u : String} (hu : Unit2D u) : defaultRange2D u = .ok (defaults2D u) := by
  rcases hu with rfl | rfl <;> simp [defaultRange2D, defaults2D]

theorem inRange2D_of_between {u : String} {a b x : ℝ × ℝ} (ha : InRange2D u a) (hb : InRange2D u b)
    (h1 : a.1 ≤ x.1 ∧ a.2 ≤ x.2) (h2 : x.1 ≤ b.1 ∧ x.2 ≤ b.2) : InRange2D u x := by
  rcases ha with ⟨rfl, ha⟩ | ⟨rfl, ha⟩
  all_goals
    simp [InRange2D] at hb ⊢
    refine ⟨?_, ?_, ?_, ?_⟩ <;> linarith [ha.1, ha.2.1, ha.2.2.1, ha.2.2.2, hb.1, hb.2.1, hb.2.2.1, hb.2.2.2]

/-- **C34** (2-D grids). `FarField2DSearchGrid` is the product of two uniform axes; its placement is
the product grid in row-major order. -/
theorem C34_grid_2d (start stop : Option (ℝ × ℝ)) (n1 n2 : ℕ) {u : String} (hu : Unit2D u)
    (a b : ℝ × ℝ) (ha : a = start.getD (defaults2D u).1) (hb : b = stop.getD (defaults2D u).2) :
    ∃ (g : SearchGrid), ff2dGrid (.uniform start stop (n1, n2)) u = .ok g ∧ g.kind = .ff2 ∧
      g.shape = [n1, n2] ∧ g.size = n1 * n2 ∧
      (a.1 < b.1 → a.2 < b.2 → InRange2D u a → InRange2D u b →
        ∃ (k : ℕ) (s : FF2D k), g.createPlacement = .ok ⟨k, .ff2 s⟩ ∧ s.unit = u ∧ k = n1 * n2 ∧
          ∀ i j (r : Fin k), i < n1 → j < n2 → r.1 = i * n2 + j →
            s.loc r = (a.1 + i * (b.1 - a.1) / n1, a.2 + j * (b.2 - a.2) / n2) ∧
            a.1 ≤ (s.loc r).1 ∧ (s.loc r).1 < b.1 ∧ a.2 ≤ (s.loc r).2 ∧ (s.loc r).2 < b.2) := by
  have e1 : orDefault start ((defaultRange2D u).map Prod.fst) = .ok a := by
    cases start with
    | some x => simp [orDefault, ha]
    | none => simp [orDefault, defaultRange2D_eq hu, Except.map, ha]
  have e2 : orDefault stop ((defaultRange2D u).map Prod.snd) = .ok b := by
    cases stop with
    | some x => simp [orDefault, hb]
    | none => simp [orDefault, defaultRange2D_eq hu, Except.map, hb]
  refine ⟨_, by simp [ff2dGrid, e1, e2]; rfl, rfl, ?_, ?_, ?_⟩
  · simp [SearchGrid.shape, length_linspaceOpen]
  · simp [SearchGrid.size, SearchGrid.shape, length_linspaceOpen]
  · intro h1 h2 hra hrb
    have hm : ∀ {a b : ℝ} {n : ℕ}, a < b → ∀ v ∈ linspaceOpen a b n, a ≤ v ∧ v < b := by
      intro a b n hab v hv
      obtain ⟨i, hi, rfl⟩ := List.mem_iff_getElem.1 hv
      rw [getElem_linspaceOpen]
      exact linspaceOpen_mem_Ico hab (by simpa [length_linspaceOpen] using hi)
    obtain ⟨k, s, q1, q2, q3, q4⟩ := createPlacement_ff2 (a := linspaceOpen a.1 b.1 n1)
      (b := linspaceOpen a.2 b.2 n2) (names := ["Azimuth", "Elevation"]) hu (fun v hv w hw =>
        inRange2D_of_between hra hrb ⟨(hm h1 v hv).1, (hm h2 w hw).1⟩
          ⟨(hm h1 v hv).2.le, (hm h2 w hw).2.le⟩)
    rw [length_linspaceOpen, length_linspaceOpen] at q3
    refine ⟨k, s, q1, q2, q3, fun i j r hi hj hr => ?_⟩
    have := q4 i j (by rwa [length_linspaceOpen]) (by rwa [length_linspaceOpen]) r
      (by rwa [length_linspaceOpen])
    rw [getElem_linspaceOpen, getElem_linspaceOpen] at this
    rw [this]
    refine ⟨by simp only [mul_div_assoc], ?_⟩
    exact ⟨(linspaceOpen_mem_Ico h1 hi).1, (linspaceOpen_mem_Ico h1 hi).2,
      (linspaceOpen_mem_Ico h2 hj).1, (linspaceOpen_mem_Ico h2 hj).2⟩

/-- **C34** (2-D defaults are valid). -/
theorem C34_default_2d (n1 n2 : ℕ) {u : String} (hu : Unit2D u) :
    ∃ g s, ff2dGrid (.uniform none none (n1, n2)) u = .ok g ∧
      g.createPlacement = .ok ⟨n1 * n2, .ff2 s⟩ := by
  obtain ⟨g, hg, _, _, _, h⟩ := C34_grid_2d none none n1 n2 hu _ _ rfl rfl
  have hp := Real.pi_pos
  obtain ⟨k, s, h1, _, h3, _⟩ := h
    (by rcases hu with rfl | rfl <;> simp [defaults2D, hp])
    (by rcases hu with rfl | rfl <;> simp [defaults2D, hp])
    (by
      rcases hu with rfl | rfl
      · left; simp [defaults2D]; constructor <;> linarith
      · right; simp [defaults2D])
    (by
      rcases hu with rfl | rfl
      · left; simp [defaults2D]; constructor <;> linarith
      · right; simp [defaults2D])
  subst h3
  exact ⟨g, s, hg, h1⟩

/-- **C34** (unknown units). A default cannot be looked up for a unit other than the listed ones. -/
theorem C34_unknown_unit (n : ℕ) {u : String} (hu : ¬ Unit1D u) (stop : Option ℝ) :
    ff1dGrid (.uniform none stop n) u = .error .keyError := by
  have : defaultRange1D u = .error .keyError := by
    simp only [Unit1D, not_or] at hu
    simp [defaultRange1D, hu.1, hu.2.1, hu.2.2]
  simp [ff1dGrid, orDefault, this, Except.map]

/-- **C31** (grid points, 2-D). The element of the source placement of a 2-D far-field grid at the
flat index of a coordinate is the pair of axis values at that coordinate. -/
theorem C31_grid_point_2d (a b : List ℝ) (u : String) (hu : Unit2D u)
    (hx : ∀ v ∈ a, ∀ w ∈ b, InRange2D u (v, w)) :
    ∃ (g : SearchGrid) (k : ℕ) (s : FF2D k), ff2dGrid (.axes [a, b]) u = .ok g ∧
      g.createPlacement = .ok ⟨k, .ff2 s⟩ ∧ k = g.size ∧
      ∀ (i j : ℕ) (v w : ℝ), a[i]? = some v → b[j]? = some w →
        ∃ r : Fin k, ravelMultiIndex g.shape [i, j] = .ok r.1 ∧ s.loc r = (v, w) := by
  obtain ⟨k, s, h1, h2, h3, h4⟩ := createPlacement_ff2 (names := ["Azimuth", "Elevation"]) hu hx
  refine ⟨_, k, s, rfl, h1, by simp [SearchGrid.size, SearchGrid.shape, h3], ?_⟩
  intro i j v w hv hw
  obtain ⟨hi, rfl⟩ := List.getElem?_eq_some_iff.1 hv
  obtain ⟨hj, rfl⟩ := List.getElem?_eq_some_iff.1 hw
  have hc : ValidCoord [a.length, b.length] [i, j] := .cons hi (.cons hj .nil)
  have hlt := ravelIdx_lt hc
  have hr : ravelIdx [a.length, b.length] [i, j] = i * b.length + j := by simp [ravelIdx]
  have hk : i * b.length + j < k := by
    rw [h3]; rw [hr] at hlt; simpa using hlt
  refine ⟨⟨_, hk⟩, ?_, h4 i j hi hj _ rfl⟩
  refine (ravelMultiIndex_eq hc).trans ?_
  rw [hr]

/-- **C31** (grid points, 1-D). -/
theorem C31_grid_point_1d (a : List ℝ) (u : String) (hu : Unit1D u) (hx : ∀ v ∈ a, InRange1D u v) :
    ∃ (g : SearchGrid) (s : FF1D a.length), ff1dGrid (.axes [a]) u = .ok g ∧
      g.createPlacement = .ok ⟨a.length, .ff1 s⟩ ∧ g.size = a.length ∧
      ∀ (i : Fin a.length), ravelMultiIndex g.shape [i.1] = .ok i.1 ∧ s.loc i = a[i] := by
  refine ⟨_, _, rfl, createPlacement_ff1 hu hx, by simp [SearchGrid.size, SearchGrid.shape], ?_⟩
  intro i
  have hc : ValidCoord [a.length] [i.1] := .cons i.2 .nil
  refine ⟨(ravelMultiIndex_eq hc).trans ?_, rfl⟩
  simp [ravelIdx]

/-! ## C35 -/

/-- The documented meaning of the list form: the concatenation of the uniform grids. -/
noncomputable def concatSegments (start stop : List ℝ) (size : List ℕ) : List ℝ :=
  (List.zipWith (fun (p : ℝ × ℝ) n => linspaceOpen p.1 p.2 n) (start.zip stop) size).flatten

/-- **C35** (refutation: placement). No grid built from lists can be used as a source placement: its
locations are an `(n, 1)` array, which the placement rejects with `ValueError`. -/
theorem C35_segments_unusable (start stop : List ℝ) (size : List ℕ) (u : String) (g : SearchGrid)
    (h : ff1dGrid (.segments start stop size) u = .ok g) : g.createPlacement = .error .valueError := by
  simp only [ff1dGrid] at h
  split at h
  · simp at h
  · rw [← Except.ok.inj h]
    simp [SearchGrid.createPlacement, FF1D.init]

/-- **C35** (refutation: contents). With two segments the first one is overwritten by the second and
the rest is zero. -/
theorem C35_segments_overwritten : ∃ g, ff1dGrid (.segments [0, 10] [1, 11] [2, 2]) "deg" = .ok g ∧
    g.axes.map Axis.data = [[10, 10.5, 0, 0]] ∧
    concatSegments [0, 10] [1, 11] [2, 2] = [0, 0.5, 10, 10.5] := by
  refine ⟨⟨.ff1, [⟨[10, 10.5, 0, 0], true⟩], ["DOA"], ["deg"]⟩, ?_, rfl, ?_⟩
  · simp only [ff1dGrid, List.length_cons, List.length_nil, segmentLoop, List.getElem?_cons_zero,
      List.getElem?_cons_succ, overwritePrefix, linspaceOpen]
    simp [List.range_succ, List.replicate]
    norm_num
  · simp [concatSegments, linspaceOpen, List.range_succ]
    norm_num

/-- **C35** (what does hold). A single segment has the documented points. The full property (several
segments; use as a placement) is refuted above. -/
theorem C35_single_segment_partial (a b : ℝ) (n : ℕ) (u : String) :
    ∃ g, ff1dGrid (.segments [a] [b] [n]) u = .ok g ∧
      g.axes.map Axis.data = [concatSegments [a] [b] [n]] := by
  refine ⟨_, rfl, ?_⟩
  simp [concatSegments, overwritePrefix, length_linspaceOpen]

/-! ## C36 -/

/-- `x` is a uniform axis. -/
def UniformAxis (x : List ℝ) : Prop := ∃ s h : ℝ, ∀ (i : ℕ) (v : ℝ), x[i]? = some v → v = s + i * h

/-- `y` is the refinement of the axis `x` around index `c`: equally spaced points from `x[lb]` to
`x[ub]`, `density` intervals per original interval. -/
structure IsRefinement (x : List ℝ) (c density span : ℕ) (y : List ℝ) : Prop where
  bounds : ∃ lb ub a b, lb = max 0 ((c : ℤ) - span) ∧ ub = min ((x.length : ℤ) - 1) ((c : ℤ) + span) ∧
    x[lb.toNat]? = some a ∧ x[ub.toNat]? = some b ∧ (y.length : ℤ) = (ub - lb) * density + 1 ∧
    y.head? = some a ∧ y.getLast? = some b ∧
    (∀ v ∈ y, min a b ≤ v ∧ v ≤ max a b) ∧
    (∃ h, ∀ (t : ℕ) (v : ℝ), y[t]? = some v → v = a + t * h) ∧
    (UniformAxis x → ∀ (i : ℕ) (v : ℝ), lb ≤ i → (i : ℤ) ≤ ub → x[i]? = some v →
      y[(i - lb.toNat) * density]? = some v)

theorem linspace_between (a b : ℝ) (N t : ℕ) (ht : t ≤ N) :
    min a b ≤ a + t * ((b - a) / N) ∧ a + t * ((b - a) / N) ≤ max a b := by
  rcases Nat.eq_zero_or_pos N with rfl | hN
  · have : t = 0 := by omega
    subst this; simp
  · have hN' : (0 : ℝ) < N := by exact_mod_cast hN
    set θ : ℝ := t / N
    have h0 : 0 ≤ θ := by positivity
    have h1 : θ ≤ 1 := by
      rw [div_le_one hN']; exact_mod_cast ht
    have e : a + t * ((b - a) / N) = (1 - θ) * a + θ * b := by
      simp only [θ]; field_simp; ring
    rw [e]
    constructor
    · have h2 := min_le_left a b
      have h3 := min_le_right a b
      nlinarith
    · have h2 := le_max_left a b
      have h3 := le_max_right a b
      nlinarith

theorem refineAxis_isRefinement (ax : Axis) (c : ℕ) (hc : c < ax.data.length) (density span : ℕ)
    (hd : 1 ≤ density) : ∃ ax', refineAxis ax c density span = .ok ax' ∧ ax'.column = ax.column ∧
      IsRefinement ax.data c density span ax'.data := by
  obtain ⟨lb, ub, ax', hlb, hub, h1, h2, h3, h4, h5, h6⟩ := refineAxis_spec ax c hc density span
  refine ⟨ax', h4, h5, ⟨⟨lb, ub, ax.data.getD lb 0, ax.data.getD ub 0, ?_, ?_, ?_, ?_, ?_, ?_, ?_, ?_, ?_, ?_⟩⟩⟩
  · omega
  · omega
  · simp [List.getElem?_eq_getElem (show lb < ax.data.length by omega)]
  · simp [List.getElem?_eq_getElem h3]
  · rw [h6, length_linspace]
    push_cast [Nat.cast_sub (h1.trans h2)]
    ring
  · rw [h6, List.head?_eq_getElem?, getElem?_linspace _ _ _ _ (by omega)]; simp
  · rw [h6, List.getLast?_eq_getElem?, length_linspace, Nat.add_sub_cancel,
      getElem?_linspace _ _ _ _ (by omega), Nat.add_sub_cancel]
    congr 1
    rcases Nat.eq_zero_or_pos ((ub - lb) * density) with h0 | h0
    · have : ub = lb := by
        rcases Nat.mul_eq_zero.1 h0 with h | h <;> omega
      rw [h0, this]; simp
    · have : (((ub - lb) * density : ℕ) : ℝ) ≠ 0 := by exact_mod_cast h0.ne'
      field_simp
      ring
  · intro v hv
    rw [h6] at hv
    obtain ⟨t, ht, rfl⟩ := List.mem_iff_getElem.1 hv
    have e := getElem?_linspace (ax.data.getD lb 0) (ax.data.getD ub 0) ((ub - lb) * density + 1) t
      (by rwa [length_linspace] at ht)
    rw [List.getElem?_eq_getElem ht, Option.some.injEq] at e
    rw [e, Nat.add_sub_cancel]
    rw [length_linspace] at ht
    exact linspace_between _ _ _ _ (by omega)
  · refine ⟨(ax.data.getD ub 0 - ax.data.getD lb 0) / (((ub - lb) * density + 1 - 1 : ℕ) : ℝ),
      fun t v hv => ?_⟩
    have ht : t < (ub - lb) * density + 1 := by
      have := (List.getElem?_eq_some_iff.1 hv).1
      rwa [h6, length_linspace] at this
    rw [h6, getElem?_linspace _ _ _ _ ht, Option.some.injEq] at hv
    exact hv.symm
  · rintro ⟨s, h, hs⟩ i v hi1 hi2 hv
    have hi1' : lb ≤ i := by exact_mod_cast hi1
    have hi2' : i ≤ ub := by exact_mod_cast hi2
    have hle : (i - lb) * density ≤ (ub - lb) * density := Nat.mul_le_mul_right _ (by omega)
    rw [Int.toNat_natCast, h6, getElem?_linspace _ _ _ _ (by omega), Nat.add_sub_cancel]
    congr 1
    have ea := hs lb (ax.data.getD lb 0)
      (by simp [List.getElem?_eq_getElem (show lb < ax.data.length by omega)])
    have eb := hs ub (ax.data.getD ub 0) (by simp [List.getElem?_eq_getElem h3])
    rw [ea, eb, hs i v hv]
    have hd' : (density : ℝ) ≠ 0 := by exact_mod_cast (show density ≠ 0 by omega)
    rcases Nat.eq_zero_or_pos (ub - lb) with h0 | h0
    · have e1 : i = lb := by omega
      subst e1; simp
    · have h0' : (((ub - lb : ℕ) : ℝ)) ≠ 0 := by exact_mod_cast h0.ne'
      push_cast
      rw [Nat.cast_sub hi1', Nat.cast_sub (h1.trans h2)] at *
      field_simp
      ring

/-- **C36** (refined axes). For a coordinate inside the grid, `density ≥ 1` and `span ≥ 1`. -/
theorem C36_refined_axes (g : SearchGrid) (coord : List ℕ) (density span : ℕ) (hd : 1 ≤ density)
    (hs : 1 ≤ span) (hc : List.Forall₂ (fun (a : Axis) c => c < a.data.length) g.axes coord) :
    ∃ axes', g.createRefinedAxesAt coord density span = .ok axes' ∧ axes'.length = g.ndim ∧
      ∀ (j c : ℕ) (ax : Axis), g.axes[j]? = some ax → coord[j]? = some c →
        ∃ ax', axes'[j]? = some ax' ∧ IsRefinement ax.data c density span ax'.data := by
  obtain ⟨l, h1, h2, h3⟩ := refineAxes_spec g.axes coord density span hc
  refine ⟨l, ?_, h2, ?_⟩
  · unfold SearchGrid.createRefinedAxesAt
    rw [if_neg (by omega), if_neg (by omega), if_neg (by simp [SearchGrid.ndim, hc.length_eq]), h1]
  · intro j c ax hj hcj
    obtain ⟨ax', h4, h5⟩ := h3 j c ax hj hcj
    have hlt : c < ax.data.length := by
      have h := List.forall₂_iff_get.1 hc
      obtain ⟨hj', rfl⟩ := List.getElem?_eq_some_iff.1 hj
      obtain ⟨hj'', rfl⟩ := List.getElem?_eq_some_iff.1 hcj
      exact h.2 j hj' hj''
    obtain ⟨ax'', h6, _, h7⟩ := refineAxis_isRefinement ax c hlt density span hd
    rw [h5] at h6
    exact ⟨ax'', by rw [h4, Except.ok.inj h6], h7⟩

/-- **C36** (uniform axes). On a uniform axis the refined axis contains the refined point itself. -/
theorem C36_contains_point {x y : List ℝ} {c density span : ℕ} (h : IsRefinement x c density span y)
    (hu : UniformAxis x) {v : ℝ} (hv : x[c]? = some v) : v ∈ y := by
  obtain ⟨lb, ub, a, b, h1, h2, _, _, _, _, _, _, _, h3⟩ := h.bounds
  have hc := (List.getElem?_eq_some_iff.1 hv).1
  exact List.mem_of_getElem? (h3 hu c v (by omega) (by omega) hv)

/-- **C36** (errors). `density < 1`, `span < 1` or a wrong number of coordinates raise
`ValueError`; nothing else does for a coordinate inside the grid. -/
theorem C36_errors (g : SearchGrid) (coord : List ℕ) (density span : ℤ)
    (hc : ∀ p ∈ g.axes.zip coord, p.2 < p.1.data.length) :
    g.createRefinedAxesAt coord density span = .error .valueError ↔
      density < 1 ∨ span < 1 ∨ coord.length ≠ g.ndim := by
  constructor
  · intro h
    by_contra hcon
    push Not at hcon
    obtain ⟨h1, h2, h3⟩ := hcon
    obtain ⟨l, hl, _⟩ := C36_refined_axes g coord density.toNat span.toNat (by omega) (by omega)
      (List.forall₂_iff_zip.2 ⟨h3.symm, fun hp => hc _ hp⟩)
    rw [Int.toNat_of_nonneg (by omega), Int.toNat_of_nonneg (by omega), h] at hl
    simp at hl
  · intro h
    unfold SearchGrid.createRefinedAxesAt
    by_cases h1 : density < 1
    · rw [if_pos h1]
    · rw [if_neg h1]
      by_cases h2 : span < 1
      · rw [if_pos h2]
      · rw [if_neg h2, if_pos]
        rcases h with h | h | h
        · exact absurd h h1
        · exact absurd h h2
        · exact h

/-- Non-vacuity: the documented example, coordinate `(3, 1)` of a `5 × 3` grid. -/
example : List.Forall₂ (fun (a : Axis) c => c < a.data.length)
    [⟨[0, 10, 20, 30, 40], false⟩, ⟨[0, 20, 40], false⟩] [3, 1] ∧ UniformAxis [0, 20, 40] := by
  refine ⟨.cons (by simp) (.cons (by simp) .nil), 0, 20, ?_⟩
  intro i v h
  have hi := (List.getElem?_eq_some_iff.1 h).1
  simp only [List.length_cons, List.length_nil] at hi
  interval_cases i <;> simp at h <;> rw [← h] <;> norm_num

/-! ## C41 -/

/-- **C41** (refutation for near-field grids). `NearField2DSearchGrid` leaves the abstract method
`create_refined_grid_at` undefined, so every attempt to create one raises `TypeError`. -/
theorem C41_near_field_not_instantiable (args : Grid2DArgs) :
    nf2dGrid args = .error .typeError := by
  unfold nf2dGrid
  rw [if_pos]
  decide

/-- **C41** (far-field grids). They can be instantiated from axes, and `create_refined_grids_at`
returns one refined grid per coordinate, the refinement of the axes around that coordinate. The
near-field part of the property is refuted above. -/
theorem C41_refined_grids_partial (g : SearchGrid) (u : String)
    (hg : (∃ a, ff1dGrid (.axes [a]) u = .ok g) ∨ ∃ a b, ff2dGrid (.axes [a, b]) u = .ok g)
    (coords : List (List ℕ)) (n density span : ℕ) (hd : 1 ≤ density) (hs : 1 ≤ span)
    (hlen : coords.length = g.ndim) (hn : ∀ c ∈ coords, c.length = n)
    (hin : ∀ p ∈ g.axes.zip coords, ∀ c ∈ p.2, c < p.1.data.length) :
    ∃ gs, g.createRefinedGridsAt coords density span = .ok gs ∧ gs.length = n ∧
      ∀ i < n, ∃ g' : SearchGrid, gs[i]? = some g' ∧ g'.kind = g.kind ∧ g'.units = g.units ∧
        g'.ndim = g.ndim ∧
        ∀ (j c : ℕ) (ax : Axis) (cs : List ℕ), g.axes[j]? = some ax → coords[j]? = some cs →
          cs[i]? = some c →
          ∃ ax', g'.axes[j]? = some ax' ∧ IsRefinement ax.data c density span ax'.data := by
  have hkind : (g.kind = .ff1 ∧ g.units = [u] ∧ g.ndim = 1) ∨
      (g.kind = .ff2 ∧ g.units = [u, u] ∧ g.ndim = 2) := by
    rcases hg with ⟨a, h⟩ | ⟨a, b, h⟩
    · rw [← Except.ok.inj h]; left; exact ⟨rfl, rfl, rfl⟩
    · rw [← Except.ok.inj h]; right; exact ⟨rfl, rfl, rfl⟩
  have hne : coords ≠ [] := by
    rintro rfl
    rcases hkind with h | h
    · rw [h.2.2] at hlen; simp at hlen
    · rw [h.2.2] at hlen; simp at hlen
  obtain ⟨z1, z2⟩ := length_zipCoords_getElem hne hn
  -- each coordinate succeeds
  have hone : ∀ i < n, ∀ t, (zipCoords coords)[i]? = some t →
      ∃ g', g.createRefinedGridAt t density span = .ok g' ∧ g'.kind = g.kind ∧ g'.units = g.units ∧
        g'.ndim = g.ndim ∧ ∀ (j c : ℕ) (ax : Axis) (cs : List ℕ), g.axes[j]? = some ax →
          coords[j]? = some cs → cs[i]? = some c →
          ∃ ax', g'.axes[j]? = some ax' ∧ IsRefinement ax.data c density span ax'.data := by
    intro i hi t ht
    obtain ⟨t', ht', htl, htj⟩ := z2 i hi
    rw [ht] at ht'
    obtain rfl := Option.some.inj ht'
    have hval : List.Forall₂ (fun (a : Axis) c => c < a.data.length) g.axes t := by
      rw [List.forall₂_iff_get]
      refine ⟨by rw [htl, hlen]; rfl, fun j h1 h2 => ?_⟩
      have hjc : j < coords.length := by rw [← htl]; exact h2
      have e := htj j coords[j] (List.getElem?_eq_getElem hjc)
      rw [List.getElem?_eq_getElem h2] at e
      have hmem : t[j] ∈ coords[j] := List.mem_of_getElem? e.symm
      have hz : (g.axes[j], coords[j]) ∈ g.axes.zip coords := by
        rw [List.mem_iff_getElem]
        exact ⟨j, by simp only [List.length_zip]; omega, by simp⟩
      exact hin _ hz _ hmem
    obtain ⟨axes', a1, a2, a3⟩ := C36_refined_axes g t density span hd hs hval
    have hfin : ∀ (j c : ℕ) (ax : Axis) (cs : List ℕ), g.axes[j]? = some ax → coords[j]? = some cs → cs[i]? = some c →
        ∃ ax', axes'[j]? = some ax' ∧ IsRefinement ax.data c density span ax'.data := by
      intro j c ax cs h1 h2 h3
      exact a3 j c ax h1 (by rw [htj j cs h2, h3])
    rcases hkind with ⟨k1, k2, k3⟩ | ⟨k1, k2, k3⟩
    · exact ⟨⟨.ff1, axes', ["DOA"], [u]⟩, by simp [SearchGrid.createRefinedGridAt, a1, k1, k2],
        k1.symm, k2.symm, a2, hfin⟩
    · exact ⟨⟨.ff2, axes', ["Azimuth", "Elevation"], [u, u]⟩,
        by simp [SearchGrid.createRefinedGridAt, a1, k1, k2], k1.symm, k2.symm, a2, hfin⟩
  obtain ⟨gs, r1, r2, r3⟩ := mapM_ok_spec (fun c => g.createRefinedGridAt c density span)
    (zipCoords coords) (by
      intro t ht
      obtain ⟨i, hi, rfl⟩ := List.mem_iff_getElem.1 ht
      obtain ⟨g', h, _⟩ := hone i (by rw [← z1]; exact hi) _ (List.getElem?_eq_getElem hi)
      exact ⟨g', h⟩)
  refine ⟨gs, r1, by rw [r2, z1], fun i hi => ?_⟩
  obtain ⟨t, ht, _⟩ := z2 i hi
  obtain ⟨g', h1, h2⟩ := hone i hi t ht
  obtain ⟨b, hb, hbi⟩ := r3 i t ht
  rw [h1] at hb
  obtain rfl := Except.ok.inj hb
  exact ⟨g', hbi, h2⟩

end Doa.Props
