import Verif.Lemmas.Estimator
import Verif.Props.SearchGrid
import Verif.Props.SourceHeap

/-!
# C37-C40: spectrum-based estimators
-/

namespace Doa.Props

open Doa Doa.Spec

variable {β Atom : Type}

/-- `argsort` returns the positions in an order that sorts the values ascending (numpy's default sort
is not stable, ties may come in any order). -/
def IsArgsort [LinearOrder β] (f : List β → List ℕ) : Prop := ∀ l : List β,
  (f l).Perm (List.range l.length) ∧
  ∀ (a b i j : ℕ) (v w : β), a ≤ b → (f l)[a]? = some i → (f l)[b]? = some j →
    l[i]? = some v → l[j]? = some w → v ≤ w

/-- The `k` largest peaks in grid order. -/
structure IsTopPeaks [LinearOrder β] (shape : List ℕ) (sp : List β) (peaks : List (List ℕ)) (k : ℕ)
    (flat : List ℕ) : Prop where
  length : flat.length = k
  increasing : flat.Pairwise (· < ·)
  peak : ∀ i ∈ flat, ∃ c ∈ peaks, ravelMultiIndex shape c = .ok i
  largest : ∀ i ∈ flat, ∀ c ∈ peaks, ∀ (j : ℕ) (v w : β), ravelMultiIndex shape c = .ok j → j ∉ flat →
    sp[j]? = some v → sp[i]? = some w → v ≤ w

theorem map_ok_mapM {α γ : Type _} (f : α → Res γ) (g : α → γ) (l : List α) (h : ∀ a ∈ l, f a = .ok (g a)) :
    l.mapM f = .ok (l.map g) := by
  induction l with
  | nil => rfl
  | cons a l ih =>
    rw [List.mapM_cons, h a (by simp), ih fun x hx => h x (List.mem_cons_of_mem _ hx)]
    rfl

theorem filterMap_getElem (peaks : List (List ℕ)) (top : List ℕ) (h : ∀ i ∈ top, i < peaks.length) :
    (top.filterMap fun i => peaks[i]?) = top.map fun i => peaks.getD i [] := by
  induction top with
  | nil => rfl
  | cons a l ih =>
    have ha := h a (by simp)
    rw [List.filterMap_cons, List.getElem?_eq_getElem ha, List.map_cons,
      ih fun x hx => h x (List.mem_cons_of_mem _ hx)]
    simp [List.getD_eq_getElem?_getD, List.getElem?_eq_getElem ha]

theorem topPeaks_spec [LinearOrder β] (peakFinder : List ℕ → List β → List (List ℕ))
    (argsort : List β → List ℕ) (hsort : IsArgsort argsort) (shape : List ℕ) (sp : List β) (k : ℕ)
    (hk : 1 ≤ k) (hsp : sp.length = shape.prod)
    (hvalid : ∀ c ∈ peakFinder shape sp, ValidCoord shape c) (hnd : (peakFinder shape sp).Nodup) :
    ((peakFinder shape sp).length < k → topPeaks peakFinder argsort shape sp k = .ok none) ∧
    (k ≤ (peakFinder shape sp).length → ∃ flat, topPeaks peakFinder argsort shape sp k = .ok (some flat) ∧
      IsTopPeaks shape sp (peakFinder shape sp) k flat) := by
  set peaks := peakFinder shape sp with hpk
  constructor
  · intro h
    simp only [topPeaks, ← hpk, if_pos h]
  · intro hle
    -- the peak values
    have hlt : ∀ c ∈ peaks, ravelIdx shape c < sp.length := fun c hc => hsp ▸ ravelIdx_lt (hvalid c hc)
    have hne : ∀ c ∈ peaks, ∃ v, sp[ravelIdx shape c]? = some v := fun c hc =>
      ⟨_, List.getElem?_eq_getElem (hlt c hc)⟩
    have hnz : peaks ≠ [] := by intro h; rw [h] at hle; simp at hle; omega
    obtain ⟨c0, hc0⟩ := List.exists_mem_of_ne_nil _ hnz
    obtain ⟨v0, hv0⟩ := hne c0 hc0
    have hval : peaks.mapM (spectrumAt shape sp) = .ok (peaks.map fun c => (sp[ravelIdx shape c]?).getD v0) := by
      apply map_ok_mapM
      intro c hc
      obtain ⟨v, hv⟩ := hne c hc
      simp [spectrumAt, ravelMultiIndex_eq (hvalid c hc), hv]
    set values := peaks.map fun c => (sp[ravelIdx shape c]?).getD v0 with hvals
    have hvlen : values.length = peaks.length := by simp [hvals]
    obtain ⟨hp, hs⟩ := hsort values
    rw [hvlen] at hp
    set p := argsort values with hpdef
    have hplen : p.length = peaks.length := by rw [hp.length_eq, List.length_range]
    have hpmem : ∀ i ∈ p, i < peaks.length := fun i hi => List.mem_range.1 (hp.mem_iff.1 hi)
    set top := lastK k p with htop
    have htop' : top = p.drop (p.length - k) := by simp [htop, lastK, show k ≠ 0 by omega]
    have htmem : ∀ i ∈ top, i < peaks.length := fun i hi => hpmem i (by rw [htop'] at hi; exact List.mem_of_mem_drop hi)
    have hflat : (top.filterMap fun i => peaks[i]?).mapM (ravelMultiIndex shape) =
        .ok ((top.map fun i => peaks.getD i []).map (ravelIdx shape)) := by
      rw [filterMap_getElem _ _ htmem]
      apply map_ok_mapM
      intro c hc
      obtain ⟨i, hi, rfl⟩ := List.mem_map.1 hc
      apply ravelMultiIndex_eq
      apply hvalid
      simp [List.getD_eq_getElem?_getD, List.getElem?_eq_getElem (htmem i hi)]
    have hget : ∀ i (hi : i < peaks.length), peaks.getD i [] = peaks[i] := fun i hi => by
      simp [List.getD_eq_getElem?_getD, List.getElem?_eq_getElem hi]
    set flat0 := (top.map fun i => peaks.getD i []).map (ravelIdx shape) with hflat0
    have hnd0 : flat0.Nodup := by
      rw [hflat0, List.map_map]
      have htnd : top.Nodup := by
        rw [htop']
        exact (hp.nodup_iff.2 List.nodup_range).sublist (List.drop_sublist _ _)
      refine (List.nodup_map_iff_inj_on htnd).2 ?_
      intro i hi j hj hij
      simp only [Function.comp] at hij
      rw [hget i (htmem i hi), hget j (htmem j hj)] at hij
      have h1 := unravel_ravel (hvalid _ (List.getElem_mem (htmem i hi)))
      have h2 := unravel_ravel (hvalid _ (List.getElem_mem (htmem j hj)))
      rw [hij, h2] at h1
      exact (List.Nodup.getElem_inj_iff hnd).1 h1.symm
    refine ⟨flat0.mergeSort fun a b => decide (a ≤ b), ?_, ?_⟩
    · simp only [topPeaks, ← hpk, if_neg (show ¬ peaks.length < k by omega), hval]
      rw [← hpdef, ← htop, hflat]
    · have hperm : (flat0.mergeSort fun a b => decide (a ≤ b)).Perm flat0 := List.mergeSort_perm _ _
      refine ⟨?_, ?_, ?_, ?_⟩
      · rw [hperm.length_eq, hflat0, List.length_map, List.length_map, htop', List.length_drop]
        omega
      · have h1 : (flat0.mergeSort fun a b => decide (a ≤ b)).Pairwise (fun a b => decide (a ≤ b) = true) :=
          List.pairwise_mergeSort (fun a b c h1 h2 => by simp at *; omega) (fun a b => by simp; omega) _
        have h2 : (flat0.mergeSort fun a b => decide (a ≤ b)).Nodup := hperm.nodup_iff.2 hnd0
        exact (h1.and h2).imp (fun {a b} h => by
          have := h.1; have h3 := h.2; simp at this; omega)
      · intro i hi
        rw [hperm.mem_iff, hflat0] at hi
        obtain ⟨c, hc, rfl⟩ := List.mem_map.1 hi
        obtain ⟨t, ht, rfl⟩ := List.mem_map.1 hc
        rw [hget t (htmem t ht)]
        have hm := List.getElem_mem (htmem t ht)
        exact ⟨_, hm, ravelMultiIndex_eq (hvalid _ hm)⟩
      · intro i hi c hc j v w hj hjn hv hw
        rw [ravelMultiIndex_eq (hvalid c hc), Except.ok.injEq] at hj
        subst hj
        rw [hperm.mem_iff] at hi hjn
        obtain ⟨c', hc', rfl⟩ := List.mem_map.1 hi
        obtain ⟨t, ht, rfl⟩ := List.mem_map.1 hc'
        obtain ⟨s, hs', rfl⟩ := List.mem_iff_getElem.1 hc
        -- positions in the sorted order
        have hsp' : s ∈ p := hp.mem_iff.2 (List.mem_range.2 hs')
        have hsn : s ∉ top := by
          intro h
          exact hjn (List.mem_map.2 ⟨_, List.mem_map.2 ⟨s, h, hget s hs'⟩, rfl⟩)
        obtain ⟨a, ha, hpa⟩ := List.mem_iff_getElem.1 hsp'
        rw [htop'] at ht hsn
        obtain ⟨b, hb, hpb⟩ := List.mem_iff_getElem.1 ht
        rw [List.getElem_drop] at hpb
        have hab : a ≤ p.length - k + b := by
          by_contra hc
          apply hsn
          rw [← hpa]
          have hlt : a - (p.length - k) < (p.drop (p.length - k)).length := by
            rw [List.length_drop]; omega
          have := List.getElem_mem hlt
          rw [List.getElem_drop] at this
          convert this using 2
          omega
        have htl := htmem t (by rw [htop']; exact ht)
        refine hs a _ s t v w hab (by rw [List.getElem?_eq_getElem ha, hpa]) ?_ ?_ ?_
        · rw [List.length_drop] at hb
          rw [List.getElem?_eq_getElem (by omega), hpb]
        · rw [hvals, List.getElem?_map, List.getElem?_eq_getElem hs']
          simp [hv]
        · rw [hget t htl] at hw
          rw [hvals, List.getElem?_map, List.getElem?_eq_getElem htl]
          simp [hw]


/-! ### Valid grids -/

/-- A far-field grid whose points are valid locations for its unit: what the constructors produce for
valid bounds or axes (C34), apart from the list form (C35). -/
def ValidGrid (g : SearchGrid) : Prop :=
  (∃ (x : List ℝ) (names : List String) (u : String), g = ⟨.ff1, [⟨x, false⟩], names, [u]⟩ ∧
    Unit1D u ∧ ∀ v ∈ x, InRange1D u v) ∨
  (∃ (a b : List ℝ) (names : List String) (u : String),
    g = ⟨.ff2, [⟨a, false⟩, ⟨b, false⟩], names, [u, u]⟩ ∧ Unit2D u ∧
    ∀ v ∈ a, ∀ w ∈ b, InRange2D u (v, w))

/-- The grid point at a coordinate. -/
def gridPoint (g : SearchGrid) (c : List ℕ) : List ℝ :=
  List.zipWith (fun (ax : Axis) i => ax.data.getD i 0) g.axes c

theorem ravelMultiIndex_ok {shape c : List ℕ} {r : ℕ} (h : ravelMultiIndex shape c = .ok r) :
    ValidCoord shape c ∧ r = ravelIdx shape c := by
  have hv := ravelMultiIndex_ok_iff.1 ⟨r, h⟩
  rw [ravelMultiIndex_eq hv, Except.ok.injEq] at h
  exact ⟨hv, h.symm⟩

/-- The placement of a valid grid lists its points in row-major order. -/
theorem ValidGrid.rows {g : SearchGrid} (h : ValidGrid g) : ∃ rows, g.placementRows = .ok rows ∧
    rows.length = g.shape.prod ∧
    ∀ (c : List ℕ) (r : ℕ), ravelMultiIndex g.shape c = .ok r → rows[r]? = some (gridPoint g c) := by
  rcases h with ⟨x, names, u, rfl, hu, hx⟩ | ⟨a, b, names, u, rfl, hu, hx⟩
  · refine ⟨_, by simp only [SearchGrid.placementRows, createPlacement_ff1 hu hx]; rfl, ?_, ?_⟩
    · simp [Sources.rows, SearchGrid.shape]
    · intro c r hr
      obtain ⟨hc, rfl⟩ := ravelMultiIndex_ok hr
      simp only [SearchGrid.shape, List.map_cons, List.map_nil] at hc
      cases hc with
      | cons hi hn =>
        cases hn
        rename_i i
        simp [Sources.rows, SearchGrid.shape, ravelIdx, gridPoint, hi]
  · obtain ⟨k, s, h1, h2, h3, h4⟩ := createPlacement_ff2 (names := names) hu hx
    refine ⟨_, by simp only [SearchGrid.placementRows, h1]; rfl, ?_, ?_⟩
    · simp [Sources.rows, SearchGrid.shape, h3]
    · intro c r hr
      obtain ⟨hc, rfl⟩ := ravelMultiIndex_ok hr
      simp only [SearchGrid.shape, List.map_cons, List.map_nil] at hc
      cases hc with
      | cons hi hn =>
        cases hn with
        | cons hj hn =>
          cases hn
          rename_i i j
          have e : ravelIdx [a.length, b.length] [i, j] = i * b.length + j := by simp [ravelIdx]
          have hlt : i * b.length + j < k := by
            rw [h3, ← e]
            have := ravelIdx_lt (shape := [a.length, b.length]) (coord := [i, j])
              (.cons hi (.cons hj .nil))
            simpa using this
          have h5 := h4 i j hi hj ⟨_, hlt⟩ rfl
          show (Sources.ff2 s).rows[ravelIdx [a.length, b.length] [i, j]]? = _
          rw [e]
          simp only [Sources.rows, List.getElem?_ofFn, hlt, dif_pos, h5, gridPoint]
          simp [hi, hj]

theorem validGrid_1d {start stop : Option ℝ} {n : ℕ} {u : String} (hu : Unit1D u)
    (h1 : InRange1D u (start.getD (defaults1D u).1)) (h2 : InRange1D u (stop.getD (defaults1D u).2))
    (h : start.getD (defaults1D u).1 < stop.getD (defaults1D u).2) :
    ∃ g, ff1dGrid (.uniform start stop n) u = .ok g ∧ ValidGrid g ∧
      ∃ x, g.axes = [⟨x, false⟩] ∧ UniformAxis x := by
  obtain ⟨g, x, hg, hk, hax, hun, _, _, hxi, hb, _⟩ := C34_grid_1d start stop n hu _ _ rfl rfl
  refine ⟨g, hg, Or.inl ⟨x, g.axisNames, u, ?_, hu, fun v hv => ?_⟩, x, hax, ?_⟩
  · cases g; simp only at hk hax hun; rw [hk, hax, hun]
  · exact inRange1D_of_between h1 h2 (hb h v hv).1 (hb h v hv).2.le
  · refine ⟨start.getD (defaults1D u).1,
      (stop.getD (defaults1D u).2 - start.getD (defaults1D u).1) / n, fun i v hv => ?_⟩
    have hi : i < n := by
      have := (List.getElem?_eq_some_iff.1 hv).1
      simp only [ff1dGrid] at hg
      split at hg
      · cases hg
        simp only [List.cons.injEq, Axis.mk.injEq, and_true] at hax
        rw [← hax, length_linspaceOpen] at this
        exact this
      · cases hg
      · cases hg
    have := hxi i hi
    rw [hv, Option.some.injEq] at this
    rw [this, mul_div_assoc]

/-! ## C37 -/

theorem select_flat (n : ℕ) (flat : List ℕ) (h : ∀ i ∈ flat, i < n) :
    (SKey.ints (flat.map fun i : ℕ => (i : ℤ))).select n = .ok flat := by
  simp only [SKey.select]
  rw [mapM_pyIndex_ok n _ (by
    intro i hi
    obtain ⟨j, hj, rfl⟩ := List.mem_map.1 hi
    have := h j hj
    omega)]
  congr 1
  rw [List.map_map]
  conv_rhs => rw [← List.map_id flat]
  apply List.map_congr_left
  intro i hi
  have h1 := h i hi
  simp only [Function.comp, id]
  rw [Int.emod_eq_of_lt (by omega) (by omega)]
  simp

theorem IsTopPeaks.lt [LinearOrder β] {shape : List ℕ} {sp : List β} {peaks : List (List ℕ)} {k : ℕ}
    {flat : List ℕ} (h : IsTopPeaks shape sp peaks k flat) : ∀ i ∈ flat, i < shape.prod := by
  intro i hi
  obtain ⟨c, _, hc⟩ := h.peak i hi
  obtain ⟨hv, rfl⟩ := ravelMultiIndex_ok hc
  exact ravelIdx_lt hv

/-- **C37**. In every state reachable by any history of calls and user writes to returned placements,
an unrefined `estimate` call with `k ≥ 1`: the result is `(False, None)` iff the peak finder reports
fewer than `k` peaks; otherwise it is `True` with the grid points at `k` strictly increasing grid
positions, all peaks, such that every other peak has a spectrum value at most that of every reported
one. -/
theorem C37_largest_peaks [LinearOrder β] (cfg : EstCfg β Atom) (hg : ValidGrid cfg.grid)
    (hsort : IsArgsort cfg.argsort) (ops : List (EstOp β Atom)) (args : EstArgs β Atom)
    (hk : 1 ≤ args.k) (hr : args.refine = false) :
    ∃ rows, cfg.grid.placementRows = .ok rows ∧
    ∀ sp, sp = args.fsp (cfg.compute rows) → sp.length = cfg.grid.shape.prod →
      (∀ c ∈ cfg.peakFinder cfg.grid.shape sp, ValidCoord cfg.grid.shape c) →
      (cfg.peakFinder cfg.grid.shape sp).Nodup →
      ((cfg.peakFinder cfg.grid.shape sp).length < args.k →
        cfg.observe (cfg.run ops).1 args = .ok (false, none, sp)) ∧
      (args.k ≤ (cfg.peakFinder cfg.grid.shape sp).length → ∃ flat,
        IsTopPeaks cfg.grid.shape sp (cfg.peakFinder cfg.grid.shape sp) args.k flat ∧
        cfg.observe (cfg.run ops).1 args =
          .ok (true, some (some (flat.map fun i => gridPoint cfg.grid (unravelIdx cfg.grid.shape i),
            (cfg.grid.units[0]?).getD "")), sp)) := by
  obtain ⟨rows, h1, h2, h3⟩ := hg.rows
  refine ⟨rows, h1, fun sp hspdef hlen hv hnd => ?_⟩
  obtain ⟨_, _, hobs, _⟩ := (cfg.inv_run ops).estimate args
  rw [hobs]
  obtain ⟨t1, t2⟩ := topPeaks_spec cfg.peakFinder cfg.argsort hsort cfg.grid.shape sp args.k hk hlen hv hnd
  constructor
  · intro hlt
    simp only [EstCfg.pureEst, h1, ← hspdef, hlen, ne_eq, not_true_eq_false, if_false, t1 hlt]
  · intro hle
    obtain ⟨flat, hf1, hf2⟩ := t2 hle
    refine ⟨flat, hf2, ?_⟩
    simp only [EstCfg.pureEst, h1, ← hspdef, hlen, ne_eq, not_true_eq_false, if_false, hf1, hr,
      Bool.false_eq_true]
    rw [select_flat rows.length flat (fun i hi => h2 ▸ hf2.lt i hi)]
    simp only
    congr 5
    congr 1
    rw [← List.filterMap_eq_map]
    apply List.filterMap_congr
    intro i hi
    have hlt := hf2.lt i hi
    have := h3 (unravelIdx cfg.grid.shape i) i (by
      rw [ravelMultiIndex_eq (unravel_valid hlt), ravel_unravel hlt])
    simpa using this

/-! ### The default peak finder -/

theorem nodup_map_unravel (shape : List ℕ) : ((List.range shape.prod).map (unravelIdx shape)).Nodup := by
  refine (List.nodup_map_iff_inj_on List.nodup_range).2 ?_
  intro i hi j hj hij
  rw [← ravel_unravel (List.mem_range.1 hi), ← ravel_unravel (List.mem_range.1 hj), hij]

/-- **C37** (default peak finder). `find_peaks_simple` reports every peak once and only positions of
the array, so the hypotheses of `C37_largest_peaks` hold for it. -/
theorem C37_default_peak_finder [LinearOrder β] (shape : List ℕ) (sp : List β)
    (hlen : sp.length = shape.prod) :
    (∀ c ∈ findPeaksSimple shape sp, ValidCoord shape c) ∧ (findPeaksSimple shape sp).Nodup := by
  classical
  unfold findPeaksSimple
  split
  · rename_i h1
    obtain ⟨n, rfl⟩ := List.length_eq_one_iff.1 h1
    simp only [List.prod_cons, List.prod_nil, mul_one] at hlen
    constructor
    · intro c hc
      obtain ⟨m, hm, rfl⟩ := List.mem_map.1 hc
      have := List.mem_range.1 (List.mem_filter.1 hm).1
      exact .cons (by omega) .nil
    · refine (List.nodup_map_iff_inj_on (List.nodup_range.filter _)).2 ?_
      intro i _ j _ h
      simpa using h
  · constructor
    · intro c hc
      have := (List.mem_filter.1 hc).1
      obtain ⟨r, hr, rfl⟩ := List.mem_map.1 this
      exact unravel_valid (List.mem_range.1 hr)
    · exact (nodup_map_unravel shape).filter _

/-- **C37** (1-D peaks are interior). A peak of a 1-D spectrum has points on both sides that are
strictly lower: endpoints of the grid are never reported. -/
theorem C37_peaks_1d_interior [LinearOrder β] (n : ℕ) (sp : List β) (c : List ℕ)
    (h : c ∈ findPeaksSimple [n] sp) : ∃ m l r, c = [m] ∧ l < m ∧ m < r ∧ r < sp.length ∧
      ∃ vl vm vr, sp[l]? = some vl ∧ sp[m]? = some vm ∧ sp[r]? = some vr ∧ vl < vm ∧ vr < vm := by
  classical
  simp only [findPeaksSimple, List.length_cons, List.length_nil, if_true, findPeaks1] at h
  obtain ⟨m, hm, rfl⟩ := List.mem_map.1 h
  have := (List.mem_filter.1 hm).2
  simp only [decide_eq_true_eq] at this
  obtain ⟨l, r, ⟨h1, h2, h3, v, h4, h5, h6⟩, rfl⟩ := this
  exact ⟨_, l - 1, r + 1, rfl, by omega, by omega, h3, sp[l - 1], v, sp[r + 1],
    List.getElem?_eq_getElem _, h4 _ (by omega) (by omega) (by omega), List.getElem?_eq_getElem _,
    h5 _ (List.getElem?_eq_getElem _), h6 _ (List.getElem?_eq_getElem _)⟩

/-- **C37** (2-D peaks). For 2-D spectra a position is a peak iff no neighbour is strictly higher;
hence a largest value is always a peak (also on the border), and one source is always resolved. -/
theorem C37_peaks_2d [LinearOrder β] (n1 n2 : ℕ) (sp : List β) (hlen : sp.length = n1 * n2)
    (i j : ℕ) (hi : i < n1) (hj : j < n2) :
    [i, j] ∈ findPeaksSimple [n1, n2] sp ↔
      ∀ (i' j' : ℕ) (v w : β), i' < n1 → j' < n2 → i ≤ i' + 1 → i' ≤ i + 1 → j ≤ j' + 1 → j' ≤ j + 1 →
        sp[i' * n2 + j']? = some v → sp[i * n2 + j]? = some w → v ≤ w := by
  classical
  have hr : ∀ a b : ℕ, ravelIdx [n1, n2] [a, b] = a * n2 + b := fun a b => by simp [ravelIdx]
  have hmem : ∀ a b : ℕ, a < n1 → b < n2 →
      [a, b] ∈ (List.range [n1, n2].prod).map (unravelIdx [n1, n2]) := by
    intro a b ha hb
    have hv : ValidCoord [n1, n2] [a, b] := .cons ha (.cons hb .nil)
    exact List.mem_map.2 ⟨_, List.mem_range.2 (ravelIdx_lt hv), unravel_ravel hv⟩
  have hlt : ∀ a b : ℕ, a < n1 → b < n2 → a * n2 + b < sp.length := by
    intro a b ha hb
    have := ravelIdx_lt (shape := [n1, n2]) (coord := [a, b]) (.cons ha (.cons hb .nil))
    rw [hr] at this
    simpa [hlen] using this
  simp only [findPeaksSimple, List.length_cons, List.length_nil, Nat.reduceAdd, OfNat.ofNat_ne_one,
    if_false, findPeaksND, List.mem_filter, decide_eq_true_eq, hmem i j hi hj, true_and]
  constructor
  · intro h i' j' v w hi' hj' a1 a2 a3 a4 hv hw
    have := h [i', j'] (hmem i' j' hi' hj') (.cons ⟨a1, a2⟩ (.cons ⟨a3, a4⟩ .nil))
    rw [hr, hr] at this
    exact this v w hv hw
  · intro h d hd hadj
    cases hadj with
    | cons q1 q =>
      cases q with
      | cons q2 q =>
        cases q
        rename_i i' j'
        obtain ⟨r, hrr, hd⟩ := List.mem_map.1 hd
        have hv := unravel_valid (List.mem_range.1 hrr)
        rw [hd] at hv
        cases hv with
        | cons hi' hv =>
          cases hv with
          | cons hj' hv =>
            rw [hr, hr]
            intro v w hv hw
            exact h i' j' _ _ hi' hj' q1.1 q1.2 q2.1 q2.2 hv hw


/-! ## C38, C39 -/

/-- **C38**. Whatever calls (and user writes to returned placements) were made before on either
estimator, a call on an estimator with caching has the same result as on one without. -/
theorem C38_caching_transparent [LinearOrder β] (cfg : EstCfg β Atom) (ops ops' : List (EstOp β Atom))
    (args : EstArgs β Atom) :
    ({ cfg with caching := true } : EstCfg β Atom).observe
        (({ cfg with caching := true } : EstCfg β Atom).run ops).1 args =
      ({ cfg with caching := false } : EstCfg β Atom).observe
        (({ cfg with caching := false } : EstCfg β Atom).run ops').1 args := by
  rw [((EstCfg.inv_run _ ops).estimate args).2.2.1, ((EstCfg.inv_run _ ops').estimate args).2.2.1]
  rfl

/-- **C39** (repeatability). After any history of calls, refined or not, and of user writes to
returned placements, a call returns what it would have returned on a fresh estimator. -/
theorem C39_repeatable [LinearOrder β] (cfg : EstCfg β Atom) (ops : List (EstOp β Atom))
    (args : EstArgs β Atom) : cfg.observe (cfg.run ops).1 args = cfg.observe cfg.init args := by
  rw [((cfg.inv_run ops).estimate args).2.2.1, (cfg.inv_init.estimate args).2.2.1]

/-- **C39** (the grid is not written to). After any history the axis of the search grid has its
original values, and the placement cached by the grid, if any, is that of a fresh grid. -/
theorem C39_grid_unchanged [LinearOrder β] (cfg : EstCfg β Atom) (ops : List (EstOp β Atom)) :
    cfg.curGrid (cfg.run ops).1 = cfg.grid ∧
    ∀ r, (cfg.run ops).1.gridSrc = some r → ∃ rows, cfg.grid.placementRows = .ok rows ∧
      (cfg.run ops).1.heap.view r = some (rows, (cfg.grid.units[0]?).getD "") := by
  refine ⟨(cfg.inv_run ops).curGrid, fun r hr => ?_⟩
  obtain ⟨rows, b, h1, h2, h3⟩ := (cfg.inv_run ops).src r hr
  exact ⟨rows, h1, by simp [SHeap.view, h2, h3]⟩

/-- **C39** (returned placements are independent). A further call changes none of the placements that
exist (the grid's and those returned before), and a user write to a returned placement changes no
other one. -/
theorem C39_returned_independent [LinearOrder β] (cfg : EstCfg β Atom) (ops : List (EstOp β Atom)) :
    (∀ (args : EstArgs β Atom) (r : ℕ) (v : List (List ℝ) × String),
      (cfg.run ops).1.heap.view r = some v →
        (cfg.run (ops ++ [.estimate args])).1.heap.view r = some v) ∧
    (∀ (n i n' r : ℕ) (x : List ℝ), (cfg.run ops).2[n']? = some r → (cfg.run ops).2[n]? ≠ some r →
      (cfg.run (ops ++ [.userWrite n i x])).1.heap.view r = (cfg.run ops).1.heap.view r) := by
  have hrun : ∀ op, cfg.run (ops ++ [op]) = cfg.step (cfg.run ops) op := by
    intro op; simp [EstCfg.run, List.foldl_append]
  have hI := cfg.inv_run ops
  constructor
  · intro args r v hv
    rw [hrun]
    have h := (hI.estimate args).1.view hv
    have e : (cfg.step (cfg.run ops) (.estimate args)).1 = (cfg.estimate (cfg.run ops).1 args).2 := by
      simp only [EstCfg.step]
      split <;> simp_all
    rw [e]; exact h
  · intro n i n' r x hn' hn
    rw [hrun]
    simp only [EstCfg.step]
    cases hs : (cfg.run ops).2[n]? with
    | none => rfl
    | some r' =>
      rw [hs] at hn
      have hne : r' ≠ r := fun h => hn (by rw [h])
      have hr := hI.rets r (List.mem_of_getElem? hn')
      have hr' := hI.rets r' (List.mem_of_getElem? hs)
      have ho := List.getElem?_eq_getElem hr.1
      have ho' := List.getElem?_eq_getElem hr'.1
      have hb : (cfg.run ops).1.heap.objs[r].buf ≠ (cfg.run ops).1.heap.objs[r'].buf := fun h =>
        hne (hI.inj _ _ _ _ ho ho' h).symm
      simp only [SHeap.write, ho', SHeap.view, ho, Option.bind_some, List.getElem?_modify]
      have hb' : ¬ (cfg.run ops).1.heap.objs[r'].buf = (cfg.run ops).1.heap.objs[r].buf := fun h =>
        hb h.symm
      simp [hb']

/-! ## C40 -/

/-- The values between the neighbours of position `c` on an axis. -/
noncomputable def cellBox (x : List ℝ) (c : ℕ) : ℝ × ℝ :=
  (min (x.getD (c - 1) 0) (x.getD (min (x.length - 1) (c + 1)) 0),
   max (x.getD (c - 1) 0) (x.getD (min (x.length - 1) (c + 1)) 0))

theorem IsRefinement.cell {x y : List ℝ} {c d : ℕ} (hc : c < x.length) (h : IsRefinement x c d 1 y) :
    (∀ v ∈ y, (cellBox x c).1 ≤ v ∧ v ≤ (cellBox x c).2) ∧ y ≠ [] ∧ UniformAxis y ∧
    (∃ a ∈ x, ∃ b ∈ x, ∀ v ∈ y, min a b ≤ v ∧ v ≤ max a b) := by
  obtain ⟨lb, ub, a, b, h1, h2, h3, h4, h5, h6, h7, h8, ⟨s, h9⟩, h10⟩ := h.bounds
  have e1 : lb.toNat = c - 1 := by omega
  have e2 : ub.toNat = min (x.length - 1) (c + 1) := by omega
  rw [e1] at h3
  rw [e2] at h4
  refine ⟨?_, ?_, ⟨a, s, h9⟩, a, List.mem_of_getElem? h3, b, List.mem_of_getElem? h4, h8⟩
  · simpa [cellBox, List.getD_eq_getElem?_getD, h3, h4] using h8
  · rintro rfl; simp at h6

/-- The refined grid around a valid coordinate of a valid grid is a valid grid. -/
theorem ValidGrid.refine {g : SearchGrid} (hg : ValidGrid g) {c : List ℕ} (hc : ValidCoord g.shape c)
    {d : ℤ} (hd : 1 ≤ d) : ∃ g', g.createRefinedGridAt c d 1 = .ok g' ∧ ValidGrid g' ∧
      g'.axes.length = g.axes.length ∧
      ∀ (j i : ℕ) (ax : Axis), g.axes[j]? = some ax → c[j]? = some i → i < ax.data.length ∧
        ∃ ax', g'.axes[j]? = some ax' ∧ IsRefinement ax.data i d.toNat 1 ax'.data := by
  have hdn : ((d.toNat : ℕ) : ℤ) = d := Int.toNat_of_nonneg (by omega)
  rcases hg with ⟨x, names, u, rfl, hu, hx⟩ | ⟨a, b, names, u, rfl, hu, hx⟩
  · simp only [SearchGrid.shape, List.map_cons, List.map_nil] at hc
    cases hc with
    | cons hi hn =>
      cases hn
      rename_i i
      obtain ⟨ax', h1, h2, h3⟩ := refineAxis_isRefinement ⟨x, false⟩ i hi d.toNat 1 (by omega)
      rw [hdn] at h1
      simp only [Nat.cast_one] at h1
      obtain ⟨_, _, _, a, ha, b, hb, hbd⟩ := h3.cell hi
      refine ⟨⟨.ff1, [ax'], ["DOA"], [u]⟩, ?_, ?_, rfl, ?_⟩
      · simp [SearchGrid.createRefinedGridAt, SearchGrid.createRefinedAxesAt, refineAxes, h1,
          SearchGrid.ndim, show ¬ d < 1 by omega]
      · refine Or.inl ⟨ax'.data, ["DOA"], u, ?_, hu, ?_⟩
        · have h2' : ax'.column = false := h2
          rw [← h2']
        · intro v hv
          obtain ⟨q1, q2⟩ := hbd v hv
          rcases le_total a b with hab | hab
          · rw [min_eq_left hab] at q1; rw [max_eq_right hab] at q2
            exact inRange1D_of_between (hx a ha) (hx b hb) q1 q2
          · rw [min_eq_right hab] at q1; rw [max_eq_left hab] at q2
            exact inRange1D_of_between (hx b hb) (hx a ha) q1 q2
      · intro j i' ax hj hi'
        cases j with
        | zero =>
          simp only [List.getElem?_cons_zero, Option.some.injEq] at hj hi'
          subst hj hi'
          exact ⟨hi, ax', rfl, h3⟩
        | succ j => simp at hj
  · simp only [SearchGrid.shape, List.map_cons, List.map_nil] at hc
    cases hc with
    | cons hi hn =>
      cases hn with
      | cons hj hn =>
        cases hn
        rename_i i j
        obtain ⟨a', h1, h2, h3⟩ := refineAxis_isRefinement ⟨a, false⟩ i hi d.toNat 1 (by omega)
        obtain ⟨b', k1, k2, k3⟩ := refineAxis_isRefinement ⟨b, false⟩ j hj d.toNat 1 (by omega)
        rw [hdn] at h1 k1
        simp only [Nat.cast_one] at h1 k1
        obtain ⟨_, _, _, a0, ha0, a1, ha1, hbd⟩ := h3.cell hi
        obtain ⟨_, _, _, b0, hb0, b1, hb1, kbd⟩ := k3.cell hj
        refine ⟨⟨.ff2, [a', b'], ["Azimuth", "Elevation"], [u, u]⟩, ?_, ?_, rfl, ?_⟩
        · simp [SearchGrid.createRefinedGridAt, SearchGrid.createRefinedAxesAt, refineAxes, h1, k1,
            SearchGrid.ndim, show ¬ d < 1 by omega]
        · refine Or.inr ⟨a'.data, b'.data, ["Azimuth", "Elevation"], u, ?_, hu, ?_⟩
          · have h2' : a'.column = false := h2
            have k2' : b'.column = false := k2
            cases a'; cases b'
            simp only at h2' k2'
            rw [h2', k2']
          · have hmin : ∀ {y : List ℝ} {p q : ℝ}, p ∈ y → q ∈ y → min p q ∈ y ∧ max p q ∈ y := by
              intro y p q hp hq
              rcases le_total p q with h | h
              · rw [min_eq_left h, max_eq_right h]; exact ⟨hp, hq⟩
              · rw [min_eq_right h, max_eq_left h]; exact ⟨hq, hp⟩
            intro v hv w hw
            exact inRange2D_of_between (hx _ (hmin ha0 ha1).1 _ (hmin hb0 hb1).1)
              (hx _ (hmin ha0 ha1).2 _ (hmin hb0 hb1).2) ⟨(hbd v hv).1, (kbd w hw).1⟩
              ⟨(hbd v hv).2, (kbd w hw).2⟩
        · intro t i' ax ht hi'
          match t with
          | 0 =>
            simp only [List.getElem?_cons_zero, Option.some.injEq] at ht hi'
            subst ht hi'
            exact ⟨hi, a', rfl, h3⟩
          | 1 =>
            simp only [List.getElem?_cons_zero, List.getElem?_cons_succ, Option.some.injEq] at ht hi'
            subst ht hi'
            exact ⟨hj, b', rfl, k3⟩
          | t + 2 => simp at ht

/-- Position `j` of a point lies in `box[j]`. -/
def InBox (box : List (ℝ × ℝ)) (p : List ℝ) : Prop :=
  p.length = box.length ∧ ∀ (j : ℕ) (b : ℝ × ℝ) (v : ℝ), box[j]? = some b → p[j]? = some v →
    b.1 ≤ v ∧ v ≤ b.2

/-- State of the refinement of one peak: a valid non-empty subgrid inside the box; on uniform grids
with a pointwise spectrum `f`, uniform axes and a point that is at least as good as the peak. -/
structure SubgridInv [LinearOrder β] (box : List (ℝ × ℝ)) (unif : Prop) (f : List ℝ → β) (v0 : β)
    (g : SearchGrid) : Prop where
  valid : ValidGrid g
  len : g.axes.length = box.length
  pos : ∀ ax ∈ g.axes, 0 < ax.data.length
  box : ∀ (j : ℕ) (b : ℝ × ℝ) (ax : Axis), box[j]? = some b → g.axes[j]? = some ax →
    ∀ v ∈ ax.data, b.1 ≤ v ∧ v ≤ b.2
  good : unif → (∀ ax ∈ g.axes, UniformAxis ax.data) ∧
    ∃ c, ValidCoord g.shape c ∧ v0 ≤ f (gridPoint g c)

theorem validCoord_get {g : SearchGrid} {c : List ℕ} (h : ValidCoord g.shape c) :
    c.length = g.axes.length ∧ ∀ (j i : ℕ) (ax : Axis), g.axes[j]? = some ax → c[j]? = some i →
      i < ax.data.length := by
  have h1 := List.forall₂_iff_get.1 h
  have hl : c.length = g.axes.length := by rw [← h1.1]; simp [SearchGrid.shape]
  refine ⟨hl, fun j i ax hj hi => ?_⟩
  obtain ⟨hj1, rfl⟩ := List.getElem?_eq_some_iff.1 hj
  obtain ⟨hi1, rfl⟩ := List.getElem?_eq_some_iff.1 hi
  have := h1.2 j (by simpa [SearchGrid.shape] using hj1) hi1
  simpa [SearchGrid.shape] using this

theorem gridPoint_get {g : SearchGrid} {c : List ℕ} (hl : c.length = g.axes.length) :
    (gridPoint g c).length = g.axes.length ∧ ∀ (j i : ℕ) (ax : Axis), g.axes[j]? = some ax →
      c[j]? = some i → (gridPoint g c)[j]? = some (ax.data.getD i 0) := by
  refine ⟨by simp [gridPoint, hl], fun j i ax hj hi => ?_⟩
  simp [gridPoint, List.getElem?_zipWith, hj, hi]

theorem argmaxIdx_spec [LinearOrder β] (l : List β) (hl : l ≠ []) :
    ∃ i m, argmaxIdx l = some i ∧ l[i]? = some m ∧ ∀ x ∈ l, x ≤ m := by
  obtain ⟨m, hm⟩ : ∃ m, l.max? = some m := by
    cases h : l.max? with
    | none => exact absurd (List.max?_eq_none_iff.1 h) hl
    | some m => exact ⟨m, rfl⟩
  have hmem := List.max?_mem hm
  refine ⟨l.idxOf m, m, by simp [argmaxIdx, hm], ?_, fun x hx => ?_⟩
  · rw [List.getElem?_eq_getElem (List.idxOf_lt_length_of_mem hmem), List.getElem_idxOf]
  · exact (List.max?_le_iff hm).1 le_rfl x hx

theorem shape_prod_pos {g : SearchGrid} (h : ∀ ax ∈ g.axes, 0 < ax.data.length) : 0 < g.shape.prod := by
  apply Nat.pos_of_ne_zero
  intro h0
  rw [List.prod_eq_zero_iff] at h0
  obtain ⟨ax, hax, h0⟩ := List.mem_map.1 h0
  have := h ax hax
  omega

/-- One step of the refinement of one peak. -/
theorem SubgridInv.step [LinearOrder β] {box : List (ℝ × ℝ)} {unif : Prop} {f : List ℝ → β} {v0 : β}
    {g : SearchGrid} (h : SubgridInv box unif f v0 g) (sp : List (List ℝ) → List β)
    (hsp : ∀ rows, (sp rows).length = rows.length) (hf : unif → ∀ rows, sp rows = rows.map f)
    {d : ℤ} (hd : 1 ≤ d) (last : Bool) :
    ∃ loc g', refineOne sp d last g = .ok (loc, g') ∧ SubgridInv box unif f v0 g' ∧ InBox box loc ∧
      (unif → v0 ≤ f loc) := by
  obtain ⟨rows, r1, r2, r3⟩ := h.valid.rows
  have hpos := shape_prod_pos h.pos
  have hne : sp rows ≠ [] := by
    intro hc
    have := hsp rows
    rw [hc, List.length_nil, r2] at this
    omega
  obtain ⟨i, m, i1, i2, i3⟩ := argmaxIdx_spec (sp rows) hne
  have hi : i < g.shape.prod := by
    have := (List.getElem?_eq_some_iff.1 i2).1
    rwa [hsp, r2] at this
  have hc := unravel_valid hi
  have hrow : rows[i]? = some (gridPoint g (unravelIdx g.shape i)) :=
    r3 _ _ (by rw [ravelMultiIndex_eq hc, ravel_unravel hi])
  obtain ⟨hcl, hcv⟩ := validCoord_get hc
  obtain ⟨hpl, hpv⟩ := gridPoint_get hcl
  set c := unravelIdx g.shape i with hcdef
  have hbox : InBox box (gridPoint g c) := by
    refine ⟨by rw [hpl, h.len], fun j b v hb hv => ?_⟩
    have hj : j < g.axes.length := by
      rw [← hpl]; exact (List.getElem?_eq_some_iff.1 hv).1
    have e1 := List.getElem?_eq_getElem hj
    have e2 := List.getElem?_eq_getElem (show j < c.length by rw [hcl]; exact hj)
    have e3 := hpv j _ _ e1 e2
    rw [hv, Option.some.injEq] at e3
    have hlt := hcv j _ _ e1 e2
    refine h.box j b _ hb e1 v ?_
    rw [e3, List.getD_eq_getElem?_getD, List.getElem?_eq_getElem hlt]
    exact List.getElem_mem hlt
  have hval : unif → v0 ≤ f (gridPoint g c) := by
    intro hu
    obtain ⟨_, c', hc', hv'⟩ := h.good hu
    have hm : f (gridPoint g c) = m := by
      rw [hf hu rows, List.getElem?_map, hrow] at i2
      simpa using i2
    rw [hm]
    refine hv'.trans (i3 _ ?_)
    rw [hf hu rows]
    exact List.mem_map.2 ⟨_, List.mem_of_getElem? (r3 c' _ (ravelMultiIndex_eq hc')), rfl⟩
  unfold refineOne
  simp only [r1, i1, hrow]
  cases last with
  | true =>
    simp only [if_true]
    exact ⟨_, _, rfl, h, hbox, hval⟩
  | false =>
    simp only [Bool.false_eq_true, if_false]
    obtain ⟨g', g1, g2, g3, g4⟩ := h.valid.refine hc hd
    rw [← hcdef, g1]
    have hax : ∀ (j : ℕ) (ax' : Axis), g'.axes[j]? = some ax' → ∃ (ax : Axis) (i : ℕ),
        g.axes[j]? = some ax ∧ c[j]? = some i ∧ i < ax.data.length ∧
        IsRefinement ax.data i d.toNat 1 ax'.data := by
      intro j ax' hj
      have hj' : j < g.axes.length := by
        rw [← g3]; exact (List.getElem?_eq_some_iff.1 hj).1
      have e1 := List.getElem?_eq_getElem hj'
      have e2 := List.getElem?_eq_getElem (show j < c.length by rw [hcl]; exact hj')
      obtain ⟨q1, ax'', q2, q3⟩ := g4 j _ _ e1 e2
      rw [hj, Option.some.injEq] at q2
      subst q2
      exact ⟨_, _, e1, e2, q1, q3⟩
    refine ⟨_, _, rfl, ⟨g2, by rw [g3, h.len], ?_, ?_, ?_⟩, hbox, hval⟩
    · intro ax' hax'
      obtain ⟨j, hj, rfl⟩ := List.mem_iff_getElem.1 hax'
      obtain ⟨ax, t, _, _, q1, q2⟩ := hax j _ (List.getElem?_eq_getElem hj)
      exact List.length_pos_iff.2 (q2.cell q1).2.1
    · intro j b ax' hb hj v hv
      obtain ⟨ax, t, p1, p2, q1, q2⟩ := hax j _ hj
      obtain ⟨_, _, _, a, ha, b', hb', hbd⟩ := q2.cell q1
      have k1 := h.box j b ax hb p1 a ha
      have k2 := h.box j b ax hb p1 b' hb'
      obtain ⟨k3, k4⟩ := hbd v hv
      exact ⟨(le_min k1.1 k2.1).trans k3, k4.trans (max_le k1.2 k2.2)⟩
    · intro hu
      constructor
      · intro ax' hax'
        obtain ⟨j, hj, rfl⟩ := List.mem_iff_getElem.1 hax'
        obtain ⟨ax, t, _, _, q1, q2⟩ := hax j _ (List.getElem?_eq_getElem hj)
        exact (q2.cell q1).2.2.1
      · -- the new grid contains the point
        have hex : ∀ j : ℕ, ∃ t : ℕ, ∀ ax', g'.axes[j]? = some ax' →
            t < ax'.data.length ∧ (gridPoint g c)[j]? = some (ax'.data.getD t 0) := by
          intro j
          cases hj : g'.axes[j]? with
          | none => exact ⟨0, by simp⟩
          | some ax' =>
            obtain ⟨ax, s, p1, p2, q1, q2⟩ := hax j _ hj
            have hmem := C36_contains_point q2 ((h.good hu).1 ax (List.mem_of_getElem? p1))
              (List.getElem?_eq_getElem q1)
            obtain ⟨t, ht, hte⟩ := List.mem_iff_getElem.1 hmem
            refine ⟨t, fun ax'' he => ?_⟩
            rw [Option.some.injEq] at he
            subst he
            refine ⟨ht, ?_⟩
            rw [hpv j s ax p1 p2]
            simp [List.getElem?_eq_getElem q1, List.getElem?_eq_getElem ht, hte]
        choose t ht using hex
        set c' := (List.range g'.axes.length).map t with hc'
        have hc'l : c'.length = g'.axes.length := by simp [hc']
        have hc'j : ∀ j < g'.axes.length, c'[j]? = some (t j) := by
          intro j hj; simp [hc', hj]
        refine ⟨c', ?_, ?_⟩
        · refine List.forall₂_iff_get.2 ⟨by simp [SearchGrid.shape, hc'l], fun j h1 h2 => ?_⟩
          have hj : j < g'.axes.length := by simpa [SearchGrid.shape] using h1
          have := (ht j _ (List.getElem?_eq_getElem hj)).1
          have e := hc'j j hj
          rw [List.getElem?_eq_getElem h2, Option.some.injEq] at e
          simp only [List.get_eq_getElem, SearchGrid.shape, List.getElem_map, e]
          exact this
        · have e : gridPoint g' c' = gridPoint g c := by
            obtain ⟨w1, w2⟩ := gridPoint_get hc'l
            apply List.ext_getElem?
            intro j
            rcases Nat.lt_or_ge j g'.axes.length with hj | hj
            · rw [w2 j _ _ (List.getElem?_eq_getElem hj) (hc'j j hj),
                (ht j _ (List.getElem?_eq_getElem hj)).2]
            · rw [List.getElem?_eq_none (by rw [w1]; exact hj),
                List.getElem?_eq_none (by rw [hpl, ← g3]; exact hj)]
          rw [e]; exact hval hu

/-- One pass over the subgrids, for an invariant `P t` of the `t`-th subgrid and a property `Q t` of
its location. -/
theorem passP_spec [LinearOrder β] (sp : List (List ℝ) → List β) (d : ℤ) (last : Bool)
    (P : ℕ → SearchGrid → Prop) (Q : ℕ → List ℝ → Prop)
    (hstep : ∀ t g, P t g → ∃ loc g', refineOne sp d last g = .ok (loc, g') ∧ P t g' ∧ Q t loc) :
    ∀ (gs : List SearchGrid) (i : ℕ) (rows : List (List ℝ)),
      (∀ (t : ℕ) (g : SearchGrid), gs[t]? = some g → P (i + t) g) → i + gs.length ≤ rows.length →
      ∃ gs' rows', passP false sp d last i gs rows = (.ok gs', rows') ∧ gs'.length = gs.length ∧
        rows'.length = rows.length ∧ (∀ (t : ℕ) (g : SearchGrid), gs'[t]? = some g → P (i + t) g) ∧
        (∀ j < i, rows'[j]? = rows[j]?) ∧
        ∀ t < gs.length, ∃ loc, rows'[i + t]? = some loc ∧ Q (i + t) loc := by
  intro gs
  induction gs with
  | nil =>
    intro i rows _ _
    exact ⟨[], rows, rfl, rfl, rfl, by simp, fun _ _ => rfl, by simp⟩
  | cons g gs ih =>
    intro i rows hP hlen
    obtain ⟨loc, g', h1, h2, h3⟩ := hstep i g (by simpa using hP 0 g rfl)
    simp only [List.length_cons] at hlen
    obtain ⟨gs', rows', k1, k2, k3, k4, k5, k6⟩ := ih (i + 1) (rows.set i loc)
      (fun t g'' ht => by
        have := hP (t + 1) g'' (by simpa using ht)
        rwa [show i + (t + 1) = i + 1 + t by omega] at this)
      (by simp only [List.length_set]; omega)
    refine ⟨g' :: gs', rows', by simp [passP, h1, k1, storeRow], by simp [k2], by simpa using k3, ?_, ?_, ?_⟩
    · intro t g'' ht
      cases t with
      | zero =>
        simp only [List.getElem?_cons_zero, Option.some.injEq] at ht
        subst ht; exact h2
      | succ t =>
        have := k4 t g'' (by simpa using ht)
        rwa [show i + 1 + t = i + (t + 1) by omega] at this
    · intro j hj
      rw [k5 j (by omega), List.getElem?_set_ne (by omega)]
    · intro t ht
      cases t with
      | zero =>
        refine ⟨loc, ?_, h3⟩
        rw [Nat.add_zero, k5 i (by omega), List.getElem?_set_self (by omega)]
      | succ t =>
        have := k6 t (by simpa using ht)
        rwa [show i + 1 + t = i + (t + 1) by omega] at this

theorem loopP_spec [LinearOrder β] (sp : List (List ℝ) → List β) (d : ℤ)
    (P : ℕ → SearchGrid → Prop) (Q : ℕ → List ℝ → Prop)
    (hstep : ∀ last t g, P t g → ∃ loc g', refineOne sp d last g = .ok (loc, g') ∧ P t g' ∧ Q t loc) :
    ∀ (n : ℕ) (gs : List SearchGrid) (rows : List (List ℝ)),
      (∀ (t : ℕ) (g : SearchGrid), gs[t]? = some g → P t g) → gs.length = rows.length →
      ∃ rows', loopP false sp d n gs rows = (.ok (), rows') ∧ rows'.length = rows.length ∧
        ((1 ≤ n ∨ ∀ (t : ℕ) (loc : List ℝ), rows[t]? = some loc → Q t loc) →
          ∀ (t : ℕ) (loc : List ℝ), rows'[t]? = some loc → Q t loc) := by
  intro n
  induction n with
  | zero =>
    intro gs rows _ _
    exact ⟨rows, rfl, rfl, fun h => h.resolve_left (by omega)⟩
  | succ n ih =>
    intro gs rows hP hlen
    obtain ⟨gs', rows', k1, k2, k3, k4, _, k6⟩ := passP_spec sp d (decide (n = 0)) P Q (hstep _) gs 0 rows
      (fun t g ht => by simpa using hP t g ht) (by omega)
    obtain ⟨rows'', q1, q2, q3⟩ := ih gs' rows' (fun t g ht => by simpa using k4 t g ht) (by omega)
    refine ⟨rows'', by simp [loopP, k1, q1], by omega, fun _ => q3 (Or.inr ?_)⟩
    intro t loc ht
    have htl : t < gs.length := by
      have := (List.getElem?_eq_some_iff.1 ht).1; omega
    obtain ⟨loc', e1, e2⟩ := k6 t htl
    rw [Nat.zero_add] at e1 e2
    rw [ht, Option.some.injEq] at e1
    exact e1 ▸ e2

/-- **C40**. A refined call with `density ≥ 1` and at least one iteration, after any history, never
raises when there are enough peaks; the `t`-th estimate stays, on every axis, between the neighbours
of the `t`-th of the `k` largest peaks; and if all axes are uniform and the spectrum is computed
pointwise by `f`, its spectrum value is at least that of the peak. -/
theorem C40_refined_estimates [LinearOrder β] (cfg : EstCfg β Atom) (hg : ValidGrid cfg.grid)
    (hsort : IsArgsort cfg.argsort) (ops : List (EstOp β Atom)) (args : EstArgs β Atom)
    (hig : cfg.intGrid = false) (hk : 1 ≤ args.k) (hr : args.refine = true) (hd : 1 ≤ args.density)
    (hit : 1 ≤ args.iters) (hsp : ∀ rows, (args.fsp (cfg.compute rows)).length = rows.length) :
    ∃ rows sp, cfg.grid.placementRows = .ok rows ∧ sp = args.fsp (cfg.compute rows) ∧
      ((∀ c ∈ cfg.peakFinder cfg.grid.shape sp, ValidCoord cfg.grid.shape c) →
      (cfg.peakFinder cfg.grid.shape sp).Nodup →
      args.k ≤ (cfg.peakFinder cfg.grid.shape sp).length →
      ∃ flat est, IsTopPeaks cfg.grid.shape sp (cfg.peakFinder cfg.grid.shape sp) args.k flat ∧
        cfg.observe (cfg.run ops).1 args =
          .ok (true, some (some (est, (cfg.grid.units[0]?).getD "")), sp) ∧
        est.length = args.k ∧
        ∀ (t i : ℕ) (p : List ℝ), flat[t]? = some i → est[t]? = some p →
          p.length = cfg.grid.ndim ∧
          (∀ (j c : ℕ) (ax : Axis) (v : ℝ), cfg.grid.axes[j]? = some ax →
            (unravelIdx cfg.grid.shape i)[j]? = some c → p[j]? = some v →
            min (ax.data.getD (c - 1) 0) (ax.data.getD (min (ax.data.length - 1) (c + 1)) 0) ≤ v ∧
            v ≤ max (ax.data.getD (c - 1) 0) (ax.data.getD (min (ax.data.length - 1) (c + 1)) 0)) ∧
          (∀ f : List ℝ → β, (∀ rows, args.fsp (cfg.compute rows) = rows.map f) →
            (∀ ax ∈ cfg.grid.axes, UniformAxis ax.data) →
            f (gridPoint cfg.grid (unravelIdx cfg.grid.shape i)) ≤ f p)) := by
  obtain ⟨rows, h1, h2, h3⟩ := hg.rows
  refine ⟨rows, _, h1, rfl, fun hv hnd hle => ?_⟩
  have hlen : (args.fsp (cfg.compute rows)).length = cfg.grid.shape.prod := by rw [hsp, h2]
  obtain ⟨_, _, hobs, _⟩ := (cfg.inv_run ops).estimate args
  obtain ⟨flat, hf1, hf2⟩ := (topPeaks_spec cfg.peakFinder cfg.argsort hsort cfg.grid.shape _ args.k hk
    hlen hv hnd).2 hle
  set shape := cfg.grid.shape with hshape
  -- the unrefined estimates
  have hest0 : (flat.filterMap fun i => rows[i]?) =
      flat.map fun i => gridPoint cfg.grid (unravelIdx shape i) := by
    rw [← List.filterMap_eq_map]
    apply List.filterMap_congr
    intro i hi
    have hlt := hf2.lt i hi
    have := h3 (unravelIdx shape i) i (by
      rw [ravelMultiIndex_eq (unravel_valid hlt), ravel_unravel hlt])
    simpa using this
  -- the initial subgrids
  have hsub : ∀ c ∈ flat.map (unravelIdx shape), ∃ g', cfg.grid.createRefinedGridAt c args.density 1 = .ok g' := by
    intro c hc
    obtain ⟨i, hi, rfl⟩ := List.mem_map.1 hc
    obtain ⟨g', hg', _⟩ := hg.refine (unravel_valid (hf2.lt i hi)) hd
    exact ⟨g', hg'⟩
  obtain ⟨gs, s1, s2, s3⟩ := mapM_ok_spec _ _ hsub
  -- invariants of the t-th peak
  let box : ℕ → List (ℝ × ℝ) := fun t =>
    List.zipWith (fun (ax : Axis) c => cellBox ax.data c) cfg.grid.axes
      (unravelIdx shape ((flat[t]?).getD 0))
  let unif : (List ℝ → β) → Prop := fun f => (∀ rows, args.fsp (cfg.compute rows) = rows.map f) ∧
    ∀ ax ∈ cfg.grid.axes, UniformAxis ax.data
  let P : ℕ → SearchGrid → Prop := fun t g => ∀ f, SubgridInv (box t) (unif f) f
    (f (gridPoint cfg.grid (unravelIdx shape ((flat[t]?).getD 0)))) g
  let Q : ℕ → List ℝ → Prop := fun t loc => ∀ f, InBox (box t) loc ∧
    (unif f → f (gridPoint cfg.grid (unravelIdx shape ((flat[t]?).getD 0))) ≤ f loc)
  -- facts about the t-th peak
  have hpk : ∀ (t i : ℕ), flat[t]? = some i → ValidCoord shape (unravelIdx shape i) := fun t i hi =>
    unravel_valid (hf2.lt i (List.mem_of_getElem? hi))
  have hboxlen : ∀ (t i : ℕ), flat[t]? = some i → (box t).length = cfg.grid.axes.length ∧
      ∀ (j : ℕ) (ax : Axis) (c : ℕ), cfg.grid.axes[j]? = some ax → (unravelIdx shape i)[j]? = some c →
        (box t)[j]? = some (cellBox ax.data c) := by
    intro t i hi
    have hcl := (validCoord_get (hpk t i hi)).1
    simp only [box, hi, Option.getD_some]
    refine ⟨by simp [hcl], fun j ax c hj hc => ?_⟩
    simp [List.getElem?_zipWith, hj, hc]
  have hP0 : ∀ (t : ℕ) (g : SearchGrid), gs[t]? = some g → P t g := by
    intro t g ht f
    have htl : t < flat.length := by
      have := (List.getElem?_eq_some_iff.1 ht).1
      rw [s2, List.length_map] at this; exact this
    have hi := List.getElem?_eq_getElem htl
    obtain ⟨g', e1, e2⟩ := s3 t (unravelIdx shape flat[t]) (by simp [hi])
    rw [ht, Option.some.injEq] at e2
    subst e2
    obtain ⟨g'', q1, q2, q3, q4⟩ := hg.refine (hpk t _ hi) hd
    rw [e1, Except.ok.injEq] at q1
    subst q1
    obtain ⟨b1, b2⟩ := hboxlen t _ hi
    obtain ⟨c1, c2⟩ := validCoord_get (hpk t _ hi)
    obtain ⟨p1, p2⟩ := gridPoint_get c1
    simp only [hi, Option.getD_some]
    have hax : ∀ (j : ℕ) (ax' : Axis), g.axes[j]? = some ax' → ∃ (ax : Axis) (i : ℕ),
        cfg.grid.axes[j]? = some ax ∧ (unravelIdx shape flat[t])[j]? = some i ∧ i < ax.data.length ∧
        IsRefinement ax.data i args.density.toNat 1 ax'.data := by
      intro j ax' hj
      have hj' : j < cfg.grid.axes.length := by
        rw [← q3]; exact (List.getElem?_eq_some_iff.1 hj).1
      have e1 := List.getElem?_eq_getElem hj'
      have e2 := List.getElem?_eq_getElem (show j < (unravelIdx shape flat[t]).length by rw [c1]; exact hj')
      obtain ⟨w1, ax'', w2, w3⟩ := q4 j _ _ e1 e2
      rw [hj, Option.some.injEq] at w2
      subst w2
      exact ⟨_, _, e1, e2, w1, w3⟩
    refine ⟨q2, by rw [q3, b1], ?_, ?_, ?_⟩
    · intro ax' hax'
      obtain ⟨j, hj, rfl⟩ := List.mem_iff_getElem.1 hax'
      obtain ⟨ax, s, _, _, w1, w2⟩ := hax j _ (List.getElem?_eq_getElem hj)
      exact List.length_pos_iff.2 (w2.cell w1).2.1
    · intro j b ax' hb hj v hv
      obtain ⟨ax, s, w0, w0', w1, w2⟩ := hax j _ hj
      rw [b2 j ax s w0 w0', Option.some.injEq] at hb
      subst hb
      exact (w2.cell w1).1 v hv
    · rintro ⟨hf, hun⟩
      constructor
      · intro ax' hax'
        obtain ⟨j, hj, rfl⟩ := List.mem_iff_getElem.1 hax'
        obtain ⟨ax, s, _, _, w1, w2⟩ := hax j _ (List.getElem?_eq_getElem hj)
        exact (w2.cell w1).2.2.1
      · have hex : ∀ j : ℕ, ∃ s : ℕ, ∀ ax', g.axes[j]? = some ax' →
            s < ax'.data.length ∧
            (gridPoint cfg.grid (unravelIdx shape flat[t]))[j]? = some (ax'.data.getD s 0) := by
          intro j
          cases hj : g.axes[j]? with
          | none => exact ⟨0, by simp⟩
          | some ax' =>
            obtain ⟨ax, s, w0, w0', w1, w2⟩ := hax j _ hj
            have hmem := C36_contains_point w2 (hun ax (List.mem_of_getElem? w0))
              (List.getElem?_eq_getElem w1)
            obtain ⟨s', hs', hse⟩ := List.mem_iff_getElem.1 hmem
            refine ⟨s', fun ax'' he => ?_⟩
            rw [Option.some.injEq] at he
            subst he
            refine ⟨hs', ?_⟩
            rw [p2 j s ax w0 w0']
            simp [List.getElem?_eq_getElem w1, List.getElem?_eq_getElem hs', hse]
        choose s hs using hex
        set c' := (List.range g.axes.length).map s with hc'
        have hc'l : c'.length = g.axes.length := by simp [hc']
        have hc'j : ∀ j < g.axes.length, c'[j]? = some (s j) := by
          intro j hj; simp [hc', hj]
        refine ⟨c', ?_, ?_⟩
        · refine List.forall₂_iff_get.2 ⟨by simp [SearchGrid.shape, hc'l], fun j w1 w2 => ?_⟩
          have hj : j < g.axes.length := by simpa [SearchGrid.shape] using w1
          have := (hs j _ (List.getElem?_eq_getElem hj)).1
          have e := hc'j j hj
          rw [List.getElem?_eq_getElem w2, Option.some.injEq] at e
          simp only [List.get_eq_getElem, SearchGrid.shape, List.getElem_map, e]
          exact this
        · have e : gridPoint g c' = gridPoint cfg.grid (unravelIdx shape flat[t]) := by
            obtain ⟨w1, w2⟩ := gridPoint_get hc'l
            apply List.ext_getElem?
            intro j
            rcases Nat.lt_or_ge j g.axes.length with hj | hj
            · rw [w2 j _ _ (List.getElem?_eq_getElem hj) (hc'j j hj),
                (hs j _ (List.getElem?_eq_getElem hj)).2]
            · rw [List.getElem?_eq_none (by rw [w1]; exact hj),
                List.getElem?_eq_none (by rw [p1, ← q3]; exact hj)]
          rw [e]
  have hstep : ∀ last t g, P t g → ∃ loc g',
      refineOne (fun rows => args.fsp (cfg.compute rows)) args.density last g = .ok (loc, g') ∧
        P t g' ∧ Q t loc := by
    intro last t g hPt
    -- the step does not depend on `f`
    have hone := fun f => (hPt f).step (fun rows => args.fsp (cfg.compute rows)) hsp (fun h => h.1) hd last
    obtain ⟨m0⟩ : Nonempty (List ℝ → β) := by
      obtain ⟨c, hc⟩ := List.exists_mem_of_length_pos (show 0 < flat.length by rw [hf2.length]; omega)
      have := hf2.lt c hc
      exact ⟨fun _ => (args.fsp (cfg.compute rows))[c]'(by rw [hlen]; exact this)⟩
    obtain ⟨loc, g', e1, _⟩ := hone m0
    refine ⟨loc, g', e1, fun f => ?_, fun f => ?_⟩
    · obtain ⟨loc', g'', e2, e3, _⟩ := hone f
      rw [e1, Except.ok.injEq, Prod.mk.injEq] at e2
      rw [e2.2]; exact e3
    · obtain ⟨loc', g'', e2, _, e3, e4⟩ := hone f
      rw [e1, Except.ok.injEq, Prod.mk.injEq] at e2
      rw [e2.1]; exact ⟨e3, e4⟩
  obtain ⟨est, l1, l2, l3⟩ := loopP_spec _ args.density P Q hstep args.iters gs
    (flat.map fun i => gridPoint cfg.grid (unravelIdx shape i)) hP0 (by rw [s2]; simp)
  have hQ := l3 (Or.inl hit)
  refine ⟨flat, est, hf2, ?_, by rw [l2, List.length_map, hf2.length], ?_⟩
  · rw [hobs]
    simp only [EstCfg.pureEst, h1, ← hshape, hlen, ne_eq, not_true_eq_false, if_false, hf1, hr, hig, if_true]
    rw [select_flat rows.length flat (fun i hi => h2 ▸ hf2.lt i hi)]
    simp only [hest0, refineP, s1, l1]
  · intro t i p ht hp
    have hq := hQ t p hp
    obtain ⟨b1, b2⟩ := hboxlen t i ht
    refine ⟨?_, ?_, ?_⟩
    · obtain ⟨m0⟩ : Nonempty (List ℝ → β) := by
        have := hf2.lt i (List.mem_of_getElem? ht)
        exact ⟨fun _ => (args.fsp (cfg.compute rows))[i]'(by rw [hlen]; exact this)⟩
      rw [(hq m0).1.1, b1]; rfl
    · intro j c ax v hj hc hv'
      obtain ⟨m0⟩ : Nonempty (List ℝ → β) := by
        have := hf2.lt i (List.mem_of_getElem? ht)
        exact ⟨fun _ => (args.fsp (cfg.compute rows))[i]'(by rw [hlen]; exact this)⟩
      exact (hq m0).1.2 j _ v (b2 j ax c hj hc) hv'
    · intro f hf hun
      have := (hq f).2 ⟨hf, hun⟩
      simpa [ht] using this

/-- **C40** (no iterations). With `refinement_iters = 0` the result is the unrefined one. -/
theorem C40_no_iterations [LinearOrder β] (cfg : EstCfg β Atom) (hg : ValidGrid cfg.grid)
    (hsort : IsArgsort cfg.argsort) (ops : List (EstOp β Atom)) (args : EstArgs β Atom)
    (hk : 1 ≤ args.k) (hd : 1 ≤ args.density) (hit : args.iters = 0)
    (hv : ∀ sp, ∀ c ∈ cfg.peakFinder cfg.grid.shape sp, ValidCoord cfg.grid.shape c)
    (hnd : ∀ sp, (cfg.peakFinder cfg.grid.shape sp).Nodup) :
    cfg.observe (cfg.run ops).1 { args with refine := true } =
      cfg.observe (cfg.run ops).1 { args with refine := false } := by
  rw [((cfg.inv_run ops).estimate _).2.2.1, ((cfg.inv_run ops).estimate _).2.2.1]
  obtain ⟨rows, h1, h2, h3⟩ := hg.rows
  simp only [EstCfg.pureEst, h1, if_true, Bool.false_eq_true, if_false]
  split
  · rfl
  · rename_i hl
    push Not at hl
    obtain ⟨t1, t2⟩ := topPeaks_spec cfg.peakFinder cfg.argsort hsort cfg.grid.shape _ args.k hk hl
      (hv _) (hnd _)
    rcases Nat.lt_or_ge (cfg.peakFinder cfg.grid.shape (args.fsp (cfg.compute rows))).length args.k with h | h
    · rw [t1 h]
    · obtain ⟨flat, hf1, hf2⟩ := t2 h
      rw [hf1]
      simp only
      rw [select_flat rows.length flat (fun i hi => h2 ▸ hf2.lt i hi)]
      have hsub : ∀ c ∈ flat.map (unravelIdx cfg.grid.shape), ∃ g',
          cfg.grid.createRefinedGridAt c args.density 1 = .ok g' := by
        intro c hc
        obtain ⟨i, hi, rfl⟩ := List.mem_map.1 hc
        obtain ⟨g', hg', _⟩ := hg.refine (unravel_valid (hf2.lt i hi)) hd
        exact ⟨g', hg'⟩
      obtain ⟨gs, s1, s2, s3⟩ := mapM_ok_spec _ _ hsub
      simp only [refineP, s1, hit, loopP]

/-! ### Non-vacuity -/

/-- A (stable) argsort. -/
noncomputable def stableArgsort {γ : Type} [LinearOrder γ] [Zero γ] (l : List γ) : List ℕ :=
  (List.range l.length).mergeSort fun i j => decide (l.getD i 0 ≤ l.getD j 0)

theorem stableArgsort_isArgsort {γ : Type} [LinearOrder γ] [Zero γ] :
    IsArgsort (stableArgsort (γ := γ)) := by
  intro l
  refine ⟨List.mergeSort_perm _ _, ?_⟩
  intro a b i j v w hab hi hj hv hw
  have hp : (stableArgsort l).Pairwise (fun i j => decide (l.getD i 0 ≤ l.getD j 0) = true) :=
    List.pairwise_mergeSort (fun a b c h1 h2 => by simp only [decide_eq_true_eq] at *; exact h1.trans h2)
      (fun a b => by simp only [Bool.or_eq_true, decide_eq_true_eq]; exact le_total _ _) _
  have hv' : l.getD i 0 = v := by simp [List.getD_eq_getElem?_getD, hv]
  have hw' : l.getD j 0 = w := by simp [List.getD_eq_getElem?_getD, hw]
  rcases Nat.lt_or_ge a b with h | h
  · obtain ⟨ha, rfl⟩ := List.getElem?_eq_some_iff.1 hi
    obtain ⟨hb, rfl⟩ := List.getElem?_eq_some_iff.1 hj
    have := List.pairwise_iff_getElem.1 hp a b ha hb h
    rw [decide_eq_true_eq, hv', hw'] at this
    exact this
  · have : a = b := by omega
    subst this
    rw [hi, Option.some.injEq] at hj
    subst hj
    rw [hv, Option.some.injEq] at hw
    exact hw.le

/-- Non-vacuity of C37 and C40: a five point grid, the spectrum `-(x - 2)²`, the default peak finder,
one source, refinement with density 10 and three iterations. -/
example : ∃ (cfg : EstCfg ℝ (List (List ℝ))) (args : EstArgs ℝ (List (List ℝ))),
    ValidGrid cfg.grid ∧ IsArgsort cfg.argsort ∧ cfg.intGrid = false ∧ cfg.peakFinder = findPeaksSimple ∧ 1 ≤ args.k ∧
    args.refine = true ∧ 1 ≤ args.density ∧ 1 ≤ args.iters ∧
    (∀ rows, (args.fsp (cfg.compute rows)).length = rows.length) ∧
    (∀ ax ∈ cfg.grid.axes, UniformAxis ax.data) ∧
    ∃ rows, cfg.grid.placementRows = .ok rows ∧
      args.k ≤ (cfg.peakFinder cfg.grid.shape (args.fsp (cfg.compute rows))).length := by
  classical
  have hu : Unit1D "deg" := Or.inr (Or.inl rfl)
  have hx : ∀ v ∈ ([0, 1, 2, 3, 4] : List ℝ), InRange1D "deg" v := by
    intro v hv
    right; left
    refine ⟨rfl, ?_⟩
    simp only [List.mem_cons, List.not_mem_nil, or_false] at hv
    rcases hv with rfl | rfl | rfl | rfl | rfl <;> norm_num
  refine ⟨⟨⟨.ff1, [⟨[0, 1, 2, 3, 4], false⟩], ["DOA"], ["deg"]⟩, id, findPeaksSimple, stableArgsort, true, false⟩,
    ⟨fun rows => rows.map fun r => -(r.headD 0 - 2) ^ 2, 1, true, 10, 3⟩,
    Or.inl ⟨_, _, _, rfl, hu, hx⟩, stableArgsort_isArgsort, rfl, rfl, le_refl _, rfl, by norm_num,
    by norm_num, by simp, ?_, _, by simp only [SearchGrid.placementRows, createPlacement_ff1 hu hx]; rfl, ?_⟩
  · intro ax hax
    simp only [List.mem_singleton] at hax
    subst hax
    refine ⟨0, 1, ?_⟩
    intro i v h
    have hi := (List.getElem?_eq_some_iff.1 h).1
    simp only [List.length_cons, List.length_nil] at hi
    interval_cases i <;> simp at h <;> rw [← h] <;> norm_num
  · have : [2] ∈ findPeaksSimple [5] ([-4, -1, 0, -1, -4] : List ℝ) := by
      simp only [findPeaksSimple, List.length_cons, List.length_nil, if_true, findPeaks1]
      refine List.mem_map.2 ⟨2, List.mem_filter.2 ⟨by simp, ?_⟩, rfl⟩
      rw [decide_eq_true_eq]
      refine ⟨2, 2, ⟨by norm_num, le_refl _, by simp, 0, ?_, ?_, ?_⟩, rfl⟩
      · intro i _ h1 h2
        have : i = 2 := by omega
        subst this; rfl
      · intro w hw; simp at hw; rw [← hw]; norm_num
      · intro w hw; simp at hw; rw [← hw]; norm_num
    have e : (Sources.ff1 (⟨([0, 1, 2, 3, 4] : List ℝ).get, "deg"⟩ : FF1D 5)).rows =
        [[0], [1], [2], [3], [4]] := by
      simp [Sources.rows, List.ofFn_succ]
    have e2 : ([[0], [1], [2], [3], [4]] : List (List ℝ)).map (fun r => -(r.headD 0 - 2) ^ 2) =
        [-4, -1, 0, -1, -4] := by
      simp; norm_num
    show 1 ≤ (findPeaksSimple [5] (((Sources.ff1 (⟨([0, 1, 2, 3, 4] : List ℝ).get, "deg"⟩ : FF1D 5)).rows).map
      (fun r => -(r.headD 0 - 2) ^ 2))).length
    rw [e, e2]
    exact List.length_pos_of_mem this

end Doa.Props
