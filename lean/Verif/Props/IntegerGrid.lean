import Mathlib.Data.Sign.Basic
import Verif.Props.Estimator

/-!
# C97: refinement on search grids whose axes are integer arrays

`axes=(np.arange(-90, 91),)` is a legal way of giving a search grid (grid.py:252, 336). The refined
locations are written into the integer array of the estimates, which drops their fractional part.
-/

namespace Doa.Props

open Doa Doa.Spec

variable {β Atom : Type}

/-- Rounding towards zero. -/
noncomputable def towardsZero (x : ℝ) : ℝ := ((SignType.sign x : ℤ) : ℝ) * ((⌊|x|⌋ : ℤ) : ℝ)

theorem towardsZero_eq (x : ℝ) : (if 0 ≤ x then ((⌊x⌋ : ℤ) : ℝ) else ((⌈x⌉ : ℤ) : ℝ)) = towardsZero x := by
  unfold towardsZero
  split_ifs with h
  · rcases h.lt_or_eq with h | h
    · simp [sign_pos h, abs_of_pos h]
    · subst h; simp
  · push Not at h
    rw [sign_neg h, abs_of_neg h, Int.floor_neg]
    simp

theorem towardsZero_int (z : ℤ) : towardsZero (z : ℝ) = z := by
  rw [← towardsZero_eq]
  split_ifs <;> simp

theorem storeRow_true (row : List ℝ) : storeRow true row = row.map towardsZero := by
  unfold storeRow
  simp only [if_true, towardsZero_eq]

theorem storeRow_false (row : List ℝ) : storeRow false row = row := rfl

theorem passP_int [LinearOrder β] (sp : List (List ℝ) → List β) (d : ℤ) (last : Bool) (gs : List SearchGrid) :
    ∀ (i : ℕ) (rows : List (List ℝ)), passP true sp d last i gs (rows.map fun r => r.map towardsZero) =
      ((passP false sp d last i gs rows).1, (passP false sp d last i gs rows).2.map fun r => r.map towardsZero) := by
  induction gs with
  | nil => intro i rows; rfl
  | cons g gs ih =>
    intro i rows
    simp only [passP]
    cases refineOne sp d last g with
    | error e => rfl
    | ok q =>
      obtain ⟨loc, g'⟩ := q
      simp only [storeRow_true, storeRow_false]
      rw [← List.map_set (f := fun r : List ℝ => r.map towardsZero), ih]
      generalize passP false sp d last (i + 1) gs (rows.set i loc) = q
      obtain ⟨q1, q2⟩ := q
      cases q1 <;> rfl

theorem loopP_int [LinearOrder β] (sp : List (List ℝ) → List β) (d : ℤ) (n : ℕ) :
    ∀ (gs : List SearchGrid) (rows : List (List ℝ)), loopP true sp d n gs (rows.map fun r => r.map towardsZero) =
      ((loopP false sp d n gs rows).1, (loopP false sp d n gs rows).2.map fun r => r.map towardsZero) := by
  induction n with
  | zero => intro gs rows; rfl
  | succ n ih =>
    intro gs rows
    simp only [loopP, passP_int]
    generalize passP false sp d (decide (n = 0)) 0 gs rows = q
    obtain ⟨q1, q2⟩ := q
    cases q1 with
    | error e => rfl
    | ok gs' => simp only [ih]

/-- All axes of the grid hold integers. -/
def IntegerAxes (g : SearchGrid) : Prop := ∀ ax ∈ g.axes, ∀ v ∈ ax.data, ∃ z : ℤ, v = z

theorem placementRows_integer {g : SearchGrid} (hg : ValidGrid g) (hi : IntegerAxes g) {rows : List (List ℝ)}
    (h : g.placementRows = .ok rows) : ∀ r ∈ rows, r.map towardsZero = r := by
  have key : ∀ l : List ℝ, (∀ v ∈ l, ∃ z : ℤ, v = z) → l.map towardsZero = l := by
    intro l hl
    conv_rhs => rw [← List.map_id l]
    refine List.map_congr_left fun v hv => ?_
    obtain ⟨z, rfl⟩ := hl v hv
    exact towardsZero_int z
  obtain ⟨rows', h1, h2, h3⟩ := hg.rows
  rw [h, Except.ok.injEq] at h1
  subst h1
  intro r hr
  obtain ⟨n, hn, rfl⟩ := List.mem_iff_getElem.1 hr
  have hn' : n < g.shape.prod := h2 ▸ hn
  have h4 := h3 (unravelIdx g.shape n) n (by rw [ravelMultiIndex_eq (unravel_valid hn'), ravel_unravel hn'])
  rw [List.getElem?_eq_getElem hn, Option.some.injEq] at h4
  rw [h4]
  refine key _ fun v hv => ?_
  unfold gridPoint at hv
  obtain ⟨m, hm, rfl⟩ := List.mem_iff_getElem.1 hv
  rw [List.getElem_zipWith]
  rw [List.getD_eq_getElem?_getD]
  cases hx : (g.axes[m]'(by simp at hm; exact hm.1)).data[(unravelIdx g.shape n)[m]'(by simp at hm; exact hm.2)]? with
  | none => exact ⟨0, by simp⟩
  | some w => exact hi _ (List.getElem_mem _) w (List.mem_of_getElem? hx)

/-- **C97**. When the axes of the grid are integer arrays, a call returns, after any
history, the estimates it would return on the same grid given as floats, but rounded towards zero:
with `refine_estimates=True` every returned location is an integer again. -/
theorem C97_integer_axes [LinearOrder β] (cfg : EstCfg β Atom) (hg : ValidGrid cfg.grid)
    (hi : IntegerAxes cfg.grid) (ops ops' : List (EstOp β Atom)) (args : EstArgs β Atom) :
    ({ cfg with intGrid := true } : EstCfg β Atom).observe (({ cfg with intGrid := true } : EstCfg β Atom).run ops).1 args =
      (({ cfg with intGrid := false } : EstCfg β Atom).observe (({ cfg with intGrid := false } : EstCfg β Atom).run ops').1 args).map
        fun q => (q.1, q.2.1.map (Option.map fun e => (e.1.map (fun r => r.map towardsZero), e.2)), q.2.2) := by
  rw [((EstCfg.inv_run _ ops).estimate args).2.2.1, ((EstCfg.inv_run _ ops').estimate args).2.2.1]
  obtain ⟨rows, h1, h2, _⟩ := hg.rows
  have hr := placementRows_integer hg hi h1
  simp only [EstCfg.pureEst, h1]
  by_cases hl : (args.fsp (cfg.compute rows)).length ≠ cfg.grid.shape.prod
  · simp only [if_pos hl]
    rfl
  · simp only [if_neg hl]
    cases topPeaks cfg.peakFinder cfg.argsort cfg.grid.shape (args.fsp (cfg.compute rows)) args.k with
    | error e => rfl
    | ok fl =>
      cases fl with
      | none => rfl
      | some flat =>
        simp only
        cases (SKey.ints (flat.map fun i : ℕ => (i : ℤ))).select rows.length with
        | error e => rfl
        | ok idx =>
          simp only
          have he : (idx.filterMap fun i => rows[i]?).map (fun r => r.map towardsZero) = idx.filterMap fun i => rows[i]? := by
            conv_rhs => rw [← List.map_id (idx.filterMap fun i => rows[i]?)]
            refine List.map_congr_left fun r h => ?_
            obtain ⟨i, _, h⟩ := List.mem_filterMap.1 h
            exact hr r (List.mem_of_getElem? h)
          by_cases hre : args.refine = true
          · simp only [hre, if_true, refineP]
            cases (flat.map (unravelIdx cfg.grid.shape)).mapM fun c => cfg.grid.createRefinedGridAt c args.density 1 with
            | error e => rfl
            | ok gs =>
              simp only
              conv_lhs => rw [← he]
              rw [loopP_int]
              generalize loopP false (fun rows => args.fsp (cfg.compute rows)) args.density args.iters gs (idx.filterMap fun i => rows[i]?) = q
              obtain ⟨q1, q2⟩ := q
              cases q1 <;> rfl
          · simp only [hre, Bool.false_eq_true, if_false, Except.map, Option.map_some, he]

theorem flat_peak_example : findPeaksSimple [5] ([-64, -9, -4, -49, -144] : List ℝ) = [[2]] := by
  classical
  simp only [findPeaksSimple, List.length_cons, List.length_nil, if_true, findPeaks1]
  have key : ∀ m, (∃ l r, IsFlatPeak ([-64, -9, -4, -49, -144] : List ℝ) l r ∧ m = (l + r) / 2) ↔ m = 2 := by
    intro m
    constructor
    · rintro ⟨l, r, ⟨h1, h2, h3, v, h4, h5, h6⟩, rfl⟩
      simp only [List.length_cons, List.length_nil] at h3 h4
      have hl := h4 l (by omega) le_rfl h2
      have hr := h4 r (by omega) h2 le_rfl
      have h3' : r ≤ 3 := by omega
      have : 1 ≤ r := by omega
      have : l ≤ 3 := by omega
      interval_cases r <;> interval_cases l <;> norm_num at * <;> linarith
    · rintro rfl
      refine ⟨2, 2, ⟨by norm_num, le_rfl, by simp, -4, ?_, ?_, ?_⟩, rfl⟩
      · intro i _ h1 h2
        obtain rfl : i = 2 := by omega
        rfl
      · intro w hw; norm_num at hw; linarith
      · intro w hw; norm_num at hw; linarith
  simp only [key]
  decide +kernel

/-- **C97, the violation**. The grid `0, 1, 2, 3, 4` degrees given as an integer array, the
default peak finder and the spectrum `-(5x - 8)²`: the unrefined estimate is 2, the refined location
1.5 is stored as 1, where the spectrum is lower than at the unrefined estimate. -/
theorem C97_integer_axes_violated :
    ∃ (cfg : EstCfg ℝ (List (List ℝ))) (args : EstArgs ℝ (List (List ℝ))), cfg.intGrid = true ∧
      IntegerAxes cfg.grid ∧ ValidGrid cfg.grid ∧ args.k = 1 ∧ args.density = 2 ∧ args.iters = 1 ∧
      (∀ rows, args.fsp (cfg.compute rows) = rows.map fun r => -(5 * r.headD 0 - 8) ^ 2) ∧
      cfg.peakFinder = findPeaksSimple ∧ IsArgsort cfg.argsort ∧ ∀ ops,
        (∃ sp, cfg.observe (cfg.run ops).1 { args with refine := false } = .ok (true, some (some ([[2]], "deg")), sp)) ∧
        (∃ sp, cfg.observe (cfg.run ops).1 { args with refine := true } = .ok (true, some (some ([[1]], "deg")), sp)) ∧
        -(5 * (1 : ℝ) - 8) ^ 2 < -(5 * (2 : ℝ) - 8) ^ 2 := by
  classical
  have hu : Unit1D "deg" := Or.inr (Or.inl rfl)
  have hx : ∀ v ∈ ([0, 1, 2, 3, 4] : List ℝ), InRange1D "deg" v := by
    intro v hv
    right; left
    refine ⟨rfl, ?_⟩
    simp only [List.mem_cons, List.not_mem_nil, or_false] at hv
    rcases hv with rfl | rfl | rfl | rfl | rfl <;> norm_num
  refine ⟨⟨⟨.ff1, [⟨[0, 1, 2, 3, 4], false⟩], ["DOA"], ["deg"]⟩, id, findPeaksSimple, stableArgsort, true, true⟩,
    ⟨fun rows => rows.map fun r => -(5 * r.headD 0 - 8) ^ 2, 1, true, 2, 1⟩, rfl, ?_, Or.inl ⟨_, _, _, rfl, hu, hx⟩, rfl, rfl, rfl,
    fun _ => rfl, rfl, stableArgsort_isArgsort, fun ops => ?_⟩
  · intro ax hax v hv
    simp only [List.mem_singleton] at hax
    subst hax
    simp only [List.mem_cons, List.not_mem_nil, or_false] at hv
    rcases hv with rfl | rfl | rfl | rfl | rfl
    · exact ⟨0, by simp⟩
    · exact ⟨1, by simp⟩
    · exact ⟨2, by simp⟩
    · exact ⟨3, by simp⟩
    · exact ⟨4, by simp⟩
  have hrows : (⟨.ff1, [⟨[0, 1, 2, 3, 4], false⟩], ["DOA"], ["deg"]⟩ : SearchGrid).placementRows = .ok [[0], [1], [2], [3], [4]] := by
    simp only [SearchGrid.placementRows, createPlacement_ff1 hu hx]
    rfl
  have hsp : (([[0], [1], [2], [3], [4]] : List (List ℝ)).map fun r => -(5 * r.headD 0 - 8) ^ 2) = [-64, -9, -4, -49, -144] := by
    norm_num
  have htop : topPeaks findPeaksSimple stableArgsort [5] ([-64, -9, -4, -49, -144] : List ℝ) 1 = .ok (some [2]) := by
    unfold topPeaks
    rw [flat_peak_example]
    simp [spectrumAt, ravelMultiIndex, ravelIdx, stableArgsort, lastK, pure, Except.pure, bind, Except.bind, List.range_succ]
  refine ⟨⟨[-64, -9, -4, -49, -144], ?_⟩, ⟨[-64, -9, -4, -49, -144], ?_⟩, by norm_num⟩
  · rw [((EstCfg.inv_run _ ops).estimate _).2.2.1]
    simp only [EstCfg.pureEst, hrows, id, hsp, SearchGrid.shape, List.map_cons, List.map_nil, List.length_cons, List.length_nil, htop]
    simp [htop, SKey.select, pyIndex, pure, Except.pure, bind, Except.bind]
  · rw [((EstCfg.inv_run _ ops).estimate _).2.2.1]
    simp only [EstCfg.pureEst, hrows, id, hsp, SearchGrid.shape, List.map_cons, List.map_nil, List.length_cons, List.length_nil]
    have hgrid : (⟨.ff1, [⟨[0, 1, 2, 3, 4], false⟩], ["DOA"], ["deg"]⟩ : SearchGrid).createRefinedGridAt [2] 2 1 =
        .ok ⟨.ff1, [⟨[1, 1.5, 2, 2.5, 3], false⟩], ["DOA"], ["deg"]⟩ := by
      simp [SearchGrid.createRefinedGridAt, SearchGrid.createRefinedAxesAt, SearchGrid.ndim, refineAxes, refineAxis, linspace,
        List.range_succ]
      norm_num
    have hx' : ∀ v ∈ ([1, 1.5, 2, 2.5, 3] : List ℝ), InRange1D "deg" v := by
      intro v hv
      right; left
      refine ⟨rfl, ?_⟩
      simp only [List.mem_cons, List.not_mem_nil, or_false] at hv
      rcases hv with rfl | rfl | rfl | rfl | rfl <;> norm_num
    have hone : refineOne (fun rows => rows.map fun r => -(5 * r.headD 0 - 8) ^ 2) 2 true
        ⟨.ff1, [⟨[1, 1.5, 2, 2.5, 3], false⟩], ["DOA"], ["deg"]⟩ =
        .ok ([1.5], ⟨.ff1, [⟨[1, 1.5, 2, 2.5, 3], false⟩], ["DOA"], ["deg"]⟩) := by
      have hr : (⟨.ff1, [⟨[1, 1.5, 2, 2.5, 3], false⟩], ["DOA"], ["deg"]⟩ : SearchGrid).placementRows =
          .ok [[1], [1.5], [2], [2.5], [3]] := by
        simp only [SearchGrid.placementRows, createPlacement_ff1 hu hx']
        rfl
      have ha : argmaxIdx (([[1], [1.5], [2], [2.5], [3]] : List (List ℝ)).map fun r => -(5 * r.headD 0 - 8) ^ 2) = some 1 := by
        norm_num [argmaxIdx, List.max?, List.idxOf, List.findIdx, List.findIdx.go]
        rw [show ((-9 : ℝ) == -(1 / 4)) = false by rw [beq_eq_false_iff_ne]; norm_num]
        rfl
      simp only [refineOne, hr, ha]
      rfl
    simp only [htop, SKey.select, pyIndex, refineP, unravelIdx]
    simp only [List.headD_eq_head?_getD] at hone ⊢
    simp [pyIndex, pure, Except.pure, bind, Except.bind, hgrid, loopP, passP, hone, storeRow]
    norm_num

end Doa.Props
