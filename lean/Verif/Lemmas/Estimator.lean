import Verif.Model.Estimator
import Verif.Lemmas.SearchGrid

/-!
# Lemmas about the estimator state machine: a stateless description of `_estimate`
-/

namespace Doa

variable {β Atom : Type}

/-! ### Replacing one buffer -/

/-- Replace the contents of a buffer. -/
def SHeap.setBuf {α : Type} (h : SHeap α) (b : ℕ) (x : List α) : SHeap α :=
  { h with bufs := h.bufs.set b x }

theorem modify_eq_set {α : Type _} (l : List α) (b : ℕ) (f : α → α) (x : α) (hx : l[b]? = some x) :
    l.modify b f = l.set b (f x) := by
  apply List.ext_getElem?
  intro i
  rw [List.getElem?_modify, List.getElem?_set]
  by_cases hi : b = i
  · subst hi
    obtain ⟨hb, rfl⟩ := List.getElem?_eq_some_iff.1 hx
    simp [hb]
  · simp [hi]

theorem SHeap.write_eq {α : Type} {h : SHeap α} {r b : ℕ} {u : String} {x : List α}
    (ho : h.objs[r]? = some ⟨b, u⟩) (hb : h.bufs[b]? = some x) (i : ℕ) (v : α) :
    h.write r i v = h.setBuf b (x.set i v) := by
  simp only [SHeap.write, ho, SHeap.setBuf]
  rw [modify_eq_set _ _ _ _ hb]

theorem SHeap.setBuf_setBuf {α : Type} (h : SHeap α) (b : ℕ) (x y : List α) :
    (h.setBuf b x).setBuf b y = h.setBuf b y := by
  simp [SHeap.setBuf]

theorem SHeap.setBuf_self {α : Type} {h : SHeap α} {b : ℕ} {x : List α} (hb : h.bufs[b]? = some x) :
    h.setBuf b x = h := by
  obtain ⟨hb, rfl⟩ := List.getElem?_eq_some_iff.1 hb
  cases h
  simp [SHeap.setBuf]

theorem SHeap.setBuf_get {α : Type} {h : SHeap α} {b : ℕ} {x : List α} (hb : h.bufs[b]? = some x)
    (y : List α) : (h.setBuf b y).bufs[b]? = some y := by
  obtain ⟨hb, _⟩ := List.getElem?_eq_some_iff.1 hb
  simp [SHeap.setBuf, hb]

/-! ### Refinement without a heap -/

/-- `refinePass` on a list of rows. -/
noncomputable def passP [LinearOrder β] (ig : Bool) (sp : List (List ℝ) → List β) (density : ℤ) (last : Bool) :
    ℕ → List SearchGrid → List (List ℝ) → Res (List SearchGrid) × List (List ℝ)
  | _, [], rows => (.ok [], rows)
  | i, g :: gs, rows =>
    match refineOne sp density last g with
    | .error e => (.error e, rows)
    | .ok (loc, g') =>
      match passP ig sp density last (i + 1) gs (rows.set i (storeRow ig loc)) with
      | (.error e, rows') => (.error e, rows')
      | (.ok gs', rows') => (.ok (g' :: gs'), rows')

theorem refinePass_eq [LinearOrder β] (ig : Bool) (sp : List (List ℝ) → List β) (density : ℤ) (last : Bool)
    (est b : ℕ) (u : String) : ∀ (gs : List SearchGrid) (i : ℕ) (h : SHeap (List ℝ))
    (rows : List (List ℝ)), h.objs[est]? = some ⟨b, u⟩ → h.bufs[b]? = some rows →
    refinePass ig sp density last est i gs h =
      ((passP ig sp density last i gs rows).1, h.setBuf b (passP ig sp density last i gs rows).2) := by
  intro gs
  induction gs with
  | nil =>
    intro i h rows ho hb
    simp [refinePass, passP, SHeap.setBuf_self hb]
  | cons g gs ih =>
    intro i h rows ho hb
    simp only [refinePass, passP]
    cases hr : refineOne sp density last g with
    | error e => simp [SHeap.setBuf_self hb]
    | ok q =>
      obtain ⟨loc, g'⟩ := q
      simp only
      rw [SHeap.write_eq ho hb, ih (i + 1) (h.setBuf b (rows.set i (storeRow ig loc))) (rows.set i (storeRow ig loc)) ho
        (SHeap.setBuf_get hb _), SHeap.setBuf_setBuf]
      generalize passP ig sp density last (i + 1) gs (rows.set i (storeRow ig loc)) = q
      obtain ⟨q1, q2⟩ := q
      cases q1 <;> rfl

/-- `refineLoop` on a list of rows. -/
noncomputable def loopP [LinearOrder β] (ig : Bool) (sp : List (List ℝ) → List β) (density : ℤ) :
    ℕ → List SearchGrid → List (List ℝ) → Res Unit × List (List ℝ)
  | 0, _, rows => (.ok (), rows)
  | n + 1, gs, rows =>
    match passP ig sp density (decide (n = 0)) 0 gs rows with
    | (.error e, rows') => (.error e, rows')
    | (.ok gs', rows') => loopP ig sp density n gs' rows'

theorem refineLoop_eq [LinearOrder β] (ig : Bool) (sp : List (List ℝ) → List β) (density : ℤ)
    (est b : ℕ) (u : String) : ∀ (n : ℕ) (gs : List SearchGrid) (h : SHeap (List ℝ))
    (rows : List (List ℝ)), h.objs[est]? = some ⟨b, u⟩ → h.bufs[b]? = some rows →
    refineLoop ig sp density est n gs h =
      ((loopP ig sp density n gs rows).1, h.setBuf b (loopP ig sp density n gs rows).2) := by
  intro n
  induction n with
  | zero =>
    intro gs h rows ho hb
    simp [refineLoop, loopP, SHeap.setBuf_self hb]
  | succ n ih =>
    intro gs h rows ho hb
    simp only [refineLoop, loopP]
    rw [refinePass_eq ig sp density _ est b u gs 0 h rows ho hb]
    generalize passP ig sp density (decide (n = 0)) 0 gs rows = q
    obtain ⟨q1, q2⟩ := q
    cases q1 with
    | error e => rfl
    | ok gs' =>
      simp only
      rw [ih gs' (h.setBuf b q2) q2 ho (SHeap.setBuf_get hb _), SHeap.setBuf_setBuf]

/-- `refineEstimates` on a list of rows. -/
noncomputable def refineP [LinearOrder β] (ig : Bool) (sp : List (List ℝ) → List β) (grid : SearchGrid)
    (coords : List (List ℕ)) (density : ℤ) (iters : ℕ) (rows : List (List ℝ)) :
    Res Unit × List (List ℝ) :=
  match coords.mapM fun c => grid.createRefinedGridAt c density 1 with
  | .error e => (.error e, rows)
  | .ok gs => loopP ig sp density iters gs rows

theorem refineEstimates_eq [LinearOrder β] (ig : Bool) (sp : List (List ℝ) → List β) (grid : SearchGrid)
    (coords : List (List ℕ)) (density : ℤ) (iters est b : ℕ) (u : String) (h : SHeap (List ℝ))
    (rows : List (List ℝ)) (ho : h.objs[est]? = some ⟨b, u⟩) (hb : h.bufs[b]? = some rows) :
    refineEstimates ig sp grid coords density iters est h =
      ((refineP ig sp grid coords density iters rows).1,
        h.setBuf b (refineP ig sp grid coords density iters rows).2) := by
  unfold refineEstimates refineP
  cases coords.mapM fun c => grid.createRefinedGridAt c density 1 with
  | error e => simp [SHeap.setBuf_self hb]
  | ok gs => exact refineLoop_eq ig sp density est b u iters gs h rows ho hb

/-- The observable result of a call as a function of the grid and the arguments only. -/
noncomputable def EstCfg.pureEst [LinearOrder β] (cfg : EstCfg β Atom) (args : EstArgs β Atom) :
    Res (Bool × Option (Option (List (List ℝ) × String)) × List β) :=
  match cfg.grid.placementRows with
  | .error e => .error e
  | .ok rows =>
    let sp := args.fsp (cfg.compute rows)
    let shape := cfg.grid.shape
    if sp.length ≠ shape.prod then .error .valueError
    else
      match topPeaks cfg.peakFinder cfg.argsort shape sp args.k with
      | .error e => .error e
      | .ok none => .ok (false, none, sp)
      | .ok (some flat) =>
        match (SKey.ints (flat.map fun i : ℕ => (i : ℤ))).select rows.length with
        | .error e => .error e
        | .ok idx =>
          let est := idx.filterMap fun i => rows[i]?
          let unit := (cfg.grid.units[0]?).getD ""
          if args.refine then
            match refineP cfg.intGrid (fun rows => args.fsp (cfg.compute rows)) cfg.grid
                (flat.map (unravelIdx shape)) args.density args.iters est with
            | (.error e, _) => .error e
            | (.ok _, rows') => .ok (true, some (some (rows', unit)), sp)
          else .ok (true, some (some (est, unit)), sp)

/-! ### The invariant -/

/-- Buffer contents of the first axis. -/
def EstCfg.axisRows (cfg : EstCfg β Atom) : List (List ℝ) :=
  ((cfg.grid.axes.head?.map Axis.data).getD []).map fun x => [x]

/-- Invariant of the reachable states; `rets` are the placements handed out so far. -/
structure EstInv (cfg : EstCfg β Atom) (st : EstState Atom) (rets : List ℕ) : Prop where
  buf0 : st.heap.bufs[0]? = some cfg.axisRows
  src : ∀ r, st.gridSrc = some r → ∃ rows b, cfg.grid.placementRows = .ok rows ∧
    st.heap.objs[r]? = some ⟨b, (cfg.grid.units[0]?).getD ""⟩ ∧ st.heap.bufs[b]? = some rows
  atom : ∀ A, st.atom = some A → ∃ rows, cfg.grid.placementRows = .ok rows ∧ A = cfg.compute rows
  valid : ∀ (r : ℕ) (o : SrcObj), st.heap.objs[r]? = some o → o.buf < st.heap.bufs.length
  inj : ∀ (r r' : ℕ) (o o' : SrcObj), st.heap.objs[r]? = some o → st.heap.objs[r']? = some o' → o.buf = o'.buf → r = r'
  zero : ∀ (r : ℕ) (o : SrcObj), st.heap.objs[r]? = some o → o.buf = 0 → st.gridSrc = some r
  rets : ∀ r ∈ rets, r < st.heap.objs.length ∧ st.gridSrc ≠ some r

theorem FF1D.init_loc {k : ℕ} {x : Fin k → ℝ} {u : String} {s : FF1D k}
    (h : FF1D.init (.vec x) u = .ok s) : s.loc = x := by
  simp only [FF1D.init] at h
  split at h
  · cases h
  · split at h
    · cases h
    · cases h; rfl

theorem ofFn_rows (x : List ℝ) : (List.ofFn fun i : Fin x.length => [x.get i]) = x.map fun v => [v] := by
  apply List.ext_getElem
  · simp
  · intro i h1 h2; simp

theorem placementRows_ff1 {g : SearchGrid} (hk : g.kind = .ff1) {rows : List (List ℝ)}
    (h : g.placementRows = .ok rows) :
    rows = ((g.axes.head?.map Axis.data).getD []).map fun x => [x] := by
  unfold SearchGrid.placementRows at h
  cases hp : g.createPlacement with
  | error e => rw [hp] at h; cases h
  | ok q =>
    rw [hp] at h
    obtain ⟨k, s⟩ := q
    simp only [Except.ok.injEq] at h
    subst h
    simp only [SearchGrid.createPlacement, hk] at hp
    cases hax : g.axes with
    | nil => simp [hax] at hp
    | cons a t =>
      cases hu : g.units[0]? with
      | none => simp [hax, hu] at hp
      | some u =>
        simp only [hax, hu, List.getElem?_cons_zero] at hp
        cases hi : FF1D.init (k := a.data.length) (if a.column then .nd else .vec a.data.get) u with
        | error e => simp [hi] at hp
        | ok s' =>
          simp only [hi, Except.ok.injEq] at hp
          have hs : s'.loc = a.data.get := by
            by_cases hc : a.column
            · simp [hc, FF1D.init] at hi
            · simp only [hc, Bool.false_eq_true, if_false] at hi
              exact FF1D.init_loc hi
          cases hp
          simp only [Sources.rows, hs, List.head?_cons, Option.map_some, Option.getD_some]
          exact ofFn_rows _

theorem headD_rows (x : List ℝ) :
    (x.map fun v => [v]).map (fun r => r.headD 0) = x := by
  rw [List.map_map]
  conv_rhs => rw [← List.map_id x]
  rfl

theorem EstInv.curGrid {cfg : EstCfg β Atom} {st : EstState Atom} {rets : List ℕ}
    (h : EstInv cfg st rets) : cfg.curGrid st = cfg.grid := by
  unfold EstCfg.curGrid
  cases hk : cfg.grid.kind with
  | ff1 =>
    cases hax : cfg.grid.axes with
    | nil => rfl
    | cons a t =>
      cases t with
      | nil =>
        simp only [h.buf0, Option.getD_some, EstCfg.axisRows, hax, List.head?_cons, Option.map_some]
        rw [headD_rows]
        cases hg : cfg.grid
        simp only [hg] at hax hk
        rw [hax, hk]
      | cons b t => rfl
  | ff2 => rfl
  | nf2 => rfl

theorem EstCfg.inv_init (cfg : EstCfg β Atom) : EstInv cfg cfg.init [] where
  buf0 := rfl
  src := by simp [EstCfg.init]
  atom := by simp [EstCfg.init]
  valid := by simp [EstCfg.init]
  inj := by simp [EstCfg.init]
  zero := by simp [EstCfg.init]
  rets := by simp

/-- Everything allocated before is unchanged. -/
structure SHeap.Ext {α : Type} (h h' : SHeap α) : Prop where
  objs : ∀ (r : ℕ) (o : SrcObj), h.objs[r]? = some o → h'.objs[r]? = some o
  bufs : ∀ (b : ℕ) (x : List α), h.bufs[b]? = some x → h'.bufs[b]? = some x

theorem SHeap.Ext.refl {α : Type} (h : SHeap α) : h.Ext h := ⟨fun _ _ h => h, fun _ _ h => h⟩

theorem SHeap.Ext.trans {α : Type} {h1 h2 h3 : SHeap α} (a : h1.Ext h2) (b : h2.Ext h3) : h1.Ext h3 :=
  ⟨fun r o h => b.objs r o (a.objs r o h), fun r x h => b.bufs r x (a.bufs r x h)⟩

theorem SHeap.Ext.view {α : Type} {h h' : SHeap α} (e : h.Ext h') {r : ℕ} {v : List α × String}
    (hv : h.view r = some v) : h'.view r = some v := by
  unfold SHeap.view at hv ⊢
  simp only [Option.bind_eq_some_iff, Option.map_eq_some_iff] at hv ⊢
  obtain ⟨o, ho, x, hx, rfl⟩ := hv
  exact ⟨o, e.objs _ _ ho, x, e.bufs _ _ hx, rfl⟩

theorem getElem?_append_one {α : Type _} (l : List α) (a : α) (i : ℕ) (b : α)
    (h : (l ++ [a])[i]? = some b) : l[i]? = some b ∨ (i = l.length ∧ b = a) := by
  rcases Nat.lt_or_ge i l.length with hi | hi
  · left; rwa [List.getElem?_append_left hi] at h
  · right
    rw [List.getElem?_append_right hi] at h
    have : i - l.length = 0 := by
      by_contra hc
      have := (List.getElem?_eq_some_iff.1 h).1
      simp at this; omega
    rw [this] at h
    simp at h
    exact ⟨by omega, h.symm⟩

theorem getElem?_append_some {α : Type _} (l l' : List α) (i : ℕ) (b : α) (h : l[i]? = some b) :
    (l ++ l')[i]? = some b := by
  rw [List.getElem?_append_left (List.getElem?_eq_some_iff.1 h).1, h]

theorem SHeap.ext_create {α : Type} (h : SHeap α) (b : List α) (u : String) : h.Ext (h.create b u) :=
  ⟨fun _ _ ho => getElem?_append_some _ _ _ _ ho, fun _ _ hb => getElem?_append_some _ _ _ _ hb⟩

/-- Creating a placement with a new buffer keeps the invariant. -/
theorem EstInv.create {cfg : EstCfg β Atom} {st : EstState Atom} {rets : List ℕ}
    (h : EstInv cfg st rets) (b : List (List ℝ)) (u : String) :
    EstInv cfg { st with heap := st.heap.create b u } rets := by
  have e := st.heap.ext_create b u
  refine ⟨e.bufs _ _ h.buf0, ?_, h.atom, ?_, ?_, ?_, ?_⟩
  · intro r hr
    obtain ⟨rows, b', h1, h2, h3⟩ := h.src r hr
    exact ⟨rows, b', h1, e.objs _ _ h2, e.bufs _ _ h3⟩
  · intro r o ho
    simp only [SHeap.create, List.length_append, List.length_cons, List.length_nil] at ho ⊢
    rcases getElem?_append_one _ _ _ _ ho with ho | ⟨_, rfl⟩
    · have := h.valid r o ho; omega
    · simp
  · intro r r' o o' ho ho' heq
    simp only [SHeap.create] at ho ho'
    rcases getElem?_append_one _ _ _ _ ho with ho | ⟨hr, rfl⟩ <;>
      rcases getElem?_append_one _ _ _ _ ho' with ho' | ⟨hr', rfl⟩
    · exact h.inj _ _ _ _ ho ho' heq
    · have := h.valid r o ho; simp only at heq; omega
    · have := h.valid r' o' ho'; simp only at heq; omega
    · omega
  · intro r o ho hz
    simp only [SHeap.create] at ho
    rcases getElem?_append_one _ _ _ _ ho with ho | ⟨hr, rfl⟩
    · exact h.zero _ _ ho hz
    · have := (List.getElem?_eq_some_iff.1 h.buf0).1
      simp only at hz; omega
  · intro r hr
    obtain ⟨h1, h2⟩ := h.rets r hr
    exact ⟨by simp only [SHeap.create, List.length_append]; omega, h2⟩

/-- Replacing the contents of the buffer of a placement that is not the grid's keeps the invariant. -/
theorem EstInv.setBuf {cfg : EstCfg β Atom} {st : EstState Atom} {rets : List ℕ}
    (h : EstInv cfg st rets) {r : ℕ} {o : SrcObj} (ho : st.heap.objs[r]? = some o)
    (hr : st.gridSrc ≠ some r) (x : List (List ℝ)) :
    EstInv cfg { st with heap := st.heap.setBuf o.buf x } rets := by
  have h0 : o.buf ≠ 0 := fun hc => hr (h.zero _ _ ho hc)
  refine ⟨?_, ?_, h.atom, ?_, h.inj, h.zero, h.rets⟩
  · simp only [SHeap.setBuf]
    rw [List.getElem?_set_ne h0, h.buf0]
  · intro r' hr'
    obtain ⟨rows, b, h1, h2, h3⟩ := h.src r' hr'
    refine ⟨rows, b, h1, h2, ?_⟩
    simp only [SHeap.setBuf]
    rw [List.getElem?_set_ne, h3]
    intro hc
    exact hr (by rw [hr', h.inj _ _ _ _ ho h2 hc])
  · intro r' o' ho'
    simpa [SHeap.setBuf] using h.valid r' o' ho'

theorem EstInv.gridPlacement_error {cfg : EstCfg β Atom} {st : EstState Atom} {rets : List ℕ}
    (h : EstInv cfg st rets) {e : PyErr} (he : cfg.grid.placementRows = .error e) :
    cfg.gridPlacement st = (.error e, st) := by
  unfold EstCfg.gridPlacement
  cases hs : st.gridSrc with
  | some r =>
    obtain ⟨rows, b, h1, _⟩ := h.src r hs
    rw [he] at h1; cases h1
  | none => simp only [h.curGrid, he]

theorem EstInv.gridPlacement_ok {cfg : EstCfg β Atom} {st : EstState Atom} {rets : List ℕ}
    (h : EstInv cfg st rets) {rows : List (List ℝ)} (he : cfg.grid.placementRows = .ok rows) :
    ∃ (r : ℕ) (st' : EstState Atom), cfg.gridPlacement st = (.ok r, st') ∧ st'.gridSrc = some r ∧
      st'.heap.view r = some (rows, (cfg.grid.units[0]?).getD "") ∧
      st.heap.Ext st'.heap ∧ st'.atom = st.atom ∧ EstInv cfg st' rets := by
  unfold EstCfg.gridPlacement
  cases hs : st.gridSrc with
  | some r =>
    obtain ⟨rows', b, h1, h2, h3⟩ := h.src r hs
    rw [he] at h1
    cases h1
    exact ⟨r, st, rfl, hs, by simp [SHeap.view, h2, h3], SHeap.Ext.refl _, rfl, h⟩
  | none =>
    simp only [h.curGrid, he]
    cases hk : cfg.grid.kind with
    | ff1 =>
      have hrows := placementRows_ff1 hk he
      refine ⟨_, _, rfl, rfl, ?_, ⟨fun _ _ ho => getElem?_append_some _ _ _ _ ho, fun _ _ h => h⟩,
        rfl, ?_⟩
      · simp [SHeap.view, h.buf0, EstCfg.axisRows, hrows]
      · refine ⟨h.buf0, ?_, h.atom, ?_, ?_, ?_, ?_⟩
        · intro r hr
          simp only [Option.some.injEq] at hr
          subst hr
          exact ⟨rows, 0, he, by simp, by rw [hrows]; exact h.buf0⟩
        · intro r o ho
          rcases getElem?_append_one _ _ _ _ ho with ho | ⟨_, rfl⟩
          · exact h.valid r o ho
          · exact (List.getElem?_eq_some_iff.1 h.buf0).1
        · intro r r' o o' ho ho' heq
          rcases getElem?_append_one _ _ _ _ ho with ho | ⟨hr, rfl⟩ <;>
            rcases getElem?_append_one _ _ _ _ ho' with ho' | ⟨hr', rfl⟩
          · exact h.inj _ _ _ _ ho ho' heq
          · have := h.zero _ _ ho heq; rw [hs] at this; cases this
          · have := h.zero _ _ ho' heq.symm; rw [hs] at this; cases this
          · omega
        · intro r o ho hz
          rcases getElem?_append_one _ _ _ _ ho with ho | ⟨hr, rfl⟩
          · have := h.zero _ _ ho hz; rw [hs] at this; cases this
          · simp [hr]
        · intro r hr
          obtain ⟨h1, h2⟩ := h.rets r hr
          refine ⟨by simp only [List.length_append]; omega, ?_⟩
          simp only [ne_eq, Option.some.injEq]; omega
    | ff2 => exact gridPlacement_aux h hs he
    | nf2 => exact gridPlacement_aux h hs he
where
  gridPlacement_aux {cfg : EstCfg β Atom} {st : EstState Atom} {rets : List ℕ}
    (h : EstInv cfg st rets) (hs : st.gridSrc = none) {rows : List (List ℝ)}
    (he : cfg.grid.placementRows = .ok rows) :
    ∃ (r : ℕ) (st' : EstState Atom), ((.ok st.heap.objs.length : Res ℕ),
      ({ st with heap := st.heap.create rows ((cfg.grid.units[0]?).getD "")
                 gridSrc := some st.heap.objs.length } : EstState Atom)) = (.ok r, st') ∧
      st'.gridSrc = some r ∧
      st'.heap.view r = some (rows, (cfg.grid.units[0]?).getD "") ∧
      st.heap.Ext st'.heap ∧ st'.atom = st.atom ∧ EstInv cfg st' rets := by
    refine ⟨_, _, rfl, rfl, ?_, st.heap.ext_create _ _, rfl, ?_⟩
    · simp [SHeap.view, SHeap.create]
    · have h' := h.create rows ((cfg.grid.units[0]?).getD "")
      refine ⟨h'.buf0, ?_, h'.atom, h'.valid, h'.inj, ?_, ?_⟩
      · intro r hr
        simp only [Option.some.injEq] at hr
        subst hr
        exact ⟨rows, st.heap.bufs.length, he, by simp [SHeap.create], by simp [SHeap.create]⟩
      · intro r o ho hz
        have := h'.zero _ _ ho hz
        simp only [hs] at this
        cases this
      · intro r hr
        obtain ⟨h1, h2⟩ := h'.rets r hr
        refine ⟨h1, ?_⟩
        have h3 := (h.rets r hr).1
        simp only [ne_eq, Option.some.injEq]; omega

theorem EstInv.atomMatrix_error {cfg : EstCfg β Atom} {st : EstState Atom} {rets : List ℕ}
    (h : EstInv cfg st rets) {e : PyErr} (he : cfg.grid.placementRows = .error e) :
    cfg.atomMatrix st = (.error e, st) := by
  unfold EstCfg.atomMatrix
  cases hs : st.atom with
  | some r =>
    obtain ⟨rows, h1, _⟩ := h.atom r hs
    rw [he] at h1; cases h1
  | none => simp only [h.gridPlacement_error he]

theorem EstInv.atomMatrix_ok {cfg : EstCfg β Atom} {st : EstState Atom} {rets : List ℕ}
    (h : EstInv cfg st rets) {rows : List (List ℝ)} (he : cfg.grid.placementRows = .ok rows) :
    ∃ (st' : EstState Atom), cfg.atomMatrix st = (.ok (cfg.compute rows), st') ∧
      st.heap.Ext st'.heap ∧ EstInv cfg st' rets := by
  unfold EstCfg.atomMatrix
  cases hs : st.atom with
  | some A =>
    obtain ⟨rows', h1, rfl⟩ := h.atom A hs
    rw [he] at h1
    cases h1
    exact ⟨st, rfl, SHeap.Ext.refl _, h⟩
  | none =>
    obtain ⟨r, st', h1, h2, h3, h4, h5, h6⟩ := h.gridPlacement_ok he
    simp only [h1, h3]
    refine ⟨_, rfl, ?_, ?_⟩
    · split <;> exact h4
    · split
      · refine ⟨h6.buf0, h6.src, ?_, h6.valid, h6.inj, h6.zero, h6.rets⟩
        intro A hA
        simp only [Option.some.injEq] at hA
        exact ⟨rows, he, hA.symm⟩
      · exact h6

/-- The main lemma: in a reachable state a call has the stateless result, keeps the invariant, changes
nothing that existed before, and hands out a new placement. -/
theorem EstInv.estimate [LinearOrder β] {cfg : EstCfg β Atom} {st : EstState Atom} {rets : List ℕ}
    (h : EstInv cfg st rets) (args : EstArgs β Atom) :
    st.heap.Ext (cfg.estimate st args).2.heap ∧ EstInv cfg (cfg.estimate st args).2 rets ∧
    cfg.observe st args = cfg.pureEst args ∧
    (∀ o r, (cfg.estimate st args).1 = .ok o → o.est = some r →
      st.heap.objs.length ≤ r ∧ r < (cfg.estimate st args).2.heap.objs.length ∧
      (cfg.estimate st args).2.gridSrc ≠ some r) := by
  unfold EstCfg.observe EstCfg.pureEst EstCfg.estimate
  cases he : cfg.grid.placementRows with
  | error e =>
    simp only [h.atomMatrix_error he]
    exact ⟨SHeap.Ext.refl _, h, trivial, fun _ _ hc => by cases hc⟩
  | ok rows =>
    obtain ⟨st1, h1, h2, h3⟩ := h.atomMatrix_ok he
    simp only [h1]
    by_cases hl : (args.fsp (cfg.compute rows)).length ≠ cfg.grid.shape.prod
    · simp only [if_pos hl]
      exact ⟨h2, h3, trivial, fun _ _ hc => by cases hc⟩
    · simp only [if_neg hl]
      cases ht : topPeaks cfg.peakFinder cfg.argsort cfg.grid.shape (args.fsp (cfg.compute rows)) args.k with
      | error e => exact ⟨h2, h3, rfl, fun _ _ hc => by cases hc⟩
      | ok fl =>
        cases fl with
        | none =>
          refine ⟨h2, h3, rfl, fun o r hc hr => ?_⟩
          cases hc
          cases hr
        | some flat =>
          obtain ⟨r, st2, g1, g2, g3, g4, g5, g6⟩ := h3.gridPlacement_ok he
          simp only [g1]
          simp only [SHeap.getitem, g3]
          cases hsel : (SKey.ints (flat.map fun i : ℕ => (i : ℤ))).select rows.length with
          | error e => exact ⟨h2.trans g4, g6, rfl, fun _ _ hc => by cases hc⟩
          | ok idx =>
            simp only
            have hI := g6.create (idx.filterMap fun i => rows[i]?) ((cfg.grid.units[0]?).getD "")
            have hE := g4.trans (st2.heap.ext_create (idx.filterMap fun i => rows[i]?)
              ((cfg.grid.units[0]?).getD ""))
            have hE' := h2.trans hE
            have hlen1 : st.heap.objs.length ≤ st2.heap.objs.length := by
              by_contra hc
              have hlt : st2.heap.objs.length < st.heap.objs.length := by omega
              have := (h2.trans g4).objs _ _ (List.getElem?_eq_getElem hlt)
              have := (List.getElem?_eq_some_iff.1 this).1
              omega
            have hgs : st2.gridSrc ≠ some st2.heap.objs.length := by
              rw [g2]
              obtain ⟨rows', b, _, q2, _⟩ := g6.src r g2
              have := (List.getElem?_eq_some_iff.1 q2).1
              simp only [ne_eq, Option.some.injEq]; omega
            by_cases hr : args.refine
            · simp only [hr, if_true, g6.curGrid]
              have ho : (st2.heap.create (idx.filterMap fun i => rows[i]?)
                  ((cfg.grid.units[0]?).getD "")).objs[st2.heap.objs.length]? =
                  some ⟨st2.heap.bufs.length, (cfg.grid.units[0]?).getD ""⟩ := by simp [SHeap.create]
              have hb : (st2.heap.create (idx.filterMap fun i => rows[i]?)
                  ((cfg.grid.units[0]?).getD "")).bufs[st2.heap.bufs.length]? =
                  some (idx.filterMap fun i => rows[i]?) := by simp [SHeap.create]
              rw [refineEstimates_eq _ _ _ _ _ _ _ _ _ _ _ ho hb]
              generalize refineP cfg.intGrid (fun rows => args.fsp (cfg.compute rows)) cfg.grid
                (flat.map (unravelIdx cfg.grid.shape)) args.density args.iters
                (idx.filterMap fun i => rows[i]?) = q
              obtain ⟨q1, q2⟩ := q
              have hI' := hI.setBuf (r := st2.heap.objs.length) ho hgs q2
              have hE2 : st.heap.Ext ((st2.heap.create (idx.filterMap fun i => rows[i]?)
                  ((cfg.grid.units[0]?).getD "")).setBuf st2.heap.bufs.length q2) := by
                refine ⟨hE'.objs, fun b x hbx => ?_⟩
                have h' := (h2.trans g4).bufs _ _ hbx
                have hlt := (List.getElem?_eq_some_iff.1 h').1
                simp only [SHeap.setBuf]
                rw [List.getElem?_set_ne (by omega)]
                exact hE'.bufs _ _ hbx
              cases q1 with
              | error e => exact ⟨hE2, hI', rfl, fun _ _ hc => by cases hc⟩
              | ok _ =>
                refine ⟨hE2, hI', ?_, ?_⟩
                · simp [EstOut.observe, SHeap.view, SHeap.setBuf, SHeap.create]
                · intro o r' hc hr'
                  cases hc
                  cases hr'
                  exact ⟨hlen1, by simp [SHeap.setBuf, SHeap.create], hgs⟩
            · simp only [hr, Bool.false_eq_true, if_false]
              refine ⟨hE', hI, ?_, ?_⟩
              · simp [EstOut.observe, SHeap.view, SHeap.create]
              · intro o r' hc hr'
                cases hc
                cases hr'
                exact ⟨hlen1, by simp [SHeap.create], hgs⟩

theorem EstInv.step [LinearOrder β] {cfg : EstCfg β Atom} {s : EstState Atom × List ℕ}
    (h : EstInv cfg s.1 s.2) (op : EstOp β Atom) :
    EstInv cfg (cfg.step s op).1 (cfg.step s op).2 := by
  cases op with
  | estimate args =>
    obtain ⟨h1, h2, h3, h4⟩ := h.estimate args
    simp only [EstCfg.step]
    generalize hq : cfg.estimate s.1 args = q at h1 h2 h4
    obtain ⟨q1, q2⟩ := q
    cases q1 with
    | error e => exact h2
    | ok o =>
      obtain ⟨o1, o2, o3⟩ := o
      cases o2 with
      | none => exact h2
      | some r =>
        refine ⟨h2.buf0, h2.src, h2.atom, h2.valid, h2.inj, h2.zero, ?_⟩
        intro r' hr'
        rcases List.mem_append.1 hr' with hr' | hr'
        · exact h2.rets r' hr'
        · simp only [List.mem_singleton] at hr'
          subst hr'
          exact (h4 _ _ rfl rfl).2
  | userWrite n i v =>
    simp only [EstCfg.step]
    cases hn : s.2[n]? with
    | none => exact h
    | some r =>
      have hr := h.rets r (List.mem_of_getElem? hn)
      have ho := List.getElem?_eq_getElem hr.1
      set o := s.1.heap.objs[r] with hodef
      have hb := List.getElem?_eq_getElem (h.valid _ _ ho)
      show EstInv cfg { s.1 with heap := s.1.heap.write r i v } s.2
      rw [show s.1.heap.write r i v = s.1.heap.setBuf o.buf _ from SHeap.write_eq ho hb i v]
      exact h.setBuf ho hr.2 _

theorem EstCfg.inv_run [LinearOrder β] (cfg : EstCfg β Atom) (ops : List (EstOp β Atom)) :
    EstInv cfg (cfg.run ops).1 (cfg.run ops).2 := by
  unfold EstCfg.run
  have key : ∀ (ops : List (EstOp β Atom)) (s : EstState Atom × List ℕ), EstInv cfg s.1 s.2 →
      EstInv cfg (ops.foldl cfg.step s).1 (ops.foldl cfg.step s).2 := by
    intro ops
    induction ops with
    | nil => intro s h; exact h
    | cons op ops ih => intro s h; exact ih _ (h.step op)
  exact key ops _ cfg.inv_init

end Doa
