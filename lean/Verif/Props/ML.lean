import Verif.Model.ML
import Verif.Props.SourceHeap
import Verif.Spec.Sources

/-!
# ML estimators, working state: C53
-/

namespace Doa.Props

open Doa Doa.Spec

/-! ### Specification -/

/-- `k` rows of `d` coordinates read off consecutively from `x` (float dtype). -/
def rowsOf (k d : ℕ) (x : List ℝ) : List LocRow := (List.range k).map fun i => ⟨false, (x.drop (i * d)).take d⟩

/-- Run the optimizer on a plain function, without any shared state. -/
def _root_.Doa.Optimizer.solve (F : List ℝ → Res (WithTop ℝ)) : Optimizer → Res (Bool × List ℝ)
  | .done s x => .ok (s, x)
  | .raise e => .error e
  | .query x next =>
    match F x with
    | .error e => .error e
    | .ok v => (next v).solve F

/-- The objective as a function of the optimization variable, for `k` sources with `d` coordinates. -/
def objective (nll : List LocRow → String → Res (WithTop ℝ)) (k d : ℕ) (unit : String) (x : List ℝ) :
    Res (WithTop ℝ) :=
  if x.length < k * d then .error .valueError else nll (rowsOf k d x) unit

/-! ### Heap lemmas -/

section heap
variable {α : Type}

theorem writeAll_view_self {h : SHeap α} {r : ℕ} {b b' : List α} {u : String} (hv : h.view r = some (b, u)) :
    (h.writeAll r b').view r = some (b', u) := by
  unfold SHeap.view at hv ⊢
  unfold SHeap.writeAll
  cases ho : h.objs[r]? with
  | none => rw [ho] at hv; cases hv
  | some o =>
    rw [ho] at hv
    simp only [Option.bind_some, ho] at hv ⊢
    cases hb : h.bufs[o.buf]? with
    | none => rw [hb] at hv; cases hv
    | some bb =>
      rw [hb] at hv
      simp only [Option.map_some, Option.some.injEq, Prod.mk.injEq] at hv
      simp [List.getElem?_modify, hb, hv.2]

theorem writeAll_view_other {h : SHeap α} (hs : SeparateBuffers h) {r q : ℕ} {b : List α} (hq : q ≠ r) :
    (h.writeAll r b).view q = h.view q := by
  unfold SHeap.view SHeap.writeAll
  cases ho : h.objs[r]? with
  | none => rfl
  | some o =>
    simp only
    cases ho' : h.objs[q]? with
    | none => rfl
    | some o' =>
      simp only [Option.bind_some]
      have hne : o.buf ≠ o'.buf := by
        intro he
        obtain ⟨h1, h2⟩ := List.getElem?_eq_some_iff.1 ho
        obtain ⟨h1', h2'⟩ := List.getElem?_eq_some_iff.1 ho'
        have hn := hs.2
        have := (List.Nodup.getElem_inj_iff hn (i := r) (j := q) (hi := by simpa using h1)
          (hj := by simpa using h1')).1 (by simp [h2, h2', he])
        exact hq this.symm
      simp [List.getElem?_modify, hne]

theorem writeAll_objs (h : SHeap α) (r : ℕ) (b : List α) : (h.writeAll r b).objs = h.objs := by
  unfold SHeap.writeAll; split <;> rfl

theorem SeparateBuffers.writeAll {h : SHeap α} (hs : SeparateBuffers h) (r : ℕ) (b : List α) :
    SeparateBuffers (h.writeAll r b) := by
  unfold SHeap.writeAll
  split
  · exact hs
  · exact ⟨by simpa [List.length_modify] using hs.1, hs.2⟩

theorem SeparateBuffers.write {h : SHeap α} (hs : SeparateBuffers h) (r i : ℕ) (v : α) :
    SeparateBuffers (h.write r i v) := hs.step (.write r i v)

theorem getitem_all {h : SHeap α} {r : ℕ} {locs : List α} {u : String} (hv : h.view r = some (locs, u)) :
    h.getitem r (.slice none none none) = (.ok (.obj h.objs.length), h.create locs u) := by
  obtain ⟨idx, h1, h2⟩ := select_of_selects (Selects.all (xs := locs))
  rw [getitem_of_select h r locs u _ idx hv h1, h2]

theorem view_lt {h : SHeap α} {r : ℕ} {v} (hv : h.view r = some v) : r < h.objs.length := by
  unfold SHeap.view at hv
  cases ho : h.objs[r]? with
  | none => rw [ho] at hv; cases hv
  | some o => exact (List.getElem?_eq_some_iff.1 ho).1

theorem view_of_lt {h : SHeap α} (hs : SeparateBuffers h) {r : ℕ} (hr : r < h.objs.length) :
    ∃ b u, h.view r = some (b, u) := by
  unfold SHeap.view
  rw [List.getElem?_eq_getElem hr]
  have := hs.1 _ (List.getElem_mem hr)
  simp only [Option.bind_some]
  rw [List.getElem?_eq_getElem this]
  exact ⟨_, _, rfl⟩

end heap

/-! ### Reshaping -/

theorem reshapeLike_eq (d : ℕ) : ∀ (rows : List LocRow) (x : List ℝ), (∀ row ∈ rows, row.coords.length = d) →
    reshapeLike rows x = rowsOf rows.length d x := by
  intro rows
  induction rows with
  | nil => intro x _; rfl
  | cons row rows ih =>
    intro x h
    have h1 := h row List.mem_cons_self
    rw [reshapeLike, ih _ fun r hr => h r (List.mem_cons_of_mem _ hr), h1]
    simp only [rowsOf, List.length_cons, List.range_succ_eq_map, List.map_cons, List.map_map]
    congr 1
    · simp
    · apply List.map_congr_left
      intro i _
      simp only [Function.comp, List.drop_drop]
      congr 3
      rw [Nat.succ_mul, Nat.add_comm]

theorem totalSize_eq (d : ℕ) : ∀ rows : List LocRow, (∀ row ∈ rows, row.coords.length = d) →
    totalSize rows = rows.length * d := by
  intro rows
  induction rows with
  | nil => intro _; simp [totalSize]
  | cons row rows ih =>
    intro h
    have h2 := ih fun r hr => h r (List.mem_cons_of_mem _ hr)
    simp only [totalSize, List.map_cons, List.sum_cons, List.length_cons] at h2 ⊢
    rw [h2, h row List.mem_cons_self]
    ring

theorem rowsOf_shape {k d : ℕ} {x : List ℝ} (hx : k * d ≤ x.length) : ∀ row ∈ rowsOf k d x, row.coords.length = d := by
  intro row hr
  obtain ⟨i, hi, rfl⟩ := List.mem_map.1 hr
  rw [List.mem_range] at hi
  simp only [List.length_take, List.length_drop]
  have : (i + 1) * d ≤ k * d := Nat.mul_le_mul_right d hi
  rw [Nat.succ_mul] at this
  omega

theorem rowsOf_length (k d : ℕ) (x : List ℝ) : (rowsOf k d x).length = k := by simp [rowsOf]

theorem rowsOf_float (k d : ℕ) (x : List ℝ) : (rowsOf k d x).any LocRow.isInt = false := by
  rw [List.any_eq_false]
  intro row hr
  obtain ⟨i, -, rfl⟩ := List.mem_map.1 hr
  simp

/-- A float working copy of shape `(k, d)`. -/
def FloatShape (k d : ℕ) (rows : List LocRow) : Prop :=
  rows.length = k ∧ (∀ row ∈ rows, row.coords.length = d) ∧ rows.any LocRow.isInt = false

theorem update_float {h : SHeap LocRow} {r k d : ℕ} {rows : List LocRow} {u : String}
    (hv : h.view r = some (rows, u)) (hf : FloatShape k d rows) (x : List ℝ) :
    updateEstimates h r x =
      if x.length < k * d then .error .valueError else .ok (h.writeAll r (rowsOf k d x)) := by
  obtain ⟨h1, h2, h3⟩ := hf
  unfold updateEstimates
  rw [hv]
  simp only [totalSize_eq d rows h2, h1, h3, reshapeLike_eq d rows x h2]
  simp

/-- The heap changed only in the contents of `r`. -/
structure Frame (r : ℕ) (h h' : SHeap LocRow) : Prop where
  objs : h'.objs = h.objs
  sep : SeparateBuffers h'
  other : ∀ q, q ≠ r → h'.view q = h.view q

theorem Frame.refl {r : ℕ} {h : SHeap LocRow} (hs : SeparateBuffers h) : Frame r h h := ⟨rfl, hs, fun _ _ => rfl⟩

theorem Frame.trans {r : ℕ} {h h' h'' : SHeap LocRow} (a : Frame r h h') (b : Frame r h' h'') : Frame r h h'' :=
  ⟨b.objs.trans a.objs, b.sep, fun q hq => (b.other q hq).trans (a.other q hq)⟩

theorem Frame.writeAll {r : ℕ} {h : SHeap LocRow} (hs : SeparateBuffers h) (b : List LocRow) :
    Frame r h (h.writeAll r b) :=
  ⟨writeAll_objs h r b, hs.writeAll r b, fun _ hq => writeAll_view_other hs hq⟩

theorem updateEstimates_frame {h h' : SHeap LocRow} (hs : SeparateBuffers h) {r : ℕ} {x : List ℝ}
    (hu : updateEstimates h r x = .ok h') : Frame r h h' := by
  unfold updateEstimates at hu
  split at hu
  · cases hu
  · split at hu
    · cases hu
    · split at hu
      · cases hu
      · rw [← Except.ok.inj hu]; exact Frame.writeAll hs _

theorem runOptimizer_frame (nll : List LocRow → String → Res (WithTop ℝ)) (r : ℕ) : ∀ (o : Optimizer)
    (h : SHeap LocRow), SeparateBuffers h → Frame r h (runOptimizer nll r o h).2 := by
  intro o
  induction o with
  | done s x => intro h hs; exact Frame.refl hs
  | raise e => intro h hs; exact Frame.refl hs
  | query x next ih =>
    intro h hs
    unfold runOptimizer
    split
    · exact Frame.refl hs
    · rename_i h' hu
      have hf := updateEstimates_frame hs hu
      split
      · exact hf
      · split
        · exact hf
        · exact hf.trans (ih _ _ hf.sep)

theorem runOptimizer_solve (nll : List LocRow → String → Res (WithTop ℝ)) (r k d : ℕ) (u : String) :
    ∀ (o : Optimizer) (h : SHeap LocRow) (rows : List LocRow), h.view r = some (rows, u) → FloatShape k d rows →
    (runOptimizer nll r o h).1 = o.solve (objective nll k d u) ∧
    ∃ rows', (runOptimizer nll r o h).2.view r = some (rows', u) ∧ FloatShape k d rows' := by
  intro o
  induction o with
  | done s x => intro h rows hv hf; exact ⟨rfl, rows, hv, hf⟩
  | raise e => intro h rows hv hf; exact ⟨rfl, rows, hv, hf⟩
  | query x next ih =>
    intro h rows hv hf
    unfold runOptimizer Optimizer.solve objective
    rw [update_float hv hf x]
    by_cases hx : x.length < k * d
    · rw [if_pos hx, if_pos hx]
      exact ⟨rfl, rows, hv, hf⟩
    · rw [if_neg hx, if_neg hx]
      have hf' : FloatShape k d (rowsOf k d x) :=
        ⟨rowsOf_length k d x, rowsOf_shape (not_lt.1 hx), rowsOf_float k d x⟩
      have hv' := writeAll_view_self (b' := rowsOf k d x) hv
      simp only [hv']
      cases hn : nll (rowsOf k d x) u with
      | error e => exact ⟨rfl, _, hv', hf'⟩
      | ok v => exact ih v _ _ hv' hf'

theorem getLast_some {st : MLState} {q : ℕ} {b : List LocRow} {u : String} (he : st.est = some q)
    (hv : st.heap.view q = some (b, u)) :
    st.getLast = (.ok st.heap.objs.length, { st with heap := st.heap.create b u }) := by
  unfold MLState.getLast
  rw [he]
  simp only [getitem_all hv]

/-! ### C53, one call -/

/-- **C53 (one call)**. For a float `sources0` with `k` rows of `d` coordinates that passes the guards
(and whose unit is known, and with no failure of the precomputation), `estimate` returns what the
optimizer returns when run, without any shared state, on the plain objective function: its exception;
`(False, None)` if it reports failure; and `(True, placement)` with a new placement holding the
solution `x` cut into `k` rows of `d` coordinates, in the unit of `sources0`, if it reports success. -/
theorem C53_estimate {size : ℕ} {c : MLCall} {st : MLState} (hs : SeparateBuffers st.heap) {r0 : ℕ}
    {rows : List LocRow} {u : String} {k d : ℕ} (hv : st.heap.view r0 = some (rows, u)) (hf : FloatShape k d rows)
    (hk : k < size) {n : ℕ} (hR : c.shape = [size, n]) (hp : c.prepare = .ok ()) {ranges}
    (hr : validRanges c.kind u = .ok ranges) :
    let sol := (c.opt (rows.flatMap LocRow.coords) (pyRepeat ranges k)).solve (objective c.nll k d u)
    (∀ e, sol = .error e → (st.estimate size c r0).1 = .error e) ∧
    (∀ x, sol = .ok (false, x) → (st.estimate size c r0).1 = .ok (false, none)) ∧
    (∀ x, sol = .ok (true, x) → x.length < k * d → (st.estimate size c r0).1 = .error .valueError) ∧
    (∀ x, sol = .ok (true, x) → k * d ≤ x.length → ∃ p, (st.estimate size c r0).1 = .ok (true, some p) ∧
      st.heap.view p = none ∧ (st.estimate size c r0).2.heap.view p = some (rowsOf k d x, u)) := by
  intro sol
  obtain rfl : rows.length = k := hf.1
  have hg1 : ensureNResolvable rows.length ((size : ℤ) - 1) = .ok () := by
    unfold ensureNResolvable
    rw [if_neg]
    push Not; omega
  have hg2 : ensureCovarianceSize c.shape size = .ok () := by
    rw [hR]; simp [ensureCovarianceSize]
  have hcv := (create_view st.heap rows u).1
  have hcs : SeparateBuffers (st.heap.create rows u) := hs.create rows u
  obtain ⟨h1, rows', h2, h3⟩ := runOptimizer_solve c.nll st.heap.objs.length rows.length d u
    (c.opt (rows.flatMap LocRow.coords) (pyRepeat ranges rows.length)) _ rows hcv hf
  have hfr := runOptimizer_frame c.nll st.heap.objs.length
    (c.opt (rows.flatMap LocRow.coords) (pyRepeat ranges rows.length)) _ hcs
  have e : st.estimate size c r0 =
      match runOptimizer c.nll st.heap.objs.length
        (c.opt (rows.flatMap LocRow.coords) (pyRepeat ranges rows.length)) (st.heap.create rows u) with
      | (.error e, h1) => (.error e, ⟨h1, some st.heap.objs.length⟩)
      | (.ok (false, _), h1) => (.ok (false, none), ⟨h1, some st.heap.objs.length⟩)
      | (.ok (true, x), h1) =>
        match updateEstimates h1 st.heap.objs.length x with
        | .error e => (.error e, ⟨h1, some st.heap.objs.length⟩)
        | .ok h2 =>
          match (MLState.mk h2 (some st.heap.objs.length)).getLast with
          | (.error e, st') => (.error e, st')
          | (.ok p, st') => (.ok (true, some p), st') := by
    unfold MLState.estimate
    rw [hv]
    simp only [hg2, getitem_all hv, hp, hr]
    rw [hg1]
    rfl
  rw [e]
  generalize hrun : runOptimizer c.nll st.heap.objs.length
        (c.opt (rows.flatMap LocRow.coords) (pyRepeat ranges rows.length)) (st.heap.create rows u) = out at h1 h2 hfr ⊢
  obtain ⟨res, hh⟩ := out
  simp only at h1 h2 hfr
  have hsol : sol = res := h1.symm
  rw [hsol]
  clear hsol h1 e sol
  refine ⟨?_, ?_, ?_, ?_⟩
  · rintro e rfl; rfl
  · rintro x rfl; rfl
  · rintro x rfl hx
    simp only [update_float h2 h3 x, if_pos hx]
  · rintro x rfl hx
    have hv2 := writeAll_view_self (b' := rowsOf rows.length d x) h2
    have hl := getLast_some (st := ⟨hh.writeAll st.heap.objs.length (rowsOf rows.length d x), some st.heap.objs.length⟩)
      rfl hv2
    simp only [update_float h2 h3 x, if_neg (not_lt.2 hx), hl]
    refine ⟨_, rfl, ?_, (create_view _ _ _).1⟩
    rw [writeAll_objs, hfr.objs]
    simp [SHeap.view, SHeap.create]

/-- **C53 (guards)**. Too many sources or a covariance of the wrong size: `ValueError`, and neither the
estimator nor any placement changes. -/
theorem C53_guards {size : ℕ} {c : MLCall} {st : MLState} {r0 : ℕ} {rows : List LocRow} {u : String}
    (hv : st.heap.view r0 = some (rows, u)) (h : size ≤ rows.length ∨ c.shape.length ≠ 2 ∨ c.shape[0]? ≠ some size) :
    st.estimate size c r0 = (.error .valueError, st) := by
  unfold MLState.estimate
  simp only [hv]
  by_cases h1 : size ≤ rows.length
  · simp only [ensureNResolvable]
    rw [if_pos (by omega)]
  · simp only [ensureNResolvable]
    rw [if_neg (by omega)]
    simp only [ensureCovarianceSize]
    rcases h with h | h | h
    · exact absurd h h1
    · rw [if_pos h]
    · by_cases h2 : c.shape.length ≠ 2
      · rw [if_pos h2]
      · rw [if_neg h2, if_pos (Or.inl h)]

/-- **C53 (integer dtype)**. With an integer-typed initial guess (for example a placement built from a
list of integers) an optimizer that evaluates the objective at least once makes `estimate` raise
`TypeError`: the working copy inherits the dtype and cannot take floats. -/
theorem C53_int_guess {size : ℕ} {c : MLCall} {st : MLState} {r0 : ℕ}
    {rows : List LocRow} {u : String} (hv : st.heap.view r0 = some (rows, u)) (hi : rows.any LocRow.isInt = true)
    (hk : rows.length < size) {n : ℕ} (hR : c.shape = [size, n]) (hp : c.prepare = .ok ()) {ranges}
    (hr : validRanges c.kind u = .ok ranges) {x : List ℝ} {next}
    (ho : c.opt (rows.flatMap LocRow.coords) (pyRepeat ranges rows.length) = .query x next)
    (hx : totalSize rows ≤ x.length) : (st.estimate size c r0).1 = .error .typeError := by
  have hg1 : ensureNResolvable rows.length ((size : ℤ) - 1) = .ok () := by
    unfold ensureNResolvable
    rw [if_neg]
    push Not; omega
  have hg2 : ensureCovarianceSize c.shape size = .ok () := by
    rw [hR]; simp [ensureCovarianceSize]
  have hcv := (create_view st.heap rows u).1
  unfold MLState.estimate
  simp only [hv, hg1, hg2, getitem_all hv, hp, hr, ho, runOptimizer, updateEstimates, hcv,
    if_neg (not_lt.2 hx), hi, if_true]

/-! ### C53, bounds -/

/-- Whatever values the objective takes, a reported solution has one entry per bound and lies within
the bounds. -/
def Respects (bounds : List (EReal × EReal)) : Optimizer → Prop
  | .done s x => s = true → x.length = bounds.length ∧
      ∀ (t : ℕ) (v : ℝ) (b : EReal × EReal), x[t]? = some v → bounds[t]? = some b → b.1 ≤ (v : EReal) ∧ (v : EReal) ≤ b.2
  | .raise _ => True
  | .query _ next => ∀ v, Respects bounds (next v)

theorem respects_solve {bounds : List (EReal × EReal)} {F : List ℝ → Res (WithTop ℝ)} : ∀ {o : Optimizer} {x},
    Respects bounds o → o.solve F = .ok (true, x) → x.length = bounds.length ∧
      ∀ (t : ℕ) (v : ℝ) (b : EReal × EReal), x[t]? = some v → bounds[t]? = some b → b.1 ≤ (v : EReal) ∧ (v : EReal) ≤ b.2 := by
  intro o
  induction o with
  | done s x =>
    intro y h1 h2
    simp only [Optimizer.solve, Except.ok.injEq, Prod.mk.injEq] at h2
    obtain ⟨rfl, rfl⟩ := h2
    exact h1 rfl
  | raise e => intro y _ h2; cases h2
  | query x next ih =>
    intro y h1 h2
    unfold Optimizer.solve at h2
    split at h2
    · cases h2
    · exact ih _ (h1 _) h2

theorem pyRepeat_length {α : Type} (l : List α) (k : ℕ) : (pyRepeat l k).length = k * l.length := by
  simp [pyRepeat]

theorem pyRepeat_get {α : Type} (l : List α) : ∀ (k i j : ℕ), i < k → j < l.length →
    (pyRepeat l k)[i * l.length + j]? = l[j]? := by
  intro k
  induction k with
  | zero => intro i j hi; omega
  | succ k ih =>
    intro i j hi hj
    have e : pyRepeat l (k + 1) = l ++ pyRepeat l k := by simp [pyRepeat, List.replicate_succ]
    rw [e]
    cases i with
    | zero => rw [Nat.zero_mul, Nat.zero_add, List.getElem?_append_left hj]
    | succ i =>
      rw [List.getElem?_append_right (by rw [Nat.succ_mul]; omega)]
      rw [show (i + 1) * l.length + j - l.length = i * l.length + j by rw [Nat.succ_mul]; omega]
      exact ih i j (by omega) hj

theorem rowsOf_in_range {ranges : List (EReal × EReal)} {k : ℕ} {x : List ℝ}
    (hb : ∀ (t : ℕ) (v : ℝ) (b : EReal × EReal), x[t]? = some v → (pyRepeat ranges k)[t]? = some b →
      b.1 ≤ (v : EReal) ∧ (v : EReal) ≤ b.2) :
    ∀ row ∈ rowsOf k ranges.length x, ∀ (j : ℕ) (v : ℝ) (b : EReal × EReal), row.coords[j]? = some v → ranges[j]? = some b →
      b.1 ≤ (v : EReal) ∧ (v : EReal) ≤ b.2 := by
  intro row hrow j v b hv hbj
  obtain ⟨i, hi, rfl⟩ := List.mem_map.1 hrow
  rw [List.mem_range] at hi
  have hj : j < ranges.length := (List.getElem?_eq_some_iff.1 hbj).1
  simp only at hv
  rw [List.getElem?_take_of_lt hj, List.getElem?_drop] at hv
  exact hb _ v b hv (by rw [pyRepeat_get ranges k i j hi hj]; exact hbj)

/-- What it means for a row of coordinates to be a valid location of the class in the unit. -/
def RowInRange : SrcKind → String → List ℝ → Prop
  | .ff1, u, l => ∃ t, l = [t] ∧ InRange1D u t
  | .ff2, u, l => ∃ a b, l = [a, b] ∧ InRange2D u (a, b)
  | .nf2, _, l => l.length = 2

/-- **C53 (range)**. If the optimizer respects the bounds it is given, every estimated location returned
by `estimate` is valid for the class and unit of `sources0` (so the placement could also have been
built with the constructor): the bounds are aligned with the optimization variables. -/
theorem C53_in_range {size : ℕ} {c : MLCall} {st : MLState} (hs : SeparateBuffers st.heap) {r0 : ℕ}
    {rows : List LocRow} {u : String} {k : ℕ} (hv : st.heap.view r0 = some (rows, u))
    {ranges} (hr : validRanges c.kind u = .ok ranges) (hf : FloatShape k ranges.length rows)
    (hk : k < size) {n : ℕ} (hR : c.shape = [size, n]) (hp : c.prepare = .ok ())
    (hb : Respects (pyRepeat ranges k) (c.opt (rows.flatMap LocRow.coords) (pyRepeat ranges k)))
    {p : ℕ} (hres : (st.estimate size c r0).1 = .ok (true, some p)) :
    ∃ est, (st.estimate size c r0).2.heap.view p = some (est, u) ∧ est.length = k ∧
      ∀ row ∈ est, RowInRange c.kind u row.coords := by
  obtain ⟨c1, c2, c3, c4⟩ := C53_estimate hs hv hf hk hR hp hr
  generalize hsol : (c.opt (rows.flatMap LocRow.coords) (pyRepeat ranges k)).solve
    (objective c.nll k ranges.length u) = sol at c1 c2 c3 c4
  rcases sol with e | ⟨b, x⟩
  · rw [c1 e rfl] at hres; cases hres
  · cases b with
    | false => rw [c2 x rfl] at hres; cases hres
    | true =>
      obtain ⟨hlen, hbnd⟩ := respects_solve hb hsol
      have hxl : k * ranges.length ≤ x.length := by rw [hlen, pyRepeat_length]
      obtain ⟨q, h1, -, h2⟩ := c4 x rfl hxl
      rw [h1] at hres
      have : q = p := by simpa using hres
      subst this
      refine ⟨_, h2, rowsOf_length _ _ _, ?_⟩
      intro row hrow
      have hin := rowsOf_in_range hbnd row hrow
      have hrl := rowsOf_shape hxl row hrow
      cases hkind : c.kind with
      | ff1 =>
        rw [hkind] at hr
        simp only [validRanges] at hr
        cases hvr : validRange1D u with
        | none => rw [hvr] at hr; cases hr
        | some pr =>
          rw [hvr] at hr
          have hre := Except.ok.inj hr
          subst hre
          obtain ⟨t, ht⟩ := List.length_eq_one_iff.1 hrl
          refine ⟨t, ht, ?_⟩
          have h3 := hin 0 t _ (by rw [ht]; rfl) rfl
          simp only [EReal.coe_le_coe_iff] at h3
          have hneg : -Real.pi / 2 = -(Real.pi / 2) := by ring
          clear hin hrl hbnd hlen h2 h1 hsol hb hf hv c1 c2 c3 c4 hrow
          unfold validRange1D at hvr
          rw [hneg] at hvr
          unfold InRange1D
          split at hvr
          · rename_i hu; simp only [Option.some.injEq] at hvr; subst hvr; simp_all
          · split at hvr
            · rename_i hu hu'; simp only [Option.some.injEq] at hvr; subst hvr; simp_all
            · split at hvr
              · simp only [Option.some.injEq] at hvr; subst hvr; simp_all
              · cases hvr
      | ff2 =>
        rw [hkind] at hr
        simp only [validRanges] at hr
        cases hvr : validRange2D u with
        | none => rw [hvr] at hr; cases hr
        | some pr =>
          rw [hvr] at hr
          have hre := Except.ok.inj hr
          subst hre
          obtain ⟨a, b, hab⟩ := List.length_eq_two.1 hrl
          refine ⟨a, b, hab, ?_⟩
          have h3 := hin 0 a _ (by rw [hab]; rfl) rfl
          have h4 := hin 1 b _ (by rw [hab]; rfl) rfl
          simp only [EReal.coe_le_coe_iff] at h3 h4
          have hneg : -Real.pi / 2 = -(Real.pi / 2) := by ring
          clear hin hrl hbnd hlen h2 h1 hsol hb hf hv c1 c2 c3 c4 hrow
          unfold validRange2D at hvr
          rw [hneg] at hvr
          unfold InRange2D
          split at hvr
          · simp only [Option.some.injEq] at hvr; subst hvr; simp_all
          · split at hvr
            · simp only [Option.some.injEq] at hvr; subst hvr; simp_all
            · cases hvr
      | nf2 =>
        rw [hkind] at hr
        have hre := Except.ok.inj hr
        subst hre
        exact hrl

/-! ### C53, histories -/

/-- Old placements keep their contents, new ones are added at the end. -/
structure Extends (h h' : SHeap LocRow) : Prop where
  sep : SeparateBuffers h'
  le : h.objs.length ≤ h'.objs.length
  view : ∀ p < h.objs.length, h'.view p = h.view p

theorem Extends.refl {h : SHeap LocRow} (hs : SeparateBuffers h) : Extends h h := ⟨hs, le_rfl, fun _ _ => rfl⟩

theorem Extends.trans {h h' h'' : SHeap LocRow} (a : Extends h h') (b : Extends h' h'') : Extends h h'' :=
  ⟨b.sep, a.le.trans b.le, fun p hp => (b.view p (hp.trans_le a.le)).trans (a.view p hp)⟩

theorem Extends.create {h : SHeap LocRow} (hs : SeparateBuffers h) (b : List LocRow) (u : String) :
    Extends h (h.create b u) := by
  refine ⟨hs.create b u, by simp [SHeap.create], fun p hp => ?_⟩
  obtain ⟨b', u', hv⟩ := view_of_lt hs hp
  rw [hv]
  exact (create_view h b u).2 p _ hv

theorem Extends.frame {h h' h'' : SHeap LocRow} (a : Extends h h') {q : ℕ} (hq : h.objs.length ≤ q)
    (f : Frame q h' h'') : Extends h h'' :=
  ⟨f.sep, by rw [f.objs]; exact a.le, fun p hp => (f.other p (by omega)).trans (a.view p hp)⟩

/-- What one estimator call does to the state: old placements keep their contents; the working
placement is the old one or a new one; a returned placement is new and is not the working one. -/
structure CallEffect (st st' : MLState) (ret : Option ℕ) : Prop where
  ext : Extends st.heap st'.heap
  est : st'.est = st.est ∨ ∃ q, st'.est = some q ∧ st.heap.objs.length ≤ q ∧ q < st'.heap.objs.length
  ret : ∀ p, ret = some p → st.heap.objs.length ≤ p ∧ p < st'.heap.objs.length ∧ st'.est ≠ some p

/-- The placement returned by a call, if any. -/
def returned : Res (Bool × Option ℕ) → Option ℕ
  | .ok (_, r) => r
  | .error _ => none

theorem estimate_effect {st : MLState} (hs : SeparateBuffers st.heap) (size : ℕ) (c : MLCall) (r0 : ℕ) :
    CallEffect st (st.estimate size c r0).2 (returned (st.estimate size c r0).1) := by
  have triv : ∀ e, CallEffect st st (returned (Except.error e)) := fun e =>
    ⟨Extends.refl hs, Or.inl rfl, fun p hp => by cases hp⟩
  unfold MLState.estimate
  split
  · exact triv _
  · rename_i rows u hv
    split
    · exact triv _
    · split
      · exact triv _
      · rw [getitem_all hv]
        simp only
        have hcr := Extends.create hs rows u
        have hlen : (st.heap.create rows u).objs.length = st.heap.objs.length + 1 := by simp [SHeap.create]
        have err : ∀ (h1 : SHeap LocRow) (r : Res (Bool × Option ℕ)), returned r = none →
            Frame st.heap.objs.length (st.heap.create rows u) h1 →
            CallEffect st ⟨h1, some st.heap.objs.length⟩ (returned r) := by
          intro h1 r hr f
          refine ⟨hcr.frame le_rfl f, Or.inr ⟨_, rfl, le_rfl, ?_⟩, fun p hp => ?_⟩
          · show st.heap.objs.length < h1.objs.length
            rw [f.objs, hlen]; omega
          · rw [hr] at hp; cases hp
        split
        · exact err _ _ rfl (Frame.refl hcr.sep)
        · split
          · exact err _ _ rfl (Frame.refl hcr.sep)
          · rename_i ranges hr
            have f := runOptimizer_frame c.nll st.heap.objs.length
              (c.opt (rows.flatMap LocRow.coords) (pyRepeat ranges rows.length)) _ hcr.sep
            split
            · rename_i e h1 hrun; rw [hrun] at f; exact err _ _ rfl f
            · rename_i x h1 hrun; rw [hrun] at f; exact err _ _ rfl f
            · rename_i x h1 hrun
              rw [hrun] at f
              split
              · exact err _ _ rfl f
              · rename_i h2 hu
                have f2 : Frame _ _ h2 := Frame.trans f (updateEstimates_frame f.sep hu)
                have hl2 : st.heap.objs.length < h2.objs.length := by rw [f2.objs, hlen]; omega
                obtain ⟨b, u', hv2⟩ := view_of_lt f2.sep hl2
                have hg := getLast_some (st := ⟨h2, some st.heap.objs.length⟩) rfl hv2
                rw [hg]
                simp only
                have hx : Extends st.heap (h2.create b u') :=
                  (hcr.frame le_rfl f2).trans (Extends.create f2.sep b u')
                have hl3 : (h2.create b u').objs.length = h2.objs.length + 1 := by simp [SHeap.create]
                refine ⟨hx, Or.inr ⟨_, rfl, le_rfl, ?_⟩, fun p hp => ?_⟩
                · show st.heap.objs.length < (h2.create b u').objs.length
                  omega
                · have : p = h2.objs.length := by simpa [returned] using hp.symm
                  subst this
                  refine ⟨hl2.le, by show _ < (h2.create b u').objs.length; omega, ?_⟩
                  simp only [ne_eq, Option.some.injEq]
                  omega

/-- The invariant of a program: placements do not share buffers, the user's references are valid and
the working placement of the estimator is not among them. -/
structure WorldInv (w : MLWorld) : Prop where
  sep : SeparateBuffers w.st.heap
  user : ∀ r ∈ w.user, r < w.st.heap.objs.length
  est : ∀ q, w.st.est = some q → q < w.st.heap.objs.length ∧ q ∉ w.user
  nodup : w.user.Nodup

theorem WorldInv.call {w : MLWorld} (hw : WorldInv w) {st' : MLState} {ret : Option ℕ} (c : CallEffect w.st st' ret) :
    WorldInv ⟨st', w.user ++ ret.toList⟩ := by
  have hu : ∀ r ∈ w.user, r < st'.heap.objs.length := fun r hr => (hw.user r hr).trans_le c.ext.le
  refine ⟨c.ext.sep, ?_, ?_, ?_⟩
  · intro r hr
    rcases List.mem_append.1 hr with hr | hr
    · exact hu r hr
    · exact (c.ret r (by simpa using hr)).2.1
  · intro q hq
    have hq1 : q < st'.heap.objs.length ∧ q ∉ w.user := by
      rcases c.est with h | ⟨q', h1, h2, h3⟩
      · have hq' : w.st.est = some q := h.symm.trans hq
        exact ⟨(hw.est q hq').1.trans_le c.ext.le, (hw.est q hq').2⟩
      · have hqq : q = q' := by
          have : some q = some q' := hq.symm.trans h1
          exact Option.some.inj this
        subst hqq
        exact ⟨h3, fun hm => by have := hw.user q hm; omega⟩
    refine ⟨hq1.1, fun hm => ?_⟩
    rcases List.mem_append.1 hm with hm | hm
    · exact hq1.2 hm
    · exact (c.ret q (by simpa using hm)).2.2 hq
  · rw [List.nodup_append]
    refine ⟨hw.nodup, by cases ret <;> simp, ?_⟩
    intro a ha b hb hab
    subst hab
    have := hw.user a ha
    have := (c.ret a (by simpa using hb)).1
    omega

theorem getLast_effect {st : MLState} (hs : SeparateBuffers st.heap) (hest : ∀ q, st.est = some q → q < st.heap.objs.length) :
    CallEffect st st.getLast.2 (returned (st.getLast.1.map fun p => (true, some p))) := by
  cases he : st.est with
  | none =>
    have : st.getLast = (.error .runtimeError, st) := by unfold MLState.getLast; rw [he]
    rw [this]
    exact ⟨Extends.refl hs, Or.inl rfl, fun p hp => by cases hp⟩
  | some q =>
    obtain ⟨b, u, hv⟩ := view_of_lt hs (hest q he)
    rw [getLast_some he hv]
    refine ⟨Extends.create hs b u, Or.inl rfl, ?_⟩
    intro p hp
    have : p = st.heap.objs.length := by simpa [returned, Except.map] using hp.symm
    subst this
    refine ⟨le_rfl, by simp [SHeap.create], ?_⟩
    simp only [he, ne_eq, Option.some.injEq]
    have := hest q he
    omega

/-- Does this step write through the user's placement at position `p`? -/
def mlWritesTo (p : ℕ) : MLOp → Prop
  | .write q _ _ => q = p
  | _ => False

/-- Every step is either a write through a user's placement, or an effect as described. -/
theorem step_effect (size : ℕ) {w : MLWorld} (hw : WorldInv w) (op : MLOp) :
    (∃ p i v r, op = .write p i v ∧ w.user[p]? = some r ∧
      MLOp.step size w op = ⟨{ w.st with heap := w.st.heap.write r i v }, w.user⟩) ∨
    ∃ st' ret, MLOp.step size w op = ⟨st', w.user ++ ret.toList⟩ ∧ CallEffect w.st st' ret ∧
      ((∀ c p, op ≠ .estimate c p) → st'.est = w.st.est) := by
  have hest : ∀ q, w.st.est = some q → q < w.st.heap.objs.length := fun q hq => (hw.est q hq).1
  have same : ∃ st' ret, w = ⟨st', w.user ++ ret.toList⟩ ∧ CallEffect w.st st' ret ∧
      ((∀ c p, op ≠ .estimate c p) → st'.est = w.st.est) :=
    ⟨w.st, none, by simp, ⟨Extends.refl hw.sep, Or.inl rfl, fun p hp => by cases hp⟩, fun _ => rfl⟩
  have hnew : ∀ b u, CallEffect w.st { w.st with heap := w.st.heap.create b u } (some w.st.heap.objs.length) := by
    intro b u
    refine ⟨Extends.create hw.sep b u, Or.inl rfl, fun p hp => ?_⟩
    cases hp
    refine ⟨le_rfl, by simp [SHeap.create], fun h => ?_⟩
    have := hest _ h
    omega
  cases op with
  | create b u => exact Or.inr ⟨_, some w.st.heap.objs.length, rfl, hnew b u, fun _ => rfl⟩
  | getitem p key =>
    right
    cases hp : w.user[p]? with
    | none => simp only [MLOp.step, hp]; exact same
    | some r =>
      simp only [MLOp.step, hp]
      rcases hg : w.st.heap.getitem r key with ⟨res, h⟩
      have hcase : (h = w.st.heap ∧ ∀ q, res ≠ .ok (.obj q)) ∨
          ∃ b u, h = w.st.heap.create b u ∧ res = .ok (.obj w.st.heap.objs.length) := by
        unfold SHeap.getitem at hg
        split at hg
        · obtain ⟨rfl, rfl⟩ := Prod.mk.inj hg; left; simp
        · split at hg
          · split at hg
            · obtain ⟨rfl, rfl⟩ := Prod.mk.inj hg; left; simp
            · split at hg
              · obtain ⟨rfl, rfl⟩ := Prod.mk.inj hg; left; simp
              · obtain ⟨rfl, rfl⟩ := Prod.mk.inj hg; left; simp
          · split at hg
            · obtain ⟨rfl, rfl⟩ := Prod.mk.inj hg; left; simp
            · obtain ⟨rfl, rfl⟩ := Prod.mk.inj hg; right; exact ⟨_, _, rfl, rfl⟩
      rcases hcase with ⟨rfl, hne⟩ | ⟨b, u, rfl, rfl⟩
      · refine ⟨w.st, none, ?_, ⟨Extends.refl hw.sep, Or.inl rfl, fun p hp => by cases hp⟩, fun _ => rfl⟩
        rcases res with e | ⟨x⟩ | ⟨q⟩
        · simp
        · simp
        · exact absurd rfl (hne q)
      · exact ⟨_, some w.st.heap.objs.length, rfl, hnew b u, fun _ => rfl⟩
  | write p i v =>
    cases hp : w.user[p]? with
    | none => right; simp only [MLOp.step, hp]; exact same
    | some r => left; exact ⟨p, i, v, r, rfl, hp, by simp only [MLOp.step, hp]⟩
  | estimate c p =>
    right
    cases hp : w.user[p]? with
    | none => simp only [MLOp.step, hp]; exact same
    | some r =>
      simp only [MLOp.step, hp]
      have he := estimate_effect hw.sep size c r
      rcases hc : w.st.estimate size c r with ⟨res, st'⟩
      rw [hc] at he
      refine ⟨st', returned res, ?_, he, fun h => absurd rfl (h c p)⟩
      rcases res with e | ⟨b, _ | q⟩
      · simp [returned]
      · simp [returned]
      · simp [returned]
  | getLast =>
    right
    have he := getLast_effect hw.sep hest
    have hkeep : w.st.getLast.2.est = w.st.est := by
      cases h : w.st.est with
      | none => unfold MLState.getLast; rw [h]; exact h
      | some q =>
        obtain ⟨b, u, hv⟩ := view_of_lt hw.sep (hest q h)
        rw [getLast_some h hv]; exact h
    simp only [MLOp.step]
    rcases hc : w.st.getLast with ⟨res, st'⟩
    rw [hc] at he hkeep
    refine ⟨st', returned (res.map fun p => (true, some p)), ?_, he, fun _ => hkeep⟩
    rcases res with e | q
    · simp [returned, Except.map]
    · simp [returned, Except.map]

theorem write_frame {h : SHeap LocRow} (hs : SeparateBuffers h) (r i : ℕ) (v : LocRow) :
    Frame r h (h.write r i v) := by
  refine ⟨by unfold SHeap.write; split <;> rfl, hs.write r i v, fun q hq => ?_⟩
  by_cases hql : q < h.objs.length
  · obtain ⟨b, u, hv⟩ := view_of_lt hs hql
    rw [hv]
    exact step_view hs (.write r i v) q _ hv (fun h' => hq h'.symm)
  · have e : (h.write r i v).objs = h.objs := by unfold SHeap.write; split <;> rfl
    unfold SHeap.view
    rw [e, List.getElem?_eq_none (by omega)]
    rfl

theorem WorldInv.step (size : ℕ) {w : MLWorld} (hw : WorldInv w) (op : MLOp) : WorldInv (MLOp.step size w op) := by
  rcases step_effect size hw op with ⟨p, i, v, r, -, -, h⟩ | ⟨st', ret, h, c, -⟩
  · rw [h]
    have f := write_frame hw.sep r i v
    exact ⟨f.sep, fun r' hr' => by rw [f.objs]; exact hw.user r' hr',
      fun q hq => ⟨by rw [f.objs]; exact (hw.est q hq).1, (hw.est q hq).2⟩, hw.nodup⟩
  · rw [h]; exact hw.call c

theorem WorldInv.run (size : ℕ) {w : MLWorld} (hw : WorldInv w) (ops : List MLOp) : WorldInv (MLOp.run size w ops) := by
  induction ops generalizing w with
  | nil => exact hw
  | cons op ops ih => exact ih (hw.step size op)

theorem WorldInv.init : WorldInv {} := ⟨⟨by simp, by simp⟩, by simp, fun q h => by simp at h, by simp⟩

theorem step_userView (size : ℕ) {w : MLWorld} (hw : WorldInv w) (op : MLOp) {p : ℕ} {v} (hv : w.userView p = some v)
    (hop : ¬ mlWritesTo p op) : (MLOp.step size w op).userView p = some v := by
  unfold MLWorld.userView at hv ⊢
  cases hp : w.user[p]? with
  | none => rw [hp] at hv; cases hv
  | some r =>
    rw [hp] at hv
    simp only [Option.bind_some] at hv
    have hpl : p < w.user.length := (List.getElem?_eq_some_iff.1 hp).1
    rcases step_effect size hw op with ⟨p', i, x, r', rfl, hp', h⟩ | ⟨st', ret, h, c, -⟩
    · rw [h]
      simp only [hp, Option.bind_some]
      have hne : p' ≠ p := hop
      have hrne : r ≠ r' := by
        intro he
        subst he
        obtain ⟨h1, h2⟩ := List.getElem?_eq_some_iff.1 hp
        obtain ⟨h1', h2'⟩ := List.getElem?_eq_some_iff.1 hp'
        exact hne ((List.Nodup.getElem_inj_iff hw.nodup).1 (h2'.trans h2.symm))
      rw [(write_frame hw.sep r' i x).other r hrne, hv]
    · rw [h]
      simp only
      rw [List.getElem?_append_left hpl, hp]
      simp only [Option.bind_some]
      rw [c.ext.view r (hw.user r (List.mem_of_getElem? hp)), hv]

/-- **C53 (initial guesses and earlier results are never touched)**. In every program using the
estimator, what the user sees in a placement he holds - one he created, an initial guess passed to
`estimate`, a result of an earlier call - changes only through his own writes to that placement: not by
`estimate` (successful, failed or raising), not by `get_last_estimates`, not by writes to other
placements. -/
theorem C53_user_views (size : ℕ) (pre post : List MLOp) (p : ℕ) (v)
    (hv : (MLOp.run size {} pre).userView p = some v) (hpost : ∀ op ∈ post, ¬ mlWritesTo p op) :
    (MLOp.run size {} (pre ++ post)).userView p = some v := by
  have hw := WorldInv.run size WorldInv.init pre
  unfold MLOp.run at hw hv ⊢
  rw [List.foldl_append]
  generalize pre.foldl (MLOp.step size) {} = w at hw hv
  clear pre
  induction post generalizing w with
  | nil => exact hv
  | cons op ops ih =>
    rw [List.foldl_cons]
    exact ih (fun o ho => hpost o (List.mem_cons_of_mem _ ho)) _ (hw.step size op)
      (step_userView size hw op hv (hpost op List.mem_cons_self))

theorem lastView_eq {w : MLWorld} (hw : WorldInv w) : w.lastView = w.st.est.bind w.st.heap.view := by
  unfold MLWorld.lastView
  cases he : w.st.est with
  | none => simp [MLState.getLast, he]
  | some q =>
    obtain ⟨b, u, hv⟩ := view_of_lt hw.sep (hw.est q he).1
    rw [getLast_some he hv]
    simp only [Option.bind_some, hv]
    exact (create_view _ _ _).1

/-- **C53 (last estimates)**. In every program: `get_last_estimates` raises `RuntimeError` as long as
`estimate` has not been called, and what it shows changes only through `estimate` calls - not by writing
to any placement the user holds, including those returned by earlier calls. -/
theorem C53_last_estimates (size : ℕ) (pre post : List MLOp) (hpost : ∀ op ∈ post, ∀ c p, op ≠ .estimate c p) :
    (MLOp.run size {} (pre ++ post)).lastView = (MLOp.run size {} pre).lastView ∧
    (MLOp.run size {} post).st.getLast.1 = .error .runtimeError := by
  have key : ∀ (ops : List MLOp) (w : MLWorld), WorldInv w → (∀ op ∈ ops, ∀ c p, op ≠ .estimate c p) →
      (ops.foldl (MLOp.step size) w).lastView = w.lastView ∧ (ops.foldl (MLOp.step size) w).st.est = w.st.est := by
    intro ops
    induction ops with
    | nil => intro w _ _; exact ⟨rfl, rfl⟩
    | cons op ops ih =>
      intro w hw hne
      have hw' := hw.step size op
      have hstep : (MLOp.step size w op).lastView = w.lastView ∧ (MLOp.step size w op).st.est = w.st.est := by
        rw [lastView_eq hw', lastView_eq hw]
        rcases step_effect size hw op with ⟨p', i, x, r', rfl, hp', h⟩ | ⟨st', ret, h, c, hest⟩
        · rw [h]
          refine ⟨?_, rfl⟩
          cases he : w.st.est with
          | none => rfl
          | some q =>
            simp only [Option.bind_some]
            exact (write_frame hw.sep r' i x).other q fun hq =>
              (hw.est q he).2 (hq ▸ List.mem_of_getElem? hp')
        · have he' := hest (hne op List.mem_cons_self)
          rw [h]
          refine ⟨?_, he'⟩
          simp only [he']
          cases he : w.st.est with
          | none => rfl
          | some q =>
            simp only [Option.bind_some]
            exact c.ext.view q (hw.est q he).1
      obtain ⟨h1, h2⟩ := ih _ hw' fun o ho => hne o (List.mem_cons_of_mem _ ho)
      exact ⟨h1.trans hstep.1, h2.trans hstep.2⟩
  constructor
  · unfold MLOp.run
    rw [List.foldl_append]
    exact (key post _ (WorldInv.run size WorldInv.init pre) hpost).1
  · have := (key post {} WorldInv.init hpost).2
    unfold MLOp.run MLState.getLast
    rw [this]

/-- **C53 (agreement)**. Right after a successful `estimate`, `get_last_estimates` shows the returned
placement. -/
theorem C53_last_after_success (size : ℕ) (pre : List MLOp) {c : MLCall} {p r q : ℕ}
    (hr : (MLOp.run size {} pre).user[p]? = some r)
    (hres : ((MLOp.run size {} pre).st.estimate size c r).1 = .ok (true, some q)) :
    (MLOp.run size {} (pre ++ [.estimate c p])).lastView =
      ((MLOp.run size {} pre).st.estimate size c r).2.heap.view q := by
  have hw := WorldInv.run size WorldInv.init pre
  have hw' : WorldInv (MLOp.run size {} (pre ++ [.estimate c p])) := WorldInv.run size WorldInv.init _
  rw [lastView_eq hw']
  have e : MLOp.run size {} (pre ++ [.estimate c p]) = MLOp.step size (MLOp.run size {} pre) (.estimate c p) := by
    unfold MLOp.run; rw [List.foldl_append]; rfl
  rw [e]
  generalize MLOp.run size {} pre = w at hw hr hres
  simp only [MLOp.step, hr]
  rcases hc : w.st.estimate size c r with ⟨res, st'⟩
  rw [hc] at hres
  simp only at hres
  subst hres
  simp only
  -- open the call
  unfold MLState.estimate at hc
  split at hc
  · cases hc
  · rename_i rows u hv
    split at hc
    · cases hc
    · split at hc
      · cases hc
      · rw [getitem_all hv] at hc
        simp only at hc
        split at hc
        · cases hc
        · split at hc
          · cases hc
          · rename_i ranges hrg
            have f := runOptimizer_frame c.nll w.st.heap.objs.length
              (c.opt (rows.flatMap LocRow.coords) (pyRepeat ranges rows.length)) _ (Extends.create hw.sep rows u).sep
            split at hc
            · cases hc
            · cases hc
            · rename_i x h1 hrun
              rw [hrun] at f
              split at hc
              · cases hc
              · rename_i h2 hu
                have f2 : Frame _ _ h2 := Frame.trans f (updateEstimates_frame f.sep hu)
                have hl2 : w.st.heap.objs.length < h2.objs.length := by
                  rw [f2.objs]; simp [SHeap.create]
                obtain ⟨b, u', hv2⟩ := view_of_lt f2.sep hl2
                have hg := getLast_some (st := ⟨h2, some w.st.heap.objs.length⟩) rfl hv2
                rw [hg] at hc
                simp only [Prod.mk.injEq, Except.ok.injEq, Option.some.injEq, true_and] at hc
                obtain ⟨rfl, rfl⟩ := hc
                simp only [Option.bind_some]
                rw [(Extends.create f2.sep b u').view _ hl2, hv2, (create_view _ _ _).1]

/-- Non-vacuity: one far-field source, an optimizer that evaluates the objective once and then reports
success at another point. -/
example : ∃ c : MLCall, ∃ q,
    ((MLOp.run 3 {} [.create [⟨false, [10]⟩] "deg"]).st.estimate 3 c 0).1 = .ok (true, some q) ∧
    ((MLOp.run 3 {} [.create [⟨false, [10]⟩] "deg"]).st.estimate 3 c 0).2.heap.view q =
      some ([⟨false, [20]⟩], "deg") ∧
    (MLOp.run 3 {} ([.create [⟨false, [10]⟩] "deg"] ++ [.estimate c 0])).userView 0 =
      some ([⟨false, [10]⟩], "deg") := by
  let c : MLCall := ⟨[3, 3], .ff1, .ok (), fun _ _ => .ok 0, fun _ _ => .query [15] fun _ => .done true [20]⟩
  have hw := WorldInv.run 3 WorldInv.init [.create [⟨false, [10]⟩] "deg"]
  have hf : FloatShape 1 1 [(⟨false, [10]⟩ : LocRow)] := ⟨rfl, by simp, rfl⟩
  have hr : validRanges c.kind "deg" = .ok [(((-90 : ℝ) : EReal), ((90 : ℝ) : EReal))] := by
    simp [c, validRanges, validRange1D]
  obtain ⟨q, h1, -, h2⟩ := (C53_estimate (size := 3) (c := c) hw.sep (r0 := 0) (u := "deg") rfl hf (by norm_num)
    (n := 3) rfl rfl hr).2.2.2 [20] rfl (by simp)
  exact ⟨c, q, h1, h2, C53_user_views 3 _ [.estimate c 0] 0 _ rfl (by simp [mlWritesTo])⟩

end Doa.Props
