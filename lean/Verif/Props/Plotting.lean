import Mathlib.Tactic.Linarith
import Mathlib.Tactic.FieldSimp
import Mathlib.Tactic.Ring
import Mathlib.Tactic.Positivity
import Mathlib.Tactic.NormNum
import Mathlib.Tactic.FinCases
import Verif.Model.Plotting
import Verif.Spec.Plotting
import Verif.Props.UniqueRows

/-!
# C62: what the plotting functions draw
-/

namespace Doa

theorem normalizeByMaximum_ok {x : List ℝ} (h : x ≠ []) : ∃ y, normalizeByMaximum x = .ok y := by
  obtain ⟨m, hm⟩ : ∃ m, x.max? = some m := Option.ne_none_iff_exists'.1 (by simpa using h)
  unfold normalizeByMaximum
  rw [hm]
  by_cases h0 : m > 0
  · exact ⟨_, by simp only [if_pos h0]; rfl⟩
  · exact ⟨_, by simp only [if_neg h0]; rfl⟩

theorem andThen_ok {a b : Res Unit × List PlotCmd} :
    (andThen a b).1 = .ok () ↔ a.1 = .ok () ∧ b.1 = .ok () := by
  obtain ⟨a1, a2⟩ := a
  cases a1 <;> simp [andThen]

theorem andThen_cmds {a b : Res Unit × List PlotCmd} (h : a.1 = .ok ()) :
    (andThen a b).2 = a.2 ++ b.2 := by
  simp [andThen, h]

theorem andThen_target {a b : Res Unit × List PlotCmd} {P : PlotCmd → Prop}
    (ha : ∀ c ∈ a.2, P c) (hb : ∀ c ∈ b.2, P c) : ∀ c ∈ (andThen a b).2, P c := by
  obtain ⟨a1, a2⟩ := a
  cases a1 with
  | error e => exact ha
  | ok u =>
    intro c hc
    rcases List.mem_append.1 hc with h | h
    · exact ha c h
    · exact hb c h

theorem drawSpectra_ok (ax cur : ℕ) (x : List ℝ) (log discrete : Bool) (l : List (NdArr × String)) :
    ∀ i, (∀ t ∈ l, t.1.data ≠ []) → (drawSpectra ax cur x log discrete i l).1 = .ok () := by
  induction l with
  | nil => intro i _; rfl
  | cons t l ih =>
    intro i h
    obtain ⟨s, lab⟩ := t
    obtain ⟨y, hy⟩ := normalizeByMaximum_ok (h (s, lab) (List.mem_cons_self ..))
    simp only [drawSpectra, hy]
    exact ih _ fun t ht => h t (List.mem_cons_of_mem _ ht)

theorem drawSpectra_cmds (ax cur : ℕ) (x : List ℝ) (log discrete : Bool)
    (l : List (NdArr × String)) :
    ∀ i, (∀ t ∈ l, t.1.data ≠ []) →
      (drawSpectra ax cur x log discrete i l).2.length = l.length ∧
      ∀ (j : ℕ) (s : NdArr) (label : String), l[j]? = some (s, label) →
        ∃ y, normalizeByMaximum s.data = .ok y ∧
          (drawSpectra ax cur x log discrete i l).2[j]? =
            some (.curve (if discrete then ax else cur) discrete log x y label
              (colorCycle.getD ((i + j) % colorCycle.length) "")) := by
  induction l with
  | nil => intro i _; exact ⟨rfl, by simp⟩
  | cons t l ih =>
    intro i h
    obtain ⟨s, lab⟩ := t
    obtain ⟨y, hy⟩ := normalizeByMaximum_ok (h (s, lab) (List.mem_cons_self ..))
    obtain ⟨h1, h2⟩ := ih (i + 1) fun t ht => h t (List.mem_cons_of_mem _ ht)
    simp only [drawSpectra, hy]
    refine ⟨by simp [h1], ?_⟩
    intro j s' label' hj
    cases j with
    | zero =>
      simp only [List.getElem?_cons_zero, Option.some.injEq, Prod.mk.injEq] at hj
      obtain ⟨rfl, rfl⟩ := hj
      exact ⟨y, hy, by simp⟩
    | succ j =>
      simp only [List.getElem?_cons_succ] at hj ⊢
      obtain ⟨y', hy', h3⟩ := h2 j s' label' hj
      exact ⟨y', hy', by rw [h3, show i + 1 + j = i + (j + 1) by omega]⟩

theorem color_reserved (i : ℕ) : colorCycle.getD (i % colorCycle.length) "" ≠ "C2" ∧
    colorCycle.getD (i % colorCycle.length) "" ≠ "C3" := by
  have h : i % colorCycle.length < 8 := Nat.mod_lt _ (by decide)
  generalize i % colorCycle.length = j at h
  interval_cases j <;> decide

theorem buildSpectrumList_iff (sp : SpArg) (g : SearchGrid) (l : List (NdArr × String)) :
    buildSpectrumList sp g = .ok l ↔
      ((∀ i s label, l[i]? = some (s, label) ↔ Spec.IsSpectrum sp i s label) ∧ l ≠ [] ∧
        ∀ t ∈ l, t.1.shape = g.shape) := by
  have key : ∀ m : List (NdArr × String),
      (∀ i s label, m[i]? = some (s, label) ↔ Spec.IsSpectrum sp i s label) →
      ((if m.length = 0 then .error .valueError
        else if m.any fun t => decide (t.1.shape ≠ g.shape) then .error .valueError
        else .ok m : Res (List (NdArr × String))) = .ok l ↔
      ((∀ i s label, l[i]? = some (s, label) ↔ Spec.IsSpectrum sp i s label) ∧ l ≠ [] ∧
        ∀ t ∈ l, t.1.shape = g.shape)) := by
    intro m hm
    have huniq : (∀ i s label, l[i]? = some (s, label) ↔ Spec.IsSpectrum sp i s label) → l = m := by
      intro h
      refine List.ext_getElem? fun i => ?_
      refine Option.ext fun t => ?_
      obtain ⟨s, label⟩ := t
      rw [h, hm]
    by_cases h0 : m.length = 0
    · rw [if_pos h0]
      constructor
      · intro h; cases h
      · rintro ⟨h, h', -⟩
        exact absurd (List.length_eq_zero_iff.1 (huniq h ▸ h0)) h'
    · rw [if_neg h0]
      by_cases h1 : (m.any fun t => decide (t.1.shape ≠ g.shape)) = true
      · rw [if_pos h1]
        constructor
        · intro h; cases h
        · rintro ⟨h, -, h'⟩
          obtain ⟨t, ht, hne⟩ := List.any_eq_true.1 h1
          exact absurd (h' t (huniq h ▸ ht)) (by simpa using hne)
      · rw [if_neg h1]
        constructor
        · intro h
          cases h
          refine ⟨hm, fun h => h0 (by rw [h]; rfl), fun t ht => ?_⟩
          by_contra hne
          exact h1 (List.any_eq_true.2 ⟨t, ht, by simpa using hne⟩)
        · rintro ⟨h, -, -⟩
          rw [huniq h]
  cases sp with
  | array x =>
    refine key [(x, "")] fun i s label => ?_
    cases i with
    | zero => simp [Spec.IsSpectrum, eq_comm]
    | succ i => simp [Spec.IsSpectrum]
  | seq m =>
    refine key (m.map fun s => (s, "")) fun i s label => ?_
    simp only [List.getElem?_map, Option.map_eq_some_iff, Prod.mk.injEq, Spec.IsSpectrum]
    constructor
    · rintro ⟨a, h, rfl, rfl⟩; exact ⟨h, rfl⟩
    · rintro ⟨h, rfl⟩; exact ⟨s, h, rfl, rfl⟩
  | dict m =>
    refine key (m.map fun kv => (kv.2, kv.1)) fun i s label => ?_
    simp only [List.getElem?_map, Option.map_eq_some_iff, Prod.mk.injEq, Spec.IsSpectrum]
    constructor
    · rintro ⟨⟨a, b⟩, h, rfl, rfl⟩; exact h
    · intro h; exact ⟨(label, s), h, rfl, rfl⟩
  | other =>
    simp only [buildSpectrumList, Spec.IsSpectrum]
    constructor
    · intro h; cases h
    · rintro ⟨h, h', -⟩
      cases l with
      | nil => exact absurd rfl h'
      | cons t l => exact absurd ((h 0 t.1 t.2).1 rfl) id

theorem drawSticks_ok (ax : ℕ) (g : SearchGrid) (u : String) (hu : g.units = [u])
    (src : Option (Σ k, Sources k)) (label color : String) :
    (drawSticks ax g src label color).1 = .ok () ↔ ∀ s, src = some s → s.2.units = g.units := by
  cases src with
  | none => simp [drawSticks]
  | some s =>
    obtain ⟨k, s⟩ := s
    cases s with
    | ff1 s =>
      by_cases h : s.unit = u <;> simp [drawSticks, Sources.units, Sources.locations1, hu, h]
    | ff2 s => simp [drawSticks, Sources.units, hu]
    | nf s => simp [drawSticks, Sources.units, hu]

theorem drawSticks_cmds (ax : ℕ) (g : SearchGrid) (src : Option (Σ k, Sources k))
    (label color : String) :
    ∀ c ∈ (drawSticks ax g src label color).2, ∃ x y, c = .sticks ax x y label color := by
  intro c hc
  unfold drawSticks at hc
  split at hc
  · simp at hc
  · split at hc
    · simp at hc
    · split at hc
      · simp at hc
      · simp only [List.mem_singleton] at hc
        exact ⟨_, _, hc⟩

theorem drawScatter_cmds (ax : ℕ) (g : SearchGrid) (swap : Bool) (src : Option (Σ k, Sources k))
    (label : String) :
    ∀ c ∈ (drawScatter ax g swap src label).2, ∃ x, c = .scatter ax x label := by
  intro c hc
  unfold drawScatter at hc
  split at hc
  · simp at hc
  · split at hc
    · simp at hc
    · split at hc
      · simp at hc
      · simp only [List.mem_singleton] at hc
        exact ⟨_, hc⟩

theorem data_ne_nil {s : NdArr} (hv : s.Valid) {g : SearchGrid} {x : Axis} (hg : g.axes = [x])
    (hx : x.data ≠ []) (hs : s.shape = g.shape) : s.data ≠ [] := by
  intro h
  unfold NdArr.Valid at hv
  rw [hs, SearchGrid.shape, hg, h] at hv
  simp at hv
  exact hx (List.length_eq_zero_iff.1 hv.symm)

end Doa

namespace Doa.Props
open Doa

/-- **C62** (normalisation). A spectrum with a positive maximum `m` is plotted divided by `m`: the
largest plotted value is exactly 1 and two values are plotted in the same order as they have; a
spectrum without positive values is plotted unchanged; only an empty one is rejected. -/
theorem C62_normalize (x : List ℝ) :
    (normalizeByMaximum x = .error .valueError ↔ x = []) ∧
    (∀ m ∈ x, 0 < m → (∀ v ∈ x, v ≤ m) → ∃ y, normalizeByMaximum x = .ok y ∧
      y.length = x.length ∧ 1 ∈ y ∧ (∀ v ∈ y, v ≤ 1) ∧
      (∀ (i : ℕ) (a : ℝ), x[i]? = some a → y[i]? = some (a / m)) ∧
      (∀ (i j : ℕ) (a b a' b' : ℝ), x[i]? = some a → x[j]? = some b → y[i]? = some a' →
        y[j]? = some b' → (a < b ↔ a' < b'))) ∧
    (x ≠ [] → (∀ v ∈ x, v ≤ 0) → normalizeByMaximum x = .ok x) := by
  refine ⟨⟨fun h => ?_, fun h => ?_⟩, fun m hm h0 hmax => ?_, fun hx h0 => ?_⟩
  · by_contra hx
    obtain ⟨y, hy⟩ := normalizeByMaximum_ok hx
    rw [hy] at h
    cases h
  · subst h; rfl
  · have hmx : x.max? = some m := List.max?_eq_some_iff.2 ⟨hm, fun v hv => hmax v hv⟩
    refine ⟨x.map (· / m), by simp [normalizeByMaximum, hmx, h0], by simp, ?_, ?_, ?_, ?_⟩
    · exact List.mem_map.2 ⟨m, hm, div_self h0.ne'⟩
    · intro v hv
      obtain ⟨w, hw, rfl⟩ := List.mem_map.1 hv
      exact (div_le_one h0).2 (hmax w hw)
    · intro i a ha
      simp [List.getElem?_map, ha]
    · intro i j a b a' b' ha hb ha' hb'
      simp only [List.getElem?_map, ha, hb, Option.map_some, Option.some.injEq] at ha' hb'
      rw [← ha', ← hb']
      exact (div_lt_div_iff_of_pos_right h0).symm
  · obtain ⟨m, hm⟩ : ∃ m, x.max? = some m := Option.ne_none_iff_exists'.1 (by simpa using hx)
    have : m ≤ 0 := h0 m (List.max?_mem hm)
    simp [normalizeByMaximum, hm, not_lt.2 this]

/-- Both situations of `C62_normalize` occur. -/
example : normalizeByMaximum [1, 4, 2] = .ok [1 / 4, 4 / 4, 2 / 4] ∧
    normalizeByMaximum [-1, 0] = .ok [-1, 0] := by
  constructor
  · have h : ([1, 4, 2] : List ℝ).max? = some 4 := by
      rw [List.max?_eq_some_iff]; norm_num
    simp [normalizeByMaximum, h]
  · exact (C62_normalize [-1, 0]).2.2 (by simp) (by norm_num)

/-- `C62_accepts` in terms of the model. -/
theorem accepts_units (sp : SpArg) (g : SearchGrid) (x : Axis) (u : String) (hg : g.axes = [x])
    (hx : x.data ≠ []) (hu : g.units = [u])
    (hv : ∀ i s label, Spec.IsSpectrum sp i s label → s.Valid) (ax cur : ℕ)
    (est truth : Option (Σ k, Sources k)) (log discrete : Bool) :
    (plotSpectrum1d sp g ax cur est truth log discrete).1 = .ok () ↔
      (∃ i s label, Spec.IsSpectrum sp i s label) ∧
      (∀ i s label, Spec.IsSpectrum sp i s label → s.shape = [x.data.length]) ∧
      (∀ s, est = some s → s.2.units = g.units) ∧ (∀ s, truth = some s → s.2.units = g.units) := by
  have hshape : g.shape = [x.data.length] := by simp [SearchGrid.shape, hg]
  have hax : g.axes[0]? = some x := by simp [hg]
  by_cases hb : ∃ l, buildSpectrumList sp g = .ok l
  · obtain ⟨l, hl⟩ := hb
    obtain ⟨h1, h2, h3⟩ := (buildSpectrumList_iff sp g l).1 hl
    have hne : ∀ t ∈ l, t.1.data ≠ [] := by
      intro t ht
      obtain ⟨i, hi⟩ := List.getElem?_of_mem ht
      exact data_ne_nil (hv i t.1 t.2 ((h1 i t.1 t.2).1 hi)) hg hx (h3 t ht)
    simp only [plotSpectrum1d, hl, hax, andThen_ok, drawSticks_ok ax g u hu,
      drawSpectra_ok ax cur x.data log discrete l 0 hne, true_and, and_true]
    refine ⟨fun h => ⟨?_, ?_, h⟩, fun h => h.2.2⟩
    · obtain ⟨t, l', rfl⟩ := List.exists_cons_of_ne_nil h2
      exact ⟨0, t.1, t.2, (h1 0 t.1 t.2).1 rfl⟩
    · intro i s label hs
      rw [← hshape]
      exact h3 (s, label) (List.mem_of_getElem? ((h1 i s label).2 hs))
  · have herr : ∃ e, buildSpectrumList sp g = .error e := by
      cases h : buildSpectrumList sp g with
      | error e => exact ⟨e, rfl⟩
      | ok l => exact absurd ⟨l, h⟩ hb
    obtain ⟨e, he⟩ := herr
    simp only [plotSpectrum1d, he, reduceCtorEq, false_iff]
    rintro ⟨⟨i, s, label, hs⟩, hsh, -⟩
    apply hb
    have : ∃ l : List (NdArr × String), ∀ i s label, l[i]? = some (s, label) ↔
        Spec.IsSpectrum sp i s label := by
      cases sp with
      | array y =>
        refine ⟨[(y, "")], fun i s label => ?_⟩
        cases i <;> simp [Spec.IsSpectrum, eq_comm]
      | seq m =>
        refine ⟨m.map fun s => (s, ""), fun i s label => ?_⟩
        simp only [List.getElem?_map, Option.map_eq_some_iff, Prod.mk.injEq, Spec.IsSpectrum]
        constructor
        · rintro ⟨a, h, rfl, rfl⟩; exact ⟨h, rfl⟩
        · rintro ⟨h, rfl⟩; exact ⟨s, h, rfl, rfl⟩
      | dict m =>
        refine ⟨m.map fun kv => (kv.2, kv.1), fun i s label => ?_⟩
        simp only [List.getElem?_map, Option.map_eq_some_iff, Prod.mk.injEq, Spec.IsSpectrum]
        constructor
        · rintro ⟨⟨a, b⟩, h, rfl, rfl⟩; exact h
        · intro h; exact ⟨(label, s), h, rfl, rfl⟩
      | other => exact absurd hs id
    obtain ⟨l, hl⟩ := this
    refine ⟨l, (buildSpectrumList_iff sp g l).2 ⟨hl, ?_, ?_⟩⟩
    · rintro rfl
      have := (hl i s label).2 hs
      simp at this
    · intro t ht
      obtain ⟨j, hj⟩ := List.getElem?_of_mem ht
      rw [hshape]
      exact hsh j t.1 t.2 ((hl j t.1 t.2).1 hj)

/-- The units of a placement. -/
theorem placed_units {s : Σ k, Sources k} {us : List String} {l : List (List ℝ)} (h : Spec.Placed s us l) : s.2.units = us := by
  cases h <;> rfl

theorem exists_placed (s : Σ k, Sources k) : ∃ us l, Spec.Placed s us l := by
  obtain ⟨k, s⟩ := s
  cases s with
  | ff1 s => exact ⟨_, _, .ff1 s⟩
  | ff2 s => exact ⟨_, _, .ff2 s⟩
  | nf s => exact ⟨_, _, .nf s⟩

theorem units_iff (src : Option (Σ k, Sources k)) (us : List String) :
    (∀ s, src = some s → s.2.units = us) ↔ ∀ s us' l, src = some s → Spec.Placed s us' l → us' = us := by
  constructor
  · intro h s us' l hs hp
    rw [← h s hs, placed_units hp]
  · intro h s hs
    obtain ⟨us', l, hp⟩ := exists_placed s
    rw [placed_units hp, h s us' l hs hp]

/-- **C62** (acceptance). On a 1-D grid a call of `plot_spectrum_1d` goes through exactly when there
is at least one spectrum, every spectrum has the shape of the grid, and the estimates and the ground
truth, if given, are in the units of the grid. -/
theorem C62_accepts (sp : SpArg) (g : SearchGrid) (x : Axis) (u : String) (hg : g.axes = [x])
    (hx : x.data ≠ []) (hu : g.units = [u])
    (hv : ∀ i s label, Spec.IsSpectrum sp i s label → s.Valid) (ax cur : ℕ)
    (est truth : Option (Σ k, Sources k)) (log discrete : Bool) :
    (plotSpectrum1d sp g ax cur est truth log discrete).1 = .ok () ↔
      (∃ i s label, Spec.IsSpectrum sp i s label) ∧
      (∀ i s label, Spec.IsSpectrum sp i s label → s.shape = [x.data.length]) ∧
      (∀ s us l, est = some s → Spec.Placed s us l → us = g.units) ∧ (∀ s us l, truth = some s → Spec.Placed s us l → us = g.units) := by
  rw [← units_iff, ← units_iff]
  exact accepts_units sp g x u hg hx hu hv ax cur est truth log discrete

/-- **C62** (what a 1-D plot shows). When the call goes through, spectrum number `i` is drawn as the
`i`-th command: over the values of the grid axis, normalised, with its label, in a colour different
from those of the estimates and of the ground truth; there are no other curves. The estimates (ground
truth) are drawn at exactly their locations, with height 1, i.e. as high as the maximum of a
normalised spectrum. A legend is shown exactly when there is something to tell apart. -/
theorem C62_curves (sp : SpArg) (g : SearchGrid) (x : Axis) (u : String) (hg : g.axes = [x])
    (hx : x.data ≠ []) (hu : g.units = [u])
    (hv : ∀ i s label, Spec.IsSpectrum sp i s label → s.Valid) (ax cur : ℕ)
    (est truth : Option (Σ k, Sources k)) (log discrete : Bool)
    (hok : (plotSpectrum1d sp g ax cur est truth log discrete).1 = .ok ()) :
    let cmds := (plotSpectrum1d sp g ax cur est truth log discrete).2
    (∀ i s label, Spec.IsSpectrum sp i s label → ∃ y color tgt, normalizeByMaximum s.data = .ok y ∧
      color ≠ "C2" ∧ color ≠ "C3" ∧ cmds[i]? = some (.curve tgt discrete log x.data y label color)) ∧
    (∀ i tgt st lg xs ys label color, cmds[i]? = some (.curve tgt st lg xs ys label color) →
      ∃ s, Spec.IsSpectrum sp i s label) ∧
    (∀ k (s : FF1D k), est = some ⟨k, .ff1 s⟩ →
      .sticks ax (List.ofFn s.loc) (List.replicate k 1) "Estimates" "C3" ∈ cmds) ∧
    (∀ k (s : FF1D k), truth = some ⟨k, .ff1 s⟩ →
      .sticks ax (List.ofFn s.loc) (List.replicate k 1) "Ground truth" "C2" ∈ cmds) ∧
    (∀ tgt xs ys label color, .sticks tgt xs ys label color ∈ cmds →
      (label = "Estimates" ∧ est.isSome) ∨ (label = "Ground truth" ∧ truth.isSome)) ∧
    (.legend ax ∈ cmds ↔ est.isSome ∨ truth.isSome ∨
      ∃ i s label, Spec.IsSpectrum sp i s label ∧ label ≠ "") := by
  have hax : g.axes[0]? = some x := by simp [hg]
  obtain ⟨l, hl⟩ : ∃ l, buildSpectrumList sp g = .ok l := by
    cases h : buildSpectrumList sp g with
    | error e => simp [plotSpectrum1d, h] at hok
    | ok l => exact ⟨l, rfl⟩
  obtain ⟨h1, h2, h3⟩ := (buildSpectrumList_iff sp g l).1 hl
  have hne : ∀ t ∈ l, t.1.data ≠ [] := by
    intro t ht
    obtain ⟨i, hi⟩ := List.getElem?_of_mem ht
    exact data_ne_nil (hv i t.1 t.2 ((h1 i t.1 t.2).1 hi)) hg hx (h3 t ht)
  have hd := drawSpectra_ok ax cur x.data log discrete l 0 hne
  simp only [plotSpectrum1d, hl, hax, andThen_ok] at hok
  obtain ⟨-, he, ht, -⟩ := hok
  obtain ⟨c1, c2⟩ := drawSpectra_cmds ax cur x.data log discrete l 0 hne
  have hcm : (plotSpectrum1d sp g ax cur est truth log discrete).2 =
      (drawSpectra ax cur x.data log discrete 0 l).2 ++
      ((drawSticks ax g est "Estimates" "C3").2 ++ ((drawSticks ax g truth "Ground truth" "C2").2 ++
      (if (l.any (fun t => decide (0 < t.2.length)) || est.isSome || truth.isSome) = true
        then [.legend ax] else []))) := by
    simp only [plotSpectrum1d, hl, hax]
    rw [andThen_cmds hd, andThen_cmds he, andThen_cmds ht]
  rw [hcm]
  have hcurve : ∀ c ∈ (drawSpectra ax cur x.data log discrete 0 l).2, ∃ tgt st lg xs ys label color,
      c = .curve tgt st lg xs ys label color := by
    intro c hc
    obtain ⟨i, hi⟩ := List.getElem?_of_mem hc
    have hil : i < l.length := by
      rw [← c1]; exact (List.getElem?_eq_some_iff.1 hi).1
    obtain ⟨y, -, hy⟩ := c2 i l[i].1 l[i].2 (List.getElem?_eq_getElem hil)
    rw [hi] at hy
    exact ⟨_, _, _, _, _, _, _, Option.some.inj hy⟩
  have hstick : ∀ k (s : FF1D k) lab col, (drawSticks ax g (some ⟨k, .ff1 s⟩) lab col).1 = .ok () →
      (drawSticks ax g (some ⟨k, .ff1 s⟩) lab col).2 =
        [.sticks ax (List.ofFn s.loc) (List.replicate k 1) lab col] := by
    intro k s lab col h
    have hun := (drawSticks_ok ax g u hu _ lab col).1 h _ rfl
    simp only [drawSticks, hun, ne_eq, not_true_eq_false, if_false, Sources.locations1]
    congr 2
    rw [List.map_const', List.length_ofFn]
  refine ⟨fun i s label hs => ?_, fun i tgt st lg xs ys label color hc => ?_, ?_, ?_, ?_, ?_⟩
  · have hi := (h1 i s label).2 hs
    obtain ⟨y, hy, hc⟩ := c2 i s label hi
    have hlt : i < (drawSpectra ax cur x.data log discrete 0 l).2.length := by
      rw [c1]; exact (List.getElem?_eq_some_iff.1 hi).1
    have hr := color_reserved (0 + i)
    exact ⟨y, _, _, hy, hr.1, hr.2, by rw [List.getElem?_append_left hlt, hc]⟩
  · by_cases hlt : i < (drawSpectra ax cur x.data log discrete 0 l).2.length
    · rw [List.getElem?_append_left hlt] at hc
      have hil : i < l.length := by rw [← c1]; exact hlt
      obtain ⟨y, -, hy⟩ := c2 i l[i].1 l[i].2 (List.getElem?_eq_getElem hil)
      rw [hc] at hy
      have hlab : label = l[i].2 := by
        have := Option.some.inj hy
        injection this
      exact ⟨l[i].1, (h1 i _ _).1 (by rw [List.getElem?_eq_getElem hil, hlab])⟩
    · rw [List.getElem?_append_right (not_lt.1 hlt)] at hc
      have hm := List.mem_of_getElem? hc
      rcases List.mem_append.1 hm with h | h
      · obtain ⟨_, _, h⟩ := drawSticks_cmds ax g est _ _ _ h
        cases h
      · rcases List.mem_append.1 h with h | h
        · obtain ⟨_, _, h⟩ := drawSticks_cmds ax g truth _ _ _ h
          cases h
        · split at h
          · simp at h
          · simp at h
  · rintro k s rfl
    rw [hstick k s _ _ he]
    simp
  · rintro k s rfl
    rw [hstick k s _ _ ht]
    simp
  · intro tgt xs ys label color h
    rcases List.mem_append.1 h with h | h
    · obtain ⟨_, _, _, _, _, _, _, h⟩ := hcurve _ h
      cases h
    rcases List.mem_append.1 h with h | h
    · obtain ⟨_, _, h'⟩ := drawSticks_cmds ax g est _ _ _ h
      refine Or.inl ⟨by injection h', ?_⟩
      cases est with
      | none => simp [drawSticks] at h
      | some s => rfl
    rcases List.mem_append.1 h with h | h
    · obtain ⟨_, _, h'⟩ := drawSticks_cmds ax g truth _ _ _ h
      refine Or.inr ⟨by injection h', ?_⟩
      cases truth with
      | none => simp [drawSticks] at h
      | some s => rfl
    · split at h
      · simp at h
      · simp at h
  · constructor
    · intro h
      rcases List.mem_append.1 h with h | h
      · obtain ⟨_, _, _, _, _, _, _, h⟩ := hcurve _ h
        cases h
      rcases List.mem_append.1 h with h | h
      · obtain ⟨_, _, h'⟩ := drawSticks_cmds ax g est _ _ _ h
        cases h'
      rcases List.mem_append.1 h with h | h
      · obtain ⟨_, _, h'⟩ := drawSticks_cmds ax g truth _ _ _ h
        cases h'
      split at h
      · rename_i hleg
        simp only [Bool.or_eq_true, List.any_eq_true, decide_eq_true_eq] at hleg
        rcases hleg with (⟨t, ht', hlen⟩ | h) | h
        · obtain ⟨i, hi⟩ := List.getElem?_of_mem ht'
          refine Or.inr (Or.inr ⟨i, t.1, t.2, (h1 i _ _).1 hi, ?_⟩)
          rintro h0
          rw [h0] at hlen
          simp at hlen
        · exact Or.inl h
        · exact Or.inr (Or.inl h)
      · simp at h
    · intro h
      refine List.mem_append_right _ (List.mem_append_right _ (List.mem_append_right _ ?_))
      rw [if_pos]
      · simp
      · simp only [Bool.or_eq_true, List.any_eq_true, decide_eq_true_eq]
        rcases h with h | h | ⟨i, s, label, hs, hlab⟩
        · exact Or.inl (Or.inr h)
        · exact Or.inr h
        · refine Or.inl (Or.inl ⟨(s, label), List.mem_of_getElem? ((h1 i s label).2 hs), ?_⟩)
          by_contra h0
          exact hlab (String.length_eq_zero_iff.1 (by simpa using h0))

/-- A three point grid, a spectrum on it and an estimate in the same unit. -/
noncomputable def exampleGrid3 : SearchGrid := ⟨.ff1, [⟨[-1 / 2, 0, 1 / 2], false⟩], ["DOA"], ["sin"]⟩

/-- The hypotheses of `C62_accepts` and `C62_curves` are met by a labelled spectrum with an
estimate. -/
example : (plotSpectrum1d (.dict [("MUSIC", ⟨[3], [1, 4, 2]⟩)]) exampleGrid3 0 0
    (some ⟨1, .ff1 ⟨![0], "sin"⟩⟩) none false false).1 = .ok () := by
  refine (C62_accepts _ exampleGrid3 ⟨[-1 / 2, 0, 1 / 2], false⟩ "sin" rfl (by simp) rfl ?_ _ _ _ _ _
    _).2 ⟨⟨0, ⟨[3], [1, 4, 2]⟩, "MUSIC", rfl⟩, ?_, ?_, ?_⟩
  · intro i s label h
    cases i with
    | zero =>
      simp only [Spec.IsSpectrum, List.getElem?_cons_zero, Option.some.injEq, Prod.mk.injEq] at h
      rw [← h.2]; rfl
    | succ i => simp [Spec.IsSpectrum] at h
  · intro i s label h
    cases i with
    | zero =>
      simp only [Spec.IsSpectrum, List.getElem?_cons_zero, Option.some.injEq, Prod.mk.injEq] at h
      rw [← h.2]; rfl
    | succ i => simp [Spec.IsSpectrum] at h
  · intro s us l h hp
    obtain rfl := Option.some.inj h
    cases hp
    rfl
  · intro s us l h
    cases h

/-- **C62** (axes, discrete plots or current axes). Everything is drawn on the axes passed in when
`discrete=True`, or when these axes are pyplot's current axes. Missing in general: line plots go to
pyplot's current axes instead, see `C62_axes_violated`. -/
theorem C62_axes_partial (sp : SpArg) (g : SearchGrid) (ax cur : ℕ)
    (est truth : Option (Σ k, Sources k)) (log discrete : Bool) (h : discrete = true ∨ cur = ax) :
    ∀ c ∈ (plotSpectrum1d sp g ax cur est truth log discrete).2, c.target = some ax := by
  have hsp : ∀ (x : List ℝ) (l : List (NdArr × String)) (i : ℕ),
      ∀ c ∈ (drawSpectra ax cur x log discrete i l).2, c.target = some ax := by
    intro x l
    induction l with
    | nil => intro i c hc; simp [drawSpectra] at hc
    | cons t l ih =>
      intro i c hc
      obtain ⟨s, lab⟩ := t
      unfold drawSpectra at hc
      split at hc
      · simp at hc
      · rcases List.mem_cons.1 hc with rfl | hc
        · rcases h with h | h <;> simp [PlotCmd.target, h]
        · exact ih _ c hc
  have hst : ∀ src lab col, ∀ c ∈ (drawSticks ax g src lab col).2, c.target = some ax := by
    intro src lab col c hc
    obtain ⟨_, _, rfl⟩ := drawSticks_cmds ax g src lab col c hc
    rfl
  unfold plotSpectrum1d
  split
  · simp
  · simp
  · refine andThen_target (hsp _ _ _) (andThen_target (hst _ _ _) (andThen_target (hst _ _ _) ?_))
    intro c hc
    dsimp only at hc
    split at hc
    · rw [List.mem_singleton.1 hc]; rfl
    · simp at hc

/-- **C62** (axes, violated). `plot_spectrum(sp, grid, ax=ax)` with axes that are not pyplot's
current axes returns normally but draws the spectrum on the current axes (here 7), and not on the
axes it was given and returns (here 0). -/
theorem C62_axes_violated : ∃ (sp : SpArg) (g : SearchGrid),
    (plotSpectrum sp g (some 0) 7 9 none none false none none).1 = .ok 0 ∧
    ∃ c ∈ (plotSpectrum sp g (some 0) 7 9 none none false none none).2, c.target = some 7 := by
  obtain ⟨y, hy⟩ := normalizeByMaximum_ok (x := [1, 4, 2]) (by simp)
  refine ⟨.array ⟨[3], [1, 4, 2]⟩, exampleGrid3, ?_⟩
  have : plotSpectrum (.array ⟨[3], [1, 4, 2]⟩) exampleGrid3 (some 0) 7 9 none none false none none =
      (.ok 0, [.curve 7 false false [-1 / 2, 0, 1 / 2] y "" "C0"]) := by
    simp [plotSpectrum, plotSpectrum1d, exampleGrid3, SearchGrid.ndim, SearchGrid.shape,
      buildSpectrumList, drawSpectra, hy, andThen, drawSticks, colorCycle, Except.map]
  rw [this]
  exact ⟨rfl, _, List.mem_singleton.2 rfl, rfl⟩

/-- **C62** (axes created by the call). Without `ax`, everything is drawn on the new axes, which are
also the axes returned. -/
theorem C62_new_axes (sp : SpArg) (g : SearchGrid) (cur fresh : ℕ)
    (est truth : Option (Σ k, Sources k)) (log : Bool) (discrete swap : Option Bool) :
    (∀ c ∈ (plotSpectrum sp g none cur fresh est truth log discrete swap).2,
      c.target = some fresh) ∧
    (∀ a, (plotSpectrum sp g none cur fresh est truth log discrete swap).1 = .ok a → a = fresh) := by
  have hsc : ∀ sw src lab, ∀ c ∈ (drawScatter fresh g sw src lab).2, c.target = some fresh := by
    intro sw src lab c hc
    obtain ⟨_, rfl⟩ := drawScatter_cmds fresh g sw src lab c hc
    rfl
  constructor
  · unfold plotSpectrum
    simp only [Option.getD_none, Option.isSome_none, Bool.false_eq_true, if_false]
    split
    · split
      · simp
      · exact C62_axes_partial sp g fresh fresh est truth log _ (Or.inr rfl)
    · split
      · split
        · simp
        · split
          · unfold plotSpectrum2d
            split
            · simp
            · dsimp only
              split
              · split
                · refine andThen_target ?_ (andThen_target (hsc _ _ _) (andThen_target (hsc _ _ _) ?_))
                  · intro c hc
                    rw [List.mem_singleton.1 hc]; rfl
                  · intro c hc
                    split at hc
                    · rw [List.mem_singleton.1 hc]; rfl
                    · simp at hc
                · simp
              · simp
          · simp
      · simp
  · intro a ha
    unfold plotSpectrum at ha
    simp only [Option.getD_none] at ha
    revert ha
    generalize (if g.ndim = 1 then _ else _ : Res Unit × List PlotCmd).1 = r
    intro ha
    cases r with
    | error e => cases ha
    | ok u => cases ha; rfl

/-- **C62** (rejected calls, violated). Estimates in another unit than the grid are rejected with
`ValueError`, but only after the spectrum has been drawn. -/
theorem C62_rejected_but_drawn : ∃ (sp : SpArg) (g : SearchGrid) (est : Option (Σ k, Sources k)),
    (plotSpectrum sp g (some 0) 0 9 est none false none none).1 = .error .valueError ∧
    (plotSpectrum sp g (some 0) 0 9 est none false none none).2 ≠ [] := by
  obtain ⟨y, hy⟩ := normalizeByMaximum_ok (x := [1, 4, 2]) (by simp)
  refine ⟨.array ⟨[3], [1, 4, 2]⟩, exampleGrid3, some ⟨1, .ff1 ⟨![0], "rad"⟩⟩, ?_⟩
  simp [plotSpectrum, plotSpectrum1d, exampleGrid3, SearchGrid.ndim, SearchGrid.shape,
    buildSpectrumList, drawSpectra, hy, andThen, drawSticks, Except.map, Sources.units]

/-- **C62** (dispatch). `plot_spectrum` handles one- and two-dimensional grids only; a call that
returns has drawn what `plot_spectrum_1d`, resp. `plot_spectrum_2d`, draws, and returns the axes that
were passed. -/
theorem C62_dispatch (sp : SpArg) (g : SearchGrid) (ax cur fresh : ℕ)
    (est truth : Option (Σ k, Sources k)) (log : Bool) (discrete swap : Option Bool) :
    let out := plotSpectrum sp g (some ax) cur fresh est truth log discrete swap
    (g.ndim ≠ 1 → g.ndim ≠ 2 → out = (.error .notImplementedError, [])) ∧
    (g.ndim = 1 → swap = none →
      (out.1 = .ok ax ↔
        (plotSpectrum1d sp g ax cur est truth log (discrete.getD false)).1 = .ok ()) ∧
      out.2 = (plotSpectrum1d sp g ax cur est truth log (discrete.getD false)).2) ∧
    (∀ x, g.ndim = 2 → discrete = none → sp = .array x →
      (out.1 = .ok ax ↔ (plotSpectrum2d x g ax est truth log (swap.getD false)).1 = .ok ()) ∧
      out.2 = (plotSpectrum2d x g ax est truth log (swap.getD false)).2) := by
  have hmap : ∀ r : Res Unit, (r.map fun _ => ax) = .ok ax ↔ r = .ok () := by
    intro r
    cases r with
    | error e => simp [Except.map]
    | ok u => simp [Except.map]
  refine ⟨fun h1 h2 => ?_, fun h1 h2 => ?_, fun x h1 h2 h3 => ?_⟩
  · simp [plotSpectrum, h1, h2, Except.map]
  · subst h2
    refine ⟨?_, ?_⟩
    · refine Iff.trans ?_ (hmap _)
      simp [plotSpectrum, h1]
    · simp [plotSpectrum, h1]
  · subst h2 h3
    refine ⟨?_, ?_⟩
    · refine Iff.trans ?_ (hmap _)
      simp [plotSpectrum, h1]
    · simp [plotSpectrum, h1]

/-- **C62** (2-D plots). For a spectrum of the shape of the grid, with sources in the units of the
grid, `plot_spectrum_2d` draws one image whose extent is the range of the two axes. Without
`swap_axes` the first grid axis is horizontal: entry `(i, j)` of the spectrum is in column `i` and row
`j`, and a source at `(p, q)` is marked at the point `(p, q)`; with `swap_axes` columns and rows, the
two extents, the axis labels and the coordinates of the markers are all exchanged. -/
theorem C62_image (sp : NdArr) (g : SearchGrid) (x y : Axis) (nx ny ux uy : String)
    (hg : g.axes = [x, y]) (hn : g.axisNames = [nx, ny]) (hu : g.units = [ux, uy])
    (hx : x.data ≠ []) (hy : y.data ≠ []) (hs : sp.shape = [x.data.length, y.data.length])
    (ax : ℕ) (est truth : Option (Σ k, Sources k)) (log : Bool)
    (he : ∀ s us l, est = some s → Spec.Placed s us l → us = g.units)
    (ht : ∀ s us l, truth = some s → Spec.Placed s us l → us = g.units) :
    ∃ x0 x1 y0 y1, IsLeast {v | v ∈ x.data} x0 ∧ IsGreatest {v | v ∈ x.data} x1 ∧
      IsLeast {v | v ∈ y.data} y0 ∧ IsGreatest {v | v ∈ y.data} y1 ∧
      (∃ pix, (∀ i j v, i < x.data.length → j < y.data.length →
          sp.data[i * y.data.length + j]? = some v → pix j i = v) ∧
        (plotSpectrum2d sp g ax est truth log false).1 = .ok () ∧
        (plotSpectrum2d sp g ax est truth log false).2[0]? =
          some (.image ax y.data.length x.data.length pix x0 x1 y0 y1 log
            (nx ++ "/" ++ ux) (ny ++ "/" ++ uy)) ∧
        (∀ s us l, est = some s → Spec.Placed s us l →
          .scatter ax l "Estimates" ∈
            (plotSpectrum2d sp g ax est truth log false).2) ∧
        (∀ s us l, truth = some s → Spec.Placed s us l →
          .scatter ax l "Ground truth" ∈
            (plotSpectrum2d sp g ax est truth log false).2)) ∧
      (∃ pix, (∀ i j v, i < x.data.length → j < y.data.length →
          sp.data[i * y.data.length + j]? = some v → pix i j = v) ∧
        (plotSpectrum2d sp g ax est truth log true).1 = .ok () ∧
        (plotSpectrum2d sp g ax est truth log true).2[0]? =
          some (.image ax x.data.length y.data.length pix y0 y1 x0 x1 log
            (ny ++ "/" ++ uy) (nx ++ "/" ++ ux)) ∧
        (∀ s us l, est = some s → Spec.Placed s us l →
          .scatter ax (l.map List.reverse) "Estimates" ∈
            (plotSpectrum2d sp g ax est truth log true).2) ∧
        (∀ s us l, truth = some s → Spec.Placed s us l →
          .scatter ax (l.map List.reverse) "Ground truth" ∈
            (plotSpectrum2d sp g ax est truth log true).2)) := by
  have he' := (units_iff _ _).2 he
  have ht' := (units_iff _ _).2 ht
  have hmin : ∀ l : List ℝ, l ≠ [] → ∃ m, l.min? = some m ∧ IsLeast {v | v ∈ l} m := by
    intro l hl
    obtain ⟨m, hm⟩ : ∃ m, l.min? = some m := Option.ne_none_iff_exists'.1 (by simpa using hl)
    exact ⟨m, hm, List.min?_mem hm, fun v hv => (List.min?_eq_some_iff.1 hm).2 v hv⟩
  have hmax : ∀ l : List ℝ, l ≠ [] → ∃ m, l.max? = some m ∧ IsGreatest {v | v ∈ l} m := by
    intro l hl
    obtain ⟨m, hm⟩ : ∃ m, l.max? = some m := Option.ne_none_iff_exists'.1 (by simpa using hl)
    exact ⟨m, hm, List.max?_mem hm, fun v hv => (List.max?_eq_some_iff.1 hm).2 v hv⟩
  obtain ⟨x0, hx0, lx0⟩ := hmin _ hx
  obtain ⟨x1, hx1, lx1⟩ := hmax _ hx
  obtain ⟨y0, hy0, ly0⟩ := hmin _ hy
  obtain ⟨y1, hy1, ly1⟩ := hmax _ hy
  have hshape : g.shape = [x.data.length, y.data.length] := by simp [SearchGrid.shape, hg]
  have hscat : ∀ (sw : Bool) (src : Option (Σ k, Sources k)) (lab : String),
      (∀ s, src = some s → s.2.units = g.units) →
      (drawScatter ax g sw src lab).1 = .ok () ∧
      ∀ s us l, src = some s → Spec.Placed s us l → (drawScatter ax g sw src lab).2 =
        [.scatter ax (if sw then l.map List.reverse else l) lab] := by
    intro sw src lab h
    cases src with
    | none => exact ⟨rfl, fun s us l h => by cases h⟩
    | some s =>
      have hs' := h s rfl
      obtain ⟨k, s⟩ := s
      constructor
      · cases s with
        | ff1 s => rw [hu] at hs'; simp [Sources.units] at hs'
        | ff2 s => simp only [drawScatter, hs', ne_eq, not_true_eq_false, if_false, Sources.locations2]
        | nf s => simp only [drawScatter, hs', ne_eq, not_true_eq_false, if_false, Sources.locations2]
      · intro s' us l h' hl
        obtain rfl := Option.some.inj h'
        cases hl with
        | ff1 s => rw [hu] at hs'; simp [Sources.units] at hs'
        | ff2 s =>
          simp only [drawScatter, hs', ne_eq, not_true_eq_false, if_false, Sources.locations2]
          cases sw <;> simp [List.map_ofFn, Function.comp_def]
        | nf s =>
          simp only [drawScatter, hs', ne_eq, not_true_eq_false, if_false, Sources.locations2]
          cases sw <;> simp [List.map_ofFn, Function.comp_def]
  refine ⟨x0, x1, y0, y1, lx0, lx1, ly0, ly1, ?_, ?_⟩
  · obtain ⟨e1, e2⟩ := hscat false est "Estimates" he'
    obtain ⟨t1, t2⟩ := hscat false truth "Ground truth" ht'
    have hmain : plotSpectrum2d sp g ax est truth log false =
        andThen (.ok (), [.image ax y.data.length x.data.length
          (fun r c => sp.data.getD (c * y.data.length + r) 0) x0 x1 y0 y1 log
          (nx ++ "/" ++ ux) (ny ++ "/" ++ uy)])
        (andThen (drawScatter ax g false est "Estimates")
        (andThen (drawScatter ax g false truth "Ground truth")
        (.ok (), if (est.isSome || truth.isSome) = true then [.legend ax] else []))) := by
      simp [plotSpectrum2d, hs, hshape, hg, hn, hu, hx0, hx1, hy0, hy1]
    refine ⟨fun r c => sp.data.getD (c * y.data.length + r) 0, ?_, ?_, ?_, ?_, ?_⟩
    · intro i j v _ _ hv
      simp [List.getD_eq_getElem?_getD, hv]
    · rw [hmain, andThen_ok, andThen_ok, andThen_ok]
      exact ⟨rfl, e1, t1, rfl⟩
    · rw [hmain, andThen_cmds rfl]
      rfl
    · intro s us l h hl
      rw [hmain, andThen_cmds rfl, andThen_cmds e1, e2 s us l h hl]
      simp
    · intro s us l h hl
      rw [hmain, andThen_cmds rfl, andThen_cmds e1, andThen_cmds t1, t2 s us l h hl]
      simp
  · obtain ⟨e1, e2⟩ := hscat true est "Estimates" he'
    obtain ⟨t1, t2⟩ := hscat true truth "Ground truth" ht'
    have hmain : plotSpectrum2d sp g ax est truth log true =
        andThen (.ok (), [.image ax x.data.length y.data.length
          (fun r c => sp.data.getD (r * y.data.length + c) 0) y0 y1 x0 x1 log
          (ny ++ "/" ++ uy) (nx ++ "/" ++ ux)])
        (andThen (drawScatter ax g true est "Estimates")
        (andThen (drawScatter ax g true truth "Ground truth")
        (.ok (), if (est.isSome || truth.isSome) = true then [.legend ax] else []))) := by
      simp [plotSpectrum2d, hs, hshape, hg, hn, hu, hx0, hx1, hy0, hy1]
    refine ⟨fun r c => sp.data.getD (r * y.data.length + c) 0, ?_, ?_, ?_, ?_, ?_⟩
    · intro i j v _ _ hv
      simp [List.getD_eq_getElem?_getD, hv]
    · rw [hmain, andThen_ok, andThen_ok, andThen_ok]
      exact ⟨rfl, e1, t1, rfl⟩
    · rw [hmain, andThen_cmds rfl]
      rfl
    · intro s us l h hl
      rw [hmain, andThen_cmds rfl, andThen_cmds e1, e2 s us l h hl]
      simp
    · intro s us l h hl
      rw [hmain, andThen_cmds rfl, andThen_cmds e1, andThen_cmds t1, t2 s us l h hl]
      simp

/-- A `2 × 1` grid with a spectrum and an estimate meets the hypotheses of `C62_image`. -/
example : ∃ (g : SearchGrid) (x y : Axis) (sp : NdArr) (s : Σ k, Sources k),
    g.axes = [x, y] ∧ x.data ≠ [] ∧ y.data ≠ [] ∧ sp.shape = [x.data.length, y.data.length] ∧
    (∀ us l, Spec.Placed s us l → us = g.units) ∧ g.units = ["deg", "deg"] :=
  ⟨⟨.ff2, [⟨[0, 1], false⟩, ⟨[5], false⟩], ["Azimuth", "Elevation"], ["deg", "deg"]⟩, ⟨[0, 1], false⟩,
    ⟨[5], false⟩, ⟨[2, 1], [1, 2]⟩, ⟨1, .ff2 ⟨fun _ => (1, 5), "deg"⟩⟩, rfl, by simp, by simp, rfl,
    fun us l h => by cases h; rfl, rfl⟩

/-- **C62** (image registration, uniform axes). If the axis values are equally spaced, each axis
value lies in the image cell that shows the spectrum at this value. Missing: axes that are not
equally spaced, see `C62_registration_violated`. -/
theorem C62_registration_partial (data : List ℝ) (a h lo hi : ℝ) (hpos : 0 < h)
    (hdata : ∀ (c : ℕ) (v : ℝ), data[c]? = some v → v = a + c * h)
    (hlo : IsLeast {v | v ∈ data} lo) (hhi : IsGreatest {v | v ∈ data} hi) (c : ℕ) (v : ℝ)
    (hv : data[c]? = some v) : Spec.InCell lo hi data.length c v := by
  have hlt : ∀ {c : ℕ} {v : ℝ}, data[c]? = some v → c < data.length := fun h =>
    (List.getElem?_eq_some_iff.1 h).1
  have hlo' : lo = a := by
    obtain ⟨i, hi'⟩ := List.getElem?_of_mem hlo.1
    have h0 : (0 : ℕ) < data.length := lt_of_le_of_lt (Nat.zero_le _) (hlt hi')
    have e0 := hdata 0 _ (List.getElem?_eq_getElem h0)
    have := hlo.2 (show data[0] ∈ data from List.getElem_mem h0)
    have e1 := hdata i _ hi'
    have : (0 : ℝ) ≤ i * h := by positivity
    simp only [Nat.cast_zero, zero_mul, add_zero] at e0
    linarith
  have hn : 0 < data.length := lt_of_le_of_lt (Nat.zero_le _) (hlt hv)
  have hhi' : hi = a + ((data.length : ℝ) - 1) * h := by
    obtain ⟨i, hi'⟩ := List.getElem?_of_mem hhi.1
    have hl : data.length - 1 < data.length := by omega
    have e0 := hdata _ _ (List.getElem?_eq_getElem hl)
    have h2 := hhi.2 (show data[data.length - 1] ∈ data from List.getElem_mem hl)
    have e1 := hdata i _ hi'
    have hc : ((data.length - 1 : ℕ) : ℝ) = (data.length : ℝ) - 1 := by
      rw [Nat.cast_sub hn]; simp
    rw [hc] at e0
    have h3 : (i : ℝ) ≤ (data.length : ℝ) - 1 := by
      have := hlt hi'
      have : (i : ℝ) + 1 ≤ data.length := by exact_mod_cast this
      linarith
    have h4 : (i : ℝ) * h ≤ ((data.length : ℝ) - 1) * h := mul_le_mul_of_nonneg_right h3 hpos.le
    linarith
  have e := hdata c v hv
  have hc : (c : ℝ) + 1 ≤ data.length := by exact_mod_cast hlt hv
  have hN : (0 : ℝ) < data.length := by exact_mod_cast hn
  unfold Spec.InCell
  rw [hlo', hhi', e]
  have hd : (a + ((data.length : ℝ) - 1) * h - a) / data.length =
      h - h / data.length := by
    field_simp
    ring
  rw [hd]
  have hq : (c : ℝ) * (h / data.length) ≥ 0 := by positivity
  have hq2 : ((c : ℝ) + 1) * (h / data.length) ≤ h := by
    rw [← mul_div_assoc, div_le_iff₀ hN]
    nlinarith
  constructor <;> nlinarith

/-- Non-vacuity: the axis `0, 2, 4`. -/
example : ∀ (c : ℕ) (v : ℝ), ([0, 2, 4] : List ℝ)[c]? = some v → v = 0 + c * 2 := by
  intro c v h
  match c with
  | 0 => simp at h; rw [← h]; norm_num
  | 1 => simp at h; rw [← h]; norm_num
  | 2 => simp at h; rw [← h]; norm_num
  | c + 3 => simp at h

/-- **C62** (image registration, violated). A grid made from explicit axis values `0, 1, 10`: the
image draws the spectrum at the second value over `[10/3, 20/3]`, which does not contain it; a marker
at this location appears over another cell. -/
theorem C62_registration_violated : ∃ (x : Axis) (lo hi v : ℝ), IsLeast {v | v ∈ x.data} lo ∧
    IsGreatest {v | v ∈ x.data} hi ∧ x.data[1]? = some v ∧ x.data.Pairwise (· < ·) ∧
    ff2dGrid (.axes [x.data, [0, 1]]) "deg" =
      .ok ⟨.ff2, [x, ⟨[0, 1], false⟩], ["Azimuth", "Elevation"], ["deg", "deg"]⟩ ∧
    ¬ Spec.InCell lo hi x.data.length 1 v ∧ Spec.InCell lo hi x.data.length 0 v := by
  refine ⟨⟨[0, 1, 10], false⟩, 0, 10, 1, ⟨by simp, ?_⟩, ⟨by simp, ?_⟩, rfl, ?_, rfl, ?_, ?_⟩
  · intro v hv
    simp at hv
    rcases hv with rfl | rfl | rfl <;> norm_num
  · intro v hv
    simp at hv
    rcases hv with rfl | rfl | rfl <;> norm_num
  · simp
  · unfold Spec.InCell
    norm_num
  · unfold Spec.InCell
    norm_num

/-- **C62** (nominal locations). For a 1-D, 2-D or 3-D array, `plot_array` succeeds on the axes it is
given and scatters the nominal location of every sensor (with second coordinate 0 for linear
arrays). -/
theorem C62_nominal (a : ArrayDesign) (ax : ℕ) (fresh : ℕ) (show_ : Bool)
    (h : 1 ≤ a.locations.ncols ∧ a.locations.ncols ≤ 3) :
    (plotArray a (some ax) fresh show_).1 = .ok ax ∧
    ∃ pts, .scatter ax pts "Nominal locations" ∈ (plotArray a (some ax) fresh show_).2 ∧
      pts.length = a.size ∧ ∀ (i : ℕ) (p : List ℝ), pts[i]? = some p →
        p.length = max 2 a.locations.ncols ∧ ∀ j < p.length, p[j]? = some (a.locations.at0 i j) := by
  have hkey : a.hasPerturbationKey (.str "location_errors") = false := by
    simp [ArrayDesign.hasPerturbationKey]
  obtain ⟨⟨n, rows⟩, nm, el, perts⟩ := a
  have hpts : ∃ pts, scatterLocations ax false ⟨n, rows⟩ "Nominal locations" =
      (.ok (), [.scatter ax pts "Nominal locations"]) ∧ pts.length = rows.length ∧
      ∀ (i : ℕ) (p : List ℝ), pts[i]? = some p → p.length = max 2 n ∧
        ∀ j < p.length, p[j]? = some (Mat.at0 ⟨n, rows⟩ i j) := by
    have hcase : n = 1 ∨ n = 2 ∨ n = 3 := by
      have := h.1; have := h.2; dsimp at *; omega
    rcases hcase with rfl | rfl | rfl
    · refine ⟨rows.map fun r => List.ofFn r ++ [0], by
        simp [scatterLocations, plottedLocations, autoScatter], by simp, ?_⟩
      intro i p hp
      rw [List.getElem?_map, Option.map_eq_some_iff] at hp
      obtain ⟨r, hr, rfl⟩ := hp
      refine ⟨by simp, fun j hj => ?_⟩
      have hj : j < 2 := by simpa using hj
      interval_cases j <;> simp [Mat.at0, Mat.get?, hr]
    · refine ⟨rows.map fun r => List.ofFn r, by
        simp [scatterLocations, plottedLocations, autoScatter], by simp, ?_⟩
      intro i p hp
      rw [List.getElem?_map, Option.map_eq_some_iff] at hp
      obtain ⟨r, hr, rfl⟩ := hp
      refine ⟨by simp, fun j hj => ?_⟩
      have hj : j < 2 := by simpa using hj
      interval_cases j <;> simp [Mat.at0, Mat.get?, hr]
    · refine ⟨rows.map fun r => List.ofFn r, by
        simp [scatterLocations, plottedLocations, autoScatter], by simp, ?_⟩
      intro i p hp
      rw [List.getElem?_map, Option.map_eq_some_iff] at hp
      obtain ⟨r, hr, rfl⟩ := hp
      refine ⟨by simp, fun j hj => ?_⟩
      have hj : j < 3 := by simpa using hj
      interval_cases j <;> simp [Mat.at0, Mat.get?, hr]
  obtain ⟨pts, h1, h2, h3⟩ := hpts
  have hrun : plotArray ⟨⟨n, rows⟩, nm, el, perts⟩ (some ax) fresh show_ = (.ok ax,
      (if show_ then [.warning] else []) ++ [.scatter ax pts "Nominal locations", .legend ax]) := by
    cases show_ <;> simp [plotArray, plotArrayImpl, hkey, h1, andThen, Except.map]
  rw [hrun]
  exact ⟨rfl, pts, by simp, h2, h3⟩

/-- A linear array of two sensors. -/
example : 1 ≤ (ArrayDesign.mk (Mat.col [0, 1]) none .isotropicScalar []).locations.ncols ∧
    (ArrayDesign.mk (Mat.col [0, 1]) none .isotropicScalar []).locations.ncols ≤ 3 := by
  simp [Mat.col]

/-- **C62** (coarray plots). For a non-empty 1-D, 2-D or 3-D array `plot_coarray` scatters differences
of sensor locations only, and every difference of two sensor locations is within `1e-8` times the
largest coordinate difference of a plotted point. -/
theorem C62_coarray_points (a : ArrayDesign) (ax fresh : ℕ) (show_ : Bool) (hn : 0 < a.size)
    (h : 1 ≤ a.ndim ∧ a.ndim ≤ 3) (M : ℝ)
    (hM : IsGreatest {t | ∃ p < a.size, ∃ q < a.size, ∃ j < a.ndim,
      t = |a.locations.at0 q j - a.locations.at0 p j|} M) :
    (plotCoarray a (some ax) fresh show_).1 = .ok ax ∧
    ∃ pts, .scatter ax pts "Nominal locations" ∈ (plotCoarray a (some ax) fresh show_).2 ∧
      (∀ pt ∈ pts, ∃ p < a.size, ∃ q < a.size, ∀ j < a.ndim,
        pt[j]? = some (a.locations.at0 q j - a.locations.at0 p j)) ∧
      (∀ p < a.size, ∀ q < a.size, ∃ pt ∈ pts, ∀ j < a.ndim, ∃ v, pt[j]? = some v ∧
        |v - (a.locations.at0 q j - a.locations.at0 p j)| ≤ 1 / 100000000 * M) := by
  have hkey : a.hasPerturbationKey (.str "location_errors") = false := by
    simp [ArrayDesign.hasPerturbationKey]
  have hM0 : 0 ≤ M := by
    obtain ⟨p, -, q, -, j, -, rfl⟩ := hM.1
    exact abs_nonneg _
  obtain ⟨y, y1, y2, -, y3, y4⟩ := C30_differences_cover a.locations hn h.1 0 (1 / 100000000) M hM
    (by positivity)
  have hpts : ∃ pts, autoScatter ax y "Nominal locations" =
      (.ok (), [.scatter ax pts "Nominal locations"]) ∧ pts.length = y.nrows ∧
      ∀ (t j : ℕ) (hj : j < y.ncols) (p : List ℝ), pts[t]? = some p → p[j]? = y.get? t j := by
    obtain ⟨n, rows⟩ := y
    have hcase : n = 1 ∨ n = 2 ∨ n = 3 := by
      have h1 := h.1; have h2 := h.2
      change n = a.locations.ncols at y2
      rw [ArrayDesign.ndim, ← y2] at h1 h2
      omega
    rcases hcase with rfl | rfl | rfl
    · refine ⟨rows.map fun r => List.ofFn r ++ [0], by simp [autoScatter], by simp [Mat.nrows], ?_⟩
      intro t j hj p hp
      rw [List.getElem?_map, Option.map_eq_some_iff] at hp
      obtain ⟨r, hr, rfl⟩ := hp
      have hj : j < 1 := hj
      interval_cases j
      simp [Mat.get?, hr]
    · refine ⟨rows.map fun r => List.ofFn r, by simp [autoScatter], by simp [Mat.nrows], ?_⟩
      intro t j hj p hp
      rw [List.getElem?_map, Option.map_eq_some_iff] at hp
      obtain ⟨r, hr, rfl⟩ := hp
      have hj : j < 2 := hj
      interval_cases j <;> simp [Mat.get?, hr]
    · refine ⟨rows.map fun r => List.ofFn r, by simp [autoScatter], by simp [Mat.nrows], ?_⟩
      intro t j hj p hp
      rw [List.getElem?_map, Option.map_eq_some_iff] at hp
      obtain ⟨r, hr, rfl⟩ := hp
      have hj : j < 3 := hj
      interval_cases j <;> simp [Mat.get?, hr]
  obtain ⟨pts, h1, h2, h3⟩ := hpts
  have hsc : scatterLocations ax true a.locations "Nominal locations" =
      (.ok (), [.scatter ax pts "Nominal locations"]) := by
    simp only [scatterLocations, plottedLocations, if_true, y1, h1]
  have hrun : plotCoarray a (some ax) fresh show_ = (.ok ax,
      (if show_ then [.warning] else []) ++ [.scatter ax pts "Nominal locations", .legend ax]) := by
    cases show_ <;> simp [plotCoarray, plotArrayImpl, hkey, hsc, andThen, Except.map]
  rw [hrun]
  refine ⟨rfl, pts, by simp, ?_, ?_⟩
  · intro pt hpt
    obtain ⟨t, ht⟩ := List.getElem?_of_mem hpt
    have htl : t < y.nrows := by rw [← h2]; exact (List.getElem?_eq_some_iff.1 ht).1
    obtain ⟨p, hp, q, hq, hd⟩ := y3 t htl
    exact ⟨p, hp, q, hq, fun j hj => by rw [h3 t j (y2 ▸ hj) pt ht]; exact hd j hj⟩
  · intro p hp q hq
    obtain ⟨t, ht, hd⟩ := y4 p hp q hq
    have htl : t < pts.length := by rw [h2]; exact ht
    refine ⟨pts[t], List.getElem_mem htl, fun j hj => ?_⟩
    obtain ⟨v, hv, hvd⟩ := hd j hj
    refine ⟨v, ?_, by simpa using hvd⟩
    rw [h3 t j (y2 ▸ hj) _ (List.getElem?_eq_getElem htl)]
    exact hv

/-- **C62** (location errors are never displayed). Whatever the array, `plot_array` and
`plot_coarray` with `show_location_errors=True` draw exactly what they draw without it, preceded by
the warning that the array has no location errors. -/
theorem C62_location_errors_never_shown (a : ArrayDesign) (ax : Option ℕ) (fresh : ℕ) :
    (plotArray a ax fresh true).1 = (plotArray a ax fresh false).1 ∧
    (plotArray a ax fresh true).2 = .warning :: (plotArray a ax fresh false).2 ∧
    (plotCoarray a ax fresh true).1 = (plotCoarray a ax fresh false).1 ∧
    (plotCoarray a ax fresh true).2 = .warning :: (plotCoarray a ax fresh false).2 := by
  have hkey : a.hasPerturbationKey (.str "location_errors") = false := by
    simp [ArrayDesign.hasPerturbationKey]
  simp [plotArray, plotCoarray, plotArrayImpl, hkey, andThen]

/-- **C62** (location errors, violated). An array of two sensors at 0 and 1 whose second sensor is
displaced by 1/2, created by the public constructor, has location errors (looked up by class); with
`show_location_errors=True`, `plot_array` does not draw any point at the actual location 3/2. -/
theorem C62_location_errors_violated : ∃ (a : ArrayDesign) (p : Perturbation),
    ArrayDesign.init (.vec [0, 1]) none { perturbations := [p] } = .ok a ∧
    a.hasPerturbation .location = true ∧ a.actualElementLocations.at0 1 0 = 3 / 2 ∧
    ∀ t pts label, .scatter t pts label ∈ (plotArray a (some 0) 9 true).2 →
      ∀ pt ∈ pts, pt[0]? ≠ some (3 / 2 : ℝ) := by
  refine ⟨⟨Mat.col [0, 1], none, .isotropicScalar,
    [(.location, .location (Mat.col [0, 1 / 2]) true)]⟩, .location (Mat.col [0, 1 / 2]) true,
    ?_, ?_, ?_, ?_⟩
  · simp [ArrayDesign.init, addPerturbations, addPerturbation, Perturbation.isApplicable, Mat.col,
      Mat.nrows, PyDict.contains, PyDict.set, Perturbation.kind]
  · simp [ArrayDesign.hasPerturbation, PyDict.contains, PyDict.get?]
  · have : (ArrayDesign.mk (Mat.col [0, 1]) none .isotropicScalar
        [(.location, .location (Mat.col [0, 1 / 2]) true)]).actualElementLocations =
        perturbLocations (Mat.col [0, 1 / 2]) (Mat.col [0, 1]) := rfl
    rw [this]
    simp [perturbLocations, Mat.col, Mat.at0, Mat.get?]
    norm_num
    rfl
  · intro t pts label hm
    rw [(C62_location_errors_never_shown _ (some 0) 9).2.1] at hm
    simp [plotArray, plotArrayImpl, ArrayDesign.hasPerturbationKey, andThen, scatterLocations,
      plottedLocations, autoScatter, Mat.col, Except.map] at hm
    rw [hm.2.1]
    simp
    norm_num

/-- **C62** (3-D limits). Unless all three ranges are zero, the limits chosen by the 3-D view have the
same length in all three directions, namely the largest of the three original lengths. -/
theorem C62_aspect_ranges (limits : Fin 3 → ℝ × ℝ) :
    (fix3dAspect limits = none ↔ ∀ i, (limits i).1 = (limits i).2) ∧
    ∀ out, fix3dAspect limits = some out → ∃ r, IsGreatest
      {t | ∃ i, t = |(limits i).2 - (limits i).1|} r ∧ 0 < r ∧ ∀ i, |(out i).2 - (out i).1| = r := by
  set ranges : Fin 3 → ℝ := fun i => |(limits i).2 - (limits i).1| with hr
  set M := max (max (ranges 0) (ranges 1)) (ranges 2) with hM
  have hle : ∀ i, ranges i ≤ M := by
    intro i
    fin_cases i
    · exact (le_max_left _ _).trans (le_max_left _ _)
    · exact (le_max_right _ _).trans (le_max_left _ _)
    · exact le_max_right _ _
  have hge : ∃ i, M = ranges i := by
    rcases max_choice (max (ranges 0) (ranges 1)) (ranges 2) with h | h
    · rcases max_choice (ranges 0) (ranges 1) with h' | h'
      · exact ⟨0, h.trans h'⟩
      · exact ⟨1, h.trans h'⟩
    · exact ⟨2, h⟩
  have h0 : ∀ i, 0 ≤ ranges i := fun i => abs_nonneg _
  have hM0 : 0 ≤ M := (h0 0).trans (hle 0)
  have hun : fix3dAspect limits = if M = 0 then none else some fun i =>
      if ranges i = 0 then (-M / 2, M / 2)
      else ((limits i).1 * M / ranges i, (limits i).2 * M / ranges i) := rfl
  rw [hun]
  constructor
  · constructor
    · intro h i
      have hz : M = 0 := by
        by_contra hne
        rw [if_neg hne] at h
        cases h
      have : ranges i = 0 := le_antisymm (hz ▸ hle i) (h0 i)
      have := abs_eq_zero.1 this
      linarith
    · intro h
      obtain ⟨i, hi⟩ := hge
      rw [if_pos]
      rw [hi, hr]
      simp [h i]
  · intro out hout
    by_cases hz : M = 0
    · rw [if_pos hz] at hout
      cases hout
    · rw [if_neg hz] at hout
      obtain rfl := Option.some.inj hout
      have hpos : 0 < M := lt_of_le_of_ne hM0 (Ne.symm hz)
      refine ⟨M, ⟨?_, ?_⟩, hpos, ?_⟩
      · obtain ⟨i, hi⟩ := hge
        exact ⟨i, hi⟩
      · rintro _ ⟨i, rfl⟩
        exact hle i
      · intro i
        dsimp only
        by_cases hi : ranges i = 0
        · rw [if_pos hi]
          dsimp only
          rw [show M / 2 - -M / 2 = M by ring, abs_of_pos hpos]
        · rw [if_neg hi]
          dsimp only
          rw [show (limits i).2 * M / ranges i - (limits i).1 * M / ranges i =
            ((limits i).2 - (limits i).1) * (M / ranges i) by ring, abs_mul,
            abs_of_nonneg (div_nonneg hM0 (h0 i))]
          change ranges i * (M / ranges i) = M
          field_simp

/-- **C62** (3-D limits, around the origin). If every original interval contains 0, the new intervals
contain the original ones, so no sensor leaves the view. Missing: arrays away from the origin, see
`C62_aspect_violated`. -/
theorem C62_aspect_contains_partial (limits out : Fin 3 → ℝ × ℝ)
    (h : ∀ i, (limits i).1 ≤ 0 ∧ 0 ≤ (limits i).2) (ho : fix3dAspect limits = some out) :
    ∀ i, (out i).1 ≤ (limits i).1 ∧ (limits i).2 ≤ (out i).2 := by
  set ranges : Fin 3 → ℝ := fun i => |(limits i).2 - (limits i).1| with hr
  set M := max (max (ranges 0) (ranges 1)) (ranges 2) with hM
  have hle : ∀ i, ranges i ≤ M := by
    intro i
    fin_cases i
    · exact (le_max_left _ _).trans (le_max_left _ _)
    · exact (le_max_right _ _).trans (le_max_left _ _)
    · exact le_max_right _ _
  have h0 : ∀ i, 0 ≤ ranges i := fun i => abs_nonneg _
  have hM0 : 0 ≤ M := (h0 0).trans (hle 0)
  have hun : fix3dAspect limits = if M = 0 then none else some fun i =>
      if ranges i = 0 then (-M / 2, M / 2)
      else ((limits i).1 * M / ranges i, (limits i).2 * M / ranges i) := rfl
  rw [hun] at ho
  by_cases hz : M = 0
  · rw [if_pos hz] at ho
    cases ho
  · rw [if_neg hz] at ho
    obtain rfl := Option.some.inj ho
    intro i
    dsimp only
    by_cases hi : ranges i = 0
    · rw [if_pos hi]
      have := abs_eq_zero.1 hi
      have := h i
      dsimp only
      constructor <;> linarith
    · rw [if_neg hi]
      dsimp only
      have hpos : 0 < ranges i := lt_of_le_of_ne (h0 i) (Ne.symm hi)
      constructor
      · rw [div_le_iff₀ hpos]
        exact mul_le_mul_of_nonpos_left (hle i) (h i).1
      · rw [le_div_iff₀ hpos]
        exact mul_le_mul_of_nonneg_left (hle i) (h i).2

/-- Non-vacuity: limits around the origin with different ranges. -/
example : ∃ out, fix3dAspect ![(-1, 1), (-2, 3), (0, 1)] = some out :=
  Option.ne_none_iff_exists'.1 fun h => by
    have := (C62_aspect_ranges _).1.1 h 0
    norm_num at this

/-- **C62** (3-D limits, violated). With original limits `[10, 11] × [0, 10] × [0, 1]` the new limits
for the first coordinate are `[100, 110]`: every sensor is out of view. -/
theorem C62_aspect_violated : ∃ (limits out : Fin 3 → ℝ × ℝ), fix3dAspect limits = some out ∧
    (∀ i, (limits i).1 < (limits i).2) ∧
    ∀ v, (limits 0).1 ≤ v → v ≤ (limits 0).2 → v < (out 0).1 := by
  have hn : fix3dAspect ![(10, 11), (0, 10), (0, 1)] ≠ none := fun h => by
    have := (C62_aspect_ranges _).1.1 h 0
    norm_num at this
  obtain ⟨out, ho⟩ := Option.ne_none_iff_exists'.1 hn
  refine ⟨_, out, ho, ?_, ?_⟩
  · intro i
    fin_cases i <;> norm_num
  · have hm : max (max |(11 : ℝ) - 10| |(10 : ℝ) - 0|) |(1 : ℝ) - 0| = 10 := by norm_num
    have h1 : (out 0).1 = 100 := by
      unfold fix3dAspect at ho
      dsimp only at ho
      split at ho
      · cases ho
      · rw [← Option.some.inj ho]
        dsimp only
        split
        · rename_i h0
          norm_num at h0
        · change (10 : ℝ) * max (max |(11 : ℝ) - 10| |(10 : ℝ) - 0|) |(1 : ℝ) - 0| / |(11 : ℝ) - 10| = 100
          rw [hm]
          norm_num
    intro v _ h3
    norm_num at h3
    rw [h1]
    linarith

end Doa.Props
