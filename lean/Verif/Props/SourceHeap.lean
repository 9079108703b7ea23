import Mathlib.Data.List.Nodup
import Mathlib.Tactic.Ring
import Mathlib.Tactic.Linarith
import Verif.Model.SourceHeap

/-!
# C23: indexing source placements
-/

namespace Doa.Props

open Doa

variable {α : Type}

theorem filterMap_get_map (xs : List α) (idx : List ℕ) (h : ∀ i ∈ idx, i < xs.length) :
    (idx.filterMap fun i => xs[i]?).length = idx.length ∧
    ∀ t i : ℕ, idx[t]? = some i → (idx.filterMap fun i => xs[i]?)[t]? = xs[i]? := by
  induction idx with
  | nil => simp
  | cons a l ih =>
    have ha := h a List.mem_cons_self
    obtain ⟨h1, h2⟩ := ih fun i hi => h i (List.mem_cons_of_mem _ hi)
    have e : (a :: l).filterMap (fun i => xs[i]?) = xs[a] :: l.filterMap fun i => xs[i]? := by
      rw [List.filterMap_cons, List.getElem?_eq_getElem ha]
    rw [e]
    refine ⟨by simp [h1], ?_⟩
    intro t i ht
    cases t with
    | zero =>
      simp only [List.getElem?_cons_zero, Option.some.injEq] at ht
      subst ht
      simp [List.getElem?_eq_getElem ha]
    | succ t => simpa using h2 t i (by simpa using ht)

/-! ### What the keys select -/

theorem pyIndex_spec (n : ℕ) (i : ℤ) :
    ((-(n : ℤ) ≤ i ∧ i < n) → ∃ j, pyIndex n i = .ok j ∧ j < n ∧ (j : ℤ) = i % n) ∧
    (¬ (-(n : ℤ) ≤ i ∧ i < n) → pyIndex n i = .error .indexError) := by
  unfold pyIndex
  constructor
  · rintro ⟨h1, h2⟩
    by_cases h : 0 ≤ i
    · rw [if_pos ⟨h, h2⟩]
      refine ⟨_, rfl, by omega, ?_⟩
      rw [Int.emod_eq_of_lt h h2, Int.toNat_of_nonneg h]
    · rw [if_neg (by omega), if_pos ⟨h1, by omega⟩]
      refine ⟨_, rfl, by omega, ?_⟩
      rw [Int.toNat_of_nonneg (by omega), ← Int.add_emod_right, Int.emod_eq_of_lt (by omega) (by omega)]
  · intro h
    rw [if_neg (by omega), if_neg (by omega)]

theorem mapM_pyIndex_lt (n : ℕ) : ∀ (l : List ℤ) (idx : List ℕ), l.mapM (pyIndex n) = .ok idx →
    (∀ i ∈ idx, i < n) ∧ (∀ i ∈ l, -(n : ℤ) ≤ i ∧ i < n) ∧ idx = l.map fun i : ℤ => (i % (n : ℤ)).toNat := by
  intro l
  induction l with
  | nil =>
    intro idx h
    have : idx = [] := by
      have h' : (Except.ok [] : Res (List ℕ)) = .ok idx := h
      exact (Except.ok.inj h').symm
    subst this; simp
  | cons a l ih =>
    intro idx h
    rw [List.mapM_cons] at h
    by_cases ha : -(n : ℤ) ≤ a ∧ a < n
    · obtain ⟨j, h1, h2, h3⟩ := (pyIndex_spec n a).1 ha
      rw [h1] at h
      cases hl : l.mapM (pyIndex n) with
      | error e => rw [hl] at h; cases h
      | ok idx' =>
        rw [hl] at h
        have h' : (Except.ok (j :: idx') : Res (List ℕ)) = .ok idx := h
        have := (Except.ok.inj h').symm
        subst this
        obtain ⟨q1, q2, q3⟩ := ih idx' hl
        refine ⟨?_, ?_, ?_⟩
        · intro i hi
          rcases List.mem_cons.1 hi with rfl | hi
          · exact h2
          · exact q1 i hi
        · intro i hi
          rcases List.mem_cons.1 hi with rfl | hi
          · exact ha
          · exact q2 i hi
        · rw [List.map_cons, ← q3, ← h3]; simp
    · rw [(pyIndex_spec n a).2 ha] at h
      cases h

theorem mapM_pyIndex_ok (n : ℕ) (l : List ℤ) (h : ∀ i ∈ l, -(n : ℤ) ≤ i ∧ i < n) :
    l.mapM (pyIndex n) = .ok (l.map fun i : ℤ => (i % (n : ℤ)).toNat) := by
  induction l with
  | nil => rfl
  | cons a l ih =>
    obtain ⟨j, h1, h2, h3⟩ := (pyIndex_spec n a).1 (h a List.mem_cons_self)
    rw [List.mapM_cons, h1, ih fun i hi => h i (List.mem_cons_of_mem _ hi), List.map_cons, ← h3]
    simp
    rfl

theorem mapM_pyIndex_err (n : ℕ) (l : List ℤ) (h : ∃ i ∈ l, ¬ (-(n : ℤ) ≤ i ∧ i < n)) :
    l.mapM (pyIndex n) = .error .indexError := by
  induction l with
  | nil => simp at h
  | cons a l ih =>
    rw [List.mapM_cons]
    by_cases ha : -(n : ℤ) ≤ a ∧ a < n
    · obtain ⟨j, h1, h2, h3⟩ := (pyIndex_spec n a).1 ha
      have : ∃ i ∈ l, ¬ (-(n : ℤ) ≤ i ∧ i < n) := by
        obtain ⟨i, hi, hc⟩ := h
        rcases List.mem_cons.1 hi with rfl | hi
        · exact absurd ha hc
        · exact ⟨i, hi, hc⟩
      rw [h1, ih this]; rfl
    · rw [(pyIndex_spec n a).2 ha]; rfl

/-- Everything a slice selects is a valid position, equally spaced by the step. -/
theorem sliceIndices_spec (n : ℕ) (a b c : Option ℤ) (idx : List ℕ)
    (h : sliceIndices n a b c = .ok idx) :
    (∀ i ∈ idx, i < n) ∧ ∀ t i j : ℕ, idx[t]? = some i → idx[t + 1]? = some j →
      (j : ℤ) = i + c.getD 1 := by
  unfold sliceIndices at h
  simp only at h
  split at h
  · cases h
  · rename_i hst
    have hidx := (Except.ok.inj h).symm
    clear h
    set st := c.getD 1 with hstdef
    set lower : ℤ := if st < 0 then -1 else 0 with hl
    set upper : ℤ := if st < 0 then (n : ℤ) - 1 else n with hup
    set A : ℤ := a.elim (if st < 0 then upper else lower)
      (fun v => if v < 0 then max (v + n) lower else min v upper) with hA
    set B : ℤ := b.elim (if st < 0 then lower else upper)
      (fun v => if v < 0 then max (v + n) lower else min v upper) with hB
    have hadj : ∀ v : ℤ, lower ≤ (if v < 0 then max (v + n) lower else min v upper) ∧
        (if v < 0 then max (v + n) lower else min v upper) ≤ upper := by
      intro v
      by_cases hs : st < 0
      · simp only [hl, hup, hs, if_true]; split <;> omega
      · simp only [hl, hup, hs, if_false]; split <;> omega
    have hAb : lower ≤ A ∧ A ≤ upper := by
      cases a with
      | none =>
        simp only [hA, Option.elim_none]
        by_cases hs : st < 0
        · simp only [hl, hup, hs, if_true]; omega
        · simp only [hl, hup, hs, if_false]; omega
      | some v => exact hadj v
    have hBb : lower ≤ B ∧ B ≤ upper := by
      cases b with
      | none =>
        simp only [hB, Option.elim_none]
        by_cases hs : st < 0
        · simp only [hl, hup, hs, if_true]; omega
        · simp only [hl, hup, hs, if_false]; omega
      | some v => exact hadj v
    -- every generated position is in range
    have hpos : ∀ t : ℕ, t < (if st < 0 then ((A - B + (-st) - 1) / (-st)).toNat
        else ((B - A + st - 1) / st).toNat) → 0 ≤ A + (t : ℤ) * st ∧ A + (t : ℤ) * st < n := by
      intro t ht
      by_cases hs : st < 0
      · simp only [hs, if_true] at ht
        have h0 : (t : ℤ) < (A - B + (-st) - 1) / (-st) := by omega
        have h1 : ((t : ℤ) + 1) * (-st) ≤ A - B + (-st) - 1 :=
          (Int.le_ediv_iff_mul_le (by omega)).1 h0
        simp only [hl, hup, hs, if_true] at hAb hBb
        have ht0 : (0 : ℤ) ≤ t := Int.natCast_nonneg t
        constructor
        · nlinarith
        · nlinarith
      · simp only [hs, if_false] at ht
        have h0 : (t : ℤ) < (B - A + st - 1) / st := by omega
        have h1 : ((t : ℤ) + 1) * st ≤ B - A + st - 1 :=
          (Int.le_ediv_iff_mul_le (by omega)).1 h0
        simp only [hl, hup, hs, if_false] at hAb hBb
        have ht0 : (0 : ℤ) ≤ t := Int.natCast_nonneg t
        have hst0 : 0 < st := by omega
        constructor
        · nlinarith
        · nlinarith
    subst hidx
    constructor
    · intro i hi
      obtain ⟨t, ht, rfl⟩ := List.mem_map.1 hi
      have := hpos t (List.mem_range.1 ht)
      omega
    · intro t i j hi hj
      rw [List.getElem?_map] at hi hj
      simp only [Option.map_eq_some_iff] at hi hj
      obtain ⟨t1, ht1, rfl⟩ := hi
      obtain ⟨t2, ht2, rfl⟩ := hj
      have e1 : t1 = t := by
        rw [List.getElem?_eq_some_iff] at ht1; obtain ⟨_, e⟩ := ht1; simpa using e.symm
      have e2 : t2 = t + 1 := by
        rw [List.getElem?_eq_some_iff] at ht2; obtain ⟨_, e⟩ := ht2; simpa using e.symm
      have m1 := hpos t1 (List.mem_range.1 (List.mem_of_getElem? ht1))
      have m2 := hpos t2 (List.mem_range.1 (List.mem_of_getElem? ht2))
      subst e1; subst e2
      rw [Int.toNat_of_nonneg m1.1, Int.toNat_of_nonneg m2.1]
      push_cast; ring

theorem range_map_drop_take (xs : List α) (i j : ℕ) (hi : i ≤ j) (hj : j ≤ xs.length) :
    ((List.range (j - i)).map fun t => i + t).filterMap (fun p => xs[p]?) =
      (xs.drop i).take (j - i) := by
  apply List.ext_getElem?
  intro t
  have hlt : ∀ p ∈ (List.range (j - i)).map fun t => i + t, p < xs.length := by
    intro p hp
    obtain ⟨q, hq, rfl⟩ := List.mem_map.1 hp
    have := List.mem_range.1 hq; omega
  obtain ⟨h1, h2⟩ := filterMap_get_map xs _ hlt
  by_cases ht : t < j - i
  · rw [h2 t (i + t) (by simp [ht]), List.getElem?_take_of_lt ht, List.getElem?_drop]
  · rw [List.getElem?_eq_none (by rw [h1]; simp; omega), List.getElem?_eq_none (by simp; omega)]

theorem reverse_range (xs : List α) :
    ((List.range xs.length).map fun t => xs.length - 1 - t).filterMap (fun p => xs[p]?) =
      xs.reverse := by
  apply List.ext_getElem?
  intro t
  have hlt : ∀ p ∈ (List.range xs.length).map fun t => xs.length - 1 - t, p < xs.length := by
    intro p hp
    obtain ⟨q, hq, rfl⟩ := List.mem_map.1 hp
    have := List.mem_range.1 hq; omega
  obtain ⟨h1, h2⟩ := filterMap_get_map xs _ hlt
  by_cases ht : t < xs.length
  · rw [h2 t (xs.length - 1 - t) (by simp [ht]), List.getElem?_reverse ht]
  · rw [List.getElem?_eq_none (by rw [h1]; simp; omega), List.getElem?_eq_none (by simp; omega)]

/-- What `xs[key]` is, as a plain function of the list of locations: the specification of numpy
indexing used in C23. -/
inductive Selects (xs : List α) : SKey → List α → Prop where
  /-- `xs[i:j]` -/
  | between (i j : ℕ) (hij : i ≤ j) (hj : j ≤ xs.length) :
      Selects xs (.slice (some i) (some j) none) ((xs.drop i).take (j - i))
  /-- `xs[:]` -/
  | all : Selects xs (.slice none none none) xs
  /-- `xs[::-1]` -/
  | reversed : Selects xs (.slice none none (some (-1))) xs.reverse
  /-- index list: the value at `i` if `0 ≤ i < n`, at `n + i` if `-n ≤ i < 0` -/
  | ints (l : List ℤ) (hl : ∀ i ∈ l, -(xs.length : ℤ) ≤ i ∧ i < xs.length) :
      Selects xs (.ints l) (l.filterMap fun i : ℤ =>
        xs[(if i < 0 then i + (xs.length : ℤ) else i).toNat]?)
  /-- boolean mask: the values whose flag is set, in order -/
  | mask (l : List Bool) (hl : l.length = xs.length) :
      Selects xs (.mask l) ((List.zip xs l).filterMap fun p => if p.2 then some p.1 else none)

theorem mask_eq (xs : List α) : ∀ (l : List Bool), l.length = xs.length →
    (maskIndices l).filterMap (fun i => xs[i]?) =
      (List.zip xs l).filterMap fun p => if p.2 then some p.1 else none := by
  induction xs with
  | nil =>
    intro l hl
    have : l = [] := List.length_eq_zero_iff.1 (by simpa using hl)
    subst this; rfl
  | cons x xs ih =>
    intro l hl
    cases l with
    | nil => simp at hl
    | cons b l =>
      have hl' : l.length = xs.length := by simpa using hl
      rw [List.zip_cons_cons, List.filterMap_cons, ← ih l hl']
      unfold maskIndices
      rw [List.length_cons, List.range_succ_eq_map, List.filter_cons]
      have e : ((List.map Nat.succ (List.range l.length)).filter fun i =>
          (b :: l).getD i false).filterMap (fun i => (x :: xs)[i]?) =
          ((List.range l.length).filter fun i => l.getD i false).filterMap fun i => xs[i]? := by
        rw [List.filter_map, List.filterMap_map]
        congr 1
      cases b with
      | false => simpa using e
      | true => simpa using e

theorem create_view (h : SHeap α) (b : List α) (unit : String) :
    (h.create b unit).view h.objs.length = some (b, unit) ∧
    ∀ q v, h.view q = some v → (h.create b unit).view q = some v := by
  constructor
  · simp [SHeap.create, SHeap.view]
  · intro q v hv
    simp only [SHeap.create, SHeap.view] at hv ⊢
    cases ho : h.objs[q]? with
    | none => rw [ho] at hv; cases hv
    | some o =>
      have hq : q < h.objs.length := (List.getElem?_eq_some_iff.1 ho).1
      rw [List.getElem?_append_left hq, ho]
      rw [ho] at hv
      simp only [Option.bind_some] at hv ⊢
      cases hb : h.bufs[o.buf]? with
      | none => rw [hb] at hv; cases hv
      | some bb =>
        have : o.buf < h.bufs.length := (List.getElem?_eq_some_iff.1 hb).1
        rw [List.getElem?_append_left this, hb, ← hv, hb]

theorem ints_eq (xs : List α) (l : List ℤ) (hl : ∀ i ∈ l, -(xs.length : ℤ) ≤ i ∧ i < xs.length) :
    (l.map fun i : ℤ => (i % (xs.length : ℤ)).toNat).filterMap (fun i => xs[i]?) =
    l.filterMap fun i : ℤ => xs[(if i < 0 then i + (xs.length : ℤ) else i).toNat]? := by
  rw [List.filterMap_map]
  apply List.filterMap_congr
  intro i hi
  obtain ⟨h1, h2⟩ := hl i hi
  simp only [Function.comp]
  congr 2
  split
  · rw [← Int.add_emod_right, Int.emod_eq_of_lt (by omega) (by omega)]
  · rw [Int.emod_eq_of_lt (by omega) h2]

/-- The model selects what the specification says. -/
theorem select_of_selects {xs sel : List α} {key : SKey} (hs : Selects xs key sel) :
    ∃ idx, key.select xs.length = .ok idx ∧ idx.filterMap (fun i => xs[i]?) = sel := by
  cases hs with
  | between i j hij hj =>
    refine ⟨(List.range (j - i)).map fun t => i + t, ?_, range_map_drop_take xs i j hij hj⟩
    simp only [SKey.select, sliceIndices, Option.getD_none, Option.elim_some]
    simp only [one_ne_zero, if_false]
    have e1 : (if (i : ℤ) < 0 then max ((i : ℤ) + (xs.length : ℤ)) (if (1 : ℤ) < 0 then -1 else 0)
        else min (i : ℤ) (if (1 : ℤ) < 0 then (xs.length : ℤ) - 1 else xs.length)) = i := by
      simp; omega
    have e2 : (if (j : ℤ) < 0 then max ((j : ℤ) + (xs.length : ℤ)) (if (1 : ℤ) < 0 then -1 else 0)
        else min (j : ℤ) (if (1 : ℤ) < 0 then (xs.length : ℤ) - 1 else xs.length)) = j := by
      simp; omega
    rw [e1, e2]
    have e3 : (if (1 : ℤ) < 0 then (((i : ℤ) - j + -1 - 1) / -1).toNat
        else (((j : ℤ) - i + 1 - 1) / 1).toNat) = j - i := by
      simp
    rw [e3]
    refine congrArg Except.ok (List.map_congr_left fun t _ => ?_)
    omega
  | all =>
    refine ⟨(List.range (xs.length - 0)).map fun t => 0 + t, ?_, ?_⟩
    · simp only [SKey.select, sliceIndices, Option.getD_none, Option.elim_none]
      simp only [one_ne_zero, if_false]
      refine congrArg Except.ok ?_
      have e3 : (if (1 : ℤ) < 0 then (((if (1 : ℤ) < 0 then if (1 : ℤ) < 0 then (xs.length : ℤ) - 1
          else xs.length else if (1 : ℤ) < 0 then -1 else 0) - (if (1 : ℤ) < 0 then if (1 : ℤ) < 0
          then -1 else 0 else if (1 : ℤ) < 0 then (xs.length : ℤ) - 1 else xs.length) + -1 - 1) /
          -1).toNat
        else (((if (1 : ℤ) < 0 then if (1 : ℤ) < 0
          then -1 else 0 else if (1 : ℤ) < 0 then (xs.length : ℤ) - 1 else xs.length) - (if (1 : ℤ)
          < 0 then if (1 : ℤ) < 0 then (xs.length : ℤ) - 1
          else xs.length else if (1 : ℤ) < 0 then -1 else 0) + 1 - 1) / 1).toNat) =
          xs.length - 0 := by
        simp
      rw [e3]
      refine List.map_congr_left fun t _ => ?_
      simp
    · rw [range_map_drop_take xs 0 xs.length (by omega) le_rfl]; simp
  | reversed =>
    refine ⟨(List.range xs.length).map fun t => xs.length - 1 - t, ?_, reverse_range xs⟩
    simp only [SKey.select, sliceIndices, Option.getD_some, Option.elim_none]
    have hneg : ((-1 : ℤ) < 0) = True := by simp
    simp only [hneg, if_true]
    rw [if_neg (by omega)]
    refine congrArg Except.ok ?_
    have e3 : (((xs.length : ℤ) - 1 - -1 + - -1 - 1) / - -1).toNat = xs.length := by
      simp
    rw [e3]
    refine List.map_congr_left fun t ht => ?_
    have := List.mem_range.1 ht
    omega
  | ints l hl => exact ⟨_, mapM_pyIndex_ok _ _ hl, ints_eq xs l hl⟩
  | mask l hl => exact ⟨_, if_pos hl, mask_eq xs l hl⟩

theorem getitem_of_select (h : SHeap α) (r : ℕ) (locs : List α) (unit : String) (key : SKey)
    (idx : List ℕ) (hv : h.view r = some (locs, unit)) (hs : key.select locs.length = .ok idx) :
    h.getitem r key =
      (.ok (.obj h.objs.length), h.create (idx.filterMap fun i => locs[i]?) unit) := by
  unfold SHeap.getitem
  rw [hv]
  cases key with
  | scalar i => cases hs
  | _ => simp only [hs]

/-- **C23** (result). For every key that selects something in the sense of `Selects`, `sources[key]`
is a new placement holding the selected locations in order and the same unit; every other placement
keeps its locations and unit. -/
theorem C23_getitem (h : SHeap α) (r : ℕ) (locs : List α) (unit : String) (key : SKey)
    (sel : List α) (hv : h.view r = some (locs, unit)) (hs : Selects locs key sel) :
    ∃ h' r', h.getitem r key = (.ok (.obj r'), h') ∧ h.view r' = none ∧
      h'.view r' = some (sel, unit) ∧ ∀ q v, h.view q = some v → h'.view q = some v := by
  obtain ⟨idx, h1, h2⟩ := select_of_selects hs
  refine ⟨_, _, getitem_of_select h r locs unit key idx hv h1, ?_, ?_, (create_view h _ unit).2⟩
  · simp [SHeap.view]
  · rw [h2]; exact (create_view h _ unit).1

/-- **C23** (general slices). Whatever slice with non-zero step is used, the result consists of
locations at valid positions that advance by the step; a zero step raises `ValueError`. -/
theorem C23_slices (xs : List α) (a b c : Option ℤ) :
    (c = some 0 → (SKey.slice a b c).select xs.length = .error .valueError) ∧
    (c ≠ some 0 → ∃ idx, (SKey.slice a b c).select xs.length = .ok idx ∧
      (∀ i ∈ idx, i < xs.length) ∧ ∀ t i j : ℕ, idx[t]? = some i → idx[t + 1]? = some j →
        (j : ℤ) = i + c.getD 1) := by
  constructor
  · rintro rfl; rfl
  · intro hc
    cases h : (SKey.slice a b c).select xs.length with
    | error e =>
      exfalso
      simp only [SKey.select, sliceIndices] at h
      split at h
      · rename_i h0
        cases c with
        | none => simp at h0
        | some v => simp at h0; exact hc (by rw [h0])
      · cases h
    | ok idx => exact ⟨idx, rfl, sliceIndices_spec _ _ _ _ _ h⟩

/-- **C23** (errors). Out-of-range indices and masks of the wrong length raise `IndexError`, arrays
that are not 1-D `ValueError`, other objects `KeyError`; nothing is changed. -/
theorem C23_errors (h : SHeap α) (r : ℕ) (locs : List α) (unit : String)
    (hv : h.view r = some (locs, unit)) :
    (∀ l : List ℤ, (∃ i ∈ l, ¬ (-(locs.length : ℤ) ≤ i ∧ i < locs.length)) →
      h.getitem r (.ints l) = (.error .indexError, h)) ∧
    (∀ l : List Bool, l.length ≠ locs.length → h.getitem r (.mask l) = (.error .indexError, h)) ∧
    h.getitem r .ndarrayOther = (.error .valueError, h) ∧
    h.getitem r .other = (.error .keyError, h) ∧
    (∀ i : ℤ, ¬ (-(locs.length : ℤ) ≤ i ∧ i < locs.length) →
      h.getitem r (.scalar i) = (.error .indexError, h)) ∧
    (∀ i : ℤ, -(locs.length : ℤ) ≤ i ∧ i < locs.length → ∃ x,
      locs[(if i < 0 then i + (locs.length : ℤ) else i).toNat]? = some x ∧
      h.getitem r (.scalar i) = (.ok (.item x), h)) := by
  refine ⟨?_, ?_, ?_, ?_, ?_, ?_⟩
  · intro l hl
    unfold SHeap.getitem
    simp only [hv, SKey.select, mapM_pyIndex_err _ _ hl]
  · intro l hl
    unfold SHeap.getitem
    simp only [hv, SKey.select, hl, if_false]
  · unfold SHeap.getitem; simp only [hv, SKey.select]
  · unfold SHeap.getitem; simp only [hv, SKey.select]
  · intro i hi
    unfold SHeap.getitem
    simp only [hv, (pyIndex_spec _ _).2 hi]
  · intro i hi
    obtain ⟨j, h1, h2, h3⟩ := (pyIndex_spec _ _).1 hi
    have hj : (if i < 0 then i + (locs.length : ℤ) else i).toNat = j := by
      split
      · have : i % (locs.length : ℤ) = i + locs.length := by
          rw [← Int.add_emod_right, Int.emod_eq_of_lt (by omega) (by omega)]
        omega
      · rw [Int.emod_eq_of_lt (by omega) hi.2] at h3; omega
    refine ⟨locs[j], by rw [hj, List.getElem?_eq_getElem h2], ?_⟩
    unfold SHeap.getitem
    simp only [hv, h1, List.getElem?_eq_getElem h2]

/-! ### Independence -/

/-- Every placement has a buffer of its own. -/
def SeparateBuffers (h : SHeap α) : Prop :=
  (∀ o ∈ h.objs, o.buf < h.bufs.length) ∧ (h.objs.map SrcObj.buf).Nodup

theorem SeparateBuffers.create {h : SHeap α} (hs : SeparateBuffers h) (b : List α) (u : String) :
    SeparateBuffers (h.create b u) := by
  obtain ⟨h1, h2⟩ := hs
  constructor
  · intro o ho
    simp only [SHeap.create, List.mem_append, List.mem_singleton, List.length_append,
      List.length_singleton] at ho ⊢
    rcases ho with ho | rfl
    · have := h1 o ho; omega
    · simp
  · simp only [SHeap.create, List.map_append, List.map_cons, List.map_nil]
    rw [List.nodup_append]
    refine ⟨h2, by simp, ?_⟩
    intro x hx y hy
    simp only [List.mem_singleton] at hy
    obtain ⟨o, ho, rfl⟩ := List.mem_map.1 hx
    have := h1 o ho
    omega

theorem getitem_cases (h : SHeap α) (r : ℕ) (key : SKey) :
    (h.getitem r key).2 = h ∨ ∃ b u, (h.getitem r key).2 = h.create b u := by
  unfold SHeap.getitem
  split
  · left; rfl
  · split
    · split
      · left; rfl
      · split <;> (left; rfl)
    · split
      · left; rfl
      · right; exact ⟨_, _, rfl⟩

theorem SeparateBuffers.step {h : SHeap α} (hs : SeparateBuffers h) (op : SrcOp α) :
    SeparateBuffers (SrcOp.step h op) := by
  cases op with
  | create b u => exact hs.create b u
  | getitem r key =>
    rcases getitem_cases h r key with e | ⟨b, u, e⟩
    · simp only [SrcOp.step]; rw [e]; exact hs
    · simp only [SrcOp.step]; rw [e]; exact hs.create b u
  | write r i v =>
    simp only [SrcOp.step, SHeap.write]
    split
    · exact hs
    · exact ⟨by simpa [List.length_modify] using hs.1, hs.2⟩

theorem SeparateBuffers.run {h : SHeap α} (hs : SeparateBuffers h) (ops : List (SrcOp α)) :
    SeparateBuffers (SrcOp.run h ops) := by
  induction ops generalizing h with
  | nil => exact hs
  | cons op ops ih => exact ih (hs.step op)

/-- Does this step write through reference `r`? -/
def writesTo (r : ℕ) : SrcOp α → Prop
  | .write q _ _ => q = r
  | _ => False

theorem step_view {h : SHeap α} (hs : SeparateBuffers h) (op : SrcOp α) (r : ℕ) (v)
    (hv : h.view r = some v) (hop : ¬ writesTo r op) : (SrcOp.step h op).view r = some v := by
  cases op with
  | create b u => exact (create_view h b u).2 r v hv
  | getitem q key =>
    rcases getitem_cases h q key with e | ⟨b, u, e⟩
    · simp only [SrcOp.step]; rw [e]; exact hv
    · simp only [SrcOp.step]; rw [e]; exact (create_view h b u).2 r v hv
  | write q i x =>
    have hqr : q ≠ r := hop
    simp only [SrcOp.step, SHeap.write]
    split
    · exact hv
    · rename_i o ho
      simp only [SHeap.view] at hv ⊢
      cases hr : h.objs[r]? with
      | none => rw [hr] at hv; cases hv
      | some o' =>
        rw [hr] at hv
        simp only [Option.bind_some] at hv ⊢
        have hne : o.buf ≠ o'.buf := by
          intro heq
          obtain ⟨hq1, hq2⟩ := List.getElem?_eq_some_iff.1 ho
          obtain ⟨hr1, hr2⟩ := List.getElem?_eq_some_iff.1 hr
          have := (List.Nodup.getElem_inj_iff hs.2 (i := q) (j := r) (hi := by simpa using hq1)
            (hj := by simpa using hr1)).1 (by simp [hq2, hr2, heq])
          exact hqr this
        rw [List.getElem?_modify]
        simpa [hne] using hv

/-- **C23** (independence). In every program built from constructor calls, indexing and writes to
location arrays, the locations and unit of a placement change only through writes to that very
placement: placements obtained by indexing and their originals never see each other's changes. -/
theorem C23_independent (before after : List (SrcOp α)) (r : ℕ) (v : List α × String)
    (hv : (SrcOp.run ({} : SHeap α) before).view r = some v)
    (hno : ∀ op ∈ after, ¬ writesTo r op) :
    (SrcOp.run (SrcOp.run ({} : SHeap α) before) after).view r = some v := by
  have hs : SeparateBuffers (SrcOp.run ({} : SHeap α) before) :=
    SeparateBuffers.run ⟨by simp, by simp⟩ before
  generalize SrcOp.run ({} : SHeap α) before = h at hv hs
  induction after generalizing h with
  | nil => exact hv
  | cons op ops ih =>
    exact ih (fun o ho => hno o (List.mem_cons_of_mem _ ho)) (SrcOp.step h op)
      (step_view hs op r v hv (hno op List.mem_cons_self)) (hs.step op)

/-- Non-vacuity: three locations, selected in reverse, the original is written afterwards; the copy
keeps the old values, and the write is visible in the original. -/
example :
    let prog : List (SrcOp ℤ) := [.create [10, 20, 30] "deg",
      .getitem 0 (.slice none none (some (-1))), .write 0 2 99]
    (SrcOp.run ({} : SHeap ℤ) prog).view 1 = some ([30, 20, 10], "deg") ∧
    (SrcOp.run ({} : SHeap ℤ) prog).view 0 = some ([10, 20, 99], "deg") := by
  decide

example : Selects [10, 20, 30] (.ints [-1, 0]) [30, 10] :=
  Selects.ints [-1, 0] (by decide)

end Doa.Props
