import Verif.Model.UniqueRows
import Verif.Lemmas.ListAux
import Verif.Lemmas.Coarray
import Mathlib.Data.List.Nodup

/-!
# C30: `unique_rows` is a greedy tolerance cover
-/

namespace Doa

/-- The inner loop marks exactly the close rows and finds the first remaining one. -/
theorem uniqueScan_fold {n m : ℕ} (row : Fin n → Fin m → ℝ) (tol : ℝ) (ii : Fin n) :
    ∀ (L : List (Fin n)) (_ : L.Nodup) (P : Fin n → Bool) (nx : Option (Fin n)),
      (∀ k, (L.foldl (uniqueScanStep row tol ii) (P, nx)).1 k = true ↔
        P k = true ∨ (k ∈ L ∧ rowsClose tol (row ii) (row k))) ∧
      (L.foldl (uniqueScanStep row tol ii) (P, nx)).2 = nx.or
        (open Classical in
          L.find? fun k => decide (P k = false ∧ ¬ rowsClose tol (row ii) (row k))) := by
  classical
  intro L
  induction L with
  | nil => intro _ P nx; simp
  | cons a L ih =>
    intro hnd P nx
    have ha : a ∉ L := (List.nodup_cons.1 hnd).1
    have hL := (List.nodup_cons.1 hnd).2
    rw [List.foldl_cons]
    unfold uniqueScanStep
    by_cases hP : P a = true
    · rw [if_pos hP]
      obtain ⟨h1, h2⟩ := ih hL P nx
      refine ⟨fun k => (h1 k).trans ?_, h2.trans ?_⟩
      · constructor
        · rintro (h | ⟨h, h'⟩)
          · exact .inl h
          · exact .inr ⟨List.mem_cons_of_mem _ h, h'⟩
        · rintro (h | ⟨h, h'⟩)
          · exact .inl h
          · rcases List.mem_cons.1 h with rfl | h
            · exact .inl hP
            · exact .inr ⟨h, h'⟩
      · rw [List.find?_cons_of_neg]; simp [hP]
    · rw [if_neg hP]
      by_cases hc : rowsClose tol (row ii) (row a)
      · rw [if_pos hc]
        obtain ⟨h1, h2⟩ := ih hL (Function.update P a true) nx
        refine ⟨fun k => (h1 k).trans ?_, h2.trans ?_⟩
        · by_cases hk : k = a
          · subst hk; simp [hc]
          · simp [Function.update_of_ne hk, hk]
        · rw [List.find?_cons_of_neg (by simp [hc])]
          congr 1
          apply List.find?_congr
          intro k hk
          have hka : k ≠ a := by rintro rfl; exact ha hk
          rw [Function.update_of_ne hka]
      · rw [if_neg hc]
        cases nx with
        | none =>
          obtain ⟨h1, h2⟩ := ih hL P (some a)
          refine ⟨fun k => (h1 k).trans ?_, h2.trans ?_⟩
          · by_cases hk : k = a
            · subst hk; simp [hc]
            · simp [hk]
          · rw [List.find?_cons_of_pos (by simp [hc, hP])]; simp
        | some j =>
          obtain ⟨h1, h2⟩ := ih hL P (some j)
          refine ⟨fun k => (h1 k).trans ?_, h2.trans ?_⟩
          · by_cases hk : k = a
            · subst hk; simp [hc]
            · simp [hk]
          · simp

theorem uniqueScan_spec {n m : ℕ} (row : Fin n → Fin m → ℝ) (tol : ℝ) (ii : Fin n)
    (P : Fin n → Bool) :
    (∀ k, (uniqueScan row tol ii P).1 k = true ↔
        P k = true ∨ (ii < k ∧ rowsClose tol (row ii) (row k))) ∧
    (∀ k, ii < k → (∀ j ∈ (uniqueScan row tol ii P).2, k < j) →
      (uniqueScan row tol ii P).1 k = true) ∧
    (∀ j ∈ (uniqueScan row tol ii P).2, ii < j ∧ (uniqueScan row tol ii P).1 j = false) := by
  classical
  have hnd : ((List.finRange n).filter fun k => decide (ii < k)).Nodup :=
    (List.nodup_finRange n).filter _
  obtain ⟨h1, h2⟩ := uniqueScan_fold row tol ii _ hnd P none
  have h1' : ∀ k, (uniqueScan row tol ii P).1 k = true ↔
        P k = true ∨ (ii < k ∧ rowsClose tol (row ii) (row k)) := by
    intro k
    refine (h1 k).trans ?_
    simp
  have h2' : (uniqueScan row tol ii P).2 = _ := h2
  rw [Option.none_or] at h2'
  refine ⟨h1', ?_, ?_⟩
  · intro k hk hj
    by_contra hcon
    rw [h1' k] at hcon
    push Not at hcon
    rw [h2'] at hj
    have hmem : k ∈ (List.finRange n).filter fun k => decide (ii < k) := by simp [hk]
    cases hf : List.find? (fun k => decide (P k = false ∧ ¬ rowsClose tol (row ii) (row k)))
      ((List.finRange n).filter fun k => decide (ii < k)) with
    | none =>
      have := (List.find?_eq_none.1 hf) k hmem
      simp [hcon.1, hcon.2 hk] at this
    | some j =>
      rw [hf] at hj
      have hkj := hj j rfl
      have hsorted : ((List.finRange n).filter fun k => decide (ii < k)).Pairwise (· < ·) :=
        (List.pairwise_lt_finRange n).filter _
      obtain ⟨_, as, bs, hsplit, has⟩ := List.find?_eq_some_iff_append.1 hf
      rw [hsplit] at hmem hsorted
      rcases List.mem_append.1 hmem with h | h
      · have := has k h
        simp [hcon.1, hcon.2 hk] at this
      · rcases List.mem_cons.1 h with h | h
        · exact absurd h hkj.ne
        · have := (List.pairwise_append.1 hsorted).2.1
          have := (List.pairwise_cons.1 this).1 k h
          exact absurd this (not_lt.2 hkj.le)
  · intro j hj
    have hgt := uniqueScan_next_gt row tol ii P j hj
    refine ⟨hgt, ?_⟩
    rw [h2'] at hj
    have := List.find?_some hj
    simp only [decide_eq_true_eq] at this
    by_contra hcon
    rw [Bool.not_eq_false, h1' j] at hcon
    rcases hcon with h | h
    · rw [this.1] at h; exact absurd h (by simp)
    · exact this.2 h.2

/-- Characterisation of the outer loop. -/
theorem uniqueLoop_spec {n m : ℕ} (row : Fin n → Fin m → ℝ) (tol : ℝ) (ii : Fin n)
    (P : Fin n → Bool) :
    (uniqueLoop row tol ii P).head? = some ii ∧ (uniqueLoop row tol ii P).Pairwise (· < ·) ∧
    ∀ r, ii < r → (r ∈ uniqueLoop row tol ii P ↔ P r = false ∧
      ∀ i ∈ uniqueLoop row tol ii P, i < r → ¬ rowsClose tol (row i) (row r)) := by
  induction hk : n - ii.1 using Nat.strong_induction_on generalizing ii P with
  | _ k ih =>
    obtain ⟨s1, s2, s3⟩ := uniqueScan_spec row tol ii P
    rw [uniqueLoop]
    cases hs : (uniqueScan row tol ii P).2 with
    | none =>
      refine ⟨rfl, by simp, fun r hr => ?_⟩
      have := (s1 r).1 (s2 r hr (by rw [hs]; simp))
      simp only [List.mem_singleton, forall_eq]
      constructor
      · rintro rfl; exact absurd hr (lt_irrefl _)
      · rintro ⟨h1, h2⟩
        rcases this with h | h
        · rw [h1] at h; exact absurd h (by simp)
        · exact absurd h.2 (h2 hr)
    | some j =>
      simp only
      obtain ⟨hij, hPj⟩ := s3 j (by rw [hs]; rfl)
      have hij' : ii.1 < j.1 := hij
      obtain ⟨q1, q2, q3⟩ := ih (n - j.1) (by have := j.2; omega) j (uniqueScan row tol ii P).1 rfl
      have hge : ∀ i ∈ uniqueLoop row tol j (uniqueScan row tol ii P).1, j ≤ i := by
        intro i hi
        cases hu : uniqueLoop row tol j (uniqueScan row tol ii P).1 with
        | nil => rw [hu] at hi; simp at hi
        | cons a t =>
          rw [hu] at q1 q2 hi
          simp only [List.head?_cons, Option.some.injEq] at q1
          subst q1
          rcases List.mem_cons.1 hi with h | h
          · exact h ▸ le_refl _
          · exact ((List.pairwise_cons.1 q2).1 i h).le
      have hj_mem : j ∈ uniqueLoop row tol j (uniqueScan row tol ii P).1 :=
        List.mem_of_head? q1
      refine ⟨rfl, List.pairwise_cons.2 ⟨fun i hi => lt_of_lt_of_le hij (hge i hi), q2⟩, ?_⟩
      intro r hr
      have hPr : (uniqueScan row tol ii P).1 r = false ↔
          P r = false ∧ ¬ rowsClose tol (row ii) (row r) := by
        rw [← Bool.not_eq_true, s1 r, ← Bool.not_eq_true]
        tauto
      have hne : r ≠ ii := hr.ne'
      simp only [List.mem_cons, hne, false_or, forall_eq_or_imp]
      rcases lt_trichotomy r j with h | h | h
      · have hp := s2 r hr (by rw [hs]; intro j' hj'; simp only [Option.mem_some_iff] at hj'; exact hj' ▸ h)
        constructor
        · intro hm; exact absurd (hge r hm) (not_le.2 h)
        · rintro ⟨h1, h2, _⟩
          rw [hPr.2 ⟨h1, h2 hr⟩] at hp
          exact absurd hp (by simp)
      · subst h
        simp only [hj_mem, true_iff]
        exact ⟨(hPr.1 hPj).1, fun _ => (hPr.1 hPj).2,
          fun i hi hlt => absurd (hge i hi) (not_le.2 hlt)⟩
      · rw [q3 r h, hPr]
        tauto

theorem rowsClose_refl {m : ℕ} {tol : ℝ} (h : 0 ≤ tol) (r : Fin m → ℝ) : rowsClose tol r r := by
  intro l; simpa using h

/-- Extremes of the entries. -/
theorem max_abs_minmax {l : List ℝ} {a b M : ℝ} (ha : l.min? = some a) (hb : l.max? = some b)
    (hM : IsGreatest {t | ∃ e ∈ l, t = |e|} M) : max |a| |b| = M := by
  have ha' := List.min?_eq_some_iff.1 ha
  have hb' := List.max?_eq_some_iff.1 hb
  apply le_antisymm
  · exact max_le (hM.2 ⟨a, ha'.1, rfl⟩) (hM.2 ⟨b, hb'.1, rfl⟩)
  · obtain ⟨e, he, rfl⟩ := hM.1
    rw [abs_le']
    constructor
    · exact (hb'.2 e he).trans ((le_abs_self b).trans (le_max_right _ _))
    · exact (neg_le_neg (ha'.2 e he)).trans ((neg_le_abs a).trans (le_max_left _ _))

theorem entries_ne_nil {x : Mat ℝ} (hn : 0 < x.nrows) (hm : 0 < x.ncols) : x.entries ≠ [] := by
  obtain ⟨nc, rows⟩ := x
  cases rows with
  | nil => simp [Mat.nrows] at hn
  | cons r t =>
    intro h
    have h0 := (List.append_eq_nil_iff.1 (by simpa [Mat.entries] using h :
      List.ofFn r ++ t.flatMap List.ofFn = [])).1
    have := congrArg List.length h0
    simp at this
    simp only at hm
    omega

theorem mem_entries {x : Mat ℝ} {e : ℝ} : e ∈ x.entries ↔ ∃ i j, x.get? i j = some e := by
  unfold Mat.entries Mat.get?
  rw [List.mem_flatMap]
  constructor
  · rintro ⟨r, hr, he⟩
    obtain ⟨i, hi, rfl⟩ := List.mem_iff_getElem.1 hr
    obtain ⟨j, rfl⟩ := (List.mem_ofFn' _ _).1 he
    exact ⟨i, j.1, by simp [List.getElem?_eq_getElem hi]⟩
  · rintro ⟨i, j, h⟩
    obtain ⟨r, hr, h⟩ := Option.bind_eq_some_iff.1 h
    split at h
    · refine ⟨r, List.mem_of_getElem? hr, ?_⟩
      simp only [Option.some.injEq] at h
      rw [← h]
      simp
    · simp at h

end Doa

namespace Doa.Props
open Doa

/-- The tolerance documented for `unique_rows`: `atol + rtol * max |x|`. -/
def IsTolerance (x : Mat ℝ) (atol rtol tol : ℝ) : Prop :=
  ∃ M, IsGreatest {t | ∃ i j e, x.get? i j = some e ∧ t = |e|} M ∧ tol = atol + rtol * M

/-- Rows `i` and `r` of `x` agree up to `tol` in every column. -/
def RowsWithin (x : Mat ℝ) (tol : ℝ) (i r : ℕ) : Prop :=
  ∃ a b, x.rows[i]? = some a ∧ x.rows[r]? = some b ∧ ∀ l, |a l - b l| ≤ tol

theorem uniqueRows_eq (x : Mat ℝ) (hn : 0 < x.nrows) (hm : 0 < x.ncols) (atol rtol : ℝ) {tol : ℝ}
    (htol : IsTolerance x atol rtol tol) (sort : Bool) :
    uniqueRows (.mat x) atol rtol sort =
      let u := uniqueLoop x.rows.get tol ⟨0, hn⟩ (fun _ => false)
      let y := u.map x.rows.get
      if sort then
        .ok (⟨x.ncols, (lexSortIdx y).map y.get⟩,
          (lexSortIdx y).map fun i : Fin y.length => (u.get (Fin.cast (List.length_map _) i)).1)
      else .ok (⟨x.ncols, y⟩, u.map Fin.val) := by
  obtain ⟨M, hM, rfl⟩ := htol
  have hne := entries_ne_nil hn hm
  have hM' : IsGreatest {t | ∃ e ∈ x.entries, t = |e|} M := by
    convert hM using 2
    ext t
    simp only [mem_entries]
    constructor
    · rintro ⟨e, ⟨i, j, h⟩, rfl⟩; exact ⟨i, j, e, h, rfl⟩
    · rintro ⟨i, j, e, h, rfl⟩; exact ⟨e, ⟨i, j, h⟩, rfl⟩
  obtain ⟨a, ha⟩ : ∃ a, x.entries.min? = some a := Option.ne_none_iff_exists'.1 (by simpa using hne)
  obtain ⟨b, hb⟩ : ∃ b, x.entries.max? = some b := Option.ne_none_iff_exists'.1 (by simpa using hne)
  have hn' : ¬ x.rows.length = 0 := by have : 0 < x.rows.length := hn; omega
  obtain rfl := max_abs_minmax ha hb hM'
  simp only [uniqueRows, dif_neg hn', ha, hb]

/-- **C30** (cover). `unique_rows(x)` returns rows of `x` at strictly increasing indices beginning
with 0, pairwise farther apart than the tolerance, and every row is within tolerance of a returned
row that does not come after it; moreover a row is dropped only if it is within tolerance of an
earlier returned row. -/
theorem C30_unique_rows_cover (x : Mat ℝ) (hn : 0 < x.nrows) (hm : 0 < x.ncols) (atol rtol tol : ℝ)
    (htol : IsTolerance x atol rtol tol) (h0 : 0 ≤ tol) :
    ∃ (y : Mat ℝ) (idx : List ℕ), uniqueRows (.mat x) atol rtol false = .ok (y, idx) ∧
      y.ncols = x.ncols ∧ y.nrows = idx.length ∧
      (∀ (t i j : ℕ), idx[t]? = some i → y.get? t j = x.get? i j) ∧
      idx.head? = some 0 ∧ idx.Pairwise (· < ·) ∧ (∀ i ∈ idx, i < x.nrows) ∧
      (∀ i ∈ idx, ∀ j ∈ idx, i ≠ j → ¬ RowsWithin x tol i j) ∧
      (∀ r, r < x.nrows → ∃ i ∈ idx, i ≤ r ∧ RowsWithin x tol i r) ∧
      (∀ r, r < x.nrows → r ∉ idx → ∃ i ∈ idx, i < r ∧ RowsWithin x tol i r) := by
  have hmain := uniqueRows_eq x hn hm atol rtol htol false
  simp only [Bool.false_eq_true, if_false] at hmain
  obtain ⟨u1, u2, u3⟩ := uniqueLoop_spec x.rows.get tol ⟨0, hn⟩ (fun _ => false)
  set u := uniqueLoop x.rows.get tol ⟨0, hn⟩ (fun _ => false) with hu
  have hget : ∀ (i j : Fin x.rows.length), RowsWithin x tol i.1 j.1 ↔
      rowsClose tol (x.rows.get i) (x.rows.get j) := by
    intro i j
    constructor
    · rintro ⟨a, b, ha, hb, h⟩
      rw [List.getElem?_eq_getElem i.2, Option.some.injEq] at ha
      rw [List.getElem?_eq_getElem j.2, Option.some.injEq] at hb
      subst ha hb
      exact h
    · intro h
      exact ⟨_, _, List.getElem?_eq_getElem i.2, List.getElem?_eq_getElem j.2, h⟩
  have hmem : ∀ r : Fin x.rows.length, r ∈ u ↔ ∀ i ∈ u, i < r → ¬ rowsClose tol (x.rows.get i) (x.rows.get r) := by
    intro r
    by_cases hr : r = ⟨0, hn⟩
    · subst hr
      refine ⟨fun _ i _ hlt => absurd (Fin.lt_def.1 hlt) (Nat.not_lt_zero _), fun _ => ?_⟩
      exact List.mem_of_head? u1
    · have : (⟨0, hn⟩ : Fin x.rows.length) < r := by
        rw [Fin.lt_def]
        have : r.1 ≠ 0 := fun h => hr (Fin.ext h)
        simp only
        omega
      rw [u3 r this]
      simp
  have hdrop : ∀ r, r < x.nrows → r ∉ u.map Fin.val → ∃ i ∈ u.map Fin.val, i < r ∧ RowsWithin x tol i r := by
    intro r hr hni
    have : (⟨r, hr⟩ : Fin x.rows.length) ∉ u := fun h => hni (List.mem_map.2 ⟨_, h, rfl⟩)
    rw [hmem] at this
    push Not at this
    obtain ⟨i, hi, hlt, hc⟩ := this
    exact ⟨i.1, List.mem_map.2 ⟨i, hi, rfl⟩, hlt, (hget i ⟨r, hr⟩).2 hc⟩
  have hsym : ∀ i j, RowsWithin x tol i j → RowsWithin x tol j i := by
    rintro i j ⟨a, b, ha, hb, h⟩
    exact ⟨b, a, hb, ha, fun l => by rw [abs_sub_comm]; exact h l⟩
  have hlt : ∀ i ∈ u, ∀ j ∈ u, i < j → ¬ RowsWithin x tol i.1 j.1 := by
    intro i hi j hj hij
    rw [hget]
    exact (hmem j).1 hj i hi hij
  refine ⟨_, _, hmain, rfl, by simp [Mat.nrows], ?_, by simp [u1],
    List.pairwise_map.2 u2, ?_, ?_, ?_, hdrop⟩
  · intro t i j ht
    rw [List.getElem?_map, Option.map_eq_some_iff] at ht
    obtain ⟨i', hi', rfl⟩ := ht
    simp only [Mat.get?, List.getElem?_map, hi', Option.map_some, Option.bind_some,
      List.getElem?_eq_getElem i'.2]
    rfl
  · intro i hi
    obtain ⟨i', _, rfl⟩ := List.mem_map.1 hi
    exact i'.2
  · intro i hi j hj hij
    obtain ⟨i', hi', rfl⟩ := List.mem_map.1 hi
    obtain ⟨j', hj', rfl⟩ := List.mem_map.1 hj
    rcases lt_trichotomy i' j' with h | h | h
    · exact hlt i' hi' j' hj' h
    · exact absurd (congrArg Fin.val h) hij
    · exact fun hc => hlt j' hj' i' hi' h (hsym _ _ hc)
  · intro r hr
    by_cases hm : r ∈ u.map Fin.val
    · exact ⟨r, hm, le_refl _, (hget ⟨r, hr⟩ ⟨r, hr⟩).2 (rowsClose_refl h0 _)⟩
    · obtain ⟨i, h1, h2, h3⟩ := hdrop r hr hm
      exact ⟨i, h1, h2.le, h3⟩

/-- **C30** (zero tolerance). With `atol = rtol = 0` the result is exactly the list of rows that do
not occur earlier, in order of first occurrence. -/
theorem C30_unique_rows_exact (x : Mat ℝ) (hn : 0 < x.nrows) (hm : 0 < x.ncols) :
    ∃ (y : Mat ℝ) (idx : List ℕ), uniqueRows (.mat x) 0 0 false = .ok (y, idx) ∧
      idx.Pairwise (· < ·) ∧
      (∀ r, r ∈ idx ↔ r < x.nrows ∧ ∀ i < r, x.rows[i]? ≠ x.rows[r]?) ∧
      (∀ (t i j : ℕ), idx[t]? = some i → y.get? t j = x.get? i j) ∧ y.nrows = idx.length := by
  have htol : IsTolerance x 0 0 0 := by
    have hne := entries_ne_nil hn hm
    obtain ⟨M, hM⟩ : ∃ M, (x.entries.map fun e => |e|).max? = some M :=
      Option.ne_none_iff_exists'.1 (by simpa using hne)
    have hM' := List.max?_eq_some_iff.1 hM
    refine ⟨M, ⟨?_, ?_⟩, by simp⟩
    · obtain ⟨e, he, hMe⟩ := List.mem_map.1 hM'.1
      obtain ⟨i, j, h⟩ := mem_entries.1 he
      exact ⟨i, j, e, h, hMe.symm⟩
    · rintro _ ⟨i, j, e, h, rfl⟩
      exact hM'.2 _ (List.mem_map.2 ⟨e, mem_entries.2 ⟨i, j, h⟩, rfl⟩)
  obtain ⟨y, idx, h1, h2, h3, h4, h5, h6, h7, h8, h9, h10⟩ :=
    C30_unique_rows_cover x hn hm 0 0 0 htol (le_refl _)
  have heq : ∀ i r, i < x.nrows → r < x.nrows → (RowsWithin x 0 i r ↔ x.rows[i]? = x.rows[r]?) := by
    intro i r hi hr
    have hi' : i < x.rows.length := hi
    have hr' : r < x.rows.length := hr
    rw [List.getElem?_eq_getElem hi', List.getElem?_eq_getElem hr']
    constructor
    · rintro ⟨a, b, ha, hb, h⟩
      rw [List.getElem?_eq_getElem hi', Option.some.injEq] at ha
      rw [List.getElem?_eq_getElem hr', Option.some.injEq] at hb
      subst ha hb
      congr 1
      funext l
      have := abs_nonpos_iff.1 (h l)
      linarith
    · intro h
      rw [Option.some.injEq] at h
      refine ⟨_, _, List.getElem?_eq_getElem hi', List.getElem?_eq_getElem hr', fun l => ?_⟩
      rw [h]; simp
  refine ⟨y, idx, h1, h6, fun r => ⟨fun hr => ⟨h7 r hr, fun i hi hcon => ?_⟩, ?_⟩, h4, h3⟩
  · obtain ⟨s, hs, hsi, hw⟩ := h9 i (hi.trans (h7 r hr))
    have hin : i < x.nrows := hi.trans (h7 r hr)
    have : RowsWithin x 0 s r := (heq s r (h7 s hs) (h7 r hr)).2
      (((heq s i (h7 s hs) hin).1 hw).trans hcon)
    exact h8 s hs r hr (by omega) this
  · rintro ⟨hr, hfirst⟩
    by_contra hni
    obtain ⟨i, hi, hlt, hw⟩ := h10 r hr hni
    exact hfirst i hlt ((heq i r (h7 i hi) hr).1 hw)

/-- **C30** (sort). `sort=True` returns the same rows and indices, permuted together, in
lexicographic order (first column first). -/
theorem C30_unique_rows_sorted (x : Mat ℝ) (hn : 0 < x.nrows) (hm : 0 < x.ncols) (atol rtol tol : ℝ)
    (htol : IsTolerance x atol rtol tol) :
    ∃ (y y' : Mat ℝ) (idx idx' : List ℕ), uniqueRows (.mat x) atol rtol false = .ok (y, idx) ∧
      uniqueRows (.mat x) atol rtol true = .ok (y', idx') ∧
      y'.ncols = x.ncols ∧ idx'.Perm idx ∧
      (∀ (t i j : ℕ), idx'[t]? = some i → y'.get? t j = x.get? i j) ∧ y'.nrows = idx'.length ∧
      y'.rows.Pairwise (fun r s => r = s ∨ ∃ c, (∀ c' < c, r c' = s c') ∧ r c < s c) := by
  classical
  have hmain := uniqueRows_eq x hn hm atol rtol htol false
  have hsort := uniqueRows_eq x hn hm atol rtol htol true
  simp only [Bool.false_eq_true, if_false, if_true] at hmain hsort
  set u := uniqueLoop x.rows.get tol ⟨0, hn⟩ (fun _ => false) with hu
  refine ⟨_, _, _, _, hmain, hsort, rfl, ?_, ?_, by simp [Mat.nrows], ?_⟩
  · have hp : (lexSortIdx (u.map x.rows.get)).Perm (List.finRange (u.map x.rows.get).length) :=
      List.mergeSort_perm _ _
    refine (hp.map _).trans (List.Perm.of_eq ?_)
    apply List.ext_getElem
    · simp
    · intro i h1 h2
      simp
  · intro t i j ht
    rw [List.getElem?_map, Option.map_eq_some_iff] at ht
    obtain ⟨i', hi', rfl⟩ := ht
    simp only [Mat.get?, List.getElem?_map, hi', Option.map_some, Option.bind_some]
    simp only [List.get_eq_getElem, List.getElem_map, Fin.val_cast]
    rw [List.getElem?_eq_getElem (Fin.is_lt _)]
    rfl
  · have hs : (lexSortIdx (u.map x.rows.get)).Pairwise
        (fun i j => decide (toLex ((u.map x.rows.get).get i) ≤ toLex ((u.map x.rows.get).get j)) = true) := by
      apply List.pairwise_mergeSort
      · intro a b c h1 h2
        simp only [decide_eq_true_eq] at h1 h2 ⊢
        exact h1.trans h2
      · intro a b
        simp only [Bool.or_eq_true, decide_eq_true_eq]
        exact le_total _ _
    refine List.pairwise_map.2 (hs.imp ?_)
    intro i j hij
    simp only [decide_eq_true_eq] at hij
    rcases hij.lt_or_eq with h | h
    · right
      obtain ⟨c, hc, hlt⟩ := h
      exact ⟨c, hc, hlt⟩
    · left
      exact toLex.injective h

/-- **C30** (edge cases). Inputs that are not matrices raise `ValueError`; a matrix without rows is
returned unchanged with no indices; a matrix with rows but no columns raises `ValueError`. -/
theorem C30_unique_rows_edge (atol rtol : ℝ) (sort : Bool) :
    (∀ x, uniqueRows (.scalar x) atol rtol sort = .error .valueError) ∧
    (∀ l, uniqueRows (.vec l) atol rtol sort = .error .valueError) ∧
    uniqueRows .tensor atol rtol sort = .error .valueError ∧
    (∀ x : Mat ℝ, x.nrows = 0 → uniqueRows (.mat x) atol rtol sort = .ok (x, [])) ∧
    (∀ x : Mat ℝ, 0 < x.nrows → x.ncols = 0 →
      uniqueRows (.mat x) atol rtol sort = .error .valueError) := by
  refine ⟨fun _ => rfl, fun _ => rfl, rfl, fun x hx => ?_, fun x hx hc => ?_⟩
  · have : x.rows.length = 0 := hx
    simp [uniqueRows, this]
  · obtain ⟨nc, rows⟩ := x
    simp only at hc
    subst hc
    have : ¬ rows.length = 0 := by have : 0 < rows.length := hx; omega
    have he : (Mat.mk 0 rows).entries = [] := by simp [Mat.entries]
    simp only [uniqueRows, this, he, dite_false]
    rfl

/-- **C30** (coarray use). `compute_unique_location_differences` without tolerance returns each
difference of two sensor locations exactly once. -/
theorem C30_unique_differences (L : Mat ℝ) (hn : 0 < L.nrows) (hm : 0 < L.ncols) :
    ∃ y : Mat ℝ, uniqueLocationDifferences L 0 0 = .ok y ∧
      (∀ d : ℕ → ℝ, (∃ t < y.nrows, ∀ j < L.ncols, y.get? t j = some (d j)) ↔
        ∃ p < L.nrows, ∃ q < L.nrows, ∀ j < L.ncols, d j = L.at0 q j - L.at0 p j) ∧
      (∀ t < y.nrows, ∀ s < y.nrows, (∀ j, y.get? t j = y.get? s j) → t = s) := by
  set x : Mat ℝ := ⟨L.ncols, locationDifferences L.rows⟩ with hx
  have hlen : x.nrows = L.nrows ^ 2 := length_locationDifferences L.rows
  have hxn : 0 < x.nrows := by rw [hlen]; positivity
  obtain ⟨y, idx, h1, h2, h3, h4, h5⟩ := C30_unique_rows_exact x hxn hm
  have hrow : ∀ i j, i < L.nrows → j < L.nrows → ∀ c < L.ncols,
      x.get? (i + j * L.nrows) c = some (L.at0 i c - L.at0 j c) := by
    intro i j hi hj c hc
    have hi' : i < L.rows.length := hi
    have hj' : j < L.rows.length := hj
    have := getElem?_locationDifferences L.rows i j hi hj
    simp only [hx, Mat.get?, Mat.nrows, Mat.at0]
    rw [this]
    simp [hc, List.getElem?_eq_getElem hi', List.getElem?_eq_getElem hj']
    rfl
  have hdecomp : ∀ t < x.nrows, ∃ i < L.nrows, ∃ j < L.nrows, t = i + j * L.nrows := by
    intro t ht
    rw [hlen, sq] at ht
    exact ⟨t % L.nrows, Nat.mod_lt _ hn, t / L.nrows, Nat.div_lt_of_lt_mul ht,
      by rw [mul_comm]; exact (Nat.mod_add_div t _).symm⟩
  -- every row of `x` equals a selected row
  have hfirst : ∀ r < x.nrows, ∃ i ∈ idx, x.rows[i]? = x.rows[r]? := by
    intro r
    induction r using Nat.strong_induction_on with
    | _ r ih =>
      intro hr
      by_cases hm : r ∈ idx
      · exact ⟨r, hm, rfl⟩
      · rw [h3 r] at hm
        push Not at hm
        obtain ⟨i, hi, hir⟩ := hm hr
        obtain ⟨s, hs, hsi⟩ := ih i hi (hi.trans hr)
        exact ⟨s, hs, hsi.trans hir⟩
  refine ⟨y, by simp [uniqueLocationDifferences, ← hx, h1], fun d => ⟨?_, ?_⟩, ?_⟩
  · rintro ⟨t, ht, hd⟩
    rw [h5] at ht
    have hti := h4 t idx[t]
    obtain ⟨i, hi, j, hj, hij⟩ := hdecomp idx[t] ((h3 _).1 (List.getElem_mem ht)).1
    refine ⟨j, hj, i, hi, fun c hc => ?_⟩
    have e := hti c (List.getElem?_eq_getElem ht)
    rw [hd c hc, hij, hrow i j hi hj c hc] at e
    exact Option.some.inj e
  · rintro ⟨p, hp, q, hq, hd⟩
    have hlt : q + p * L.nrows < x.nrows := by
      rw [hlen, sq]
      have : (p + 1) * L.nrows ≤ L.nrows * L.nrows := Nat.mul_le_mul_right _ hp
      nlinarith
    obtain ⟨i, hi, hie⟩ := hfirst _ hlt
    obtain ⟨t, ht, rfl⟩ := List.mem_iff_getElem.1 hi
    refine ⟨t, by rw [h5]; exact ht, fun j hj => ?_⟩
    rw [h4 t idx[t] j (List.getElem?_eq_getElem ht), hd j hj, ← hrow q p hq hp j hj]
    simp only [Mat.get?, hie]
  · intro t ht s hs hts
    rw [h5] at ht hs
    have he : x.rows[idx[t]]? = x.rows[idx[s]]? := by
      have lt := ((h3 _).1 (List.getElem_mem ht)).1
      have ls := ((h3 _).1 (List.getElem_mem hs)).1
      have lt' : idx[t] < x.rows.length := lt
      have ls' : idx[s] < x.rows.length := ls
      rw [List.getElem?_eq_getElem lt', List.getElem?_eq_getElem ls']
      congr 1
      funext c
      have e := hts c.1
      rw [h4 t _ c.1 (List.getElem?_eq_getElem ht), h4 s _ c.1 (List.getElem?_eq_getElem hs)] at e
      simpa [Mat.get?, List.getElem?_eq_getElem lt', List.getElem?_eq_getElem ls'] using e
    have hne : idx[t] = idx[s] := by
      rcases lt_trichotomy idx[t] idx[s] with h | h | h
      · exact absurd he (((h3 _).1 (List.getElem_mem hs)).2 _ h)
      · exact h
      · exact absurd he.symm (((h3 _).1 (List.getElem_mem ht)).2 _ h)
    have hnd : idx.Nodup := h2.imp (fun h => ne_of_lt h)
    exact hnd.getElem_inj_iff.1 hne

/-- **C30** (coarray use, with tolerance). Every row returned by
`compute_unique_location_differences` is the difference of two sensor locations, and every difference
of two sensor locations is within `atol + rtol * (largest coordinate difference)` of a returned
row. -/
theorem C30_differences_cover (L : Mat ℝ) (hn : 0 < L.nrows) (hm : 0 < L.ncols) (atol rtol M : ℝ)
    (hM : IsGreatest {t | ∃ p < L.nrows, ∃ q < L.nrows, ∃ j < L.ncols,
      t = |L.at0 q j - L.at0 p j|} M) (h0 : 0 ≤ atol + rtol * M) :
    ∃ y : Mat ℝ, uniqueLocationDifferences L atol rtol = .ok y ∧ y.ncols = L.ncols ∧ 0 < y.nrows ∧
      (∀ t < y.nrows, ∃ p < L.nrows, ∃ q < L.nrows, ∀ j < L.ncols,
        y.get? t j = some (L.at0 q j - L.at0 p j)) ∧
      (∀ p < L.nrows, ∀ q < L.nrows, ∃ t < y.nrows, ∀ j < L.ncols, ∃ v, y.get? t j = some v ∧
        |v - (L.at0 q j - L.at0 p j)| ≤ atol + rtol * M) := by
  set x : Mat ℝ := ⟨L.ncols, locationDifferences L.rows⟩ with hx
  have hlen : x.nrows = L.nrows ^ 2 := length_locationDifferences L.rows
  have hxn : 0 < x.nrows := by rw [hlen]; positivity
  have hrow : ∀ i j, i < L.nrows → j < L.nrows → ∀ c < L.ncols,
      x.get? (i + j * L.nrows) c = some (L.at0 i c - L.at0 j c) := by
    intro i j hi hj c hc
    have hi' : i < L.rows.length := hi
    have hj' : j < L.rows.length := hj
    have := getElem?_locationDifferences L.rows i j hi hj
    simp only [hx, Mat.get?, Mat.nrows, Mat.at0]
    rw [this]
    simp [hc, List.getElem?_eq_getElem hi', List.getElem?_eq_getElem hj']
    rfl
  have hdecomp : ∀ t < x.nrows, ∃ i < L.nrows, ∃ j < L.nrows, t = i + j * L.nrows := by
    intro t ht
    rw [hlen, sq] at ht
    exact ⟨t % L.nrows, Nat.mod_lt _ hn, t / L.nrows, Nat.div_lt_of_lt_mul ht,
      by rw [mul_comm]; exact (Nat.mod_add_div t _).symm⟩
  have hlt : ∀ p < L.nrows, ∀ q < L.nrows, q + p * L.nrows < x.nrows := by
    intro p hp q hq
    rw [hlen, sq]
    have : (p + 1) * L.nrows ≤ L.nrows * L.nrows := Nat.mul_le_mul_right _ hp
    nlinarith
  have htol : IsTolerance x atol rtol (atol + rtol * M) := by
    refine ⟨M, ⟨?_, ?_⟩, rfl⟩
    · obtain ⟨p, hp, q, hq, j, hj, rfl⟩ := hM.1
      exact ⟨_, j, _, hrow q p hq hp j hj, rfl⟩
    · rintro _ ⟨i, j, e, he, rfl⟩
      have hi : i < x.nrows := by
        by_contra h
        have : x.rows[i]? = none := List.getElem?_eq_none (not_lt.1 h)
        simp [Mat.get?, this] at he
      have hj : j < L.ncols := by
        by_contra h
        have h' : ¬ j < x.ncols := h
        unfold Mat.get? at he
        obtain ⟨r, -, hr⟩ := Option.bind_eq_some_iff.1 he
        rw [dif_neg h'] at hr
        cases hr
      obtain ⟨q, hq, p, hp, rfl⟩ := hdecomp i hi
      rw [hrow q p hq hp j hj] at he
      rw [← Option.some.inj he]
      exact hM.2 ⟨p, hp, q, hq, j, hj, rfl⟩
  obtain ⟨y, idx, e1, e2, e3, e4, e5, -, e7, -, e9, -⟩ :=
    C30_unique_rows_cover x hxn hm atol rtol _ htol h0
  refine ⟨y, by simp [uniqueLocationDifferences, ← hx, e1], e2, ?_, ?_, ?_⟩
  · rw [e3]
    cases idx with
    | nil => simp at e5
    | cons a l => simp
  · intro t ht
    rw [e3] at ht
    obtain ⟨q, hq, p, hp, h⟩ := hdecomp _ (e7 _ (List.getElem_mem ht))
    refine ⟨p, hp, q, hq, fun j hj => ?_⟩
    rw [e4 t _ j (List.getElem?_eq_getElem ht), h, hrow q p hq hp j hj]
  · intro p hp q hq
    obtain ⟨i, hi, -, a, b, ha, hb, hab⟩ := e9 _ (hlt p hp q hq)
    obtain ⟨t, ht⟩ := List.getElem?_of_mem hi
    refine ⟨t, by rw [e3]; exact (List.getElem?_eq_some_iff.1 ht).1, fun j hj => ?_⟩
    have hjx : j < x.ncols := hj
    refine ⟨a ⟨j, hjx⟩, ?_, ?_⟩
    · rw [e4 t i j ht]
      simp only [Mat.get?, ha, Option.bind_some, dif_pos hjx]
    · have hr := hrow q p hq hp j hj
      simp only [Mat.get?, hb, Option.bind_some, dif_pos hjx, Option.some.injEq] at hr
      rw [← hr]
      exact hab ⟨j, hjx⟩

/-- The hypotheses of `C30_differences_cover` for two sensors at 0 and 1: the largest coordinate
difference is 1. -/
example : IsGreatest {t | ∃ p < (Mat.col [0, (1 : ℝ)]).nrows, ∃ q < (Mat.col [0, (1 : ℝ)]).nrows,
    ∃ j < (Mat.col [0, (1 : ℝ)]).ncols,
      t = |(Mat.col [0, (1 : ℝ)]).at0 q j - (Mat.col [0, (1 : ℝ)]).at0 p j|} 1 := by
  have h0 : (Mat.col [0, (1 : ℝ)]).at0 0 0 = 0 := rfl
  have h1 : (Mat.col [0, (1 : ℝ)]).at0 1 0 = 1 := rfl
  constructor
  · exact ⟨0, by simp [Mat.col, Mat.nrows], 1, by simp [Mat.col, Mat.nrows], 0, by simp [Mat.col],
      by rw [h0, h1]; norm_num⟩
  · rintro _ ⟨p, hp, q, hq, j, hj, rfl⟩
    have hp : p = 0 ∨ p = 1 := by have : p < 2 := hp; omega
    have hq : q = 0 ∨ q = 1 := by have : q < 2 := hq; omega
    have hj : j = 0 := by have : j < 1 := hj; omega
    subst hj
    rcases hp with rfl | rfl <;> rcases hq with rfl | rfl <;> simp only [h0, h1] <;> norm_num

/-- Non-vacuity of the hypotheses of the C30 theorems: a `3 × 1` matrix with tolerance 0.5. -/
example : IsTolerance ⟨1, [![0], ![1], ![1.25]]⟩ 0.5 0 0.5 := by
  refine ⟨1.25, ⟨⟨2, 0, 1.25, by simp [Mat.get?], by norm_num⟩, ?_⟩, by norm_num⟩
  rintro _ ⟨i, j, e, h, rfl⟩
  have := mem_entries.2 ⟨i, j, h⟩
  simp [Mat.entries] at this
  rcases this with rfl | rfl | rfl <;> norm_num

end Doa.Props
