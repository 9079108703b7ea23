import Verif.Lemmas.ArrayHeap

/-!
# C09, C10, C65: perturbation bookkeeping and independence of array objects

Histories are arbitrary lists of operations (`ArrOp`), including failing ones.
-/

namespace Doa

open Spec

theorem Heap.construct_spec (h : Heap) (loc : Nd ℝ) (nm : Option String) (el : Element)
    (ps : PertInput) :
    h.Ext (h.construct loc nm el ps).2 ∧
    (∀ r' b, h.objs.length ≤ r' → (h.construct loc nm el ps).2.view r' = some b →
      GoodDict b.size b.element b.perts) ∧
    (∀ e, ps.parse = .error e → ∃ e', (h.construct loc nm el ps).1 = .error e') ∧
    (∀ l, ps.parse = .ok l →
      (∀ e, ArrayDesign.init loc nm ⟨l, el⟩ = .error e → (h.construct loc nm el ps).1 = .error e) ∧
      (∀ b, ArrayDesign.init loc nm ⟨l, el⟩ = .ok b → ∃ r', (h.construct loc nm el ps).1 = .ok r' ∧
        (h.construct loc nm el ps).2.view r' = some b)) := by
  -- the common continuation of the three successful shapes
  have key : ∀ M : Mat ℝ,
      let R := h.constructWith M nm el ps
      h.Ext R.2 ∧ (∀ r' b, h.objs.length ≤ r' → R.2.view r' = some b →
          GoodDict b.size b.element b.perts) ∧
        (∀ e, ps.parse = .error e → ∃ e', R.1 = .error e') ∧
        (∀ l, ps.parse = .ok l →
          (∀ e, (addPerturbations M.nrows el true [] l).map (fun d => ArrayDesign.mk M nm el d) =
            .error e → R.1 = .error e) ∧
          (∀ b, (addPerturbations M.nrows el true [] l).map (fun d => ArrayDesign.mk M nm el d) =
            .ok b → ∃ r', R.1 = .ok r' ∧ R.2.view r' = some b)) := by
    intro M R
    set h1 : Heap :=
        { locs := h.locs ++ [M], dicts := h.dicts ++ [[]],
          objs := h.objs ++ [⟨h.locs.length, nm, el, h.dicts.length⟩] } with hh1
    have hext : h.Ext h1 := ⟨List.prefix_append _ _, List.prefix_append _ _, List.prefix_append _ _⟩
    have ho : h1.objs[h.objs.length]? = some ⟨h.locs.length, nm, el, h.dicts.length⟩ :=
      List.getElem?_concat_length
    have hv : h1.view h.objs.length = some ⟨M, nm, el, []⟩ :=
      Heap.view_eq_some.2 ⟨_, ho, List.getElem?_concat_length, List.getElem?_concat_length, rfl, rfl⟩
    have hg0 : GoodDict M.nrows el ([] : PDict) := ⟨by simp [PyDict.keys], by simp⟩
    cases hp : ps.parse with
    | error e =>
      have hR : R = (.error e, h1) := by simp only [R, Heap.constructWith, hp, hh1]
      rw [hR]
      refine ⟨hext, ?_, fun e' _ => ⟨_, rfl⟩, by simp⟩
      intro r' b hr' hb
      obtain ⟨ob, b1, _⟩ := Heap.view_eq_some.1 hb
      have hlt := (List.getElem?_eq_some_iff.1 b1).1
      have : r' = h.objs.length := by simp [h1] at hlt; omega
      subst this
      simp only [hv, Option.some.injEq] at hb
      rw [← hb]; exact hg0
    | ok l =>
      have hR : R = ((h1.addFromList h.objs.length true l).1.map fun _ => h.objs.length,
          (h1.addFromList h.objs.length true l).2) := by simp only [R, Heap.constructWith, hp, hh1]
      rw [hR]
      obtain ⟨s1, d, s2, s3, s4⟩ := Heap.addFromList_spec (ro := true) (ps := l) hv ho
      have hview : (h1.addFromList h.objs.length true l).2.view h.objs.length =
          some ⟨M, nm, el, d⟩ := by
        rw [s2]
        refine Heap.view_eq_some.2 ⟨_, ho, List.getElem?_concat_length, ?_, rfl, rfl⟩
        simp [h1]
      refine ⟨?_, ?_, by simp, ?_⟩
      · simp only [s2]
        exact ⟨hext.1, prefix_set hext.2.1 le_rfl _, hext.2.2⟩
      · intro r' b hr' hb
        obtain ⟨ob, b1, _⟩ := Heap.view_eq_some.1 hb
        have hlt := (List.getElem?_eq_some_iff.1 b1).1
        have : r' = h.objs.length := by
          simp only [s2] at hlt; simp [h1] at hlt; omega
        subst this
        simp only [hview, Option.some.injEq] at hb
        rw [← hb]; exact s3 hg0
      · intro l' hl'; cases hl'
        have s1' : (h1.addFromList h.objs.length true l).1 =
          (addPerturbations M.nrows el true [] l).map (fun _ => ()) := s1
        have s4' : ∀ d', addPerturbations M.nrows el true [] l = .ok d' → d = d' := s4
        rw [s1']
        cases hadd : addPerturbations M.nrows el true [] l with
        | error e =>
          exact ⟨fun e' he => (by cases he; rfl), fun b hb => (by cases hb)⟩
        | ok d' =>
          refine ⟨fun e' he => (by cases he), fun b hb => ?_⟩
          cases hb
          exact ⟨_, rfl, by rw [hview, s4' d' hadd]⟩
  have hinit : ∀ (M : Mat ℝ) (l : List Perturbation), ¬ M.ncols > 3 →
      ArrayDesign.init (.mat M) nm ⟨l, el⟩ =
      (addPerturbations M.nrows el true [] l).map (fun d => ArrayDesign.mk M nm el d) := by
    intro M l hM
    simp only [ArrayDesign.init, hM, if_false]
    cases addPerturbations M.nrows el true [] l <;> rfl
  have hinit' : ∀ (x : List ℝ) (l : List Perturbation),
      ArrayDesign.init (.vec x) nm ⟨l, el⟩ =
      (addPerturbations (Mat.col x).nrows el true [] l).map
        (fun d => ArrayDesign.mk (Mat.col x) nm el d) := by
    intro x l
    simp only [ArrayDesign.init]
    cases addPerturbations (Mat.col x).nrows el true [] l <;> rfl
  have hnone : ∀ e, h.Ext ((.error e, h) : Res ℕ × Heap).2 ∧
      (∀ r' b, h.objs.length ≤ r' → ((.error e, h) : Res ℕ × Heap).2.view r' = some b →
        GoodDict b.size b.element b.perts) ∧
      (∀ e', ps.parse = .error e' → ∃ e', ((.error e, h) : Res ℕ × Heap).1 = .error e') ∧
      (∀ l, ps.parse = .ok l →
        (∀ e', (.error e : Res ArrayDesign) = .error e' →
          ((.error e, h) : Res ℕ × Heap).1 = .error e') ∧
        (∀ b, (.error e : Res ArrayDesign) = .ok b → ∃ r', ((.error e, h) : Res ℕ × Heap).1 = .ok r' ∧
          ((.error e, h) : Res ℕ × Heap).2.view r' = some b)) := by
    intro e
    refine ⟨Heap.Ext.refl h, ?_, fun e' _ => ⟨_, rfl⟩, fun l _ => ⟨fun e' he => by cases he; rfl,
      fun b hb => by cases hb⟩⟩
    intro r' b hr' hb
    obtain ⟨ob, b1, _⟩ := Heap.view_eq_some.1 hb
    have hlt : r' < h.objs.length := (List.getElem?_eq_some_iff.1 b1).1
    omega
  cases loc with
  | scalar x => exact hnone _
  | tensor => exact hnone _
  | vec l =>
    have hk := key (Mat.col l)
    simp only [hinit']
    exact hk
  | mat M =>
    by_cases hM : M.ncols > 3
    · simp only [Heap.construct, ArrayDesign.init, hM, if_true]
      exact hnone _
    · simp only [Heap.construct, hM, if_false, hinit _ _ hM]
      exact key M

theorem Heap.elementLocations_ext (h : Heap) (r : ℕ) : h.Ext (h.elementLocations r).2 ∧
    (h.elementLocations r).2.objs = h.objs := by
  unfold Heap.elementLocations
  split
  · exact ⟨Heap.Ext.refl h, rfl⟩
  · exact ⟨⟨List.prefix_append _ _, List.prefix_rfl, List.prefix_rfl⟩, rfl⟩

theorem Heap.actualElementLocations_ext (h : Heap) (r : ℕ) :
    h.Ext (h.actualElementLocations r).2 ∧ (h.actualElementLocations r).2.objs = h.objs := by
  unfold Heap.actualElementLocations
  split
  · rename_i o a _ _
    suffices H : ∀ (ps : List Perturbation) (acc : Res ℕ × Heap),
        (h.Ext acc.2 ∧ acc.2.objs = h.objs) →
        (h.Ext (ps.foldl _ acc).2 ∧ (ps.foldl _ acc).2.objs = h.objs) from
      H _ _ ⟨Heap.Ext.refl h, rfl⟩
    intro ps
    induction ps with
    | nil => intro acc hacc; exact hacc
    | cons p ps ih =>
      intro acc hacc
      apply ih
      obtain ⟨x | x, h'⟩ := acc
      · exact hacc
      · cases p with
        | location err k =>
          simp only
          split
          · exact hacc
          · exact ⟨hacc.1.trans ⟨List.prefix_append _ _, List.prefix_rfl, List.prefix_rfl⟩, hacc.2⟩
        | _ => exact hacc
  · exact ⟨Heap.Ext.refl h, rfl⟩

theorem Heap.addFromList_prefix {ro : Bool} (ps : List Perturbation) : ∀ {h : Heap} {r : ℕ}
    {o : ArrObj}, h.objs[r]? = some o → ∀ l : List PDict, l <+: h.dicts → l.length ≤ o.dictRef →
    l <+: (h.addFromList r ro ps).2.dicts ∧ (h.addFromList r ro ps).2.objs = h.objs ∧
      (h.addFromList r ro ps).2.locs = h.locs := by
  induction ps with
  | nil => intro h r o _ l hl _; exact ⟨hl, rfl, rfl⟩
  | cons p ps ih =>
    intro h r o ho l hl hn
    simp only [Heap.addFromList, ho]
    cases h.view r with
    | none => exact ⟨hl, rfl, rfl⟩
    | some a =>
      simp only
      cases addPerturbation a.size a.element ro a.perts p with
      | error e => exact ⟨hl, rfl, rfl⟩
      | ok d =>
        exact ih (h := { h with dicts := h.dicts.set o.dictRef d }) ho l (prefix_set hl hn d) hn

theorem Heap.addFromList_shape {ro : Bool} (ps : List Perturbation) : ∀ {h : Heap} {r : ℕ},
    (h.addFromList r ro ps).2.dicts.length = h.dicts.length ∧
    (h.addFromList r ro ps).2.objs = h.objs ∧ (h.addFromList r ro ps).2.locs = h.locs := by
  induction ps with
  | nil => intro h r; exact ⟨rfl, rfl, rfl⟩
  | cons p ps ih =>
    intro h r
    simp only [Heap.addFromList]
    split
    · split
      · exact ⟨rfl, rfl, rfl⟩
      · rename_i o _ _ _ d _
        have := ih (h := { h with dicts := h.dicts.set o.dictRef d }) (r := r)
        simp only [List.length_set] at this
        exact this
    · exact ⟨rfl, rfl, rfl⟩

/-- No dangling references. -/
def Heap.Valid (h : Heap) : Prop :=
  ∀ o ∈ h.objs, o.locRef < h.locs.length ∧ o.dictRef < h.dicts.length

theorem Heap.Valid.view {h : Heap} (hV : h.Valid) {r : ℕ} (hr : r < h.objs.length) :
    ∃ a, h.view r = some a := by
  have ho : h.objs[r]? = some h.objs[r] := List.getElem?_eq_getElem hr
  obtain ⟨h1, h2⟩ := hV _ (List.getElem_mem hr)
  exact ⟨⟨h.locs[h.objs[r].locRef], h.objs[r].name, h.objs[r].element, h.dicts[h.objs[r].dictRef]⟩,
    Heap.view_eq_some.2 ⟨_, ho, List.getElem?_eq_getElem h1, List.getElem?_eq_getElem h2, rfl, rfl⟩⟩

theorem Heap.Valid.of_shape {h h' : Heap} (hV : h.Valid) (h1 : h'.dicts.length = h.dicts.length)
    (h2 : h'.objs = h.objs) (h3 : h'.locs = h.locs) : h'.Valid := by
  intro o ho; rw [h2] at ho; rw [h1, h3]; exact hV o ho

theorem Heap.Valid.freeCopy {h : Heap} (hV : h.Valid) (r : ℕ) (n : Option String) :
    (h.freeCopy r n).2.Valid := by
  unfold Heap.freeCopy
  split
  · exact hV
  · rename_i o ho
    intro o' ho'
    have := hV o (List.mem_of_getElem? ho)
    rcases List.mem_append.1 ho' with h1 | h1
    · have := hV o' h1; simp; omega
    · simp at h1; subst h1; simp; exact this.1

theorem Heap.Valid.perturbedCopy {h : Heap} (hV : h.Valid) (r : ℕ) (ps : PertInput)
    (n : Option String) : (h.perturbedCopy r ps n).2.Valid := by
  have hf := hV.freeCopy r n
  unfold Heap.perturbedCopy
  split
  · rename_i e h1 he; rw [he] at hf; exact hf
  · rename_i r' h1 he
    rw [he] at hf
    split
    · exact hf
    · split
      · rename_i o a o' _ _ ho'
        obtain ⟨s1, s2, s3⟩ := Heap.addFromList_shape (ro := false) _ (r := r')
        refine Heap.Valid.of_shape ?_ s1 s2 s3
        intro x hx
        rcases List.mem_or_eq_of_mem_set hx with h2 | h2
        · have := hf x h2; simp at this ⊢; omega
        · subst h2
          have := hf o' (List.mem_of_getElem? ho')
          simp at this ⊢; exact this.1
      · exact hf

theorem Heap.Valid.construct {h : Heap} (hV : h.Valid) (l : Nd ℝ) (n : Option String) (e : Element)
    (ps : PertInput) : (h.construct l n e ps).2.Valid := by
  have hw : ∀ M, (h.constructWith M n e ps).2.Valid := by
    intro M
    have h1 : Heap.Valid ⟨h.locs ++ [M], h.dicts ++ [[]],
        h.objs ++ [⟨h.locs.length, n, e, h.dicts.length⟩]⟩ := by
      intro o ho
      rcases List.mem_append.1 ho with h1 | h1
      · have := hV o h1; simp; omega
      · simp at h1; subst h1; simp
    unfold Heap.constructWith
    split
    · exact h1
    · obtain ⟨s1, s2, s3⟩ := Heap.addFromList_shape (ro := true) _ (r := h.objs.length)
      exact h1.of_shape s1 s2 s3
  unfold Heap.construct
  split
  · exact hV
  · exact hw _
  · split
    · exact hV
    · exact hw _
  · exact hV

theorem Heap.Valid.of_ext {h h' : Heap} (hV : h.Valid) (he : h.Ext h') (ho : h'.objs = h.objs) :
    h'.Valid := by
  intro o h1; rw [ho] at h1
  have := hV o h1
  have := he.1.length_le; have := he.2.1.length_le
  omega

/-- Everything in the heap is valid and well perturbed. -/
def Heap.Inv (h : Heap) : Prop :=
  h.Valid ∧ ∀ r a, h.view r = some a → GoodDict a.size a.element a.perts

/-- Every operation only allocates. -/
theorem Heap.step_ext (h : Heap) (op : ArrOp) : h.Ext (h.step op).2 := by
  cases op with
  | construct l n e ps => exact (Heap.construct_spec h l n e ps).1
  | perturbedCopy r ps n =>
    cases hv : h.view r with
    | some a => exact (Heap.perturbedCopy_spec hv ps n).1
    | none =>
      simp only [Heap.step, Heap.perturbedCopy, Heap.freeCopy]
      cases ho : h.objs[r]? with
      | none => exact Heap.Ext.refl h
      | some o =>
        simp only
        have hE : h.Ext { h with
            dicts := h.dicts ++ [[]]
            objs := h.objs ++ [{ o with
              dictRef := h.dicts.length, name := n.or o.name }] } :=
          ⟨List.prefix_rfl, List.prefix_append _ _, List.prefix_append _ _⟩
        cases ps.parse with
        | error e => exact hE
        | ok l =>
          simp only
          split
          · rename_i a o' h1 h2 h3
            have hpre := Heap.addFromList_prefix (ro := false) l
              (h := { h with
                dicts := h.dicts ++ [[]] ++ [a.perts]
                objs := (h.objs ++ [{ o with
                  dictRef := h.dicts.length, name := n.or o.name }]).set
                    h.objs.length { o' with dictRef := (h.dicts ++ [[]]).length } })
              (r := h.objs.length)
              (o := { o' with dictRef := (h.dicts ++ [[]]).length }) (by simp)
              h.dicts (by rw [List.append_assoc]; exact List.prefix_append _ _) (by simp)
            refine ⟨?_, hpre.1, ?_⟩
            · have := hpre.2.2; simp only at this ⊢; rw [this]
            · have := hpre.2.1; simp only at this ⊢; rw [this]
              exact prefix_set (List.prefix_append _ _) le_rfl _
          · exact hE
  | freeCopy r n =>
    simp only [Heap.step, Heap.freeCopy]
    split
    · exact Heap.Ext.refl h
    · exact ⟨List.prefix_rfl, List.prefix_append _ _, List.prefix_append _ _⟩
  | elementLocations r => exact (Heap.elementLocations_ext h r).1
  | actualElementLocations r => exact (Heap.actualElementLocations_ext h r).1

theorem view_lt {h : Heap} {r : ℕ} {a : ArrayDesign} (hv : h.view r = some a) :
    r < h.objs.length := by
  obtain ⟨o, h1, _⟩ := Heap.view_eq_some.1 hv
  exact (List.getElem?_eq_some_iff.1 h1).1

theorem Heap.Inv.step {h : Heap} (hi : h.Inv) (op : ArrOp) : (h.step op).2.Inv := by
  have hext := h.step_ext op
  have hold : ∀ r a, (h.step op).2.view r = some a → r < h.objs.length →
      GoodDict a.size a.element a.perts := by
    intro r a hv hr
    obtain ⟨b, hb⟩ := hi.1.view hr
    have := hext.view hb
    rw [hv] at this; cases this
    exact hi.2 r a hb
  cases op with
  | construct l n e ps =>
    refine ⟨hi.1.construct l n e ps, fun r a hv => ?_⟩
    by_cases hr : r < h.objs.length
    · exact hold r a hv hr
    · exact (Heap.construct_spec h l n e ps).2.1 r a (by omega) hv
  | perturbedCopy r ps n =>
    refine ⟨hi.1.perturbedCopy r ps n, fun r' a hv => ?_⟩
    by_cases hr : r' < h.objs.length
    · exact hold r' a hv hr
    · by_cases hr2 : r < h.objs.length
      · obtain ⟨b, hb⟩ := hi.1.view hr2
        exact (Heap.perturbedCopy_spec hb ps n).2.2.2 r' a (by omega) hv (hi.2 r b hb)
      · exfalso
        have ho : h.objs[r]? = none := List.getElem?_eq_none (by omega)
        have : (h.perturbedCopy r ps n).2 = h := by simp [Heap.perturbedCopy, Heap.freeCopy, ho]
        have h2 : h.view r' = some a := by rw [← this]; exact hv
        exact hr (view_lt h2)
  | freeCopy r n =>
    refine ⟨hi.1.freeCopy r n, fun r' a hv => ?_⟩
    by_cases hr : r' < h.objs.length
    · exact hold r' a hv hr
    · by_cases hr2 : r < h.objs.length
      · obtain ⟨b, hb⟩ := hi.1.view hr2
        obtain ⟨h', e1, e2, e3, e4, e5, e6⟩ := Heap.freeCopy_spec hb n
        have hv' : h'.view r' = some a := by
          have : (h.freeCopy r n).2.view r' = some a := hv
          rw [e1] at this; exact this
        have := view_lt hv'
        have hr' : r' = h.objs.length := by omega
        subst hr'
        rw [e3] at hv'; cases hv'
        exact ⟨by simp [ArrayDesign.perturbationFreeCopy, PyDict.keys],
          by simp [ArrayDesign.perturbationFreeCopy]⟩
      · exfalso
        have ho : h.objs[r]? = none := List.getElem?_eq_none (by omega)
        have : (h.freeCopy r n).2 = h := by simp [Heap.freeCopy, ho]
        have h2 : h.view r' = some a := by rw [← this]; exact hv
        exact hr (view_lt h2)
  | elementLocations r =>
    obtain ⟨h1, h2⟩ := h.elementLocations_ext r
    refine ⟨hi.1.of_ext h1 h2, fun r' a hv => hold r' a hv ?_⟩
    have := view_lt hv
    have h3 : (h.step (.elementLocations r)).2.objs = h.objs := h2
    rwa [h3] at this
  | actualElementLocations r =>
    obtain ⟨h1, h2⟩ := h.actualElementLocations_ext r
    refine ⟨hi.1.of_ext h1 h2, fun r' a hv => hold r' a hv ?_⟩
    have := view_lt hv
    have h3 : (h.step (.actualElementLocations r)).2.objs = h.objs := h2
    rwa [h3] at this

theorem Heap.run_ext (ops : List ArrOp) : ∀ h : Heap, h.Ext (h.run ops) := by
  induction ops with
  | nil => intro h; exact Heap.Ext.refl h
  | cons op ops ih => intro h; exact (h.step_ext op).trans (ih _)

theorem Heap.Inv.run (ops : List ArrOp) : ∀ {h : Heap}, h.Inv → (h.run ops).Inv := by
  induction ops with
  | nil => intro h hi; exact hi
  | cons op ops ih => intro h hi; exact ih (hi.step op)

theorem Heap.Inv.empty : Heap.Inv {} := ⟨by intro o ho; simp at ho, by intro r a h; simp [Heap.view] at h⟩

end Doa

namespace Doa.Props
open Doa Doa.Spec

/-- **C09**. After any history of constructor calls, copies and accessor calls (successful or
raising), every array object has at most one perturbation of each type, and each one fits the
array. -/
theorem C09_invariant (ops : List ArrOp) (r : ℕ) (a : ArrayDesign)
    (h : (Heap.run {} ops).view r = some a) : WellPerturbed a :=
  GoodDict.wellPerturbed ((Heap.Inv.empty.run ops).2 r a h)

/-- **C09** (acceptance). The constructor accepts a list of perturbations exactly when each one
fits and no two have the same type; a failure is always an exception. `get_perturbed_copy` accepts
exactly the lists of perturbations that fit. -/
theorem C09_accepts (M : Mat ℝ) (hM : M.ncols ≤ 3) (nm : Option String) (el : Element)
    (ps : List Perturbation) :
    ((∃ a, ArrayDesign.init (.mat M) nm ⟨ps, el⟩ = .ok a) ↔
      (∀ p ∈ ps, Fits M.nrows el p) ∧ (ps.map Perturbation.kind).Nodup) ∧
    ∀ (a : ArrayDesign) (nm' : Option String), (∃ b, a.perturbedCopy ps nm' = .ok b) ↔
      ∀ p ∈ ps, Fits a.size a.element p := by
  constructor
  · have h3 : ¬ M.ncols > 3 := by omega
    have h4 := addPerturbations_true_ok_iff (size := M.nrows) (el := el) (ps := ps)
      (d := ([] : PDict))
    simp only [PyDict.keys, List.map_nil, List.not_mem_nil, not_false_iff, implies_true,
      and_true] at h4
    rw [← h4]
    simp only [ArrayDesign.init, h3, if_false]
    cases addPerturbations M.nrows el true [] ps <;> simp
  · intro a nm'
    rw [← addPerturbations_false_ok_iff (d := a.perts)]
    rw [perturbedCopy_eq]
    cases addPerturbations a.size a.element false a.perts ps <;> simp [Except.map]

example : WellPerturbed
    ⟨⟨1, [![0], ![1]]⟩, none, .isotropicScalar, [(.gain, .gain [0.1, 0.2] true)]⟩ := by
  apply GoodDict.wellPerturbed
  refine ⟨by simp [PyDict.keys], ?_⟩
  intro k p hp
  simp at hp
  obtain ⟨rfl, rfl⟩ := hp
  simp [Perturbation.kind, Fits, Element.outputSize, ArrayDesign.size, Mat.nrows]

/-- **C10** (copies). `get_perturbed_copy(ps)` on an array object: for every type the last
perturbation of that type in `ps` if there is one, otherwise the array's own; locations, element and
(by default) name are kept. It raises exactly when the dictionary cannot be parsed or one
perturbation does not fit. `get_perturbation_free_copy` has no perturbations. -/
theorem C10_copy (h : Heap) (r : ℕ) (a : ArrayDesign) (hv : h.view r = some a) (ps : PertInput)
    (nm : Option String) :
    ((∃ r' , (h.perturbedCopy r ps nm).1 = .ok r') ↔
      ∃ l, ps.parse = .ok l ∧ ∀ p ∈ l, Fits a.size a.element p) ∧
    (∀ r', (h.perturbedCopy r ps nm).1 = .ok r' → ∃ l b, ps.parse = .ok l ∧
      (h.perturbedCopy r ps nm).2.view r' = some b ∧
      (∀ k, b.perts.get? k = (lastOfKind l k).or (a.perts.get? k)) ∧
      b.locations = a.locations ∧ b.element = a.element ∧
      b.name = nm.or a.name) ∧
    ∃ r' b, (h.freeCopy r nm).1 = .ok r' ∧ (h.freeCopy r nm).2.view r' = some b ∧
      b.perturbations = [] ∧ b.locations = a.locations ∧ b.element = a.element ∧
      b.name = nm.or a.name := by
  obtain ⟨_, s1, s2, _⟩ := Heap.perturbedCopy_spec hv ps nm
  have hpc : ∀ l b, a.perturbedCopy l nm = .ok b →
      (∀ k, b.perts.get? k = (lastOfKind l k).or (a.perts.get? k)) ∧
      b.locations = a.locations ∧ b.element = a.element ∧
      b.name = nm.or a.name := by
    intro l b hb
    rw [perturbedCopy_eq] at hb
    cases hadd : addPerturbations a.size a.element false a.perts l with
    | error e => rw [hadd] at hb; cases hb
    | ok d =>
      rw [hadd] at hb; cases hb
      exact ⟨addPerturbations_get? hadd, rfl, rfl, rfl⟩
  refine ⟨?_, ?_, ?_⟩
  · constructor
    · rintro ⟨r', hr'⟩
      cases hp : ps.parse with
      | error e => rw [s1 e hp] at hr'; cases hr'
      | ok l =>
        refine ⟨l, rfl, ?_⟩
        cases hb : a.perturbedCopy l nm with
        | error e => rw [(s2 l hp).1 e hb] at hr'; cases hr'
        | ok b =>
          have := (C09_accepts ⟨1, []⟩ (by simp) none a.element l).2 a nm
          exact this.1 ⟨b, hb⟩
    · rintro ⟨l, hp, hl⟩
      obtain ⟨b, hb⟩ := ((C09_accepts ⟨1, []⟩ (by simp) none a.element l).2 a nm).2 hl
      obtain ⟨r', h1, _⟩ := (s2 l hp).2 b hb
      exact ⟨r', h1⟩
  · intro r' hr'
    cases hp : ps.parse with
    | error e => rw [s1 e hp] at hr'; cases hr'
    | ok l =>
      cases hb : a.perturbedCopy l nm with
      | error e => rw [(s2 l hp).1 e hb] at hr'; cases hr'
      | ok b =>
        obtain ⟨r2, h1, h2, _⟩ := (s2 l hp).2 b hb
        rw [hr'] at h1; cases h1
        exact ⟨l, b, rfl, h2, hpc l b hb⟩
  · obtain ⟨h', e1, _, e3, _⟩ := Heap.freeCopy_spec hv nm
    refine ⟨h.objs.length, a.perturbationFreeCopy nm, by rw [e1], by rw [e1]; exact e3, rfl, rfl, rfl, rfl⟩

/-- **C10** (isolation). Whatever operations are performed afterwards, on this or any other array
object and whether or not they raise, an array object never changes. -/
theorem C10_isolation (ops later : List ArrOp) (r : ℕ) (a : ArrayDesign)
    (h : (Heap.run {} ops).view r = some a) : (Heap.run {} (ops ++ later)).view r = some a := by
  have : Heap.run {} (ops ++ later) = Heap.run (Heap.run {} ops) later := by
    simp [Heap.run, List.foldl_append]
  rw [this]
  exact (Heap.run_ext later _).view h

/-- A history with a perturbed array, for the non-vacuity checks. -/
noncomputable def exampleOps : List ArrOp :=
  [.construct (.vec [0, 1]) none .isotropicScalar (.list []),
   .perturbedCopy 0 (.list [.gain [0.1, 0.2] true]) none]

example : ∃ a, (Heap.run {} exampleOps).view 1 = some a ∧
    (a.perts.get? .gain).isSome ∧ (Heap.run {} exampleOps).view 0 =
      some ⟨Mat.col [0, 1], none, .isotropicScalar, []⟩ := by
  refine ⟨_, rfl, ?_, rfl⟩
  rfl

/-- **C65** (`element_locations`). Overwriting the buffer returned by `element_locations` changes no
array object. -/
theorem C65_element_locations (ops : List ArrOp) (r b : ℕ) (M : Mat ℝ)
    (hb : ((Heap.run {} ops).elementLocations r).1 = .ok b) (r' : ℕ) (a : ArrayDesign)
    (h : (Heap.run {} ops).view r' = some a) :
    (((Heap.run {} ops).elementLocations r).2.writeBuf b M).view r' = some a := by
  have hI := Heap.Inv.empty.run ops
  set hp := Heap.run {} ops
  unfold Heap.elementLocations at hb ⊢
  cases ho : (hp.objs[r]?).bind fun o => hp.locs[o.locRef]? with
  | none => rw [ho] at hb; cases hb
  | some L =>
    rw [ho] at hb
    cases hb
    obtain ⟨o, h1, h2, h3, h4, h5⟩ := Heap.view_eq_some.1 h
    refine Heap.view_eq_some.2 ⟨o, h1, ?_, h3, h4, h5⟩
    have := (List.getElem?_eq_some_iff.1 h2).1
    simp only [Heap.writeBuf]
    rw [List.getElem?_set_ne (by omega), List.getElem?_append_left this, h2]

/-- **C65** (refuted for `actual_element_locations`). For an array without location errors the
accessor returns the internal buffer, so overwriting the returned matrix changes the array (and every
copy made from it). -/
theorem C65_actual_locations_alias : ∃ (ops : List ArrOp) (r b : ℕ) (M : Mat ℝ) (a : ArrayDesign),
    (Heap.run {} ops).view r = some a ∧
    ((Heap.run {} ops).actualElementLocations r).1 = .ok b ∧
    (((Heap.run {} ops).actualElementLocations r).2.writeBuf b M).view r ≠ some a := by
  refine ⟨exampleOps, 0, 0, ⟨1, []⟩, ⟨Mat.col [0, 1], none, .isotropicScalar, []⟩, rfl, rfl, ?_⟩
  intro h
  obtain ⟨o, h1, h2, _⟩ := Heap.view_eq_some.1 h
  have h1' : some (⟨0, none, .isotropicScalar, 0⟩ : ArrObj) = some o := h1
  cases h1'
  have h2' : some (⟨1, []⟩ : Mat ℝ) = some (Mat.col [0, 1]) := h2
  have := congrArg (Option.map Mat.nrows) h2'
  simp [Mat.nrows, Mat.col] at this

end Doa.Props
