import Verif.Model.ArrayHeap
import Verif.Spec.Perturbations

namespace Doa
open Spec

/-- The dictionary invariant. -/
def GoodDict (size : ℕ) (el : Element) (d : PDict) : Prop :=
  d.keys.Nodup ∧ ∀ k p, (k, p) ∈ d → p.kind = k ∧ Fits size el p

theorem isApplicable_true_iff (p : Perturbation) (size : ℕ) (el : Element) :
    p.isApplicable size el = .ok true ↔ Fits size el p := by
  cases p <;> simp [Perturbation.isApplicable, Fits, Element.isScalar] <;> omega

theorem mem_set {κ ν : Type _} [DecidableEq κ] {d : PyDict κ ν} {k k' : κ} {v v' : ν}
    (h : (k', v') ∈ d.set k v) : (k' = k ∧ v' = v) ∨ (k', v') ∈ d := by
  induction d with
  | nil => simpa [PyDict.set] using h
  | cons a d ih =>
    obtain ⟨a, b⟩ := a
    simp only [PyDict.set] at h
    split at h
    · rcases List.mem_cons.1 h with h | h
      · simp at h; exact Or.inl h
      · exact Or.inr (List.mem_cons_of_mem _ h)
    · rcases List.mem_cons.1 h with h | h
      · exact Or.inr (by simp [h])
      · rcases ih h with h | h
        · exact Or.inl h
        · exact Or.inr (List.mem_cons_of_mem _ h)

theorem addPerturbation_ok {size : ℕ} {el : Element} {ro : Bool} {d d' : PDict} {p : Perturbation}
    (h : addPerturbation size el ro d p = .ok d') :
    Fits size el p ∧ d' = d.set p.kind p ∧ (ro = true → p.kind ∉ d.keys) := by
  unfold addPerturbation at h
  split at h
  · exact absurd h (by simp)
  · exact absurd h (by simp)
  · rename_i ha
    split at h
    · exact absurd h (by simp)
    · rename_i hc
      refine ⟨(isApplicable_true_iff _ _ _).1 ha, by simpa using h.symm, ?_⟩
      intro hro hk
      rw [← PyDict.contains_iff] at hk
      simp [hk, hro] at hc

theorem GoodDict.set {size : ℕ} {el : Element} {d : PDict} (h : GoodDict size el d)
    {p : Perturbation} (hp : Fits size el p) : GoodDict size el (d.set p.kind p) := by
  refine ⟨PyDict.nodup_keys_set _ _ _ h.1, fun k q hq => ?_⟩
  rcases mem_set hq with ⟨rfl, rfl⟩ | hq
  · exact ⟨rfl, hp⟩
  · exact h.2 k q hq

theorem GoodDict.wellPerturbed {a : ArrayDesign} (h : GoodDict a.size a.element a.perts) :
    WellPerturbed a := by
  have hk : a.perturbations.map Perturbation.kind = a.perts.keys := by
    unfold ArrayDesign.perturbations PyDict.values PyDict.keys
    rw [List.map_map]
    apply List.map_congr_left
    rintro ⟨k, p⟩ hp
    exact (h.2 k p hp).1
  have hm : ∀ p, p ∈ a.perturbations ↔ (p.kind, p) ∈ a.perts := by
    intro p
    unfold ArrayDesign.perturbations PyDict.values
    constructor
    · intro hp
      obtain ⟨⟨k, q⟩, hq, rfl⟩ := List.mem_map.1 hp
      have := (h.2 k q hq).1
      subst this; exact hq
    · intro hp; exact List.mem_map.2 ⟨_, hp, rfl⟩
  refine ⟨hk ▸ h.1, fun p hp => (h.2 _ _ ((hm p).1 hp)).2, fun k p => ?_⟩
  constructor
  · intro hg
    have h1 := PyDict.get?_mem hg
    have h2 := (h.2 _ _ h1).1
    subst h2
    exact ⟨(hm p).2 h1, rfl⟩
  · rintro ⟨h1, rfl⟩
    exact PyDict.get?_of_mem h.1 ((hm p).1 h1)

theorem addPerturbations_good {size : ℕ} {el : Element} {ro : Bool} {ps : List Perturbation} :
    ∀ {d d' : PDict}, GoodDict size el d → addPerturbations size el ro d ps = .ok d' →
      GoodDict size el d' := by
  induction ps with
  | nil => intro d d' h h2; simp [addPerturbations] at h2; exact h2 ▸ h
  | cons p ps ih =>
    intro d d' h h2
    simp only [addPerturbations] at h2
    split at h2
    · exact absurd h2 (by simp)
    · rename_i d1 hd1
      obtain ⟨h3, rfl, _⟩ := addPerturbation_ok hd1
      exact ih (h.set h3) h2

/-- What a list of additions without override check does to a dictionary. -/
theorem addPerturbations_get? {size : ℕ} {el : Element} {ro : Bool} {ps : List Perturbation} :
    ∀ {d d' : PDict}, addPerturbations size el ro d ps = .ok d' →
      ∀ k, d'.get? k = (lastOfKind ps k).or (d.get? k) := by
  induction ps with
  | nil => intro d d' h2 k; simp [addPerturbations] at h2; simp [lastOfKind, h2]
  | cons p ps ih =>
    intro d d' h2 k
    simp only [addPerturbations] at h2
    split at h2
    · exact absurd h2 (by simp)
    · rename_i d1 hd1
      obtain ⟨h3, rfl, _⟩ := addPerturbation_ok hd1
      rw [ih h2 k, PyDict.get?_set]
      simp only [lastOfKind, List.reverse_cons, List.find?_append]
      by_cases hk : k = p.kind
      · subst hk; cases List.find? (fun q => decide (q.kind = p.kind)) ps.reverse <;> simp
      · have : ¬ p.kind = k := fun h => hk h.symm
        cases List.find? (fun q => decide (q.kind = k)) ps.reverse <;> simp [this, hk]

theorem addPerturbations_false_ok_iff {size : ℕ} {el : Element} {ps : List Perturbation} :
    ∀ {d : PDict}, (∃ d', addPerturbations size el false d ps = .ok d') ↔
      ∀ p ∈ ps, Fits size el p := by
  induction ps with
  | nil => intro d; simp [addPerturbations]
  | cons p ps ih =>
    intro d
    simp only [addPerturbations, List.mem_cons, forall_eq_or_imp]
    constructor
    · rintro ⟨d', h⟩
      split at h
      · exact absurd h (by simp)
      · rename_i d1 hd1
        exact ⟨(addPerturbation_ok hd1).1, ih.1 ⟨_, h⟩⟩
    · rintro ⟨h1, h2⟩
      have : addPerturbation size el false d p = .ok (d.set p.kind p) := by
        simp [addPerturbation, (isApplicable_true_iff p size el).2 h1]
      rw [this]
      exact ih.2 h2

theorem addPerturbations_true_ok_iff {size : ℕ} {el : Element} {ps : List Perturbation} :
    ∀ {d : PDict}, (∃ d', addPerturbations size el true d ps = .ok d') ↔
      (∀ p ∈ ps, Fits size el p) ∧ (ps.map Perturbation.kind).Nodup ∧
        ∀ p ∈ ps, p.kind ∉ d.keys := by
  induction ps with
  | nil => intro d; simp [addPerturbations]
  | cons p ps ih =>
    intro d
    simp only [addPerturbations, List.mem_cons, forall_eq_or_imp, List.map_cons, List.nodup_cons]
    constructor
    · rintro ⟨d', h⟩
      split at h
      · exact absurd h (by simp)
      · rename_i d1 hd1
        obtain ⟨h3, rfl, h4⟩ := addPerturbation_ok hd1
        obtain ⟨h5, h6, h7⟩ := ih.1 ⟨_, h⟩
        refine ⟨⟨h3, h5⟩, ⟨?_, h6⟩, h4 rfl, fun q hq hk => ?_⟩
        · intro hm
          obtain ⟨q, hq, hqk⟩ := List.mem_map.1 hm
          exact h7 q hq ((PyDict.mem_keys_set _ _ _ _).2 (Or.inl hqk))
        · exact h7 q hq ((PyDict.mem_keys_set _ _ _ _).2 (Or.inr hk))
    · rintro ⟨⟨h1, h2⟩, ⟨h3, h4⟩, h5, h6⟩
      have hc : d.contains p.kind = false := by
        rw [Bool.eq_false_iff]; intro hc; exact h5 ((PyDict.contains_iff _ _).1 hc)
      have : addPerturbation size el true d p = .ok (d.set p.kind p) := by
        simp [addPerturbation, (isApplicable_true_iff p size el).2 h1, hc]
      rw [this]
      refine ih.2 ⟨h2, h4, fun q hq hk => ?_⟩
      rcases (PyDict.mem_keys_set _ _ _ _).1 hk with hk | hk
      · exact h3 (List.mem_map.2 ⟨q, hq, hk⟩)
      · exact h6 q hq hk

theorem perturbedCopy_eq (a : ArrayDesign) (l : List Perturbation) (nm : Option String) :
    a.perturbedCopy l nm = (addPerturbations a.size a.element false a.perts l).map
        (fun d => { a.perturbationFreeCopy nm with perts := d }) := by
  unfold ArrayDesign.perturbedCopy
  simp only
  have : addPerturbations (a.perturbationFreeCopy nm).size (a.perturbationFreeCopy nm).element false
    a.perts l = addPerturbations a.size a.element false a.perts l := rfl
  rw [this]
  cases addPerturbations a.size a.element false a.perts l <;> rfl

/-! ### Heap -/

/-- `h'` only allocates relative to `h`. -/
def Heap.Ext (h h' : Heap) : Prop := h.locs <+: h'.locs ∧ h.dicts <+: h'.dicts ∧ h.objs <+: h'.objs

theorem Heap.Ext.refl (h : Heap) : h.Ext h := ⟨List.prefix_rfl, List.prefix_rfl, List.prefix_rfl⟩

theorem Heap.Ext.trans {h1 h2 h3 : Heap} (a : h1.Ext h2) (b : h2.Ext h3) : h1.Ext h3 :=
  ⟨a.1.trans b.1, a.2.1.trans b.2.1, a.2.2.trans b.2.2⟩

theorem prefix_getElem? {α : Type _} {l l' : List α} (h : l <+: l') {i : ℕ} {x : α}
    (hx : l[i]? = some x) : l'[i]? = some x := by
  obtain ⟨t, rfl⟩ := h
  have := (List.getElem?_eq_some_iff.1 hx).1
  rw [List.getElem?_append_left this, hx]

theorem Heap.view_eq_some {h : Heap} {r : ℕ} {a : ArrayDesign} : h.view r = some a ↔
    ∃ o, h.objs[r]? = some o ∧ h.locs[o.locRef]? = some a.locations ∧
      h.dicts[o.dictRef]? = some a.perts ∧ o.name = a.name ∧ o.element = a.element := by
  unfold Heap.view
  simp only [Option.bind_eq_some_iff]
  constructor
  · rintro ⟨o, h1, l, h2, d, h3, h4⟩
    simp only [Option.some.injEq] at h4
    subst h4
    exact ⟨o, h1, h2, h3, rfl, rfl⟩
  · rintro ⟨o, h1, h2, h3, h4, h5⟩
    refine ⟨o, h1, _, h2, _, h3, ?_⟩
    rw [h4, h5]

theorem Heap.Ext.view {h h' : Heap} (e : h.Ext h') {r : ℕ} {a : ArrayDesign}
    (ha : h.view r = some a) : h'.view r = some a := by
  obtain ⟨o, h1, h2, h3, h4, h5⟩ := Heap.view_eq_some.1 ha
  exact Heap.view_eq_some.2 ⟨o, prefix_getElem? e.2.2 h1, prefix_getElem? e.1 h2,
    prefix_getElem? e.2.1 h3, h4, h5⟩

theorem prefix_set {α : Type _} {l l' : List α} (h : l <+: l') {i : ℕ} (hi : l.length ≤ i) (x : α) :
    l <+: l'.set i x := by
  obtain ⟨t, rfl⟩ := h
  rw [List.set_append_right _ _ hi]
  exact List.prefix_append _ _

/-- Specification of the in-place loop. -/
theorem Heap.addFromList_spec {ro : Bool} {ps : List Perturbation} : ∀ {h : Heap} {r : ℕ}
    {a : ArrayDesign} {o : ArrObj}, h.view r = some a → h.objs[r]? = some o →
    (h.addFromList r ro ps).1 = (addPerturbations a.size a.element ro a.perts ps).map (fun _ => ()) ∧
    ∃ d, (h.addFromList r ro ps).2 = { h with dicts := h.dicts.set o.dictRef d } ∧
      (GoodDict a.size a.element a.perts → GoodDict a.size a.element d) ∧
      ∀ d', addPerturbations a.size a.element ro a.perts ps = .ok d' → d = d' := by
  induction ps with
  | nil =>
    intro h r a o hv ho
    refine ⟨rfl, a.perts, ?_, fun x => x, fun d' hd => by simpa [addPerturbations] using hd⟩
    obtain ⟨o', h1, _, h3, _, _⟩ := Heap.view_eq_some.1 hv
    rw [ho] at h1; cases h1
    obtain ⟨hl, h3⟩ := List.getElem?_eq_some_iff.1 h3
    rw [← h3]
    show h = { h with dicts := _ }
    rw [List.set_getElem_self]
  | cons p ps ih =>
    intro h r a o hv ho
    simp only [Heap.addFromList, hv, ho, addPerturbations]
    obtain ⟨o', h1, h2, h3, h4, h5⟩ := Heap.view_eq_some.1 hv
    rw [ho] at h1; cases h1
    obtain ⟨hl, h3'⟩ := List.getElem?_eq_some_iff.1 h3
    cases hp : addPerturbation a.size a.element ro a.perts p with
    | error e =>
      refine ⟨rfl, a.perts, ?_, fun x => x, fun d' hd => by simp at hd⟩
      show h = { h with dicts := _ }
      rw [← h3', List.set_getElem_self]
    | ok d =>
      simp only
      have hv2 : Heap.view { h with dicts := h.dicts.set o.dictRef d } r =
          some { a with perts := d } := by
        refine Heap.view_eq_some.2 ⟨o, ho, h2, ?_, h4, h5⟩
        simp [hl]
      obtain ⟨i1, d2, i2, i3, i4⟩ := ih hv2 ho
      refine ⟨i1, d2, ?_, fun hg => ?_, i4⟩
      · rw [i2]; simp [List.set_set]
      · obtain ⟨j1, rfl, _⟩ := addPerturbation_ok hp
        exact i3 (hg.set j1)

theorem Heap.freeCopy_spec {h : Heap} {r : ℕ} {a : ArrayDesign} (hv : h.view r = some a)
    (nm : Option String) : ∃ h', h.freeCopy r nm = (.ok h.objs.length, h') ∧ h.Ext h' ∧
      h'.view h.objs.length = some (a.perturbationFreeCopy nm) ∧
      h'.objs.length = h.objs.length + 1 ∧ h'.dicts.length = h.dicts.length + 1 ∧
      h'.locs = h.locs := by
  obtain ⟨o, h1, h2, h3, h4, h5⟩ := Heap.view_eq_some.1 hv
  simp only [Heap.freeCopy, h1]
  refine ⟨_, rfl, ⟨List.prefix_rfl, List.prefix_append _ _, List.prefix_append _ _⟩, ?_, by simp, by simp, rfl⟩
  refine Heap.view_eq_some.2 ⟨_, List.getElem?_concat_length, h2, List.getElem?_concat_length, ?_, h5⟩
  cases nm <;> simp [ArrayDesign.perturbationFreeCopy, h4]

theorem Heap.perturbedCopy_spec {h : Heap} {r : ℕ} {a : ArrayDesign} (hv : h.view r = some a)
    (ps : PertInput) (nm : Option String) :
    h.Ext (h.perturbedCopy r ps nm).2 ∧
    (∀ e, ps.parse = .error e → (h.perturbedCopy r ps nm).1 = .error e) ∧
    (∀ l, ps.parse = .ok l →
      (∀ e, a.perturbedCopy l nm = .error e → (h.perturbedCopy r ps nm).1 = .error e) ∧
      (∀ b, a.perturbedCopy l nm = .ok b → ∃ r', (h.perturbedCopy r ps nm).1 = .ok r' ∧
        (h.perturbedCopy r ps nm).2.view r' = some b ∧ h.objs.length ≤ r')) ∧
    (∀ r' b, h.objs.length ≤ r' → (h.perturbedCopy r ps nm).2.view r' = some b →
      GoodDict a.size a.element a.perts → GoodDict b.size b.element b.perts) := by
  obtain ⟨h1, hf, hext, hv1, hlo, hld, hll⟩ := Heap.freeCopy_spec hv nm
  have hv1r := hext.view hv
  obtain ⟨o, g1, g2, g3, g4, g5⟩ := Heap.view_eq_some.1 hv1r
  obtain ⟨o', k1, k2, k3, k4, k5⟩ := Heap.view_eq_some.1 hv1
  unfold Heap.perturbedCopy
  simp only [hf]
  cases hp : ps.parse with
  | error e =>
    refine ⟨hext, by simp, by simp, ?_⟩
    intro r' b hr' hb _
    obtain ⟨ob, b1, b2, b3, b4, b5⟩ := Heap.view_eq_some.1 hb
    have : r' = h.objs.length := by
      have : r' < h1.objs.length := (List.getElem?_eq_some_iff.1 b1).1
      omega
    subst this
    rw [hv1] at hb; cases hb
    exact ⟨by simp [ArrayDesign.perturbationFreeCopy, PyDict.keys],
      by simp [ArrayDesign.perturbationFreeCopy]⟩
  | ok l =>
    simp only [g1, hv1r, k1]
    set h2 : Heap := { h1 with
          dicts := h1.dicts ++ [a.perts]
          objs := h1.objs.set h.objs.length { o' with dictRef := h1.dicts.length } } with hh2
    have hext2 : h.Ext h2 := by
      refine ⟨hext.1, hext.2.1.trans (List.prefix_append _ _), prefix_set hext.2.2 le_rfl _⟩
    have hv2 : h2.view h.objs.length = some { a.perturbationFreeCopy nm with perts := a.perts } := by
      refine Heap.view_eq_some.2 ⟨{ o' with dictRef := h1.dicts.length }, ?_, k2, ?_, k4, k5⟩
      · simp [hh2, hlo]
      · simp [hh2]
    have ho2 : h2.objs[h.objs.length]? = some { o' with dictRef := h1.dicts.length } := by
      simp [hh2, hlo]
    obtain ⟨s1, d, s2, s3, s4⟩ := Heap.addFromList_spec (ro := false) (ps := l) hv2 ho2
    have hext3 : h.Ext (h2.addFromList h.objs.length false l).2 := by
      rw [s2]
      refine ⟨hext2.1, prefix_set hext2.2.1 ?_ _, hext2.2.2⟩
      simp [hld]
    have hview : (h2.addFromList h.objs.length false l).2.view h.objs.length =
        some { a.perturbationFreeCopy nm with perts := d } := by
      rw [s2]
      obtain ⟨o2, q1, q2, q3, q4, q5⟩ := Heap.view_eq_some.1 hv2
      rw [ho2] at q1; cases q1
      refine Heap.view_eq_some.2 ⟨_, ho2, q2, ?_, q4, q5⟩
      simp [hh2]
    have hgood : ∀ r' b, h.objs.length ≤ r' → (h2.addFromList h.objs.length false l).2.view r' =
        some b → GoodDict a.size a.element a.perts → GoodDict b.size b.element b.perts := by
      intro r' b hr' hb hg
      obtain ⟨ob, b1, _⟩ := Heap.view_eq_some.1 hb
      have : r' = h.objs.length := by
        have := (List.getElem?_eq_some_iff.1 b1).1
        rw [s2] at this
        simp [hh2, hlo] at this
        omega
      subst this
      rw [hview] at hb; cases hb
      exact s3 hg
    refine ⟨hext3, by simp, ?_, hgood⟩
    intro l' hl'
    cases hl'
    have hpc := perturbedCopy_eq a l nm
    rw [hpc]
    refine ⟨?_, ?_⟩
    · intro e he
      simp only [s1]
      show (Except.map _ (Except.map _ (addPerturbations a.size a.element false a.perts l))) = _
      cases hadd : addPerturbations a.size a.element false a.perts l with
      | error e' => rw [hadd] at he; cases he; rfl
      | ok d' => rw [hadd] at he; cases he
    · intro b hb
      cases hadd : addPerturbations a.size a.element false a.perts l with
      | error e' => rw [hadd] at hb; cases hb
      | ok d' =>
        rw [hadd] at hb; cases hb
        refine ⟨h.objs.length, ?_, ?_, le_rfl⟩
        · simp only [s1]
          show (Except.map _ (Except.map _ (addPerturbations a.size a.element false a.perts l))) = _
          rw [hadd]; rfl
        · rw [hview, s4 d' hadd]

end Doa
