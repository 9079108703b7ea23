import Verif.Model.Estimator
import Verif.Spec.SameOrder
import Verif.Props.Estimator

/-!
# What a spectrum-based estimator does depends only on the order of the spectrum
-/

namespace Doa.Props

open Doa Doa.Spec

variable {β γ δ Atom Atom' : Type}

section
variable [LinearOrder β] [LinearOrder γ] [LinearOrder δ]

theorem _root_.Doa.Spec.SameOrder.symm {xs : List β} {ys : List γ} (h : SameOrder xs ys) : SameOrder ys xs :=
  ⟨h.1.symm, fun i j a b c d h1 h2 h3 h4 => (h.2 i j c d a b h3 h4 h1 h2).symm⟩

theorem _root_.Doa.Spec.SameOrder.refl (xs : List β) : SameOrder xs xs :=
  ⟨rfl, fun i j a b c d h1 h2 h3 h4 => by
    rw [h1, Option.some.injEq] at h3; rw [h2, Option.some.injEq] at h4; subst h3; subst h4; rfl⟩

theorem _root_.Doa.Spec.SameOrder.get {xs : List β} {ys : List γ} (h : SameOrder xs ys) {i : ℕ} {a : β} (ha : xs[i]? = some a) :
    ∃ c, ys[i]? = some c := by
  obtain ⟨hi, _⟩ := List.getElem?_eq_some_iff.1 ha
  exact ⟨_, List.getElem?_eq_getElem (h.1 ▸ hi)⟩

theorem _root_.Doa.Spec.SameOrder.lt_iff {xs : List β} {ys : List γ} (h : SameOrder xs ys) {i j : ℕ} {a b : β} {c d : γ}
    (h1 : xs[i]? = some a) (h2 : xs[j]? = some b) (h3 : ys[i]? = some c) (h4 : ys[j]? = some d) : a < b ↔ c < d := by
  rw [← not_le, ← not_le, h.2 j i b a d c h2 h1 h4 h3]

theorem _root_.Doa.Spec.SameOrder.eq_iff {xs : List β} {ys : List γ} (h : SameOrder xs ys) {i j : ℕ} {a b : β} {c d : γ}
    (h1 : xs[i]? = some a) (h2 : xs[j]? = some b) (h3 : ys[i]? = some c) (h4 : ys[j]? = some d) : a = b ↔ c = d := by
  rw [le_antisymm_iff, le_antisymm_iff, h.2 i j a b c d h1 h2 h3 h4, h.2 j i b a d c h2 h1 h4 h3]

/-- A strictly increasing function keeps the order. -/
theorem sameOrder_map {f : β → γ} (hf : StrictMono f) (xs : List β) : SameOrder xs (xs.map f) := by
  refine ⟨by simp, fun i j a b c d h1 h2 h3 h4 => ?_⟩
  rw [List.getElem?_map, h1, Option.map_some, Option.some.injEq] at h3
  rw [List.getElem?_map, h2, Option.map_some, Option.some.injEq] at h4
  subst h3; subst h4
  exact hf.le_iff_le.symm

theorem flatPeak_of {xs : List β} {ys : List γ} (h : SameOrder xs ys) {l r : ℕ} (hp : IsFlatPeak xs l r) :
    IsFlatPeak ys l r := by
  obtain ⟨h1, h2, h3, v, hv, hl, hr⟩ := hp
  have hll : xs[l]? = some v := hv l (by omega) le_rfl h2
  obtain ⟨v', hv'⟩ := h.get hll
  refine ⟨h1, h2, h.1 ▸ h3, v', fun i hi h4 h5 => ?_, fun w hw => ?_, fun w hw => ?_⟩
  · have hx := hv i (h.1 ▸ hi) h4 h5
    obtain ⟨c, hc⟩ := h.get hx
    rw [hc, (h.eq_iff hx hll hc hv').1 rfl]
  · obtain ⟨u, hu⟩ := h.symm.get hw
    exact (h.lt_iff hu hll hw hv').1 (hl u hu)
  · obtain ⟨u, hu⟩ := h.symm.get hw
    exact (h.lt_iff hu hll hw hv').1 (hr u hu)

theorem findPeaksSimple_sameOrder {xs : List β} {ys : List γ} (h : SameOrder xs ys) (shape : List ℕ) :
    findPeaksSimple shape xs = findPeaksSimple shape ys := by
  unfold findPeaksSimple
  split
  · unfold findPeaks1
    rw [h.1]
    congr 1
    refine List.filter_congr fun m _ => ?_
    have : (∃ l r, IsFlatPeak xs l r ∧ m = (l + r) / 2) ↔ ∃ l r, IsFlatPeak ys l r ∧ m = (l + r) / 2 :=
      ⟨fun ⟨l, r, h1, h2⟩ => ⟨l, r, flatPeak_of h h1, h2⟩, fun ⟨l, r, h1, h2⟩ => ⟨l, r, flatPeak_of h.symm h1, h2⟩⟩
    exact decide_eq_decide.2 this
  · unfold findPeaksND
    refine List.filter_congr fun c _ => decide_eq_decide.2 ?_
    refine forall₂_congr fun d _ => imp_congr_right fun _ => ⟨fun hx v w hv hw => ?_, fun hx v w hv hw => ?_⟩
    · obtain ⟨v', hv'⟩ := h.symm.get hv
      obtain ⟨w', hw'⟩ := h.symm.get hw
      exact (h.2 _ _ _ _ _ _ hv' hw' hv hw).1 (hx v' w' hv' hw')
    · obtain ⟨v', hv'⟩ := h.get hv
      obtain ⟨w', hw'⟩ := h.get hw
      exact (h.2 _ _ _ _ _ _ hv hw hv' hw').2 (hx v' w' hv' hw')

theorem argmaxIdx_iff (l : List β) (i : ℕ) :
    argmaxIdx l = some i ↔ ∃ m, l[i]? = some m ∧ (∀ (j : ℕ) (x : β), l[j]? = some x → x ≤ m) ∧
      ∀ (j : ℕ) (x : β), j < i → l[j]? = some x → x < m := by
  have first : ∀ m, l.max? = some m → l[l.idxOf m]? = some m ∧ (∀ (j : ℕ) (x : β), l[j]? = some x → x ≤ m) ∧
      ∀ (j : ℕ) (x : β), j < l.idxOf m → l[j]? = some x → x < m := by
    intro m hm
    obtain ⟨h1, h2⟩ := List.max?_eq_some_iff.1 hm
    have hle : ∀ (j : ℕ) (x : β), l[j]? = some x → x ≤ m := fun j x hx => h2 x (List.mem_of_getElem? hx)
    refine ⟨?_, hle, fun j x hj hx => lt_of_le_of_ne (hle j x hx) fun e => ?_⟩
    · have := List.idxOf_lt_length_of_mem h1
      rw [List.getElem?_eq_getElem this, List.getElem_idxOf]
    · subst e
      obtain ⟨hjl, hjx⟩ := List.getElem?_eq_some_iff.1 hx
      have := List.not_of_lt_findIdx (p := (· == x)) (xs := l) (i := j) (by simpa [List.idxOf] using hj)
      simp [hjx] at this
  constructor
  · intro h
    unfold argmaxIdx at h
    obtain ⟨m, hm, rfl⟩ := Option.map_eq_some_iff.1 h
    exact ⟨m, first m hm⟩
  · rintro ⟨m, h1, h2, h3⟩
    have hmax : l.max? = some m := by
      refine List.max?_eq_some_iff.2 ⟨List.mem_of_getElem? h1, fun x hx => ?_⟩
      obtain ⟨j, hj⟩ := List.getElem?_of_mem hx
      exact h2 j x hj
    obtain ⟨f1, f2, f3⟩ := first m hmax
    rw [argmaxIdx, hmax, Option.map_some, Option.some.injEq]
    rcases lt_trichotomy (l.idxOf m) i with hlt | heq | hgt
    · exact absurd (h3 _ _ hlt f1) (lt_irrefl _)
    · exact heq
    · exact absurd (f3 _ _ hgt h1) (lt_irrefl _)

theorem argmaxIdx_sameOrder {xs : List β} {ys : List γ} (h : SameOrder xs ys) : argmaxIdx xs = argmaxIdx ys := by
  have key : ∀ {β γ : Type} [LinearOrder β] [LinearOrder γ] {xs : List β} {ys : List γ}, SameOrder xs ys →
      ∀ i, argmaxIdx xs = some i → argmaxIdx ys = some i := by
    intro β γ _ _ xs ys h i hi
    obtain ⟨m, h1, h2, h3⟩ := (argmaxIdx_iff xs i).1 hi
    obtain ⟨m', hm'⟩ := h.get h1
    refine (argmaxIdx_iff ys i).2 ⟨m', hm', fun j x hx => ?_, fun j x hj hx => ?_⟩
    · obtain ⟨u, hu⟩ := h.symm.get hx
      exact (h.2 _ _ _ _ _ _ hu h1 hx hm').1 (h2 j u hu)
    · obtain ⟨u, hu⟩ := h.symm.get hx
      exact (h.lt_iff hu h1 hx hm').1 (h3 j u hj hu)
  cases hx : argmaxIdx xs with
  | some i => exact (key h i hx).symm
  | none =>
    cases hy : argmaxIdx ys with
    | none => rfl
    | some i => rw [key h.symm i hy] at hx; cases hx

theorem spectrumAt_sameOrder {xs : List β} {ys : List γ} (h : SameOrder xs ys) (shape : List ℕ) (c : List ℕ) :
    (∃ e, spectrumAt shape xs c = .error e ∧ spectrumAt shape ys c = .error e) ∨
    ∃ (i : ℕ) (a : β) (b : γ), xs[i]? = some a ∧ ys[i]? = some b ∧ spectrumAt shape xs c = .ok a ∧ spectrumAt shape ys c = .ok b := by
  unfold spectrumAt
  cases ravelMultiIndex shape c with
  | error e => exact Or.inl ⟨_, rfl, rfl⟩
  | ok r =>
    cases hx : xs[r]? with
    | none =>
      cases hy : ys[r]? with
      | none => exact Or.inl ⟨.indexError, by simp [hx], by simp [hy]⟩
      | some b => obtain ⟨a, ha⟩ := h.symm.get hy; rw [ha] at hx; cases hx
    | some a =>
      obtain ⟨b, hb⟩ := h.get hx
      exact Or.inr ⟨r, a, b, hx, hb, by simp [hx], by simp [hb]⟩

/-- Values read from both lists at the same positions. -/
theorem mapM_sameOrder {xs : List β} {ys : List γ} (h : SameOrder xs ys) (shape : List ℕ) (cs : List (List ℕ)) :
    (∃ e, cs.mapM (spectrumAt shape xs) = .error e ∧ cs.mapM (spectrumAt shape ys) = .error e) ∨
    ∃ us vs, cs.mapM (spectrumAt shape xs) = .ok us ∧ cs.mapM (spectrumAt shape ys) = .ok vs ∧
      List.Forall₂ (fun a b => ∃ i : ℕ, xs[i]? = some a ∧ ys[i]? = some b) us vs := by
  induction cs with
  | nil => exact Or.inr ⟨[], [], rfl, rfl, .nil⟩
  | cons c cs ih =>
    rw [List.mapM_cons, List.mapM_cons]
    rcases spectrumAt_sameOrder h shape c with ⟨e, h1, h2⟩ | ⟨i, a, b, h1, h2, h3, h4⟩
    · rw [h1, h2]; exact Or.inl ⟨e, rfl, rfl⟩
    · rw [h3, h4]
      rcases ih with ⟨e, h5, h6⟩ | ⟨us, vs, h5, h6, h7⟩
      · rw [h5, h6]; exact Or.inl ⟨e, rfl, rfl⟩
      · rw [h5, h6]; exact Or.inr ⟨a :: us, b :: vs, rfl, rfl, .cons ⟨i, h1, h2⟩ h7⟩

theorem forall₂_sameOrder {xs : List β} {ys : List γ} (h : SameOrder xs ys) {us : List β} {vs : List γ}
    (hf : List.Forall₂ (fun a b => ∃ i : ℕ, xs[i]? = some a ∧ ys[i]? = some b) us vs) : SameOrder us vs := by
  have hg := List.forall₂_iff_get.1 hf
  refine ⟨hg.1, fun i j a b c d h1 h2 h3 h4 => ?_⟩
  obtain ⟨hi, rfl⟩ := List.getElem?_eq_some_iff.1 h1
  obtain ⟨hj, rfl⟩ := List.getElem?_eq_some_iff.1 h2
  obtain ⟨hi', rfl⟩ := List.getElem?_eq_some_iff.1 h3
  obtain ⟨hj', rfl⟩ := List.getElem?_eq_some_iff.1 h4
  obtain ⟨p, hp1, hp2⟩ := hg.2 i hi hi'
  obtain ⟨q, hq1, hq2⟩ := hg.2 j hj hj'
  exact h.2 p q _ _ _ _ hp1 hq1 hp2 hq2

theorem topPeaks_sameOrder {xs : List β} {ys : List γ} (h : SameOrder xs ys)
    {pf : List ℕ → List β → List (List ℕ)} {pf' : List ℕ → List γ → List (List ℕ)} {as : List β → List ℕ} {as' : List γ → List ℕ}
    (hpf : ∀ shape xs ys, SameOrder xs ys → pf shape xs = pf' shape ys) (has : ∀ xs ys, SameOrder xs ys → as xs = as' ys)
    (shape : List ℕ) (k : ℕ) : topPeaks pf as shape xs k = topPeaks pf' as' shape ys k := by
  unfold topPeaks
  simp only [hpf shape xs ys h]
  split
  · rfl
  · rcases mapM_sameOrder h shape (pf' shape ys) with ⟨e, h1, h2⟩ | ⟨us, vs, h1, h2, h3⟩
    · simp only [h1, h2]
    · simp only [h1, h2, has us vs (forall₂_sameOrder h h3)]

theorem refineOne_sameOrder {sp : List (List ℝ) → List β} {sp' : List (List ℝ) → List γ}
    (h : ∀ rows, SameOrder (sp rows) (sp' rows)) (density : ℤ) (last : Bool) (g : SearchGrid) :
    refineOne sp density last g = refineOne sp' density last g := by
  unfold refineOne
  cases g.placementRows with
  | error e => rfl
  | ok rows => simp only [argmaxIdx_sameOrder (h rows)]

theorem refinePass_sameOrder {ig : Bool} {sp : List (List ℝ) → List β} {sp' : List (List ℝ) → List γ}
    (h : ∀ rows, SameOrder (sp rows) (sp' rows)) (density : ℤ) (last : Bool) (est : ℕ) (gs : List SearchGrid) :
    ∀ (i : ℕ) (hp : SHeap (List ℝ)), refinePass ig sp density last est i gs hp = refinePass ig sp' density last est i gs hp := by
  induction gs with
  | nil => intro i hp; rfl
  | cons g gs ih =>
    intro i hp
    unfold refinePass
    rw [refineOne_sameOrder h]
    cases refineOne sp' density last g with
    | error e => rfl
    | ok p => simp only [ih]

theorem refineLoop_sameOrder {ig : Bool} {sp : List (List ℝ) → List β} {sp' : List (List ℝ) → List γ}
    (h : ∀ rows, SameOrder (sp rows) (sp' rows)) (density : ℤ) (est n : ℕ) :
    ∀ (gs : List SearchGrid) (hp : SHeap (List ℝ)), refineLoop ig sp density est n gs hp = refineLoop ig sp' density est n gs hp := by
  induction n with
  | zero => intro gs hp; rfl
  | succ n ih =>
    intro gs hp
    unfold refineLoop
    rw [refinePass_sameOrder h]
    split
    · rfl
    · exact ih _ _

theorem refineEstimates_sameOrder {ig : Bool} {sp : List (List ℝ) → List β} {sp' : List (List ℝ) → List γ}
    (h : ∀ rows, SameOrder (sp rows) (sp' rows)) (grid : SearchGrid) (coords : List (List ℕ)) (density : ℤ) (iters est : ℕ)
    (hp : SHeap (List ℝ)) :
    refineEstimates ig sp grid coords density iters est hp = refineEstimates ig sp' grid coords density iters est hp := by
  unfold refineEstimates
  split
  · rfl
  · exact refineLoop_sameOrder h _ _ _ _ _

end

end Doa.Props

namespace Doa.Props

open Doa Doa.Spec

variable {β γ Atom Atom' : Type} [LinearOrder β] [LinearOrder γ]

/-- Two estimators that search the same grid with atoms in the relation `Rel`, and whose peak finders
and sorting see only the order of the values. -/
structure CfgRel (Rel : Atom → Atom' → Prop) (cfg : EstCfg β Atom) (cfg' : EstCfg γ Atom') : Prop where
  grid : cfg.grid = cfg'.grid
  caching : cfg.caching = cfg'.caching
  ints : cfg.intGrid = cfg'.intGrid
  compute : ∀ rows, Rel (cfg.compute rows) (cfg'.compute rows)
  peaks : ∀ shape xs ys, SameOrder xs ys → cfg.peakFinder shape xs = cfg'.peakFinder shape ys
  sort : ∀ xs ys, SameOrder xs ys → cfg.argsort xs = cfg'.argsort ys

/-- States with the same placements and related cached atoms. -/
structure StateRel (Rel : Atom → Atom' → Prop) (st : EstState Atom) (st' : EstState Atom') : Prop where
  heap : st.heap = st'.heap
  src : st.gridSrc = st'.gridSrc
  atom : Option.Rel Rel st.atom st'.atom

theorem curGrid_rel {Rel : Atom → Atom' → Prop} {cfg : EstCfg β Atom} {cfg' : EstCfg γ Atom'} (hc : CfgRel Rel cfg cfg')
    {st : EstState Atom} {st' : EstState Atom'} (hs : StateRel Rel st st') : cfg.curGrid st = cfg'.curGrid st' := by
  unfold EstCfg.curGrid
  rw [hc.grid, hs.heap]

theorem gridPlacement_rel {Rel : Atom → Atom' → Prop} {cfg : EstCfg β Atom} {cfg' : EstCfg γ Atom'} (hc : CfgRel Rel cfg cfg')
    {st : EstState Atom} {st' : EstState Atom'} (hs : StateRel Rel st st') :
    (cfg.gridPlacement st).1 = (cfg'.gridPlacement st').1 ∧ StateRel Rel (cfg.gridPlacement st).2 (cfg'.gridPlacement st').2 := by
  unfold EstCfg.gridPlacement
  rw [curGrid_rel hc hs, hs.src, hc.grid]
  cases st'.gridSrc with
  | some r => exact ⟨rfl, hs⟩
  | none =>
    cases (cfg'.curGrid st').placementRows with
    | error e => exact ⟨rfl, hs⟩
    | ok rows => exact ⟨by simp only [hs.heap], ⟨by simp only [hs.heap], by simp only [hs.heap], hs.atom⟩⟩

theorem atomMatrix_rel {Rel : Atom → Atom' → Prop} {cfg : EstCfg β Atom} {cfg' : EstCfg γ Atom'} (hc : CfgRel Rel cfg cfg')
    {st : EstState Atom} {st' : EstState Atom'} (hs : StateRel Rel st st') :
    ((∃ e, (cfg.atomMatrix st).1 = .error e ∧ (cfg'.atomMatrix st').1 = .error e) ∨
      ∃ A A', Rel A A' ∧ (cfg.atomMatrix st).1 = .ok A ∧ (cfg'.atomMatrix st').1 = .ok A') ∧
    StateRel Rel (cfg.atomMatrix st).2 (cfg'.atomMatrix st').2 := by
  unfold EstCfg.atomMatrix
  have ha := hs.atom
  generalize hx : st.atom = x at ha ⊢
  generalize hy : st'.atom = y at ha ⊢
  cases ha with
  | some h => exact ⟨Or.inr ⟨_, _, h, rfl, rfl⟩, hs⟩
  | none =>
    obtain ⟨h1, h2⟩ := gridPlacement_rel hc hs
    generalize cfg.gridPlacement st = p at h1 h2 ⊢
    generalize cfg'.gridPlacement st' = p' at h1 h2 ⊢
    obtain ⟨r, s⟩ := p
    obtain ⟨r', s'⟩ := p'
    simp only at h1 h2
    subst h1
    cases r with
    | error e => exact ⟨Or.inl ⟨e, rfl, rfl⟩, h2⟩
    | ok r =>
      simp only [h2.heap]
      cases s'.heap.view r with
      | none => exact ⟨Or.inl ⟨_, rfl, rfl⟩, h2⟩
      | some q =>
        simp only [hc.caching]
        refine ⟨Or.inr ⟨_, _, hc.compute _, rfl, rfl⟩, ?_⟩
        cases cfg'.caching with
        | true => exact ⟨rfl, h2.src, .some (hc.compute _)⟩
        | false => exact h2

/-- Related calls of `estimate` have related results. -/
theorem estimate_rel {Rel : Atom → Atom' → Prop} {cfg : EstCfg β Atom} {cfg' : EstCfg γ Atom'} (hc : CfgRel Rel cfg cfg')
    {st : EstState Atom} {st' : EstState Atom'} (hs : StateRel Rel st st') {fsp : Atom → List β} {fsp' : Atom' → List γ}
    (hf : ∀ A A', Rel A A' → SameOrder (fsp A) (fsp' A')) (k : ℕ) (re : Bool) (density : ℤ) (iters : ℕ) :
    ((∃ e, (cfg.estimate st ⟨fsp, k, re, density, iters⟩).1 = .error e ∧ (cfg'.estimate st' ⟨fsp', k, re, density, iters⟩).1 = .error e) ∨
      ∃ b est A A', Rel A A' ∧ (cfg.estimate st ⟨fsp, k, re, density, iters⟩).1 = .ok ⟨b, est, fsp A⟩ ∧
        (cfg'.estimate st' ⟨fsp', k, re, density, iters⟩).1 = .ok ⟨b, est, fsp' A'⟩) ∧
    StateRel Rel (cfg.estimate st ⟨fsp, k, re, density, iters⟩).2 (cfg'.estimate st' ⟨fsp', k, re, density, iters⟩).2 := by
  unfold EstCfg.estimate
  obtain ⟨h1, h2⟩ := atomMatrix_rel hc hs
  generalize cfg.atomMatrix st = p at h1 h2 ⊢
  generalize cfg'.atomMatrix st' = p' at h1 h2 ⊢
  obtain ⟨r, s⟩ := p
  obtain ⟨r', s'⟩ := p'
  simp only at h1 h2
  rcases h1 with ⟨e, rfl, rfl⟩ | ⟨A, A', hA, rfl, rfl⟩
  · exact ⟨Or.inl ⟨e, rfl, rfl⟩, h2⟩
  · simp only [hc.grid, (hf A A' hA).1]
    split
    · exact ⟨Or.inl ⟨_, rfl, rfl⟩, h2⟩
    · rw [topPeaks_sameOrder (hf A A' hA) hc.peaks hc.sort]
      cases topPeaks cfg'.peakFinder cfg'.argsort cfg'.grid.shape (fsp' A') k with
      | error e => exact ⟨Or.inl ⟨e, rfl, rfl⟩, h2⟩
      | ok o =>
        cases o with
        | none => exact ⟨Or.inr ⟨_, _, A, A', hA, rfl, rfl⟩, h2⟩
        | some flat =>
          obtain ⟨h3, h4⟩ := gridPlacement_rel hc h2
          generalize cfg.gridPlacement s = p at h3 h4 ⊢
          generalize cfg'.gridPlacement s' = p' at h3 h4 ⊢
          obtain ⟨r, s⟩ := p
          obtain ⟨r', s'⟩ := p'
          simp only at h3 h4
          subst h3
          cases r with
          | error e => exact ⟨Or.inl ⟨e, rfl, rfl⟩, h4⟩
          | ok r =>
            simp only [h4.heap]
            generalize s'.heap.getitem r (.ints (flat.map fun i : ℕ => (i : ℤ))) = q
            obtain ⟨g, h⟩ := q
            rcases g with e | ⟨_ | est⟩
            · exact ⟨Or.inl ⟨e, rfl, rfl⟩, ⟨rfl, h4.src, h4.atom⟩⟩
            · exact ⟨Or.inl ⟨_, rfl, rfl⟩, ⟨rfl, h4.src, h4.atom⟩⟩
            · simp only
              cases re with
              | false => exact ⟨Or.inr ⟨_, _, A, A', hA, rfl, rfl⟩, ⟨rfl, h4.src, h4.atom⟩⟩
              | true =>
                simp only [if_true]
                rw [hc.ints, refineEstimates_sameOrder (sp' := fun rows => fsp' (cfg'.compute rows)) (fun rows => hf _ _ (hc.compute rows)),
                  curGrid_rel hc h4]
                generalize refineEstimates _ (fun rows => fsp' (cfg'.compute rows)) _ _ _ _ _ _ = q
                obtain ⟨g, h'⟩ := q
                cases g with
                | error e => exact ⟨Or.inl ⟨e, rfl, rfl⟩, ⟨rfl, h4.src, h4.atom⟩⟩
                | ok _ => exact ⟨Or.inr ⟨_, _, A, A', hA, rfl, rfl⟩, ⟨rfl, h4.src, h4.atom⟩⟩

end Doa.Props
