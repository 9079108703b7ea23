import Verif.Lemmas.SameOrder

/-!
# Two estimators with related atoms and equal spectra
-/

namespace Doa.Props

open Doa Doa.Spec

variable {β Atom Atom' : Type} [LinearOrder β]

/-- Two estimators that search the same grid, with the same peak finder and sorting routine, with atoms in the relation `Rel`. -/
structure CfgEq (Rel : Atom → Atom' → Prop) (cfg : EstCfg β Atom) (cfg' : EstCfg β Atom') : Prop where
  grid : cfg'.grid = cfg.grid
  caching : cfg'.caching = cfg.caching
  ints : cfg'.intGrid = cfg.intGrid
  peaks : cfg'.peakFinder = cfg.peakFinder
  sort : cfg'.argsort = cfg.argsort
  compute : ∀ rows, Rel (cfg.compute rows) (cfg'.compute rows)

/-- If related atoms have equal spectra, related estimators return the same result. -/
theorem estimate_eq {Rel : Atom → Atom' → Prop} {cfg : EstCfg β Atom} {cfg' : EstCfg β Atom'} (hq : CfgEq Rel cfg cfg')
    {st : EstState Atom} {st' : EstState Atom'} (hs : StateRel Rel st st') {fsp : Atom → List β} {fsp' : Atom' → List β}
    (hf : ∀ A A', Rel A A' → fsp A = fsp' A') (k : ℕ) (re : Bool) (density : ℤ) (iters : ℕ) :
    (cfg.estimate st ⟨fsp, k, re, density, iters⟩).1 = (cfg'.estimate st' ⟨fsp', k, re, density, iters⟩).1 ∧
    StateRel Rel (cfg.estimate st ⟨fsp, k, re, density, iters⟩).2 (cfg'.estimate st' ⟨fsp', k, re, density, iters⟩).2 := by
  have hc : CfgRel Rel ({ cfg with peakFinder := fun _ _ => [], argsort := fun _ => [] } : EstCfg β Atom)
      ({ cfg' with peakFinder := fun _ _ => [], argsort := fun _ => [] } : EstCfg β Atom') :=
    ⟨hq.grid.symm, hq.caching.symm, hq.ints.symm, hq.compute, fun _ _ _ _ => rfl, fun _ _ _ => rfl⟩
  have hA := fun {s s'} (h : StateRel Rel s s') => atomMatrix_rel hc h
  have hG := fun {s s'} (h : StateRel Rel s s') => gridPlacement_rel hc h
  have hC := fun {s s'} (h : StateRel Rel s s') => curGrid_rel hc h
  have eA : ∀ s, ({ cfg with peakFinder := fun _ _ => [], argsort := fun _ => [] } : EstCfg β Atom).atomMatrix s = cfg.atomMatrix s := fun _ => rfl
  have eA' : ∀ s, ({ cfg' with peakFinder := fun _ _ => [], argsort := fun _ => [] } : EstCfg β Atom').atomMatrix s = cfg'.atomMatrix s := fun _ => rfl
  have eG : ∀ s, ({ cfg with peakFinder := fun _ _ => [], argsort := fun _ => [] } : EstCfg β Atom).gridPlacement s = cfg.gridPlacement s := fun _ => rfl
  have eG' : ∀ s, ({ cfg' with peakFinder := fun _ _ => [], argsort := fun _ => [] } : EstCfg β Atom').gridPlacement s = cfg'.gridPlacement s := fun _ => rfl
  have eC : ∀ s, ({ cfg with peakFinder := fun _ _ => [], argsort := fun _ => [] } : EstCfg β Atom).curGrid s = cfg.curGrid s := fun _ => rfl
  have eC' : ∀ s, ({ cfg' with peakFinder := fun _ _ => [], argsort := fun _ => [] } : EstCfg β Atom').curGrid s = cfg'.curGrid s := fun _ => rfl
  simp only [eA, eA'] at hA
  simp only [eG, eG'] at hG
  simp only [eC, eC'] at hC
  clear eA eA' eG eG' eC eC'
  unfold EstCfg.estimate
  obtain ⟨h1, h2⟩ := hA hs
  generalize cfg.atomMatrix st = p at h1 h2 ⊢
  generalize cfg'.atomMatrix st' = p' at h1 h2 ⊢
  obtain ⟨r, s⟩ := p
  obtain ⟨r', s'⟩ := p'
  simp only at h1 h2
  rcases h1 with ⟨e, rfl, rfl⟩ | ⟨A, A', hA', rfl, rfl⟩
  · exact ⟨rfl, h2⟩
  · simp only [hq.grid, hq.peaks, hq.sort, hf A A' hA']
    split
    · exact ⟨rfl, h2⟩
    · cases topPeaks cfg.peakFinder cfg.argsort cfg.grid.shape (fsp' A') k with
      | error e => exact ⟨rfl, h2⟩
      | ok o =>
        cases o with
        | none => exact ⟨rfl, h2⟩
        | some flat =>
          obtain ⟨h3, h4⟩ := hG h2
          generalize cfg.gridPlacement s = p at h3 h4 ⊢
          generalize cfg'.gridPlacement s' = p' at h3 h4 ⊢
          obtain ⟨r, s⟩ := p
          obtain ⟨r', s'⟩ := p'
          simp only at h3 h4
          subst h3
          cases r with
          | error e => exact ⟨rfl, h4⟩
          | ok r =>
            simp only [h4.heap]
            generalize s'.heap.getitem r (.ints (flat.map fun i : ℕ => (i : ℤ))) = q
            obtain ⟨g, h⟩ := q
            rcases g with e | ⟨_ | est⟩
            · exact ⟨rfl, ⟨rfl, h4.src, h4.atom⟩⟩
            · exact ⟨rfl, ⟨rfl, h4.src, h4.atom⟩⟩
            · simp only
              cases re with
              | false => exact ⟨rfl, ⟨rfl, h4.src, h4.atom⟩⟩
              | true =>
                simp only [if_true]
                have hsp : (fun rows => fsp (cfg.compute rows)) = fun rows => fsp' (cfg'.compute rows) :=
                  funext fun rows => hf _ _ (hq.compute rows)
                rw [hsp, hC h4, hq.ints]
                generalize refineEstimates _ (fun rows => fsp' (cfg'.compute rows)) _ _ _ _ _ _ = q
                obtain ⟨g, h'⟩ := q
                cases g with
                | error e => exact ⟨rfl, ⟨rfl, h4.src, h4.atom⟩⟩
                | ok _ => exact ⟨rfl, ⟨rfl, h4.src, h4.atom⟩⟩

end Doa.Props
