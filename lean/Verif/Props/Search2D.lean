import Verif.Model.Atoms2D
import Verif.Props.Calibrated
import Verif.Props.Dominant

/-!
# C43: MUSIC on two-dimensional grids
-/

namespace Doa.Props

open Doa Doa.Spec Complex Matrix
open scoped ComplexOrder

variable {k m : ℕ}

/-- The response of the array to one far-field source at `v = (azimuth, elevation)` in unit `u`. -/
noncomputable def response2 (a : ArrayDesign) (l : Fin a.element.outputSize) (wl : ℝ) (u : String) (mode : String) (v : ℝ × ℝ) :
    Fin a.size → ℂ :=
  fun i => entryOf (steering a (.ff2 (⟨![v], u⟩ : FF2D 1)) wl false mode) l i 0

/-- The steering matrix of several sources has the responses to the single sources as columns. -/
theorem steering_columns2 {a : ArrayDesign} (hel : a.element = .isotropicScalar) (l : Fin a.element.outputSize) (wl : ℝ) (mode : String)
    (s : FF2D k) {S : Steering a.element.outputSize a.size k} (h : steering a (.ff2 s) wl false mode = .ok S) (i : Fin a.size) (c : Fin k) :
    S.A l i c = response2 a l wl s.unit mode (s.loc c) i := by
  obtain ⟨ps, T, hrows, hps, hT, hsh, hA, hDA⟩ := steering_iso_inv hel h
  have := steering_wl h
  have hT1 : s.phaseDelay _ wl false = .ok T := hT
  rw [FF2D.phaseDelay_eq] at hT1
  split at hT1
  · rename_i hd
    cases hT1
    have h1 : (Sources.ff2 (⟨![s.loc c], s.unit⟩ : FF2D 1)).phaseDelay _ wl false = .ok _ :=
      (FF2D.phaseDelay_eq (⟨![s.loc c], s.unit⟩ : FF2D 1) _ wl).trans (if_pos hd)
    unfold response2
    rw [steering_iso hel hps hrows h1 hsh, hA]
    simp only [entryOf, mul_apply]
    rfl
  · cases hT1

/-- Azimuth and elevation of a row of a placement. -/
def azEl (r : List ℝ) : ℝ × ℝ := (r.getD 0 0, r.getD 1 0)

/-- The atoms of the estimators are the responses with the known perturbations. -/
theorem atoms_eq2 {a : ArrayDesign} (hel : a.element = .isotropicScalar) (l : Fin a.element.outputSize) (wl : ℝ) [NeZero wl] (u : String)
    (rows : List (List ℝ)) {ps : List Perturbation} (hps : Usable a "known" ps) :
    atomColumns2D a l wl u rows = rows.map fun r => response2 a l wl u "known" (azEl r) := by
  have h1 : (Sources.ff2 (⟨fun c : Fin rows.length => ((rows.get c).getD 0 0, (rows.get c).getD 1 0), u⟩ : FF2D rows.length)).phaseDelay _ wl false = .ok _ :=
    (FF2D.phaseDelay_eq _ _ wl).trans (if_pos hps.dim)
  have hS := steering_iso hel hps.selected hps.rows h1 hps.shape
  unfold atomColumns2D
  rw [hS]
  apply List.ext_getElem
  · simp
  · intro j h2 h3
    rw [List.getElem_ofFn, List.getElem_map]
    funext i
    exact steering_columns2 hel l wl "known" _ hS i ⟨j, by simpa using h3⟩

/-- The MUSIC spectrum of the exact covariance over any dictionary: infinite at the sources, finite elsewhere. -/
theorem music_dominant (eigh : Eigh) (hk : 1 ≤ k) {A : Matrix (Fin m) (Fin k) ℂ} (hA : Function.Injective A.mulVec)
    {P : Matrix (Fin k) (Fin k) ℂ} (hP : P.PosDef) (σ : ℝ) (L : List (Fin m → ℂ)) (I : Fin k → ℕ)
    (hcol : ∀ c, L[I c]? = some (A.col c))
    (hident : ∀ (j : ℕ) (v : Fin m → ℂ), L[j]? = some v → (∃ y, v = A *ᵥ y) → ∃ c, j = I c) :
    (fMusic (getNoiseSubspace eigh (covModel A P σ) k) L).length = L.length ∧
    (∀ c, (fMusic (getNoiseSubspace eigh (covModel A P σ) k) L)[I c]? = some ⊤) ∧
    Dominant (fMusic (getNoiseSubspace eigh (covModel A P σ) k) L) I := by
  obtain ⟨hl, hsp⟩ := C43_music_spectrum eigh (σ := σ) hk hA hP L
  have htop : ∀ c, (fMusic (getNoiseSubspace eigh (covModel A P σ) k) L)[I c]? = some ⊤ := by
    intro c
    obtain ⟨v, hv1, -, -, hv4⟩ := hsp (I c) _ (hcol c)
    rw [hv1, hv4 c rfl]
  refine ⟨hl, htop, ?_⟩
  intro c j v w hj hv hw
  rw [htop c, Option.some.injEq] at hw
  subst hw
  have hjl : j < L.length := hl ▸ (List.getElem?_eq_some_iff.1 hv).1
  obtain ⟨v', hv1, -, hv3, -⟩ := hsp j _ (List.getElem?_eq_getElem hjl)
  obtain ⟨y, -, hy⟩ := hv3 fun hy => by
    obtain ⟨e, he⟩ := hident j _ (List.getElem?_eq_getElem hjl) hy
    exact hj e he
  rw [hv1, Option.some.injEq, hy] at hv
  rw [← hv]
  exact WithTop.coe_lt_top y

/-- The rows of a two-dimensional grid. -/
theorem rows_2d {g : SearchGrid} {ga gb : List ℝ} {names : List String} {u : String}
    (hg : g = ⟨.ff2, [⟨ga, false⟩, ⟨gb, false⟩], names, [u, u]⟩) (hu : Unit2D u)
    (hx : ∀ v ∈ ga, ∀ w ∈ gb, InRange2D u (v, w)) :
    ∃ rows, g.placementRows = .ok rows ∧ rows.length = ga.length * gb.length ∧
      ∀ i j v w, ga[i]? = some v → gb[j]? = some w → rows[i * gb.length + j]? = some [v, w] := by
  subst hg
  obtain ⟨rows, h1, h2, h3⟩ := ValidGrid.rows (g := ⟨.ff2, [⟨ga, false⟩, ⟨gb, false⟩], names, [u, u]⟩)
    (Or.inr ⟨ga, gb, names, u, rfl, hu, hx⟩)
  simp only [SearchGrid.shape, List.map_cons, List.map_nil, List.prod_cons, List.prod_nil, mul_one] at h2 h3
  refine ⟨rows, h1, h2, fun i j v w hv hw => ?_⟩
  obtain ⟨hi, hi'⟩ := List.getElem?_eq_some_iff.1 hv
  obtain ⟨hj, hj'⟩ := List.getElem?_eq_some_iff.1 hw
  have := h3 [i, j] (i * gb.length + j) (by
    rw [ravelMultiIndex_eq (List.Forall₂.cons hi (List.Forall₂.cons hj List.Forall₂.nil))]
    simp [ravelIdx])
  rw [this]
  simp [gridPoint, hv, hw]

/-- Every position of a two-dimensional grid is one of its points. -/
theorem flat_2d {ga gb : List ℝ} {j : ℕ} (hj : j < ga.length * gb.length) :
    ∃ p q v w, j = p * gb.length + q ∧ ga[p]? = some v ∧ gb[q]? = some w := by
  have hb : 0 < gb.length := by
    rcases Nat.eq_zero_or_pos gb.length with h0 | h0
    · rw [h0] at hj; omega
    · exact h0
  have hi : j / gb.length < ga.length := Nat.div_lt_of_lt_mul (by rwa [mul_comm] at hj)
  have hm : j % gb.length < gb.length := Nat.mod_lt _ hb
  exact ⟨j / gb.length, j % gb.length, _, _, by rw [mul_comm]; exact (Nat.div_add_mod j gb.length).symm,
    List.getElem?_eq_getElem hi, List.getElem?_eq_getElem hm⟩

theorem flat_2d_inj {n p q p' q' : ℕ} (hq : q < n) (hq' : q' < n) (h : p * n + q = p' * n + q') : p = p' ∧ q = q' := by
  have h1 : p = p' := by
    have e1 : (p * n + q) / n = p := by
      rw [mul_comm, Nat.mul_add_div (by omega), Nat.div_eq_of_lt hq, add_zero]
    have e2 : (p' * n + q') / n = p' := by
      rw [mul_comm, Nat.mul_add_div (by omega), Nat.div_eq_of_lt hq', add_zero]
    rw [← e1, ← e2, h]
  subst h1
  exact ⟨rfl, by omega⟩

theorem unravel_2d {n1 n2 p q : ℕ} (hp : p < n1) (hq : q < n2) : unravelIdx [n1, n2] (p * n2 + q) = [p, q] := by
  have := unravel_ravel (shape := [n1, n2]) (coord := [p, q]) (.cons hp (.cons hq .nil))
  simpa [ravelIdx] using this

/-- A two-dimensional grid search returns the `k` highest grid points, all of the same height, if there are exactly `k` of them. -/
theorem recovers_2d {β Atom : Type} [LinearOrder β] (cfg : EstCfg β Atom) {ga gb : List ℝ} {names : List String} {u : String}
    (hg : cfg.grid = ⟨.ff2, [⟨ga, false⟩, ⟨gb, false⟩], names, [u, u]⟩) (hu : Unit2D u)
    (hx : ∀ v ∈ ga, ∀ w ∈ gb, InRange2D u (v, w))
    (hpf : cfg.peakFinder = findPeaksSimple) (hsort : IsArgsort cfg.argsort)
    (ops : List (EstOp β Atom)) (args : EstArgs β Atom) (hk : 1 ≤ args.k) (hr : args.refine = false)
    {rows : List (List ℝ)} (hrows : cfg.grid.placementRows = .ok rows)
    (hlen : (args.fsp (cfg.compute rows)).length = ga.length * gb.length)
    (src : FF2D args.k) (ia ib : Fin args.k → ℕ) (ha : ∀ c, ga[ia c]? = some (src.loc c).1) (hb : ∀ c, gb[ib c]? = some (src.loc c).2)
    (hord : ∀ c e, c < e → ia c < ia e ∨ ia c = ia e ∧ ib c < ib e)
    (heq : ∀ c e, (args.fsp (cfg.compute rows))[ia c * gb.length + ib c]? = (args.fsp (cfg.compute rows))[ia e * gb.length + ib e]?)
    (hdom : Dominant (args.fsp (cfg.compute rows)) fun c => ia c * gb.length + ib c) :
    ∃ o st', cfg.estimate (cfg.run ops).1 args = (.ok o, st') ∧
      o.observe st' = (true, some (some (List.ofFn fun c => [(src.loc c).1, (src.loc c).2], u)), args.fsp (cfg.compute rows)) := by
  have hsh : cfg.grid.shape = [ga.length, gb.length] := by rw [hg]; rfl
  have hpr : cfg.grid.shape.prod = ga.length * gb.length := by rw [hsh]; simp
  have hal : ∀ c, ia c < ga.length := fun c => (List.getElem?_eq_some_iff.1 (ha c)).1
  have hbl : ∀ c, ib c < gb.length := fun c => (List.getElem?_eq_some_iff.1 (hb c)).1
  have hlt : ∀ c, ia c * gb.length + ib c < cfg.grid.shape.prod := by
    intro c
    rw [hpr]
    have h1 := hal c
    have h2 := hbl c
    nlinarith
  have hobs := recovers_dominant cfg (Or.inr ⟨ga, gb, names, u, hg, hu, hx⟩) hpf hsort ops args hk hr hrows (by rw [hlen, hpr])
    (fun c => ia c * gb.length + ib c)
    (by
      intro c e h
      have h2 := hbl c
      rcases hord c e h with h1 | ⟨h1, h3⟩
      · show ia c * gb.length + ib c < ia e * gb.length + ib e
        nlinarith
      · show ia c * gb.length + ib c < ia e * gb.length + ib e
        rw [h1]; omega)
    hlt (dominant_peak_nd (by rw [hsh]; simp) hdom heq hlt) hdom
  have hpt : ∀ c, gridPoint cfg.grid (unravelIdx cfg.grid.shape (ia c * gb.length + ib c)) = [(src.loc c).1, (src.loc c).2] := by
    intro c
    rw [hsh, unravel_2d (hal c) (hbl c), hg]
    simp [gridPoint, ha c, hb c]
  have hun : (cfg.grid.units[0]?).getD "" = u := by rw [hg]; rfl
  simp only [hpt, hun] at hobs
  unfold EstCfg.observe at hobs
  cases hest : cfg.estimate (cfg.run ops).1 args with
  | mk r st' =>
    rw [hest] at hobs
    cases r with
    | error e => cases hobs
    | ok o => exact ⟨o, st', rfl, Except.ok.inj hobs⟩

/-- **C43** (two-dimensional grids). MUSIC on an azimuth/elevation grid, for any array with isotropic scalar elements whose
perturbations are all known: with the exact covariance of sources on grid points (listed in grid order) and no other grid point whose
response lies in the span of the sources, exactly the sources are returned.  Sources may lie on the border of the grid and next to each
other. -/
theorem C43_music_2d (eigh : Eigh) {a : ArrayDesign} (hel : a.element = .isotropicScalar)
    (hknown : ∀ p ∈ a.perturbations, p.isKnown = true) {ps : List Perturbation} (hps : Usable a "all" ps)
    (l : Fin a.element.outputSize) (wl : ℝ) (cfg : EstCfg (WithTop ℝ) (List (Fin a.size → ℂ)))
    {ga gb : List ℝ} {names : List String} {u : String}
    (hg : cfg.grid = ⟨.ff2, [⟨ga, false⟩, ⟨gb, false⟩], names, [u, u]⟩) (hu : Unit2D u)
    (hx : ∀ v ∈ ga, ∀ w ∈ gb, InRange2D u (v, w))
    (hpf : cfg.peakFinder = findPeaksSimple) (hsort : IsArgsort cfg.argsort)
    (hcomp : cfg.compute = atomColumns2D a l wl u)
    (src : FF2D k) (hsu : src.unit = u) (ia ib : Fin k → ℕ) (ha : ∀ c, ga[ia c]? = some (src.loc c).1)
    (hb : ∀ c, gb[ib c]? = some (src.loc c).2) (hord : ∀ c e, c < e → ia c < ia e ∨ ia c = ia e ∧ ib c < ib e)
    (hk : 1 ≤ k) (hka : k < a.size)
    {S : Steering a.element.outputSize a.size k} (hS : steering a (.ff2 src) wl false "all" = .ok S)
    (hA : Function.Injective (S.A l).mulVec)
    (hident : ∀ i j v w, ga[i]? = some v → gb[j]? = some w →
      (∃ y, response2 a l wl u "all" (v, w) = S.A l *ᵥ y) → ∃ c, i = ia c ∧ j = ib c)
    {P : Matrix (Fin k) (Fin k) ℂ} (hP : P.PosDef) (σ : ℝ)
    (ops : List (EstOp (WithTop ℝ) (List (Fin a.size → ℂ)))) :
    ∃ o st', musicEstimate eigh cfg (cfg.run ops).1 (covModel (S.A l) P σ) k {} = (.ok o, st') ∧
      ∃ sp, o.observe st' = (true, some (some (List.ofFn fun c => [(src.loc c).1, (src.loc c).2], u)), sp) := by
  have : NeZero wl := steering_wl hS
  have hfk : a.filterPerturbations "known" = a.filterPerturbations "all" := by
    have hv : ∀ p ∈ a.perts.values, p.isKnown = true := hknown
    simp only [ArrayDesign.filterPerturbations, String.reduceEq, if_true, if_false]
    rw [List.filter_eq_self.2 hv]
  have hresp : ∀ v, response2 a l wl u "known" v = response2 a l wl u "all" v := fun v => by
    unfold response2 steering
    rw [hfk]
  obtain ⟨rows, hr1, hr2, hr3⟩ := rows_2d hg hu hx
  have hcr : cfg.compute rows = rows.map fun r => response2 a l wl u "all" (azEl r) := by
    rw [hcomp, atoms_eq2 hel l wl u rows ⟨hfk.trans hps.selected, hps.rows, hps.dim, hps.shape⟩]
    simp only [hresp]
  have hL : ∀ i j v w, ga[i]? = some v → gb[j]? = some w →
      (cfg.compute rows)[i * gb.length + j]? = some (response2 a l wl u "all" (v, w)) := by
    intro i j v w hv hw
    rw [hcr, List.getElem?_map, hr3 i j v w hv hw]
    rfl
  obtain ⟨m1, m2, m3⟩ := music_dominant eigh hk hA hP σ (cfg.compute rows) (fun c => ia c * gb.length + ib c)
    (by
      intro c
      rw [hL _ _ _ _ (ha c) (hb c)]
      congr 1
      funext i
      rw [Matrix.col_apply, steering_columns2 hel l wl "all" src hS, hsu])
    (by
      intro j v hv hy
      have hj : j < ga.length * gb.length := by
        have := (List.getElem?_eq_some_iff.1 hv).1
        rw [hcr, List.length_map, hr2] at this
        exact this
      obtain ⟨p, q, v', w', rfl, h1, h2⟩ := flat_2d hj
      rw [hL _ _ _ _ h1 h2, Option.some.injEq] at hv
      rw [← hv] at hy
      obtain ⟨c, rfl, rfl⟩ := hident p q v' w' h1 h2 hy
      exact ⟨c, rfl⟩)
  have hargs := subspaceArgs_ok eigh (fun En => fMusic En) (covModel (S.A l) P σ) k {} hka
  obtain ⟨o, st', e1, e2⟩ := recovers_2d cfg hg hu hx hpf hsort ops
    ⟨fMusic (getNoiseSubspace eigh (covModel (S.A l) P σ) k), k, false, 10, 3⟩ hk rfl hr1
    (by rw [m1, hcr, List.length_map, hr2]) src ia ib ha hb hord (fun c e => by rw [m2 c, m2 e]) m3
  refine ⟨o, st', ?_, _, e2⟩
  unfold musicEstimate
  rw [hargs]
  exact e1

end Doa.Props
