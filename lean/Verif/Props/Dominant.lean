import Verif.Props.Subspace

/-!
# Grid search with dominant points

If the spectrum has `k` peaks above every other grid point, a grid search for `k` sources returns exactly
these points, on grids of any dimension and for every type of spectrum value.
-/

namespace Doa.Props
open Doa Doa.Spec

variable {β Atom : Type}

/-- `I` are the flat positions of `k` dominant points of `sp`: every other point is strictly lower. -/
def Dominant [LinearOrder β] {k : ℕ} (sp : List β) (I : Fin k → ℕ) : Prop :=
  ∀ (c : Fin k) (j : ℕ) (v w : β), (∀ e, j ≠ I e) → sp[j]? = some v → sp[I c]? = some w → v < w

/-- Dominant, pairwise non-adjacent interior points of a 1-D spectrum are peaks. -/
theorem dominant_peak_1d [LinearOrder β] {n k : ℕ} {sp : List β} (hlen : sp.length = n) {I : Fin k → ℕ}
    (hdom : Dominant sp I) (hsep : ∀ c e, c < e → I c + 1 < I e) (h1 : ∀ c, 1 ≤ I c)
    (h2 : ∀ c, I c + 1 < n) (c : Fin k) : unravelIdx [n] (I c) ∈ findPeaksSimple [n] sp := by
  classical
  have hu : unravelIdx [n] (I c) = [I c] := by simp [unravelIdx]
  rw [hu]
  have hne : ∀ (j : ℕ) (e : Fin k), j + 1 = I c ∨ j = I c + 1 → j ≠ I e := by
    intro j e hj h
    rcases lt_trichotomy c e with h' | h' | h'
    · have := hsep c e h'; omega
    · subst h'; omega
    · have := hsep e c h'; omega
  simp only [findPeaksSimple, List.length_cons, List.length_nil, zero_add, if_true, findPeaks1,
    List.mem_map, List.mem_filter, List.mem_range, decide_eq_true_eq]
  have hlt : I c < sp.length := by have := h2 c; omega
  refine ⟨I c, ⟨hlt, I c, I c, ⟨h1 c, le_rfl, by have := h2 c; omega, sp[I c], ?_, ?_, ?_⟩, by omega⟩, rfl⟩
  · intro i hi hle hge
    have : i = I c := by omega
    subst this
    exact List.getElem?_eq_getElem _
  · intro v hv
    exact hdom c (I c - 1) v _ (fun e => hne _ e (Or.inl (by have := h1 c; omega))) hv
      (List.getElem?_eq_getElem _)
  · intro v hv
    exact hdom c (I c + 1) v _ (fun e => hne _ e (Or.inr rfl)) hv (List.getElem?_eq_getElem _)

/-- On a grid with more than one dimension every highest point is a peak, also on the boundary and next to other highest points. -/
theorem dominant_peak_nd [LinearOrder β] {shape : List ℕ} (hs : shape.length ≠ 1) {k : ℕ} {sp : List β}
    {I : Fin k → ℕ} (hdom : Dominant sp I) (heq : ∀ c e : Fin k, sp[I c]? = sp[I e]?)
    (hlt : ∀ c, I c < shape.prod) (c : Fin k) : unravelIdx shape (I c) ∈ findPeaksSimple shape sp := by
  classical
  simp only [findPeaksSimple, hs, if_false, findPeaksND, List.mem_filter, decide_eq_true_eq]
  refine ⟨List.mem_map.2 ⟨_, List.mem_range.2 (hlt c), rfl⟩, ?_⟩
  intro d hd _ v w hv hw
  rw [ravel_unravel (hlt c)] at hw
  by_cases h : ∃ e, ravelIdx shape d = I e
  · obtain ⟨e, he⟩ := h
    rw [he, heq e c, hw] at hv
    exact (Option.some.inj hv).ge
  · push Not at h
    exact (hdom c _ v w h hv hw).le

/-- A grid search for `k` sources returns exactly the `k` dominant peaks, in the order of the grid. -/
theorem recovers_dominant [LinearOrder β] (cfg : EstCfg β Atom) (hg : ValidGrid cfg.grid)
    (hpf : cfg.peakFinder = findPeaksSimple) (hsort : IsArgsort cfg.argsort)
    (ops : List (EstOp β Atom)) (args : EstArgs β Atom) (hk : 1 ≤ args.k) (hr : args.refine = false)
    {rows : List (List ℝ)} (hrows : cfg.grid.placementRows = .ok rows)
    (hlen : (args.fsp (cfg.compute rows)).length = cfg.grid.shape.prod)
    (I : Fin args.k → ℕ) (hI : StrictMono I) (hlt : ∀ c, I c < cfg.grid.shape.prod)
    (hpeak : ∀ c, unravelIdx cfg.grid.shape (I c) ∈ findPeaksSimple cfg.grid.shape (args.fsp (cfg.compute rows)))
    (hdom : Dominant (args.fsp (cfg.compute rows)) I) :
    cfg.observe (cfg.run ops).1 args =
      .ok (true, some (some (List.ofFn fun c => gridPoint cfg.grid (unravelIdx cfg.grid.shape (I c)),
        (cfg.grid.units[0]?).getD "")), args.fsp (cfg.compute rows)) := by
  classical
  obtain ⟨rows', hr1, hr2⟩ := C37_largest_peaks cfg hg hsort ops args hk hr
  rw [hrows, Except.ok.injEq] at hr1
  subst hr1
  obtain ⟨sp, hsp⟩ : ∃ sp, sp = args.fsp (cfg.compute rows) := ⟨_, rfl⟩
  rw [← hsp] at hlen hpeak hdom ⊢
  obtain ⟨hd1, hd2⟩ := C37_default_peak_finder cfg.grid.shape sp hlen
  obtain ⟨-, ht⟩ := hr2 sp hsp hlen (by rw [hpf]; exact hd1) (by rw [hpf]; exact hd2)
  rw [hpf] at ht
  have hinj : Function.Injective fun c => unravelIdx cfg.grid.shape (I c) := by
    intro c e h
    apply hI.injective
    have := congrArg (ravelIdx cfg.grid.shape) h
    simpa only [ravel_unravel (hlt c), ravel_unravel (hlt e)] using this
  have hkle : args.k ≤ (findPeaksSimple cfg.grid.shape sp).length := by
    have hs : (List.ofFn fun c => unravelIdx cfg.grid.shape (I c)).Subperm (findPeaksSimple cfg.grid.shape sp) := by
      refine List.subperm_of_subset (List.nodup_ofFn.2 hinj) ?_
      intro i hi
      obtain ⟨c, rfl⟩ := List.mem_ofFn.1 hi
      exact hpeak c
    simpa using hs.length_le
  obtain ⟨flat, hflat, hobs⟩ := ht hkle
  have hnd : flat.Nodup := hflat.increasing.imp fun h => ne_of_lt h
  have hsub : ∀ c, I c ∈ flat := by
    by_contra hn
    push Not at hn
    obtain ⟨c, hc⟩ := hn
    have hall : ∀ i ∈ flat, ∃ e, e ≠ c ∧ i = I e := by
      intro i hi
      have hil : i < sp.length := hlen ▸ hflat.lt i hi
      have hcl : I c < sp.length := hlen ▸ hlt c
      have hv := hflat.largest i hi _ (hpeak c) (I c) sp[I c] sp[i]
        (by rw [ravelMultiIndex_eq (unravel_valid (hlt c)), ravel_unravel (hlt c)]) hc
        (List.getElem?_eq_getElem _) (List.getElem?_eq_getElem _)
      by_contra hne
      push Not at hne
      have hall' : ∀ e, i ≠ I e := by
        intro e he
        exact hne e (fun h => hc (h ▸ he ▸ hi)) he
      exact absurd hv (not_le.2 (hdom c i _ _ hall' (List.getElem?_eq_getElem _) (List.getElem?_eq_getElem _)))
    have hcard : flat.toFinset.card ≤ ((Finset.univ.erase c).image I).card := by
      apply Finset.card_le_card
      intro i hi
      obtain ⟨e, he, rfl⟩ := hall i (List.mem_toFinset.1 hi)
      exact Finset.mem_image.2 ⟨e, Finset.mem_erase.2 ⟨he, Finset.mem_univ _⟩, rfl⟩
    rw [List.toFinset_card_of_nodup hnd, hflat.length,
      Finset.card_image_of_injective _ hI.injective, Finset.card_erase_of_mem (Finset.mem_univ _),
      Finset.card_univ, Fintype.card_fin] at hcard
    omega
  have hofn : (List.ofFn I).Pairwise (· < ·) := by
    rw [List.pairwise_ofFn]
    exact fun i j h => hI h
  have hperm : (List.ofFn I).Perm flat := by
    have hndo : (List.ofFn I).Nodup := hofn.imp fun h => ne_of_lt h
    have hs : (List.ofFn I).Subperm flat := List.subperm_of_subset hndo (by
      intro i hi
      obtain ⟨c, rfl⟩ := List.mem_ofFn.1 hi
      exact hsub c)
    exact hs.perm_of_length_le (by rw [hflat.length]; simp)
  have hfl : flat = List.ofFn I :=
    (hperm.eq_of_pairwise (fun a b _ _ h h' => absurd h' (by omega)) hofn hflat.increasing).symm
  rw [hobs, hfl, List.map_ofFn]
  rfl

end Doa.Props
