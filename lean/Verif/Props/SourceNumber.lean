import Mathlib.Analysis.SpecialFunctions.Log.Deriv
import Mathlib.Analysis.SpecialFunctions.Pow.Asymptotics
import Verif.Model.SourceNumber
import Verif.Spec.SourceNumber
import Verif.Lemmas.Subspace

/-!
# Source number detection: C50, C51
-/

namespace Doa.Props

open Doa Doa.Spec Finset Matrix
open scoped ComplexOrder

theorem argminIdx_range {β : Type*} [LinearOrder β] (f : ℕ → β) {n : ℕ} (hn : 0 < n) :
    ∃ r < n, argminIdx ((List.range n).map f) = some r ∧ (∀ i < n, f r ≤ f i) ∧ ∀ i < r, f r < f i := by
  have hne : (List.range n).map f ≠ [] := by simp; omega
  obtain ⟨v, hv⟩ : ∃ v, ((List.range n).map f).min? = some v := by
    rcases h : ((List.range n).map f).min? with _ | v
    · exact absurd (List.min?_eq_none_iff.1 h) hne
    · exact ⟨v, rfl⟩
  obtain ⟨hmem, hmin⟩ := List.min?_eq_some_iff.1 hv
  have hidx := List.idxOf_lt_length_of_mem hmem
  have hlen : ((List.range n).map f).length = n := by simp
  have hr : ((List.range n).map f).idxOf v < n := lt_of_lt_of_eq hidx hlen
  have hget : f (((List.range n).map f).idxOf v) = v := by
    have h1 := List.getElem_idxOf hidx
    rw [List.getElem_map, List.getElem_range] at h1
    exact h1
  refine ⟨_, hr, by rw [argminIdx, hv]; rfl, ?_, ?_⟩
  · intro i hi
    rw [hget]
    exact hmin _ (List.mem_map.2 ⟨i, List.mem_range.2 hi, rfl⟩)
  · intro i hi
    rw [hget]
    have hin : i < n := by omega
    refine lt_of_le_of_ne (hmin _ (List.mem_map.2 ⟨i, List.mem_range.2 hin, rfl⟩)) fun he => ?_
    have h2 := List.not_of_lt_findIdx (p := (· == v)) (xs := (List.range n).map f) hi
    rw [List.getElem_map, List.getElem_range] at h2
    simp [he] at h2

theorem log_list_prod (l : List ℝ) (h : ∀ x ∈ l, 0 < x) : 0 < l.prod ∧ Real.log l.prod = (l.map Real.log).sum := by
  induction l with
  | nil => simp
  | cons a t ih =>
    obtain ⟨h1, h2⟩ := ih fun x hx => h x (List.mem_cons_of_mem _ hx)
    have ha := h a List.mem_cons_self
    exact ⟨by rw [List.prod_cons]; positivity, by
      rw [List.prod_cons, Real.log_mul ha.ne' h1.ne', h2, List.map_cons, List.sum_cons]⟩

theorem take_sum_eq (g : ℝ → ℝ) (l : List ℝ) : ∀ d ≤ l.length,
    ((l.take d).map g).sum = ∑ j ∈ range d, g (eigAt l j) := by
  intro d
  induction d with
  | zero => simp
  | succ d ih =>
    intro hd
    rw [Finset.sum_range_succ, ← ih (by omega), List.take_add_one, List.map_append, List.sum_append]
    have : l[d]? = some (l[d]) := List.getElem?_eq_getElem (by omega)
    simp [this, eigAt, List.getD_eq_getElem?_getD]

theorem eigAt_mem {l : List ℝ} {j : ℕ} (hj : j < l.length) : eigAt l j ∈ l := by
  rw [eigAt, List.getD_eq_getElem?_getD, List.getElem?_eq_getElem hj]
  exact List.getElem_mem hj

theorem mathLog_pos {x : ℝ} (hx : 0 < x) : mathLog (some (x : EReal)) = .ok (some ((Real.log x : ℝ) : EReal)) := by
  rw [mathLog, if_neg (EReal.coe_ne_top _), if_neg (by rw [not_le]; exact_mod_cast hx), EReal.toReal_coe]

theorem mapM_ok_map {α γ : Type _} (f : α → Res γ) (g : α → γ) (l : List α) (h : ∀ a ∈ l, f a = .ok (g a)) :
    l.mapM f = .ok (l.map g) := by
  induction l with
  | nil => rfl
  | cons a t ih =>
    rw [List.mapM_cons, h a (by simp), ih fun b hb => h b (by simp [hb])]
    rfl

/-- On real values `np.argmin` returns the first minimiser. -/
theorem argminRes_real (g : ℕ → ℝ) {n : ℕ} (hn : 0 < n) :
    ∃ r < n, argminRes (.ok ((List.range n).map fun i => some ((g i : ℝ) : EReal))) = .ok r ∧ (∀ i < n, g r ≤ g i) ∧ ∀ i < r, g r < g i := by
  obtain ⟨r, hr, h1, h2, h3⟩ := argminIdx_range (fun i => ((g i : ℝ) : EReal)) hn
  refine ⟨r, hr, ?_, fun i hi => EReal.coe_le_coe_iff.1 (h2 i hi), fun i hi => EReal.coe_lt_coe_iff.1 (h3 i hi)⟩
  have e : npArgmin ((List.range n).map fun i => some ((g i : ℝ) : EReal)) = some r := by
    rw [npArgmin, if_neg (by simp), List.map_map]
    exact h1
  show (match npArgmin _ with | none => _ | some i => _) = _
  rw [e]

theorem ldStat_def (l : List ℝ) (N : ℕ) {i : ℕ} (hi : i < l.length) :
    ldStat l i N = (mathLog ((npRoot (l.take (l.length - i)).prod (l.length - i)).bind fun r =>
      npDiv ((l.take (l.length - i)).sum / ((l.length - i : ℕ) : ℝ)) r)).bind fun v =>
        .ok (npScale ((N : ℝ) * ((l.length - i : ℕ) : ℝ)) v) := by
  simp only [ldStat, if_neg (by omega : ¬ l.length - i = 0)]

theorem ldStat_eq {l : List ℝ} (hl : ∀ x ∈ l, 0 < x) (N : ℕ) {i : ℕ} (hi : i < l.length) :
    ldStat l i N = .ok (some ((likelihood l N i : ℝ) : EReal)) := by
  have hd : 0 < l.length - i := by omega
  have hdr : (0 : ℝ) < ((l.length - i : ℕ) : ℝ) := by exact_mod_cast hd
  obtain ⟨h1, h2⟩ := log_list_prod (l.take (l.length - i)) fun x hx => hl x (List.mem_of_mem_take hx)
  have hs := take_sum_eq id l (l.length - i) (by omega)
  rw [List.map_id] at hs
  have hs' : 0 < (l.take (l.length - i)).sum := by
    rw [hs]
    exact Finset.sum_pos (fun j hj => hl _ (eigAt_mem (by have := mem_range.1 hj; omega)))
      ⟨0, mem_range.2 hd⟩
  have hlog := take_sum_eq Real.log l (l.length - i) (by omega)
  have hr : (0 : ℝ) < (l.take (l.length - i)).prod ^ (1 / ((l.length - i : ℕ) : ℝ)) := by positivity
  have hq : (0 : ℝ) < (l.take (l.length - i)).sum / ((l.length - i : ℕ) : ℝ) /
      (l.take (l.length - i)).prod ^ (1 / ((l.length - i : ℕ) : ℝ)) := by positivity
  have e : (N : ℝ) * ((l.length - i : ℕ) : ℝ) * Real.log ((l.take (l.length - i)).sum / ((l.length - i : ℕ) : ℝ) /
      (l.take (l.length - i)).prod ^ (1 / ((l.length - i : ℕ) : ℝ))) = likelihood l N i := by
    rw [likelihood, Real.log_div (by positivity) (by positivity), Real.log_rpow h1, h2, hlog, hs]
    simp only [id]
    field_simp
  have hroot : npRoot (l.take (l.length - i)).prod (l.length - i) =
      some ((l.take (l.length - i)).prod ^ (1 / ((l.length - i : ℕ) : ℝ))) := if_neg fun h => absurd h.1 (not_lt.2 h1.le)
  rw [ldStat_def l N hi, hroot, Option.bind_some, npDiv, if_neg hr.ne', mathLog_pos hq]
  show Except.ok (npScale _ (some _)) = _
  rw [npScale, if_neg (fun h => h.2.elim (EReal.coe_ne_top _) (EReal.coe_ne_bot _)), ← e]
  simp only [EReal.coe_mul]

/-- AM-GM in logarithmic form, with the equality case. -/
theorem am_gm {d : ℕ} (hd : 0 < d) (x : ℕ → ℝ) (hx : ∀ j < d, 0 < x j) :
    0 ≤ d * Real.log ((∑ j ∈ range d, x j) / d) - ∑ j ∈ range d, Real.log (x j) ∧
    (d * Real.log ((∑ j ∈ range d, x j) / d) - ∑ j ∈ range d, Real.log (x j) = 0 ↔ ∀ j < d, x j = x 0) := by
  have hdr : (0 : ℝ) < (d : ℝ) := by exact_mod_cast hd
  set μ := (∑ j ∈ range d, x j) / d with hμ
  have hS : 0 < ∑ j ∈ range d, x j :=
    Finset.sum_pos (fun j hj => hx j (mem_range.1 hj)) ⟨0, mem_range.2 hd⟩
  have hμp : 0 < μ := div_pos hS hdr
  have key : d * Real.log μ - ∑ j ∈ range d, Real.log (x j) =
      ∑ j ∈ range d, (x j / μ - 1 - Real.log (x j / μ)) := by
    rw [Finset.sum_sub_distrib, Finset.sum_sub_distrib, ← Finset.sum_div]
    have h1 : (∑ j ∈ range d, x j) / μ = d := by rw [hμ]; field_simp
    have h2 : ∑ j ∈ range d, Real.log (x j / μ) = ∑ j ∈ range d, Real.log (x j) - d * Real.log μ := by
      rw [Finset.sum_congr rfl fun j hj => Real.log_div (hx j (mem_range.1 hj)).ne' hμp.ne',
        Finset.sum_sub_distrib]
      simp
    rw [h1, h2]
    simp
  have hnn : ∀ j ∈ range d, 0 ≤ x j / μ - 1 - Real.log (x j / μ) := fun j hj => by
    have := Real.log_le_sub_one_of_pos (div_pos (hx j (mem_range.1 hj)) hμp)
    linarith
  rw [key]
  refine ⟨Finset.sum_nonneg hnn, ?_⟩
  rw [Finset.sum_eq_zero_iff_of_nonneg hnn]
  constructor
  · intro h
    have hall : ∀ j < d, x j = μ := by
      intro j hj
      have h1 := h j (mem_range.2 hj)
      by_contra hne
      have h2 : x j / μ ≠ 1 := fun h3 => hne (by field_simp at h3; exact h3)
      have := Real.log_lt_sub_one_of_pos (div_pos (hx j hj) hμp) h2
      linarith
    intro j hj
    rw [hall j hj, hall 0 hd]
  · intro h j hj
    have hμ0 : μ = x 0 := by
      rw [hμ, Finset.sum_congr rfl fun j hj => h j (mem_range.1 hj)]
      simp
      field_simp
    rw [h j (mem_range.1 hj), hμ0, div_self (hx 0 hd).ne']
    simp

/-- **C50 (statistic)**. The statistic is nonnegative and vanishes (for `N ≥ 1`) iff the `m - i`
smallest eigenvalues are all equal. -/
theorem C50_statistic {l : List ℝ} (hl : ∀ x ∈ l, 0 < x) (N : ℕ) {i : ℕ} (hi : i < l.length) :
    ldStat l i N = .ok (some ((likelihood l N i : ℝ) : EReal)) ∧ 0 ≤ likelihood l N i ∧
    (1 ≤ N → (likelihood l N i = 0 ↔ ∀ j < l.length - i, eigAt l j = eigAt l 0)) := by
  have hd : 0 < l.length - i := by omega
  obtain ⟨h1, h2⟩ := am_gm hd (eigAt l) fun j hj => hl _ (eigAt_mem (by omega))
  rw [ldStat_eq hl N hi]
  refine ⟨rfl, mul_nonneg (Nat.cast_nonneg _) h1, fun hN => ?_⟩
  rw [← h2, likelihood, mul_eq_zero]
  have : (N : ℝ) ≠ 0 := by exact_mod_cast (by omega : N ≠ 0)
  simp [this]

/-- **C50 (minimiser)**. For a nonempty vector of positive eigenvalues `aic` and `mdl` return the first
minimiser over `0..m-1` of the documented criteria. An empty vector raises `ValueError`, and so does `mdl` for
zero snapshots. -/
theorem C50_minimiser (f : EigvalshFn) (N : ℕ) {l : List ℝ} (hl : ∀ x ∈ l, 0 < x) :
    (l ≠ [] → ∃ r < l.length, aic f (.vec l) N = .ok r ∧
      (∀ i < l.length, aicCriterion l N r ≤ aicCriterion l N i) ∧
      ∀ i < r, aicCriterion l N r < aicCriterion l N i) ∧
    (l ≠ [] → 1 ≤ N → ∃ r < l.length, mdl f (.vec l) N = .ok r ∧
      (∀ i < l.length, mdlCriterion l N r ≤ mdlCriterion l N i) ∧
      ∀ i < r, mdlCriterion l N r < mdlCriterion l N i) ∧
    (l = [] → aic f (.vec l) N = .error .valueError ∧ mdl f (.vec l) N = .error .valueError) ∧
    (N = 0 → mdl f (.vec l) N = .error .valueError) := by
  refine ⟨fun hne => ?_, fun hne hN => ?_, ?_, ?_⟩
  · have hm : 0 < l.length := List.length_pos_iff.2 hne
    have e : (List.range l.length).mapM (fun i =>
        (ldStat l i N).bind fun v => .ok (npAdd v ((i : ℝ) * (2 * (l.length : ℝ) - (i : ℝ))))) =
        .ok ((List.range l.length).map fun i => some ((aicCriterion l N i : ℝ) : EReal)) :=
      mapM_ok_map _ _ _ fun i hi => by
        rw [ldStat_eq hl N (List.mem_range.1 hi), aicCriterion, EReal.coe_add]; rfl
    obtain ⟨r, hr, h1, h2, h3⟩ := argminRes_real (aicCriterion l N) hm
    exact ⟨r, hr, by rw [aic, aicVec, e, h1], h2, h3⟩
  · have hm : 0 < l.length := List.length_pos_iff.2 hne
    have e : (List.range l.length).mapM (fun i =>
        (ldStat l i N).bind fun v =>
          if N = 0 then .error .valueError
          else .ok (npAdd v ((1 / 2) * ((i : ℝ) * (2 * (l.length : ℝ) - (i : ℝ)) + 1) * Real.log N))) =
        .ok ((List.range l.length).map fun i => some ((mdlCriterion l N i : ℝ) : EReal)) :=
      mapM_ok_map _ _ _ fun i hi => by
        simp only [if_neg (by omega : ¬ N = 0)]
        rw [ldStat_eq hl N (List.mem_range.1 hi), mdlCriterion, EReal.coe_add]; rfl
    obtain ⟨r, hr, h1, h2, h3⟩ := argminRes_real (mdlCriterion l N) hm
    exact ⟨r, hr, by rw [mdl, mdlVec, e, h1], h2, h3⟩
  · rintro rfl
    exact ⟨rfl, rfl⟩
  · rintro rfl
    rcases l with _ | ⟨a, t⟩
    · rfl
    · have h0 := ldStat_eq hl 0 (i := 0) (by simp)
      rw [mdl, mdlVec]
      simp only [List.length_cons, List.range_succ_eq_map, List.mapM_cons, h0]
      rfl

theorem IdealNoise.all_pos {l : List ℝ} {k : ℕ} {σ : ℝ} (h : IdealNoise l k σ) : ∀ x ∈ l, 0 < x := by
  intro x hx
  obtain ⟨j, hj, rfl⟩ := List.getElem_of_mem hx
  have e : l[j] = eigAt l j := by
    rw [eigAt, List.getD_eq_getElem?_getD, List.getElem?_eq_getElem hj]; rfl
  rw [e]
  by_cases hk : j < l.length - k
  · rw [h.noise j hk]; exact h.pos
  · exact lt_of_lt_of_le h.pos (h.above j hj (by omega))

theorem IdealNoise.likelihood_zero {l : List ℝ} {k : ℕ} {σ : ℝ} (h : IdealNoise l k σ) (N : ℕ) {i : ℕ}
    (hk : k ≤ i) (hi : i < l.length) : likelihood l N i = 0 := by
  obtain ⟨-, h2⟩ := am_gm (d := l.length - i) (by omega) (eigAt l) fun j hj =>
    IdealNoise.all_pos h _ (eigAt_mem (by omega))
  rw [likelihood, h2.2, mul_zero]
  intro j hj
  rw [h.noise j (by omega), h.noise 0 (by omega)]

theorem penalty_mono {m i j : ℕ} (hij : i ≤ j) (hj : j ≤ m) :
    (i : ℝ) * (2 * m - i) ≤ (j : ℝ) * (2 * m - j) := by
  have h1 : (i : ℝ) ≤ j := by exact_mod_cast hij
  have h2 : (j : ℝ) ≤ m := by exact_mod_cast hj
  nlinarith

/-- **C50 (no overestimation)**. If the `m - k` smallest eigenvalues are equal, `aic` and `mdl` never
report more than `k` sources, whatever the number of snapshots (`mdl` needs at least one). -/
theorem C50_no_overestimate (f : EigvalshFn) {l : List ℝ} {k : ℕ} {σ : ℝ} (h : IdealNoise l k σ) (N : ℕ) :
    (∃ r ≤ k, aic f (.vec l) N = .ok r) ∧ (1 ≤ N → ∃ r ≤ k, mdl f (.vec l) N = .ok r) := by
  have hl := IdealNoise.all_pos h
  have hne : l ≠ [] := by
    have := h.lt; intro h0; subst h0; simp at this
  obtain ⟨ha, hm, -⟩ := C50_minimiser f N hl
  obtain ⟨r, hr, h1, -, h3⟩ := ha hne
  have hlog : 0 ≤ Real.log (N : ℝ) := Real.log_natCast_nonneg N
  refine ⟨⟨r, ?_, h1⟩, fun hN => ?_⟩
  · by_contra hc
    push Not at hc
    have h4 := h3 k hc
    have h5 := penalty_mono (m := l.length) hc.le hr.le
    simp only [aicCriterion, IdealNoise.likelihood_zero h N le_rfl h.lt,
      IdealNoise.likelihood_zero h N hc.le hr] at h4
    linarith
  · obtain ⟨r', hr', h1', -, h3'⟩ := hm hne hN
    refine ⟨r', ?_, h1'⟩
    by_contra hc
    push Not at hc
    have h4 := h3' k hc
    have h5 := penalty_mono (m := l.length) hc.le hr'.le
    simp only [mdlCriterion, IdealNoise.likelihood_zero h N le_rfl h.lt,
      IdealNoise.likelihood_zero h N hc.le hr'] at h4
    nlinarith

theorem IdealNoise.likelihood_pos {l : List ℝ} {k : ℕ} {σ : ℝ} (h : IdealNoise l k σ)
    (hgap : ∀ j < l.length, l.length - k ≤ j → σ < eigAt l j) {i : ℕ} (hi : i < k) :
    ∃ c : ℝ, 0 < c ∧ ∀ N : ℕ, likelihood l N i = N * c := by
  have hk := h.lt
  obtain ⟨h1, h2⟩ := am_gm (d := l.length - i) (by omega) (eigAt l) fun j hj =>
    IdealNoise.all_pos h _ (eigAt_mem (by omega))
  refine ⟨_, lt_of_le_of_ne h1 fun h0 => ?_, fun N => rfl⟩
  have h3 := h2.1 h0.symm (l.length - k) (by omega)
  have h4 := hgap (l.length - k) (by omega) le_rfl
  rw [h3, h.noise 0 (by omega)] at h4
  exact lt_irrefl _ h4

/-- **C50 (consistency)**. If moreover the `k` largest eigenvalues exceed the noise level, both
criteria return exactly `k` for every sufficiently large number of snapshots. -/
theorem C50_consistent (f : EigvalshFn) {l : List ℝ} {k : ℕ} {σ : ℝ} (h : IdealNoise l k σ)
    (hgap : ∀ j < l.length, l.length - k ≤ j → σ < eigAt l j) :
    ∃ N₀, ∀ N ≥ N₀, aic f (.vec l) N = .ok k ∧ mdl f (.vec l) N = .ok k := by
  have hl := IdealNoise.all_pos h
  have hne : l ≠ [] := by
    have := h.lt; intro h0; subst h0; simp at this
  have hex : ∀ i, ∃ c : ℝ, 0 < c ∧ (i < k → ∀ N : ℕ, likelihood l N i = N * c) := by
    intro i
    by_cases hi : i < k
    · obtain ⟨c, hc, h'⟩ := IdealNoise.likelihood_pos h hgap hi
      exact ⟨c, hc, fun _ => h'⟩
    · exact ⟨1, one_pos, fun h' => absurd h' hi⟩
  choose c hc hlik using hex
  obtain ⟨ε, hε, hεc⟩ : ∃ ε : ℝ, 0 < ε ∧ ∀ i < k, ε ≤ c i := by
    rcases Nat.eq_zero_or_pos k with rfl | hk
    · exact ⟨1, one_pos, by simp⟩
    · obtain ⟨i₀, -, hi₀⟩ := Finset.exists_min_image (range k) c ⟨0, mem_range.2 hk⟩
      exact ⟨c i₀, hc i₀, fun i hi => hi₀ i (mem_range.2 hi)⟩
  set B : ℝ := (k : ℝ) * (2 * l.length - k) with hB
  have hBnn : 0 ≤ B := by
    have := penalty_mono (m := l.length) (Nat.zero_le k) h.lt.le
    simpa using this
  -- eventually `N ε > B` and `N ε > B log N`
  have e1 : ∀ᶠ N : ℕ in Filter.atTop, B < N * ε := by
    have := (tendsto_natCast_atTop_atTop (R := ℝ)).atTop_mul_const hε
    exact this.eventually_gt_atTop B
  have e2 : ∀ᶠ N : ℕ in Filter.atTop, B * Real.log N < N * ε := by
    have ho := (Real.isLittleO_log_id_atTop.comp_tendsto (tendsto_natCast_atTop_atTop (R := ℝ)))
    have hb := ho.bound (c := ε / (B + 1)) (by positivity)
    filter_upwards [hb, Filter.eventually_ge_atTop 1] with N hN hN1
    simp only [Function.comp, Real.norm_eq_abs, id] at hN
    have hN1' : (1 : ℝ) ≤ N := by exact_mod_cast hN1
    rw [abs_of_nonneg (Real.log_natCast_nonneg N), abs_of_nonneg (by linarith)] at hN
    have hB1 : 0 < B + 1 := by linarith
    calc B * Real.log N ≤ B * (ε / (B + 1) * N) := mul_le_mul_of_nonneg_left hN hBnn
      _ = (N * ε) * (B / (B + 1)) := by field_simp
      _ < (N * ε) * 1 := by
        apply mul_lt_mul_of_pos_left _ (by positivity)
        rw [div_lt_one hB1]; linarith
      _ = N * ε := mul_one _
  obtain ⟨N₀, hN₀⟩ := Filter.eventually_atTop.1 (e1.and e2)
  refine ⟨max N₀ 1, fun N hN => ?_⟩
  have hN1 : 1 ≤ N := le_trans (le_max_right _ _) hN
  obtain ⟨b1, b2⟩ := hN₀ N (le_trans (le_max_left _ _) hN)
  obtain ⟨⟨r, hrk, hr⟩, hnm⟩ := C50_no_overestimate f h N
  obtain ⟨r', hrk', hr'⟩ := hnm hN1
  obtain ⟨ha, hm, -⟩ := C50_minimiser f N hl
  obtain ⟨q, hq, hq1, hq2, -⟩ := ha hne
  obtain ⟨q', hq', hq1', hq2', -⟩ := hm hne hN1
  have eq1 : q = r := by rw [hq1] at hr; exact Except.ok.inj hr
  have eq2 : q' = r' := by rw [hq1'] at hr'; exact Except.ok.inj hr'
  subst eq1 eq2
  have hlog : 0 ≤ Real.log (N : ℝ) := Real.log_natCast_nonneg N
  have hNn : (0 : ℝ) ≤ N := Nat.cast_nonneg N
  constructor
  · rcases hrk.lt_or_eq with hlt | heq
    · exfalso
      have h4 := hq2 k h.lt
      rw [aicCriterion, aicCriterion, hlik q hlt N, IdealNoise.likelihood_zero h N le_rfl h.lt] at h4
      have h5 := mul_le_mul_of_nonneg_left (hεc q hlt) hNn
      have h6 := penalty_mono (m := l.length) (Nat.zero_le q) hq.le
      simp only [Nat.cast_zero, zero_mul] at h6
      linarith
    · rw [hq1, heq]
  · rcases hrk'.lt_or_eq with hlt | heq
    · exfalso
      have h4 := hq2' k h.lt
      rw [mdlCriterion, mdlCriterion, hlik q' hlt N, IdealNoise.likelihood_zero h N le_rfl h.lt] at h4
      have h5 := mul_le_mul_of_nonneg_left (hεc q' hlt) hNn
      have h6 := penalty_mono (m := l.length) (Nat.zero_le q') hq'.le
      simp only [Nat.cast_zero, zero_mul] at h6
      have h7 : 0 ≤ ((q' : ℝ) * (2 * l.length - q')) * Real.log N := mul_nonneg h6 hlog
      have h8 : 0 ≤ B * Real.log N := mul_nonneg hBnn hlog
      have h9 : (1 / 2 : ℝ) * (k * (2 * l.length - k) + 1) * Real.log N =
          (1 / 2) * (B * Real.log N) + (1 / 2) * Real.log N := by rw [hB]; ring
      have h10 : (1 / 2 : ℝ) * (q' * (2 * l.length - q') + 1) * Real.log N =
          (1 / 2) * (((q' : ℝ) * (2 * l.length - q')) * Real.log N) + (1 / 2) * Real.log N := by ring
      rw [h9, h10] at h4
      linarith
    · rw [hq1', heq]

/-- An `eigvalsh` meeting its contract. -/
noncomputable def someEigvalsh : EigvalshFn := by
  classical
  exact ⟨fun _ R => if h : R.IsHermitian then (exists_isEigh R h).choose else 0⟩

theorem someEigvalsh_spec : someEigvalsh.Spec := by
  intro m R h
  simp only [someEigvalsh, dif_pos h]
  exact (exists_isEigh R h).choose_spec

theorem eigAt_ofFn {m : ℕ} (w : Fin m → ℝ) {j : ℕ} (hj : j < m) : eigAt (List.ofFn w) j = w ⟨j, hj⟩ := by
  rw [eigAt, List.getD_eq_getElem?_getD, List.getElem?_eq_getElem (by simpa using hj)]
  simp

theorem covModel_ideal {f : EigvalshFn} (hf : f.Spec) {m k : ℕ} {A : Matrix (Fin m) (Fin k) ℂ}
    (hA : Function.Injective A.mulVec) {P : Matrix (Fin k) (Fin k) ℂ} (hP : P.PosDef) {σ : ℝ} (hσ : 0 < σ)
    (hk : k < m) : IdealNoise (List.ofFn (f.run m (covModel A P σ))) k σ ∧
      ∀ j < (List.ofFn (f.run m (covModel A P σ))).length,
        (List.ofFn (f.run m (covModel A P σ))).length - k ≤ j →
        σ < eigAt (List.ofFn (f.run m (covModel A P σ))) j := by
  obtain ⟨E, hE⟩ := hf m _ (covModel_isHermitian A hP.isHermitian σ)
  have hgap : ∀ j < (List.ofFn (f.run m (covModel A P σ))).length,
        (List.ofFn (f.run m (covModel A P σ))).length - k ≤ j →
        σ < eigAt (List.ofFn (f.run m (covModel A P σ))) j := by
    intro j hj h1
    rw [List.length_ofFn] at hj h1
    rw [eigAt_ofFn _ hj]
    exact (hE.split hA hP ⟨j, hj⟩).2 h1
  refine ⟨⟨by rw [List.length_ofFn]; exact hk, hσ, ?_, fun j hj h1 => (hgap j hj h1).le⟩, hgap⟩
  intro j hj
  rw [List.length_ofFn] at hj
  rw [eigAt_ofFn _ (by omega : j < m)]
  exact (hE.noise hA hP ⟨j, by omega⟩ hj).1

/-- **C50 (end to end)**. On the covariance matrix of `k < m` sources with linearly independent
steering vectors and positive definite source covariance in white noise of power `σ > 0`, `aic` and
`mdl` never report more than `k` sources and report exactly `k` for all sufficiently many snapshots. -/
theorem C50_covariance {f : EigvalshFn} (hf : f.Spec) {m k : ℕ} {A : Matrix (Fin m) (Fin k) ℂ}
    (hA : Function.Injective A.mulVec) {P : Matrix (Fin k) (Fin k) ℂ} (hP : P.PosDef) {σ : ℝ} (hσ : 0 < σ)
    (hk : k < m) :
    (∀ N, (∃ r ≤ k, aic f (.mat m (covModel A P σ)) N = .ok r) ∧
      (1 ≤ N → ∃ r ≤ k, mdl f (.mat m (covModel A P σ)) N = .ok r)) ∧
    ∃ N₀, ∀ N ≥ N₀, aic f (.mat m (covModel A P σ)) N = .ok k ∧ mdl f (.mat m (covModel A P σ)) N = .ok k := by
  obtain ⟨h1, h2⟩ := covModel_ideal hf hA hP hσ hk
  exact ⟨fun N => C50_no_overestimate f h1 N, C50_consistent f h1 h2⟩

/-- Non-vacuity: two sources at a three-element ULA. -/
example : ∃ N₀, ∀ N ≥ N₀, aic someEigvalsh (.mat 3 (covModel (ulaMat 3 ![1, Complex.I]) 1 1)) N = .ok 2 :=
  let ⟨N₀, h⟩ := (C50_covariance (P := (1 : Matrix (Fin 2) (Fin 2) ℂ)) (σ := 1) someEigvalsh_spec
    (ulaMat_injective (m := 3) (z := ![1, Complex.I]) (by
    intro i j hij
    fin_cases i <;> fin_cases j <;> simp_all [Complex.ext_iff]) (by norm_num)) PosDef.one one_pos
    (by norm_num : 2 < 3)).2
  ⟨N₀, fun N hN => (h N hN).1⟩

/-- Non-vacuity: the eigenvalues `1, 1, 3` are ideal for one source. -/
example : IdealNoise [1, 1, 3] 1 1 ∧ ∀ j < 3, 3 - 1 ≤ j → (1 : ℝ) < eigAt [1, 1, 3] j := by
  have h2 : ∀ j < 3, 3 - 1 ≤ j → (1 : ℝ) < eigAt [1, 1, 3] j := by
    intro j hj h1
    obtain rfl : j = 2 := by omega
    norm_num [eigAt]
  refine ⟨⟨by norm_num, by norm_num, ?_, fun j hj h1 => (h2 j hj h1).le⟩, h2⟩
  intro j hj
  have : j < 2 := hj
  interval_cases j <;> norm_num [eigAt]

/-! ### C51 -/

/-- The gaps of the descending eigenvalues: `gap j = λ_(j) - λ_(j+1)` with `λ_(0)` the largest. -/
noncomputable def gapAt (l : List ℝ) (j : ℕ) : ℝ := eigAt l (l.length - 1 - j) - eigAt l (l.length - 2 - j)

/-- Mean of the gaps from the `j`-th on. -/
noncomputable def gapMean (l : List ℝ) (j : ℕ) : ℝ :=
  (∑ i ∈ Ico j (l.length - 1), gapAt l i) / ((l.length - 1 - j : ℕ) : ℝ)

/-- Variance of the gaps from the `j`-th on (He et al. 2010, eq. for `σ_k²`). -/
noncomputable def gapVar (l : List ℝ) (j : ℕ) : ℝ :=
  (∑ i ∈ Ico j (l.length - 1), (gapAt l i - gapMean l j) ^ 2) / ((l.length - 1 - j : ℕ) : ℝ)

/-- The SORTE ratio with the code's threshold: infinite when the variance is below machine epsilon. -/
noncomputable def sorteRatio (l : List ℝ) (j : ℕ) : WithTop ℝ :=
  if gapVar l j < 1 / 2 ^ 52 then ⊤ else ((gapVar l (j + 1) / gapVar l j : ℝ) : WithTop ℝ)

theorem range_map_sum (g : ℕ → ℝ) : ∀ n, ((List.range n).map g).sum = ∑ i ∈ range n, g i := by
  intro n
  induction n with
  | zero => simp
  | succ n ih => rw [List.range_succ, List.map_append, List.sum_append, ih, Finset.sum_range_succ]; simp

theorem drop_map_sum (g h : ℕ → ℝ) (hh : ℝ → ℝ) (n k : ℕ) (hk : k ≤ n) (he : ∀ i, h i = hh (g i)) :
    ((((List.range n).map g).drop k).map hh).sum = ∑ i ∈ Ico k n, h i := by
  have e : (((List.range n).map g).drop k).map hh = (List.range (n - k)).map fun i => h (k + i) := by
    apply List.ext_getElem
    · simp
    · intro i h1 h2
      simp [he]
  rw [e, range_map_sum, Finset.sum_Ico_eq_sum_range]

theorem sorte_diffs (l : List ℝ) :
    List.zipWith (fun a b => a - b) (l.reverse.take (l.reverse.length - 1)) (l.reverse.drop 1) =
    (List.range (l.length - 1)).map (gapAt l) := by
  apply List.ext_getElem
  · simp
  · intro i h1 h2
    simp only [List.length_map, List.length_range] at h2
    have e1 : l.length - 1 - (1 + i) = l.length - 2 - i := by omega
    rw [List.getElem_zipWith, List.getElem_take, List.getElem_drop, List.getElem_reverse, List.getElem_reverse,
      List.getElem_map, List.getElem_range, gapAt, eigAt, eigAt, List.getD_eq_getElem?_getD,
      List.getD_eq_getElem?_getD, List.getElem?_eq_getElem (by omega), List.getElem?_eq_getElem (by omega)]
    simp only [Option.getD_some, e1]

theorem npVar_gap (l : List ℝ) {k : ℕ} (hk : k < l.length - 1) :
    npVar (((List.range (l.length - 1)).map (gapAt l)).drop k) = gapVar l k := by
  have hlen : (((List.range (l.length - 1)).map (gapAt l)).drop k).length = l.length - 1 - k := by simp
  have h1 := drop_map_sum (gapAt l) (gapAt l) id (l.length - 1) k hk.le fun _ => rfl
  rw [List.map_id] at h1
  have h2 := drop_map_sum (gapAt l) (fun i => (gapAt l i - gapMean l k) ^ 2) (fun x => (x - gapMean l k) ^ 2)
    (l.length - 1) k hk.le fun _ => rfl
  rw [gapVar, ← h2, npVar, hlen, h1]
  rfl

theorem gapVar_nonneg (l : List ℝ) (k : ℕ) : 0 ≤ gapVar l k :=
  div_nonneg (Finset.sum_nonneg fun _ _ => sq_nonneg _) (Nat.cast_nonneg _)

theorem sorteVec_eq {l : List ℝ} (h4 : 4 ≤ l.length) : ∃ r < l.length - 3, sorteVec l = .ok (r + 1) ∧
    (∀ i < l.length - 3, sorteRatio l r ≤ sorteRatio l i) ∧ ∀ i < r, sorteRatio l r < sorteRatio l i := by
  have hsig : ∀ k < l.length - 1,
      ((List.range (l.length - 1)).map fun k => npVar (((List.range (l.length - 1)).map (gapAt l)).drop k)).getD k 0 =
      gapVar l k := by
    intro k hk
    rw [List.getD_eq_getElem?_getD, List.getElem?_eq_getElem (by simpa using hk)]
    simp only [List.getElem_map, List.getElem_range, Option.getD_some]
    exact npVar_gap l hk
  have hs : ((List.range (l.length - 2)).map fun k =>
      if |((List.range (l.length - 1)).map fun k => npVar (((List.range (l.length - 1)).map (gapAt l)).drop k)).getD k 0| <
        floatEps then (⊤ : WithTop ℝ)
      else ((((List.range (l.length - 1)).map fun k =>
          npVar (((List.range (l.length - 1)).map (gapAt l)).drop k)).getD (k + 1) 0 /
        ((List.range (l.length - 1)).map fun k =>
          npVar (((List.range (l.length - 1)).map (gapAt l)).drop k)).getD k 0 : ℝ) : WithTop ℝ)) =
      (List.range (l.length - 2)).map (sorteRatio l) := by
    apply List.map_congr_left
    intro k hk
    rw [List.mem_range] at hk
    rw [hsig k (by omega), hsig (k + 1) (by omega), abs_of_nonneg (gapVar_nonneg l k)]
    rfl
  have htake : ((List.range (l.length - 2)).map (sorteRatio l)).take
      (((List.range (l.length - 2)).map (sorteRatio l)).length - 1) =
      (List.range (l.length - 3)).map (sorteRatio l) := by
    rw [List.length_map, List.length_range, ← List.map_take, List.take_range]
    congr 2
    omega
  obtain ⟨r, hr, h1, h2, h3⟩ := argminIdx_range (sorteRatio l) (n := l.length - 3) (by omega)
  refine ⟨r, hr, ?_, h2, h3⟩
  have hd := sorte_diffs l
  unfold sorteVec
  rw [if_neg (by rw [List.length_reverse]; omega)]
  simp only [hd]
  simp only [List.length_reverse]
  rw [hs, htake, h1]

/-- **C51 (result)**. `sorte` raises `ValueError` iff there are fewer than four eigenvalues; otherwise it
returns a number in `1..m-3`, one plus the first minimiser of the SORTE ratio. -/
theorem C51_result (f : EigvalshFn) (l : List ℝ) :
    (sorte f (.vec l) = .error .valueError ↔ l.length < 4) ∧
    (4 ≤ l.length → ∃ r, 1 ≤ r ∧ r ≤ l.length - 3 ∧ sorte f (.vec l) = .ok r ∧
      (∀ i < l.length - 3, sorteRatio l (r - 1) ≤ sorteRatio l i) ∧
      ∀ i < r - 1, sorteRatio l (r - 1) < sorteRatio l i) := by
  constructor
  · constructor
    · intro h
      by_contra hc
      obtain ⟨r, -, h1, -⟩ := sorteVec_eq (not_lt.1 hc)
      rw [sorte, h1] at h
      exact absurd h (by simp)
    · intro h
      simp only [sorte, sorteVec, List.length_reverse, if_pos h]
  · intro h4
    obtain ⟨r, hr, h1, h2, h3⟩ := sorteVec_eq h4
    exact ⟨r + 1, by omega, by omega, h1, h2, h3⟩

/-- The variance of `(δ, 0, ..., 0)` (`q` entries) is `δ² (q-1) / q²`; it is the gap variance at the
signal/noise boundary of an ideal eigenvalue list. -/
theorem gapVar_boundary {l : List ℝ} {k : ℕ} {σ : ℝ} (hk1 : 1 ≤ k) (hk : k < l.length)
    (hnoise : ∀ j < l.length - k, eigAt l j = σ) :
    gapVar l (k - 1) = (eigAt l (l.length - k) - σ) ^ 2 * ((l.length - k : ℕ) - 1) / (l.length - k : ℕ) ^ 2 ∧
    ∀ j ≥ k, gapVar l j = 0 := by
  have hz : ∀ j ≥ k, j < l.length - 1 → gapAt l j = 0 := by
    intro j hj hj'
    rw [gapAt, hnoise _ (by omega), hnoise _ (by omega), sub_self]
  have hb : gapAt l (k - 1) = eigAt l (l.length - k) - σ := by
    rw [gapAt, hnoise (l.length - 2 - (k - 1)) (by omega)]
    congr 2
    omega
  constructor
  · set q : ℕ := l.length - k with hq
    have hqpos : (0 : ℝ) < q := by exact_mod_cast (by omega : 0 < q)
    have hd : l.length - 1 - (k - 1) = q := by omega
    have hsplit : ∀ g : ℕ → ℝ, ∑ i ∈ Ico (k - 1) (l.length - 1), g i =
        g (k - 1) + ∑ i ∈ Ico k (l.length - 1), g i := by
      intro g
      rw [Finset.sum_eq_sum_Ico_succ_bot (by omega)]
      congr 2
      congr 1
      omega
    have hmean : gapMean l (k - 1) = (eigAt l q - σ) / q := by
      rw [gapMean, hsplit, hd, hb, Finset.sum_eq_zero, add_zero]
      intro i hi
      rw [mem_Ico] at hi
      exact hz i hi.1 hi.2
    rw [gapVar, hsplit, hd, hb, hmean, Finset.sum_congr rfl (g := fun _ => ((eigAt l q - σ) / q) ^ 2)
      (fun i hi => by
        rw [mem_Ico] at hi
        rw [hz i hi.1 hi.2]
        ring)]
    rw [Finset.sum_const, Nat.card_Ico, nsmul_eq_mul]
    have : ((l.length - 1 - k : ℕ) : ℝ) = q - 1 := by
      have h1 : l.length - 1 - k = q - 1 := by omega
      rw [h1, Nat.cast_sub (by omega)]
      simp
    rw [this]
    field_simp
    ring
  · intro j hj
    have hmean : gapMean l j = 0 := by
      rw [gapMean, Finset.sum_eq_zero, zero_div]
      intro i hi
      rw [mem_Ico] at hi
      exact hz i (by omega) hi.2
    rw [gapVar, Finset.sum_eq_zero, zero_div]
    intro i hi
    rw [mem_Ico] at hi
    rw [hz i (by omega) hi.2, hmean]
    ring

theorem gapVar_pos {l : List ℝ} {j a b : ℕ} (ha : j ≤ a) (ha' : a < l.length - 1) (hb : j ≤ b)
    (hb' : b < l.length - 1) (hne : gapAt l a ≠ gapAt l b) : 0 < gapVar l j := by
  refine lt_of_le_of_ne (gapVar_nonneg l j) fun h0 => hne ?_
  rw [gapVar, eq_comm, div_eq_zero_iff] at h0
  rcases h0 with h0 | h0
  · rw [Finset.sum_eq_zero_iff_of_nonneg fun _ _ => sq_nonneg _] at h0
    have h1 := h0 a (mem_Ico.2 ⟨ha, ha'⟩)
    have h2 := h0 b (mem_Ico.2 ⟨hb, hb'⟩)
    rw [sq_eq_zero_iff] at h1 h2
    linarith
  · exfalso
    have : l.length - 1 - j = 0 := by exact_mod_cast h0
    omega

/-- **C51 (ideal eigenvalues)**. If the `m - k` smallest eigenvalues equal `σ`, `1 ≤ k ≤ m - 3`, the
next one exceeds `σ` and the gap is resolved, i.e. the variance `δ² (q-1)/q²` of the gap sequence
`(δ, 0, ..., 0)` of length `q = m - k` is at least machine epsilon, then `sorte` returns `k`. No
assumption is made on the other signal eigenvalues. -/
theorem C51_ideal (f : EigvalshFn) {l : List ℝ} {k : ℕ} {σ : ℝ} (hk1 : 1 ≤ k) (hk : k + 3 ≤ l.length)
    (hnoise : ∀ j < l.length - k, eigAt l j = σ) (hgap : σ < eigAt l (l.length - k))
    (hres : 1 / 2 ^ 52 ≤ (eigAt l (l.length - k) - σ) ^ 2 * ((l.length - k : ℕ) - 1) / (l.length - k : ℕ) ^ 2) :
    sorte f (.vec l) = .ok k := by
  obtain ⟨r, hr, h1, h2, h3⟩ := sorteVec_eq (l := l) (by omega)
  obtain ⟨hb, hz⟩ := gapVar_boundary hk1 (by omega) hnoise
  rw [← hb] at hres
  have hk0 : sorteRatio l (k - 1) = ((0 : ℝ) : WithTop ℝ) := by
    rw [sorteRatio, if_neg (not_lt.2 hres), show k - 1 + 1 = k by omega, hz k le_rfl, zero_div]
  have hlo : ∀ j < k - 1, ((0 : ℝ) : WithTop ℝ) < sorteRatio l j := by
    intro j hj
    rw [sorteRatio]
    split
    · exact WithTop.coe_lt_top _
    · rename_i hc
      rw [WithTop.coe_lt_coe]
      refine div_pos ?_ (lt_of_lt_of_le (by positivity) (not_lt.1 hc))
      refine gapVar_pos (a := k - 1) (b := k) (by omega) (by omega) (by omega) (by omega) ?_
      rw [gapAt, gapAt, hnoise (l.length - 2 - (k - 1)) (by omega), hnoise (l.length - 1 - k) (by omega),
        hnoise (l.length - 2 - k) (by omega), show l.length - 1 - (k - 1) = l.length - k by omega]
      linarith
  have hhi : ∀ j ≥ k, sorteRatio l j = ⊤ := by
    intro j hj
    rw [sorteRatio, hz j hj, if_pos (by positivity)]
  have : r = k - 1 := by
    rcases lt_trichotomy r (k - 1) with hlt | heq | hgt
    · have h4 := h2 (k - 1) (by omega)
      rw [hk0] at h4
      exact absurd (hlo r hlt) (not_lt.2 h4)
    · exact heq
    · have h4 := h3 (k - 1) hgt
      rw [hk0, hhi r (by omega)] at h4
      exact absurd h4 (by simp)
  rw [sorte, h1, this, show k - 1 + 1 = k by omega]

/-- **C51 (end to end)** on the covariance matrix of `k` sources, `1 ≤ k ≤ m - 3`. -/
theorem C51_covariance {f : EigvalshFn} (hf : f.Spec) {m k : ℕ} {A : Matrix (Fin m) (Fin k) ℂ}
    (hA : Function.Injective A.mulVec) {P : Matrix (Fin k) (Fin k) ℂ} (hP : P.PosDef) {σ : ℝ}
    (hk1 : 1 ≤ k) (hk : k + 3 ≤ m)
    (hres : 1 / 2 ^ 52 ≤ (f.run m (covModel A P σ) ⟨m - k, by omega⟩ - σ) ^ 2 * ((m - k : ℕ) - 1) / (m - k : ℕ) ^ 2) :
    sorte f (.mat m (covModel A P σ)) = .ok k := by
  obtain ⟨E, hE⟩ := hf m _ (covModel_isHermitian A hP.isHermitian σ)
  have hlen : (List.ofFn (f.run m (covModel A P σ))).length = m := List.length_ofFn
  refine C51_ideal f hk1 (by rw [hlen]; exact hk) (σ := σ) ?_ ?_ ?_
  · intro j hj
    rw [hlen] at hj
    rw [eigAt_ofFn _ (by omega : j < m)]
    exact (hE.noise hA hP ⟨j, by omega⟩ hj).1
  · rw [hlen, eigAt_ofFn _ (by omega : m - k < m)]
    exact (hE.split hA hP ⟨m - k, by omega⟩).2 le_rfl
  · rw [hlen, eigAt_ofFn _ (by omega : m - k < m)]
    exact hres

/-- Non-vacuity and the limits of C51: for `c (1, 1, 1, 2, 3)` SORTE finds the two sources when
`c = 1`, but the absolute threshold makes the answer depend on the scale: for `c = 2^-30` it is `1`. -/
theorem C51_scale_dependent (f : EigvalshFn) :
    sorte f (.vec [1, 1, 1, 2, 3]) = .ok 2 ∧
    sorte f (.vec ([1, 1, 1, 2, 3].map fun x => x * (1 / 2 ^ 30))) = .ok 1 := by
  constructor
  · refine C51_ideal f (σ := 1) (by norm_num) (by norm_num) ?_ ?_ ?_
    · intro j hj
      have : j < 3 := hj
      interval_cases j <;> norm_num [eigAt]
    · norm_num [eigAt]
    · norm_num [eigAt]
  · obtain ⟨r, hr, h1, h2, h3⟩ := sorteVec_eq (l := [1, 1, 1, 2, 3].map fun x : ℝ => x * (1 / 2 ^ 30)) (by norm_num)
    have h0 : sorteRatio ([1, 1, 1, 2, 3].map fun x : ℝ => x * (1 / 2 ^ 30)) 0 = ⊤ := by
      rw [sorteRatio, if_pos]
      norm_num [gapVar, gapMean, gapAt, eigAt, Finset.sum_Ico_succ_top, Finset.sum_range_succ]
    have h1' : sorteRatio ([1, 1, 1, 2, 3].map fun x : ℝ => x * (1 / 2 ^ 30)) 1 = ⊤ := by
      rw [sorteRatio, if_pos]
      norm_num [gapVar, gapMean, gapAt, eigAt, Finset.sum_Ico_succ_top, Finset.sum_range_succ]
    have : r = 0 := by
      have hr2 : r < 2 := by simpa using hr
      by_contra hne
      obtain rfl : r = 1 := by omega
      have := h3 0 (by norm_num)
      rw [h0, h1'] at this
      exact lt_irrefl _ this
    rw [sorte, h1, this]

end Doa.Props
