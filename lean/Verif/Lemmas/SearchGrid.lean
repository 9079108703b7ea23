import Verif.Model.Grid
import Verif.Lemmas.MathUtils
import Verif.Lemmas.Sources
import Verif.Lemmas.Grid

/-!
# Lemmas about search grids
-/

namespace Doa

open Doa.Spec

theorem length_linspaceOpen (a b : ℝ) (n : ℕ) : (linspaceOpen a b n).length = n := by
  simp [linspaceOpen]

theorem getElem?_linspaceOpen (a b : ℝ) (n i : ℕ) (hi : i < n) :
    (linspaceOpen a b n)[i]? = some (a + i * ((b - a) / n)) := by
  simp [linspaceOpen, hi]

theorem getElem_linspaceOpen (a b : ℝ) (n i : ℕ) (hi : i < (linspaceOpen a b n).length) :
    (linspaceOpen a b n)[i] = a + i * ((b - a) / n) := by
  simp [linspaceOpen]

theorem linspaceOpen_mem_Ico {a b : ℝ} (hab : a < b) {n i : ℕ} (hi : i < n) :
    a ≤ a + i * ((b - a) / n) ∧ a + i * ((b - a) / n) < b := by
  have hn : (0 : ℝ) < n := by exact_mod_cast Nat.zero_lt_of_lt hi
  have hi' : (i : ℝ) < n := by exact_mod_cast hi
  have hd : 0 < b - a := by linarith
  constructor
  · have : 0 ≤ (i : ℝ) * ((b - a) / n) := by positivity
    linarith
  · have : (i : ℝ) * ((b - a) / n) < b - a := by
      rw [mul_div_assoc', div_lt_iff₀ hn]; nlinarith
    linarith

theorem length_linspace (a b : ℝ) (n : ℕ) : (linspace a b n).length = n := by
  simp [linspace]

theorem getElem?_linspace (a b : ℝ) (n i : ℕ) (hi : i < n) :
    (linspace a b n)[i]? = some (a + i * ((b - a) / ((n - 1 : ℕ) : ℝ))) := by
  simp [linspace, hi]

/-- The rows of a 2-D grid as pairs. -/
theorem pairRows_cartesian (a b : List ℝ) : ∃ rows, cartesian [a, b] = .ok rows ∧
    (pairRows rows).length = a.length * b.length ∧
    ∀ i j (hi : i < a.length) (hj : j < b.length),
      (pairRows rows)[i * b.length + j]? = some (a[i], b[j]) := by
  refine ⟨_, rfl, by simp [pairRows], fun i j hi hj => ?_⟩
  have hc : ValidCoord ([a, b].map List.length) [i, j] := .cons hi (.cons hj .nil)
  have h := cartesian_row (axes := [a, b]) rfl hc
  have hr : ravelIdx ([a, b].map List.length) [i, j] = i * b.length + j := by
    simp [ravelIdx]
  rw [hr] at h
  rw [pairRows, List.getElem?_map]
  refine (congrArg _ h).trans ?_
  simp [List.getD_eq_getElem?_getD, List.getElem?_eq_getElem hi, List.getElem?_eq_getElem hj]

/-- Placement of a 1-D grid. -/
theorem createPlacement_ff1 {x : List ℝ} {names : List String} {u : String} (hu : Unit1D u)
    (hx : ∀ v ∈ x, InRange1D u v) :
    (SearchGrid.mk .ff1 [⟨x, false⟩] names [u]).createPlacement =
      .ok ⟨x.length, .ff1 ⟨x.get, u⟩⟩ := by
  have := FF1D.init_ok (k := x.length) hu x.get (fun i => hx _ (List.get_mem _ _))
  simp only [SearchGrid.createPlacement, List.getElem?_cons_zero, Bool.false_eq_true, if_false]
  rw [this]

/-- Placement of a 2-D far-field grid. -/
theorem createPlacement_ff2 {a b : List ℝ} {names : List String} {u : String} (hu : Unit2D u)
    (hx : ∀ v ∈ a, ∀ w ∈ b, InRange2D u (v, w)) :
    ∃ (k : ℕ) (s : FF2D k),
      (SearchGrid.mk .ff2 [⟨a, false⟩, ⟨b, false⟩] names [u, u]).createPlacement = .ok ⟨k, .ff2 s⟩ ∧
      s.unit = u ∧ k = a.length * b.length ∧
      ∀ i j (hi : i < a.length) (hj : j < b.length) (r : Fin k), r.1 = i * b.length + j →
        s.loc r = (a[i], b[j]) := by
  obtain ⟨rows, h1, h2, h3⟩ := pairRows_cartesian a b
  have hall : ∀ r : Fin (pairRows rows).length, InRange2D u ((pairRows rows).get r) := by
    intro r
    have hr : r.1 < a.length * b.length := h2 ▸ r.2
    have hb : 0 < b.length := by
      rcases Nat.eq_zero_or_pos b.length with h0 | h0
      · rw [h0] at hr; omega
      · exact h0
    have hi : r.1 / b.length < a.length := Nat.div_lt_of_lt_mul (by rwa [mul_comm] at hr)
    have hj : r.1 % b.length < b.length := Nat.mod_lt _ hb
    have := h3 _ _ hi hj
    have e : r.1 / b.length * b.length + r.1 % b.length = r.1 := by
      rw [mul_comm]; exact Nat.div_add_mod _ _
    rw [e, List.getElem?_eq_getElem r.2, Option.some.injEq] at this
    rw [List.get_eq_getElem, this]
    exact hx _ (List.getElem_mem hi) _ (List.getElem_mem hj)
  have hok := FF2D.init_ok (k := (pairRows rows).length) hu (pairRows rows).get hall
  refine ⟨_, ⟨(pairRows rows).get, u⟩, ?_, rfl, h2, ?_⟩
  · simp only [SearchGrid.createPlacement, List.map_cons, List.map_nil, h1,
      List.getElem?_cons_zero, List.length_cons, List.length_nil, if_true]
    rw [hok]
  · intro i j hi hj r hr
    have := h3 i j hi hj
    rw [← hr, List.getElem?_eq_getElem r.2, Option.some.injEq] at this
    exact this

/-- One refined axis. -/
theorem refineAxis_spec (ax : Axis) (c : ℕ) (hc : c < ax.data.length) (density span : ℕ) :
    ∃ lb ub ax', lb = c - span ∧ ub = min (ax.data.length - 1) (c + span) ∧ lb ≤ c ∧ c ≤ ub ∧
      ub < ax.data.length ∧
      refineAxis ax c density span = .ok ax' ∧ ax'.column = ax.column ∧
      ax'.data = linspace (ax.data.getD lb 0) (ax.data.getD ub 0) ((ub - lb) * density + 1) := by
  have hub : min (ax.data.length - 1) (c + span) < ax.data.length := by omega
  refine ⟨c - span, min (ax.data.length - 1) (c + span),
    ⟨linspace (ax.data.getD (c - span) 0) (ax.data.getD (min (ax.data.length - 1) (c + span)) 0)
      ((min (ax.data.length - 1) (c + span) - (c - span)) * density + 1), ax.column⟩,
    rfl, rfl, by omega, by omega, hub, ?_, rfl, rfl⟩
  have e1 : (max 0 ((c : ℤ) - span)).toNat = c - span := by omega
  have e2 : (min ((ax.data.length : ℤ) - 1) ((c : ℤ) + span)).toNat =
      min (ax.data.length - 1) (c + span) := by omega
  have e3 : 0 ≤ min ((ax.data.length : ℤ) - 1) ((c : ℤ) + span) := by omega
  have e4 : (min ((ax.data.length : ℤ) - 1) ((c : ℤ) + span) - max 0 ((c : ℤ) - span)) * density + 1 =
      (((min (ax.data.length - 1) (c + span) - (c - span)) * density + 1 : ℕ) : ℤ) := by
    have : min ((ax.data.length : ℤ) - 1) ((c : ℤ) + span) - max 0 ((c : ℤ) - span) =
      ((min (ax.data.length - 1) (c + span) - (c - span) : ℕ) : ℤ) := by omega
    rw [this]; push_cast; ring
  have g1 : ax.data[c - span]? = some (ax.data.getD (c - span) 0) := by
    rw [List.getD_eq_getElem?_getD, List.getElem?_eq_getElem (by omega)]; rfl
  have g2 : ax.data[min (ax.data.length - 1) (c + span)]? =
      some (ax.data.getD (min (ax.data.length - 1) (c + span)) 0) := by
    rw [List.getD_eq_getElem?_getD, List.getElem?_eq_getElem hub]; rfl
  unfold refineAxis
  simp only [e1, e2, if_pos e3, g1, g2, e4, Int.toNat_natCast]
  rw [if_neg (by omega)]

theorem refineAxes_spec : ∀ (axs : List Axis) (cs : List ℕ) (density span : ℕ),
    List.Forall₂ (fun (a : Axis) c => c < a.data.length) axs cs →
    ∃ l, refineAxes axs cs density span = .ok l ∧ l.length = axs.length ∧
      ∀ (j c : ℕ) (ax : Axis), axs[j]? = some ax → cs[j]? = some c →
        ∃ ax', l[j]? = some ax' ∧ refineAxis ax c density span = .ok ax' := by
  intro axs cs density span h
  induction h with
  | nil => exact ⟨[], rfl, rfl, by simp⟩
  | @cons a c axs cs hac h ih =>
    obtain ⟨lb, ub, ax', _, _, _, _, _, hax, _⟩ := refineAxis_spec a c hac density span
    obtain ⟨l, h1, h2, h3⟩ := ih
    refine ⟨ax' :: l, by simp [refineAxes, hax, h1], by simp [h2], ?_⟩
    intro j c' ax hj hc
    cases j with
    | zero =>
      simp only [List.getElem?_cons_zero, Option.some.injEq] at hj hc
      subst hj hc
      exact ⟨ax', rfl, hax⟩
    | succ j =>
      simp only [List.getElem?_cons_succ] at hj hc ⊢
      exact h3 j c' ax hj hc

theorem length_zipCoords_getElem {coords : List (List ℕ)} {n : ℕ} (hne : coords ≠ [])
    (h : ∀ c ∈ coords, c.length = n) :
    (zipCoords coords).length = n ∧
    ∀ i < n, ∃ t, (zipCoords coords)[i]? = some t ∧ t.length = coords.length ∧
      ∀ (j : ℕ) (c : List ℕ), coords[j]? = some c → t[j]? = c[i]? := by
  induction coords with
  | nil => exact absurd rfl hne
  | cons a t ih =>
    cases t with
    | nil =>
      have ha := h a (by simp)
      refine ⟨by simp [zipCoords, ha], fun i hi => ⟨[a[i]'(ha ▸ hi)], ?_, rfl, ?_⟩⟩
      · simp [zipCoords, List.getElem?_eq_getElem (ha ▸ hi : i < a.length)]
      · intro j c hj
        cases j with
        | zero =>
          simp only [List.getElem?_cons_zero, Option.some.injEq] at hj
          subst hj
          simp [List.getElem?_eq_getElem (ha ▸ hi : i < a.length)]
        | succ j => simp at hj
    | cons b t =>
      have ha := h a (by simp)
      obtain ⟨h1, h2⟩ := ih (by simp) (fun c hc => h c (List.mem_cons_of_mem _ hc))
      have e : zipCoords (a :: b :: t) = List.zipWith (· :: ·) a (zipCoords (b :: t)) := rfl
      refine ⟨by rw [e, List.length_zipWith, h1, ha, min_self], fun i hi => ?_⟩
      obtain ⟨s, hs, hsl, hsj⟩ := h2 i hi
      have hai : a[i]? = some (a[i]'(ha ▸ hi)) := List.getElem?_eq_getElem _
      refine ⟨a[i]'(ha ▸ hi) :: s, ?_, by simp [hsl], ?_⟩
      · rw [e, List.getElem?_zipWith, hai, hs]
      · intro j c hj
        cases j with
        | zero =>
          simp only [List.getElem?_cons_zero, Option.some.injEq] at hj
          subst hj
          simp [hai]
        | succ j =>
          simp only [List.getElem?_cons_succ] at hj ⊢
          exact hsj j c hj

theorem mapM_ok_spec {α β : Type _} (f : α → Res β) : ∀ (l : List α),
    (∀ a ∈ l, ∃ b, f a = .ok b) →
    ∃ r, l.mapM f = .ok r ∧ r.length = l.length ∧
      ∀ (i : ℕ) (a : α), l[i]? = some a → ∃ b, f a = .ok b ∧ r[i]? = some b
  | [], _ => ⟨[], rfl, rfl, by simp⟩
  | a :: l, h => by
    obtain ⟨b, hb⟩ := h a (by simp)
    obtain ⟨r, h1, h2, h3⟩ := mapM_ok_spec f l (fun x hx => h x (List.mem_cons_of_mem _ hx))
    refine ⟨b :: r, ?_, by simp [h2], ?_⟩
    · rw [List.mapM_cons, hb, h1]; rfl
    · intro i x hx
      cases i with
      | zero =>
        simp only [List.getElem?_cons_zero, Option.some.injEq] at hx
        exact ⟨b, hx ▸ hb, rfl⟩
      | succ i => exact h3 i x (by simpa using hx)

end Doa
