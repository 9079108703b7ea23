import Verif.Model.RootMusic

namespace Doa.Props
open Doa

/-- The scan over a list of candidates in increasing order keeps the first of the closest. -/
theorem closest_scan {n : ℕ} (z : Fin n → ℂ) (mask : Fin n → Bool) (i : Fin n) (l : List (Fin n)) (hl : l.Pairwise (· < ·)) :
    let r := l.foldl (fun acc j =>
      if j ≠ i ∧ mask j = true then
        match acc with
        | none => some j
        | some j' => if ‖z i - z j‖ < ‖z i - z j'‖ then some j else some j'
      else acc) none
    (r = none → ∀ j ∈ l, j = i ∨ mask j = false) ∧
    ∀ j, r = some j → j ∈ l ∧ j ≠ i ∧ mask j = true ∧ ∀ j' ∈ l, j' ≠ i → mask j' = true →
      ‖z i - z j‖ ≤ ‖z i - z j'‖ ∧ (j' < j → ‖z i - z j‖ < ‖z i - z j'‖) := by
  induction l using List.reverseRecOn with
  | nil => simp
  | append_singleton l a ih =>
    rw [List.pairwise_append] at hl
    obtain ⟨h1, _, h3⟩ := hl
    have ih := ih h1
    simp only [List.foldl_append, List.foldl_cons, List.foldl_nil]
    simp only at ih
    generalize (l.foldl _ none : Option (Fin n)) = r at ih ⊢
    obtain ⟨ihn, ihs⟩ := ih
    have hlt : ∀ j ∈ l, j < a := fun j hj => h3 j hj a (by simp)
    by_cases ha : a ≠ i ∧ mask a = true
    · rw [if_pos ha]
      cases r with
      | none =>
        refine ⟨by simp, fun j hj => ?_⟩
        obtain rfl : a = j := by simpa using hj
        refine ⟨by simp, ha.1, ha.2, fun j' hj' hi' hm' => ?_⟩
        rcases List.mem_append.1 hj' with h | h
        · rcases ihn rfl j' h with h | h
          · exact absurd h hi'
          · rw [h] at hm'; exact absurd hm' (by simp)
        · obtain rfl : j' = a := by simpa using h
          exact ⟨le_rfl, fun h => absurd h (lt_irrefl _)⟩
      | some b =>
        obtain ⟨b1, b2, b3, b4⟩ := ihs b rfl
        simp only
        by_cases hc : ‖z i - z a‖ < ‖z i - z b‖
        · rw [if_pos hc]
          refine ⟨by simp, fun j hj => ?_⟩
          obtain rfl : a = j := by simpa using hj
          refine ⟨by simp, ha.1, ha.2, fun j' hj' hi' hm' => ?_⟩
          rcases List.mem_append.1 hj' with h | h
          · have := (b4 j' h hi' hm').1
            exact ⟨by linarith, fun _ => by linarith⟩
          · obtain rfl : j' = a := by simpa using h
            exact ⟨le_rfl, fun h => absurd h (lt_irrefl _)⟩
        · rw [if_neg hc]
          refine ⟨by simp, fun j hj => ?_⟩
          obtain rfl : b = j := by simpa using hj
          refine ⟨by simp [b1], b2, b3, fun j' hj' hi' hm' => ?_⟩
          rcases List.mem_append.1 hj' with h | h
          · exact b4 j' h hi' hm'
          · obtain rfl : j' = a := by simpa using h
            exact ⟨not_lt.1 hc, fun h => absurd (h.trans (hlt b b1)) (lt_irrefl _)⟩
    · rw [if_neg ha]
      have hna : a = i ∨ mask a = false := by
        by_cases h : a = i
        · exact Or.inl h
        · right; simpa [h] using ha
      refine ⟨fun h j hj => ?_, fun j hj => ?_⟩
      · rcases List.mem_append.1 hj with h' | h'
        · exact ihn h j h'
        · obtain rfl : j = a := by simpa using h'
          exact hna
      · obtain ⟨b1, b2, b3, b4⟩ := ihs j hj
        refine ⟨by simp [b1], b2, b3, fun j' hj' hi' hm' => ?_⟩
        rcases List.mem_append.1 hj' with h | h
        · exact b4 j' h hi' hm'
        · obtain rfl : j' = a := by simpa using h
          exact absurd ⟨hi', hm'⟩ ha

/-- **C46** (which partner is removed). Among the other roots not yet removed, a root is paired with the nearest one, and with the first of
several equally near ones; there is no partner only if no other root is left. -/
theorem C46_partner {n : ℕ} (z : Fin n → ℂ) (mask : Fin n → Bool) (i : Fin n) :
    (closestIdx z mask i = none ↔ ∀ j, j = i ∨ mask j = false) ∧
    ∀ j, closestIdx z mask i = some j ↔ j ≠ i ∧ mask j = true ∧ ∀ j', j' ≠ i → mask j' = true →
      ‖z i - z j‖ ≤ ‖z i - z j'‖ ∧ (j' < j → ‖z i - z j‖ < ‖z i - z j'‖) := by
  have h := closest_scan z mask i (List.finRange n) (List.pairwise_lt_finRange n)
  obtain ⟨h1, h2⟩ := h
  have hn : closestIdx z mask i = none → ∀ j, j = i ∨ mask j = false := fun h j => h1 h j (List.mem_finRange j)
  have hs : ∀ j, closestIdx z mask i = some j → j ≠ i ∧ mask j = true ∧ ∀ j', j' ≠ i → mask j' = true →
      ‖z i - z j‖ ≤ ‖z i - z j'‖ ∧ (j' < j → ‖z i - z j‖ < ‖z i - z j'‖) := fun j h => by
    obtain ⟨_, a, b, c⟩ := h2 j h
    exact ⟨a, b, fun j' => c j' (List.mem_finRange j')⟩
  refine ⟨⟨hn, fun h => ?_⟩, fun j => ⟨hs j, fun h => ?_⟩⟩
  · cases hc : closestIdx z mask i with
    | none => rfl
    | some j =>
      obtain ⟨a, b, _⟩ := hs j hc
      rcases h j with h | h
      · exact absurd h a
      · rw [h] at b; exact absurd b (by simp)
  · obtain ⟨a, b, c⟩ := h
    cases hc : closestIdx z mask i with
    | none =>
      rcases hn hc j with h | h
      · exact absurd h a
      · rw [h] at b; exact absurd b (by simp)
    | some j' =>
      obtain ⟨a', b', c'⟩ := hs j' hc
      obtain ⟨p, q⟩ := c j' a' b'
      obtain ⟨p', q'⟩ := c' j a b
      rcases lt_trichotomy j j' with h | h | h
      · linarith [q' h]
      · rw [h]
      · linarith [q h]

/-- Non-vacuity: two equally near roots, the first one is the partner. -/
example : closestIdx (![0, 1, -1] : Fin 3 → ℂ) (fun _ => true) 0 = some 1 := by
  rw [(C46_partner _ _ _).2]
  refine ⟨by decide, rfl, fun j' hj _ => ?_⟩
  fin_cases j'
  · exact absurd rfl hj
  · exact ⟨le_rfl, fun h => absurd h (lt_irrefl _)⟩
  · refine ⟨by simp, fun h => absurd h (by decide)⟩

end Doa.Props
