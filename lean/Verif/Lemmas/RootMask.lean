import Mathlib.Data.Fintype.EquivFin
import Mathlib.Data.List.FinRange
import Verif.Model.RootMusic

/-! # The masking loop of root-MUSIC -/

namespace Doa

/-- If exactly one unmasked index other than `i` is at distance zero, the inner loop finds it. -/
theorem closestIdx_of_unique {n : ℕ} (z : Fin n → ℂ) (mask : Fin n → Bool) (i j0 : Fin n)
    (h0 : j0 ≠ i) (hm : mask j0 = true) (hz : z j0 = z i)
    (huniq : ∀ j, j ≠ i → z j = z i → j = j0) : closestIdx z mask i = some j0 := by
  classical
  have hpos : ∀ j, j ≠ i → j ≠ j0 → 0 < ‖z i - z j‖ := fun j h1 h2 => by
    rw [norm_pos_iff, sub_ne_zero]
    exact fun h => h2 (huniq j h1 h.symm)
  have h00 : ‖z i - z j0‖ = 0 := by rw [hz]; simp
  have key : ∀ (l : List (Fin n)) (acc : Option (Fin n)), l.Nodup →
      ((j0 ∉ l → acc = some j0) ∧ (j0 ∈ l → ∀ j, acc = some j → j ≠ i ∧ j ≠ j0)) →
      l.foldl (fun acc j =>
        if j ≠ i ∧ mask j = true then
          match acc with
          | none => some j
          | some j' => if ‖z i - z j‖ < ‖z i - z j'‖ then some j else some j'
        else acc) acc = some j0 := by
    intro l
    induction l with
    | nil => intro acc _ h; simpa using h.1
    | cons a l ih =>
      intro acc hnd h
      rw [List.foldl_cons]
      have hnd' := List.nodup_cons.1 hnd
      apply ih _ hnd'.2
      by_cases ha : a = j0
      · subst ha
        refine ⟨fun _ => ?_, fun hmem => absurd hmem hnd'.1⟩
        rw [if_pos ⟨h0, hm⟩]
        cases hacc : acc with
        | none => rfl
        | some j =>
          have hj := h.2 (by simp) j hacc
          simp only [h00, if_pos (hpos j hj.1 hj.2)]
      · constructor
        · intro hn
          have : acc = some j0 := h.1 (by simp [hn, Ne.symm ha])
          rw [this]
          simp only [h00]
          split
          · rw [if_neg (not_lt.2 (norm_nonneg _))]
          · rfl
        · intro hmem j hj
          have hacc := h.2 (by simp [hmem])
          split at hj
          · rename_i hcond
            cases hacc' : acc with
            | none =>
              rw [hacc'] at hj
              simp only [Option.some.injEq] at hj
              subst hj
              exact ⟨hcond.1, ha⟩
            | some j' =>
              rw [hacc'] at hj
              simp only at hj
              split at hj
              · simp only [Option.some.injEq] at hj
                subst hj
                exact ⟨hcond.1, ha⟩
              · simp only [Option.some.injEq] at hj
                subst hj
                exact hacc j' hacc'
          · exact hacc j hj
  exact key (List.finRange n) none (List.nodup_finRange n)
    ⟨fun h => absurd (List.mem_finRange j0) h, fun _ j h => by simp at h⟩

/-- If every root on the unit circle occurs exactly twice, the loop succeeds and leaves exactly the
roots inside the circle: both copies of every root on the circle are removed. -/
theorem rootMask_of_pairs {n : ℕ} (z : Fin n → ℂ)
    (hpair : ∀ i, ‖z i‖ = 1 → ∃ j, j ≠ i ∧ z j = z i ∧ ∀ j', j' ≠ i → z j' = z i → j' = j) :
    ∃ mask, rootMask z = .ok mask ∧ ∀ j, mask j = true ↔ ‖z j‖ < 1 := by
  classical
  -- the state after the indices of `done` have been processed
  have key : ∀ (todo done : List (Fin n)) (mask : Fin n → Bool), done ++ todo = List.finRange n →
      (∀ j, mask j = false ↔ (1 < ‖z j‖ ∧ j ∈ done) ∨
        (‖z j‖ = 1 ∧ ∃ i ∈ done, i ≠ j ∧ z i = z j)) →
      ∃ mask', forLoop (maskStep z) todo mask = .ok mask' ∧
        ∀ j, mask' j = false ↔ (1 < ‖z j‖ ∧ j ∈ List.finRange n) ∨
          (‖z j‖ = 1 ∧ ∃ i ∈ List.finRange n, i ≠ j ∧ z i = z j) := by
    intro todo
    induction todo with
    | nil =>
      intro done mask hd hm
      rw [List.append_nil] at hd
      subst hd
      exact ⟨mask, rfl, hm⟩
    | cons i todo ih =>
      intro done mask hd hm
      have hnd : (done ++ i :: todo).Nodup := hd ▸ List.nodup_finRange n
      have hi : i ∉ done := by
        have := List.disjoint_of_nodup_append hnd
        intro h
        exact this h (by simp)
      have hd' : (done ++ [i]) ++ todo = List.finRange n := by rw [← hd]; simp
      simp only [forLoop, maskStep]
      by_cases h1 : 1 < ‖z i‖
      · rw [if_pos h1]
        simp only
        refine ih (done ++ [i]) _ hd' fun j => ?_
        by_cases hj : j = i
        · subst hj
          simp [h1]
        · rw [Function.update_of_ne hj, hm j]
          simp only [List.mem_append, List.mem_singleton, hj, or_false]
          constructor
          · rintro (h | ⟨h, i', h', h''⟩)
            · exact Or.inl h
            · exact Or.inr ⟨h, i', Or.inl h', h''⟩
          · rintro (h | ⟨h, i', h' | h', h''⟩)
            · exact Or.inl h
            · exact Or.inr ⟨h, i', h', h''⟩
            · subst h'
              rw [h''.2, h] at h1
              exact absurd h1 (lt_irrefl _)
      · rw [if_neg h1]
        by_cases h2 : ‖z i‖ = 1
        · rw [if_pos h2]
          obtain ⟨j0, hj0, hzj, huniq⟩ := hpair i h2
          have hmj : mask j0 = true := by
            rw [← Bool.not_eq_false, hm j0]
            rintro (⟨h, _⟩ | ⟨_, i', hi', hne, hzi⟩)
            · rw [hzj, h2] at h
              exact lt_irrefl _ h
            · have : i' ≠ i := fun h => hi (h ▸ hi')
              exact hne (huniq i' this (hzi.trans hzj))
          rw [closestIdx_of_unique z mask i j0 hj0 hmj hzj huniq]
          simp only
          refine ih (done ++ [i]) _ hd' fun j => ?_
          by_cases hj : j = j0
          · subst hj
            simp only [Function.update_self, true_iff]
            exact Or.inr ⟨by rw [hzj, h2], i, by simp, hj0.symm, hzj.symm⟩
          · rw [Function.update_of_ne hj, hm j]
            simp only [List.mem_append, List.mem_singleton]
            constructor
            · rintro (⟨h, h'⟩ | ⟨h, i', h', h''⟩)
              · exact Or.inl ⟨h, Or.inl h'⟩
              · exact Or.inr ⟨h, i', Or.inl h', h''⟩
            · rintro (⟨h, h' | h'⟩ | ⟨h, i', h' | h', h''⟩)
              · exact Or.inl ⟨h, h'⟩
              · subst h'; exact absurd h h1
              · exact Or.inr ⟨h, i', h', h''⟩
              · subst h'
                exact absurd (huniq j (Ne.symm h''.1) h''.2.symm) hj
        · rw [if_neg h2]
          simp only
          refine ih (done ++ [i]) _ hd' fun j => ?_
          rw [hm j]
          simp only [List.mem_append, List.mem_singleton]
          constructor
          · rintro (⟨h, h'⟩ | ⟨h, i', h', h''⟩)
            · exact Or.inl ⟨h, Or.inl h'⟩
            · exact Or.inr ⟨h, i', Or.inl h', h''⟩
          · rintro (⟨h, h' | h'⟩ | ⟨h, i', h' | h', h''⟩)
            · exact Or.inl ⟨h, h'⟩
            · subst h'; exact absurd h h1
            · exact Or.inr ⟨h, i', h', h''⟩
            · subst h'
              exact absurd (h''.2 ▸ h) h2
  obtain ⟨mask, h1, h2⟩ := key (List.finRange n) [] (fun _ => true) rfl (by simp)
  refine ⟨mask, h1, fun j => ?_⟩
  rw [← Bool.not_eq_false, h2 j]
  constructor
  · intro h
    push Not at h
    rcases lt_trichotomy ‖z j‖ 1 with h' | h' | h'
    · exact h'
    · obtain ⟨i, hi, hz, _⟩ := hpair j h'
      exact absurd hz (h.2 h' i (List.mem_finRange i) hi)
    · exact absurd (List.mem_finRange j) (h.1 h')
  · rintro h (⟨h', _⟩ | ⟨h', _⟩) <;> linarith

end Doa
