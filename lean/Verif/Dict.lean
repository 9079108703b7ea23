/-!
# Insertion ordered Python dictionaries

CPython dictionaries keep insertion order; assigning to an existing key keeps its position.
-/

/-- A Python `dict` as an association list in insertion order. -/
abbrev PyDict (κ : Type _) (ν : Type _) := List (κ × ν)

namespace PyDict
variable {κ : Type _} {ν : Type _} [DecidableEq κ]

/-- `d.get(k)`. -/
def get? : PyDict κ ν → κ → Option ν
  | [], _ => none
  | (k', v) :: d, k => if k' = k then some v else get? d k

/-- `k in d`. -/
def contains (d : PyDict κ ν) (k : κ) : Bool := (get? d k).isSome

/-- `d[k] = v`: override in place or append at the end. -/
def set : PyDict κ ν → κ → ν → PyDict κ ν
  | [], k, v => [(k, v)]
  | (k', v') :: d, k, v => if k' = k then (k, v) :: d else (k', v') :: set d k v

/-- `d.keys()` in insertion order. -/
def keys (d : PyDict κ ν) : List κ := List.map Prod.fst d

/-- `d.values()` in insertion order. -/
def values (d : PyDict κ ν) : List ν := List.map Prod.snd d

@[simp] theorem get?_nil (k : κ) : get? ([] : PyDict κ ν) k = none := rfl

theorem get?_set (d : PyDict κ ν) (k k' : κ) (v : ν) :
    get? (set d k v) k' = if k' = k then some v else get? d k' := by
  induction d with
  | nil => simp only [set, get?]; by_cases h : k = k' <;> simp [h, eq_comm]
  | cons a d ih =>
    obtain ⟨a, b⟩ := a
    by_cases h : a = k
    · subst h
      simp only [set, get?, if_true]
      by_cases h2 : a = k'
      · simp [h2]
      · simp [h2, Ne.symm h2]
    · simp only [set, h, if_false, get?, ih]
      by_cases h2 : a = k'
      · subst h2; simp [h]
      · simp [h2]

theorem mem_keys_set (d : PyDict κ ν) (k k' : κ) (v : ν) :
    k' ∈ keys (set d k v) ↔ k' = k ∨ k' ∈ keys d := by
  induction d with
  | nil => simp [set, keys]
  | cons a d ih =>
    obtain ⟨a, b⟩ := a
    by_cases h : a = k
    · subst h; simp [set, keys]
    · simp only [set, h, if_false, keys, List.map_cons, List.mem_cons] at ih ⊢
      rw [ih]
      constructor
      · rintro (h | h | h) <;> simp [h]
      · rintro (h | h | h) <;> simp [h]

theorem nodup_keys_set (d : PyDict κ ν) (k : κ) (v : ν) (h : (keys d).Nodup) :
    (keys (set d k v)).Nodup := by
  induction d with
  | nil => simp [set, keys]
  | cons a d ih =>
    obtain ⟨a, b⟩ := a
    simp only [keys, List.map_cons, List.nodup_cons] at h
    by_cases h1 : a = k
    · subst h1; simpa [set, keys] using h
    · simp only [set, h1, if_false, keys, List.map_cons, List.nodup_cons]
      refine ⟨fun hm => ?_, ih h.2⟩
      have := (mem_keys_set d k a v).1 hm
      rcases this with h2 | h2
      · exact h1 h2
      · exact h.1 h2

theorem get?_isSome_iff (d : PyDict κ ν) (k : κ) : (get? d k).isSome ↔ k ∈ keys d := by
  induction d with
  | nil => simp [keys]
  | cons a d ih =>
    obtain ⟨a, b⟩ := a
    by_cases h : a = k
    · simp [get?, keys, h]
    · simp only [get?, h, if_false, ih, keys, List.map_cons, List.mem_cons]
      constructor
      · intro h; exact Or.inr h
      · rintro (h2 | h2)
        · exact absurd h2.symm h
        · exact h2

theorem get?_eq_none_iff (d : PyDict κ ν) (k : κ) : get? d k = none ↔ k ∉ keys d := by
  rw [← get?_isSome_iff]; cases get? d k <;> simp

theorem contains_iff (d : PyDict κ ν) (k : κ) : contains d k = true ↔ k ∈ keys d :=
  get?_isSome_iff d k

theorem get?_mem {d : PyDict κ ν} {k : κ} {v : ν} (h : get? d k = some v) : (k, v) ∈ d := by
  induction d with
  | nil => simp at h
  | cons a d ih =>
    obtain ⟨a, b⟩ := a
    by_cases h1 : a = k
    · subst h1; simp [get?] at h; simp [h]
    · simp only [get?, h1, if_false] at h; exact List.mem_cons_of_mem _ (ih h)

theorem get?_of_mem {d : PyDict κ ν} {k : κ} {v : ν} (hn : (keys d).Nodup) (h : (k, v) ∈ d) :
    get? d k = some v := by
  induction d with
  | nil => simp at h
  | cons a d ih =>
    obtain ⟨a, b⟩ := a
    simp only [keys, List.map_cons, List.nodup_cons] at hn
    rcases List.mem_cons.1 h with h1 | h1
    · simp only [Prod.mk.injEq] at h1; simp [get?, h1.1, h1.2]
    · have : a ≠ k := fun he => hn.1 (he ▸ List.mem_map_of_mem (f := Prod.fst) h1)
      simp only [get?, this, if_false]; exact ih hn.2 h1

end PyDict
