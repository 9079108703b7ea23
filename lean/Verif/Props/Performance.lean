import Verif.Lemmas.Performance
import Verif.Props.Subspace
import Verif.Spec.Performance

/-!
# Performance bounds: C58, C61, C64, C69
-/

namespace Doa.Props

open Doa Matrix
open scoped ComplexOrder

variable {m k : ℕ}

theorem steers_iff {a : ArrayDesign} {src : Sources k} {wl : ℝ} {mode : String} {A D : Matrix (Fin a.size) (Fin k) ℂ} :
    Spec.Steers a src wl mode A D ↔ steerPair a src wl mode = .ok (A, D) := by
  unfold Spec.Steers steerPair
  constructor
  · rintro ⟨out, DA, h1, h2, h3, h4, h5⟩
    rw [h1]
    simp only [dif_pos h2, h3, h4, h5]
  · intro h
    split at h
    · cases h
    · rename_i out h1
      split at h
      · rename_i h2
        split at h
        · rename_i DA h3
          cases h
          have hl : ∀ l : Fin a.element.outputSize, l = ⟨0, by omega⟩ := fun l => Fin.ext (by have := l.2; omega)
          exact ⟨out, DA, h1, h2, h3, fun l => by rw [hl l], fun l => by rw [hl l]⟩
        · cases h
      · cases h

/-! ### C61: helpers -/

/-- The source covariance matrix denoted by a power argument for `k` sources. -/
def PowerDenotes (k : ℕ) : PowerArg → Matrix (Fin k) (Fin k) ℂ → Prop
  | .scalar p, M => M = Matrix.diagonal fun _ => (p : ℂ)
  | .list p, M => p.length = k ∧ M = Matrix.diagonal fun i : Fin k => ((p.getD i.1 0 : ℝ) : ℂ)
  | .vector p, M => p.length = k ∧ M = Matrix.diagonal fun i : Fin k => ((p.getD i.1 0 : ℝ) : ℂ)
  | .matrix P, M => P = ⟨k, k, M⟩
  | .nd _, _ => False

/-- **C61** (`unify_p_to_matrix`). The call returns `M` exactly if the argument denotes `M` (a scalar, a
list or vector with `k` entries, or a `k × k` matrix); everything else raises `ValueError`. -/
theorem C61_matrix (p : PowerArg) (k : ℕ) :
    (∀ M, unifyPToMatrix p k = .ok M ↔ PowerDenotes k p M) ∧
    ((∀ M, ¬ PowerDenotes k p M) → unifyPToMatrix p k = .error .valueError) := by
  have hdiag : ∀ l : List ℝ, (∀ M, (if l.length ≠ k then (Except.error PyErr.valueError : Res (Matrix (Fin k) (Fin k) ℂ))
      else .ok (Matrix.diagonal fun i : Fin k => ((l.getD i.1 0 : ℝ) : ℂ))) = .ok M ↔
        l.length = k ∧ M = Matrix.diagonal fun i : Fin k => ((l.getD i.1 0 : ℝ) : ℂ)) := by
    intro l M
    by_cases h : l.length = k
    · rw [if_neg (not_not.2 h)]
      constructor
      · intro h'; exact ⟨h, (Except.ok.inj h').symm⟩
      · rintro ⟨_, rfl⟩; rfl
    · rw [if_pos h]
      constructor
      · intro h'; cases h'
      · rintro ⟨h', _⟩; exact absurd h' h
  cases p with
  | scalar p =>
    have hM : (Matrix.of fun i j : Fin k => if i = j then (p : ℂ) else (0 : Matrix (Fin k) (Fin k) ℂ) i j) =
        Matrix.diagonal fun _ => (p : ℂ) := by
      ext i j; simp [diagonal_apply]
    refine ⟨fun M => ?_, fun h => absurd rfl (h _)⟩
    simp only [unifyPToMatrix, PowerDenotes, hM, Except.ok.injEq]
    exact eq_comm
  | list l =>
    refine ⟨hdiag l, fun h => ?_⟩
    exact if_pos fun h' => h _ ⟨h', rfl⟩
  | vector l =>
    refine ⟨hdiag l, fun h => ?_⟩
    exact if_pos fun h' => h _ ⟨h', rfl⟩
  | nd n => exact ⟨fun M => ⟨fun h => (by cases h), fun h => h.elim⟩, fun _ => rfl⟩
  | matrix P =>
    obtain ⟨r, c, A⟩ := P
    by_cases h : r ≠ k ∨ c ≠ k
    · have he : unifyPToMatrix (.matrix ⟨r, c, A⟩) k = .error .valueError := dif_pos h
      rw [he]
      refine ⟨fun M => ⟨fun h' => (by cases h'), ?_⟩, fun _ => rfl⟩
      intro hM; cases hM; simp at h
    · have h' := not_or.1 h
      rw [not_not, not_not] at h'
      obtain ⟨rfl, rfl⟩ := h'
      have he : unifyPToMatrix (.matrix ⟨c, c, A⟩) c = .ok A := dif_neg h
      rw [he]
      refine ⟨fun M => ⟨fun h' => (by cases h'; rfl), fun hM => (by cases hM; rfl)⟩, fun h' => absurd rfl (h' A)⟩

/-- **C61** (`unify_p_to_vector`). The call returns exactly the diagonal of the matrix denoted by the
argument; everything that denotes no matrix raises `ValueError`. -/
theorem C61_vector (p : PowerArg) (k : ℕ) :
    (∀ v, unifyPToVector p k = .ok v ↔ ∃ M, PowerDenotes k p M ∧ v = fun i => M i i) ∧
    ((∀ M, ¬ PowerDenotes k p M) → unifyPToVector p k = .error .valueError) := by
  have hdiag : ∀ l : List ℝ, (∀ v, (if l.length ≠ k then (Except.error PyErr.valueError : Res (Fin k → ℂ))
      else .ok (fun i : Fin k => ((l.getD i.1 0 : ℝ) : ℂ))) = .ok v ↔
        ∃ M, (l.length = k ∧ M = Matrix.diagonal fun i : Fin k => ((l.getD i.1 0 : ℝ) : ℂ)) ∧ v = fun i => M i i) := by
    intro l v
    by_cases h : l.length = k
    · rw [if_neg (not_not.2 h)]
      constructor
      · intro h'
        refine ⟨_, ⟨h, rfl⟩, ?_⟩
        rw [← Except.ok.inj h']
        funext i; simp
      · rintro ⟨_, ⟨_, rfl⟩, rfl⟩
        congr 1
        funext i; simp
    · rw [if_pos h]
      constructor
      · intro h'; cases h'
      · rintro ⟨_, ⟨h', _⟩, _⟩; exact absurd h' h
  cases p with
  | scalar p =>
    refine ⟨fun v => ?_, fun h => absurd rfl (h _)⟩
    simp only [unifyPToVector, PowerDenotes, Except.ok.injEq, exists_eq_left, diagonal_apply_eq]
    exact eq_comm
  | list l =>
    refine ⟨hdiag l, fun h => ?_⟩
    exact if_pos fun h' => h _ ⟨h', rfl⟩
  | vector l =>
    refine ⟨hdiag l, fun h => ?_⟩
    exact if_pos fun h' => h _ ⟨h', rfl⟩
  | nd n => exact ⟨fun v => ⟨fun h => (by cases h), fun ⟨_, h, _⟩ => h.elim⟩, fun _ => rfl⟩
  | matrix P =>
    obtain ⟨r, c, A⟩ := P
    by_cases h : r ≠ k ∨ c ≠ k
    · have he : unifyPToVector (.matrix ⟨r, c, A⟩) k = .error .valueError := dif_pos h
      rw [he]
      refine ⟨fun v => ⟨fun h' => (by cases h'), ?_⟩, fun _ => rfl⟩
      rintro ⟨M, hM, _⟩; cases hM; simp at h
    · have h' := not_or.1 h
      rw [not_not, not_not] at h'
      obtain ⟨rfl, rfl⟩ := h'
      have he : unifyPToVector (.matrix ⟨c, c, A⟩) c = .ok fun i => A i i := dif_neg h
      rw [he]
      refine ⟨fun v => ⟨fun h' => ⟨A, rfl, (Except.ok.inj h').symm⟩, ?_⟩, fun h' => absurd rfl (h' A)⟩
      rintro ⟨M, hM, rfl⟩; cases hM; rfl

/-- **C61** (`reduce_output_matrix`). Exactly three modes are accepted; other strings raise `ValueError`. The mean of no entries is NaN. -/
theorem C61_reduce (C : Matrix (Fin k) (Fin k) ℝ) :
    reduceOutput C "full" = .ok (.full C) ∧
    reduceOutput C "diag" = .ok (.diag fun i => C i i) ∧
    reduceOutput C "mean_diag" = (if k = 0 then .error .returnsNaN else .ok (.mean ((∑ i, C i i) / k))) ∧
    ∀ mode, mode ∉ ["full", "diag", "mean_diag"] → reduceOutput C mode = .error .valueError := by
  refine ⟨rfl, rfl, rfl, fun mode h => ?_⟩
  simp only [List.mem_cons, List.not_mem_nil, or_false, not_or] at h
  simp [reduceOutput, h.1, h.2.1, h.2.2]

example : unifyPToMatrix (.list [1, 2]) 2 = .ok (Matrix.diagonal ![1, 2]) ∧
    unifyPToMatrix (.list [1, 2]) 3 = .error .valueError := by
  refine ⟨((C61_matrix _ _).1 _).2 ⟨rfl, ?_⟩, (C61_matrix _ _).2 ?_⟩
  · congr 1; funext i; fin_cases i <;> simp
  · rintro M ⟨h, _⟩; simp at h

/-! ### C58: shape of the results -/

/-- What the three return modes must do for a performance function. -/
def ModesAgree (f : String → Res (CovOut k)) : Prop :=
  ∀ C, f "full" = .ok (.full C) →
    f "diag" = .ok (.diag fun i => C i i) ∧ f "mean_diag" = (if k = 0 then .error .returnsNaN else .ok (.mean ((∑ i, C i i) / k))) ∧
    ∀ mode, mode ∉ ["full", "diag", "mean_diag"] → f mode = .error .valueError

theorem modesAgree_of {f : String → Res (CovOut k)} {r : Res (Matrix (Fin k) (Fin k) ℝ)}
    (h : ∀ mode, f mode = match r with | .error e => .error e | .ok C => reduceOutput C mode) : ModesAgree f := by
  intro C hC
  rw [h] at hC
  cases r with
  | error e => cases hC
  | ok C' =>
    have : C' = C := by
      have h1 : reduceOutput C' "full" = .ok (.full C') := rfl
      simp only [h1, Except.ok.injEq, CovOut.full.injEq] at hC
      exact hC
    subst this
    obtain ⟨-, h2, h3, h4⟩ := C61_reduce C'
    exact ⟨by rw [h]; exact h2, by rw [h]; exact h3, fun mode hm => by rw [h]; exact h4 mode hm⟩

/-- The three functions factor through a matrix that does not depend on the mode. -/
noncomputable def crbStoFull (a : ArrayDesign) (src : Sources k) (wl : ℝ) (p : PowerArg) (sigma : ℝ) (n : ℕ) :
    Res (Matrix (Fin k) (Fin k) ℝ) :=
  if !src.isFF1 then .error .valueError
  else match unifyPToMatrix p k with
    | .error e => .error e
    | .ok P => match steerPair a src wl "all" with
      | .error e => .error e
      | .ok (A, D) => crbStoCore A D P sigma n

theorem crbSto_eq (a : ArrayDesign) (src : Sources k) (wl : ℝ) (p : PowerArg) (sigma : ℝ) (n : ℕ) (mode : String) :
    crbSto a src wl p sigma n mode =
      match crbStoFull a src wl p sigma n with | .error e => .error e | .ok C => reduceOutput C mode := by
  unfold crbSto crbStoFull
  by_cases h : (!src.isFF1) = true
  · rw [if_pos h, if_pos h]
  · rw [if_neg h, if_neg h]
    cases unifyPToMatrix p k with
    | error e => rfl
    | ok P =>
      simp only
      cases steerPair a src wl "all" with
      | error e => rfl
      | ok q => rfl

noncomputable def crbDetFull (a : ArrayDesign) (src : Sources k) (wl : ℝ) (p : PowerArg) (sigma : ℝ) (n : ℕ) :
    Res (Matrix (Fin k) (Fin k) ℝ) :=
  if !src.isFF1 then .error .valueError
  else match p with
    | .scalar _ => .error .attributeError
    | .list _ => .error .attributeError
    | .vector _ => .error .valueError
    | .nd _ => .error .valueError
    | .matrix P =>
      match unifyPToMatrix (.matrix P) k with
      | .error e => .error e
      | .ok P => match steerPair a src wl "all" with
        | .error e => .error e
        | .ok (A, D) => crbDetCore A D P sigma n

theorem crbDet_eq (a : ArrayDesign) (src : Sources k) (wl : ℝ) (p : PowerArg) (sigma : ℝ) (n : ℕ) (mode : String) :
    crbDet a src wl p sigma n mode =
      match crbDetFull a src wl p sigma n with | .error e => .error e | .ok C => reduceOutput C mode := by
  unfold crbDet crbDetFull
  by_cases h : (!src.isFF1) = true
  · rw [if_pos h, if_pos h]
  · rw [if_neg h, if_neg h]
    cases p with
    | scalar _ => rfl
    | list _ => rfl
    | vector _ => rfl
    | nd _ => rfl
    | matrix P =>
      simp only [unifyPToMatrix]
      by_cases h : P.r ≠ k ∨ P.c ≠ k
      · rw [dif_pos h, dif_pos h]
      · rw [dif_neg h, dif_neg h]
        simp only
        cases steerPair a src wl "all" with
        | error e => rfl
        | ok q => rfl

noncomputable def crbStoucFull (a : ArrayDesign) (src : Sources k) (wl : ℝ) (p : PowerArg) (sigma : ℝ) (n : ℕ) :
    Res (Matrix (Fin k) (Fin k) ℝ) :=
  if !src.isFF1 then .error .valueError
  else match unifyPToVector p k with
    | .error e => .error e
    | .ok P => match steerPair a src wl "all" with
      | .error e => .error e
      | .ok (A, D) => crbStoucCore A D P sigma n

theorem crbStouc_eq (a : ArrayDesign) (src : Sources k) (wl : ℝ) (p : PowerArg) (sigma : ℝ) (n : ℕ) (mode : String) :
    crbStouc a src wl p sigma n mode =
      match crbStoucFull a src wl p sigma n with | .error e => .error e | .ok C => reduceOutput C mode := by
  unfold crbStouc crbStoucFull
  by_cases h : (!src.isFF1) = true
  · rw [if_pos h, if_pos h]
  · rw [if_neg h, if_neg h]
    cases unifyPToVector p k with
    | error e => rfl
    | ok P =>
      simp only
      cases steerPair a src wl "all" with
      | error e => rfl
      | ok q => rfl

noncomputable def ecovMusicFull (a : ArrayDesign) (src : Sources k) (wl : ℝ) (p : PowerArg) (sigma : ℝ) (n : ℕ) (pert : String) :
    Res (Matrix (Fin k) (Fin k) ℝ) :=
  if !src.isFF1 then .error .valueError
  else if k ≥ a.size then .error .valueError
  else match unifyPToMatrix p k with
    | .error e => .error e
    | .ok P => match steerPair a src wl pert with
      | .error e => .error e
      | .ok (A, D) => ecovMusicCore A D P sigma n

theorem ecovMusic_eq (a : ArrayDesign) (src : Sources k) (wl : ℝ) (p : PowerArg) (sigma : ℝ) (n : ℕ) (pert mode : String) :
    ecovMusic a src wl p sigma n pert mode =
      match ecovMusicFull a src wl p sigma n pert with | .error e => .error e | .ok C => reduceOutput C mode := by
  unfold ecovMusic ecovMusicFull
  by_cases h : (!src.isFF1) = true
  · rw [if_pos h, if_pos h]
  · rw [if_neg h, if_neg h]
    by_cases h2 : k ≥ a.size
    · rw [if_pos h2, if_pos h2]
    · rw [if_neg h2, if_neg h2]
      cases unifyPToMatrix p k with
      | error e => rfl
      | ok P =>
        simp only
        cases steerPair a src wl pert with
        | error e => rfl
        | ok q => rfl

theorem full_iff {r : Res (Matrix (Fin k) (Fin k) ℝ)} {C : Matrix (Fin k) (Fin k) ℝ} :
    (match r with | .error e => (Except.error e : Res (CovOut k)) | .ok C => reduceOutput C "full") = .ok (.full C) ↔
      r = .ok C := by
  cases r with
  | error e => constructor <;> (intro h; cases h)
  | ok C' => simp [reduceOutput]

/-- **C58** (return modes). For each of the three bounds, `'diag'` is the diagonal of the `'full'` matrix,
`'mean_diag'` the mean of the diagonal, and other modes raise `ValueError`. -/
theorem C58_modes (a : ArrayDesign) (src : Sources k) (wl : ℝ) (p : PowerArg) (sigma : ℝ) (n : ℕ) :
    ModesAgree (crbSto a src wl p sigma n) ∧ ModesAgree (crbDet a src wl p sigma n) ∧
    ModesAgree (crbStouc a src wl p sigma n) :=
  ⟨modesAgree_of (crbSto_eq a src wl p sigma n), modesAgree_of (crbDet_eq a src wl p sigma n),
    modesAgree_of (crbStouc_eq a src wl p sigma n)⟩

/-- **C58** (source type). Sources that are not 1-D far-field raise `ValueError` in every function. -/
theorem C58_source_type (a : ArrayDesign) (src : Sources k) (h : ∀ s, src ≠ .ff1 s) (wl : ℝ) (p : PowerArg) (sigma : ℝ) (n : ℕ)
    (mode pert : String) :
    crbSto a src wl p sigma n mode = .error .valueError ∧ crbDet a src wl p sigma n mode = .error .valueError ∧
    crbStouc a src wl p sigma n mode = .error .valueError ∧ ecovMusic a src wl p sigma n pert mode = .error .valueError := by
  have : (!src.isFF1) = true := by
    cases src with
    | ff1 s => exact absurd rfl (h s)
    | ff2 s => rfl
    | nf s => rfl
  refine ⟨if_pos this, if_pos this, if_pos this, if_pos this⟩

/-- **C58** (power formats). Scalars, vectors and matrices that denote the same source covariance give the same
bound; for the uncorrelated bound it is enough that the diagonals agree. -/
theorem C58_power_formats (a : ArrayDesign) (src : Sources k) (wl : ℝ) {p p' : PowerArg} {P P' : Matrix (Fin k) (Fin k) ℂ}
    (hp : PowerDenotes k p P) (hp' : PowerDenotes k p' P') (sigma : ℝ) (n : ℕ) (mode : String) :
    (P = P' → crbSto a src wl p sigma n mode = crbSto a src wl p' sigma n mode) ∧
    ((∀ i, P i i = P' i i) → crbStouc a src wl p sigma n mode = crbStouc a src wl p' sigma n mode) := by
  constructor
  · rintro rfl
    have h1 := ((C61_matrix p k).1 P).2 hp
    have h2 := ((C61_matrix p' k).1 P).2 hp'
    simp only [crbSto, h1, h2]
  · intro h
    have h1 := ((C61_vector p k).1 _).2 ⟨P, hp, rfl⟩
    have h2 := ((C61_vector p' k).1 _).2 ⟨P', hp', rfl⟩
    have h3 : (fun i => P i i) = fun i => P' i i := funext h
    simp only [crbStouc, h1, h2, h3]

/-! ### The numerical parts -/

/-- The matrix `H = Dᴴ (I - A (Aᴴ A)⁻¹ Aᴴ) D`. -/
noncomputable def Hmat (A D : Matrix (Fin m) (Fin k) ℂ) : Matrix (Fin k) (Fin k) ℂ :=
  Dᴴ * (1 - A * ((Aᴴ * A)⁻¹ * Aᴴ)) * D

/-- The weight `P Aᴴ R⁻¹ A P`. -/
noncomputable def Wmat (A : Matrix (Fin m) (Fin k) ℂ) (P : Matrix (Fin k) (Fin k) ℂ) (σ : ℝ) : Matrix (Fin k) (Fin k) ℂ :=
  P * (Aᴴ * ((A * P * Aᴴ + (σ : ℂ) • (1 : Matrix (Fin m) (Fin m) ℂ))⁻¹ * A)) * P

theorem crbStoCore_iff {A D : Matrix (Fin m) (Fin k) ℂ} {P : Matrix (Fin k) (Fin k) ℂ} {σ : ℝ} {n : ℕ} [NeZero n]
    {C : Matrix (Fin k) (Fin k) ℝ} : crbStoCore A D P σ n = .ok C ↔
      IsUnit (Aᴴ * A).det ∧ IsUnit (A * P * Aᴴ + (σ : ℂ) • (1 : Matrix (Fin m) (Fin m) ℂ)).det ∧
      IsUnit (reMat (Hmat A D ⊙ (Wmat A P σ)ᵀ)).det ∧
      C = symPart ((σ / n / 2) • (reMat (Hmat A D ⊙ (Wmat A P σ)ᵀ))⁻¹) := by
  classical
  unfold crbStoCore npSolve npInv
  simp only [if_neg (NeZero.ne n)]
  by_cases h1 : IsUnit (Aᴴ * A).det
  · by_cases h2 : IsUnit (A * P * Aᴴ + (σ : ℂ) • (1 : Matrix (Fin m) (Fin m) ℂ)).det
    · by_cases h3 : IsUnit (reMat (Hmat A D ⊙ (Wmat A P σ)ᵀ)).det
      · simp only [if_pos h1, if_pos h2]
        have h3' := h3
        unfold Hmat Wmat at h3'
        rw [if_pos h3']
        simp only [h1, h2, h3, true_and, Except.ok.injEq]
        exact eq_comm
      · simp only [if_pos h1, if_pos h2]
        have h3' := h3
        unfold Hmat Wmat at h3'
        rw [if_neg h3']
        exact ⟨fun h => (by cases h), fun h => absurd h.2.2.1 h3⟩
    · simp only [if_pos h1, if_neg h2]
      exact ⟨fun h => (by cases h), fun h => absurd h.2.1 h2⟩
  · simp only [if_neg h1]
    exact ⟨fun h => (by cases h), fun h => absurd h.1 h1⟩

theorem crbDetCore_iff {A D : Matrix (Fin m) (Fin k) ℂ} {P : Matrix (Fin k) (Fin k) ℂ} {σ : ℝ} {n : ℕ} [NeZero n]
    {C : Matrix (Fin k) (Fin k) ℝ} : crbDetCore A D P σ n = .ok C ↔
      IsUnit (Aᴴ * A).det ∧ IsUnit (reMat (Hmat A D ⊙ Pᵀ)).det ∧
      C = symPart ((σ / n / 2) • (reMat (Hmat A D ⊙ Pᵀ))⁻¹) := by
  classical
  unfold crbDetCore projm npSolve npInv
  simp only [if_neg (NeZero.ne n)]
  by_cases h1 : IsUnit (Aᴴ * A).det
  · by_cases h3 : IsUnit (reMat (Hmat A D ⊙ Pᵀ)).det
    · simp only [Bool.false_eq_true, if_false, if_pos h1]
      have h3' := h3
      unfold Hmat at h3'
      rw [if_pos h3']
      simp only [h1, h3, true_and, Except.ok.injEq]
      exact eq_comm
    · simp only [Bool.false_eq_true, if_false, if_pos h1]
      have h3' := h3
      unfold Hmat at h3'
      rw [if_neg h3']
      exact ⟨fun h => (by cases h), fun h => absurd h.2.1 h3⟩
  · simp only [Bool.false_eq_true, if_false, if_neg h1]
    exact ⟨fun h => (by cases h), fun h => absurd h.1 h1⟩

theorem ecovMusicCore_iff {A D : Matrix (Fin m) (Fin k) ℂ} {P : Matrix (Fin k) (Fin k) ℂ} {σ : ℝ} {n : ℕ} [NeZero n]
    {C : Matrix (Fin k) (Fin k) ℝ} : ecovMusicCore A D P σ n = .ok C ↔
      IsUnit (Aᴴ * A).det ∧ IsUnit P.det ∧ (∀ i, (Hmat A D i i).re ≠ 0) ∧
      C = (σ / 2 / n) • (reMat (Hmat A D ⊙ (P⁻¹ * (1 + (σ : ℂ) • ((Aᴴ * A)⁻¹ * P⁻¹)))ᵀ) ⊙
        Matrix.of fun i j => ((Hmat A D i i).re)⁻¹ * ((Hmat A D j j).re)⁻¹) := by
  classical
  unfold ecovMusicCore npSolve npInv
  simp only [if_neg (NeZero.ne n)]
  by_cases h1 : IsUnit (Aᴴ * A).det
  · by_cases h2 : IsUnit P.det
    · simp only [if_pos h1, if_pos h2]
      by_cases h3 : ∃ i, (Hmat A D i i).re = 0
      · have h3' := h3
        unfold Hmat at h3'
        rw [if_pos h3']
        exact ⟨fun h => (by cases h), fun h => absurd h3.choose_spec (h.2.2.1 _)⟩
      · have h3' := h3
        unfold Hmat at h3'
        rw [if_neg h3']
        constructor
        · intro h; exact ⟨h1, h2, not_exists.1 h3, (Except.ok.inj h).symm⟩
        · rintro ⟨_, _, _, rfl⟩; rfl
    · simp only [if_pos h1, if_neg h2]
      exact ⟨fun h => (by cases h), fun h => absurd h.2.1 h2⟩
  · simp only [if_neg h1]
    exact ⟨fun h => (by cases h), fun h => absurd h.1 h1⟩

/-- A bound or covariance is only returned for a positive number of snapshots. -/
theorem crbStoCore_n {A D : Matrix (Fin m) (Fin k) ℂ} {P : Matrix (Fin k) (Fin k) ℂ} {σ : ℝ} {n : ℕ} {C : Matrix (Fin k) (Fin k) ℝ}
    (h : crbStoCore A D P σ n = .ok C) : NeZero n := by
  refine ⟨?_⟩
  rintro rfl
  unfold crbStoCore at h
  dsimp only at h
  split at h
  · cases h
  · split at h
    · cases h
    · split at h <;> cases h

theorem crbDetCore_n {A D : Matrix (Fin m) (Fin k) ℂ} {P : Matrix (Fin k) (Fin k) ℂ} {σ : ℝ} {n : ℕ} {C : Matrix (Fin k) (Fin k) ℝ}
    (h : crbDetCore A D P σ n = .ok C) : NeZero n := by
  refine ⟨?_⟩
  rintro rfl
  unfold crbDetCore at h
  dsimp only at h
  split at h
  · cases h
  · split at h <;> cases h

theorem ecovMusicCore_n {A D : Matrix (Fin m) (Fin k) ℂ} {P : Matrix (Fin k) (Fin k) ℂ} {σ : ℝ} {n : ℕ} {C : Matrix (Fin k) (Fin k) ℝ}
    (h : ecovMusicCore A D P σ n = .ok C) : NeZero n := by
  refine ⟨?_⟩
  rintro rfl
  unfold ecovMusicCore at h
  dsimp only at h
  split at h
  · cases h
  · split at h
    · cases h
    · split at h
      · cases h
      · rw [if_pos rfl] at h; cases h

theorem Hmat_posSemidef {A D : Matrix (Fin m) (Fin k) ℂ} (hG : IsUnit (Aᴴ * A).det) : (Hmat A D).PosSemidef := by
  obtain ⟨Q, h1, h2⟩ := (C33_projm A).1 ((fullRank_iff A).1 hG)
  have hQ : Q = A * ((Aᴴ * A)⁻¹ * Aᴴ) := by
    unfold projm npSolve at h1
    simp only [Bool.false_eq_true, if_false, if_pos hG, Except.ok.injEq] at h1
    exact h1.symm
  unfold Hmat
  rw [← hQ]
  exact (proj_posSemidef (compl_herm h2.herm) (compl_idem h2.idem)).conjTranspose_mul_mul_same D

theorem modelR_posDef {A : Matrix (Fin m) (Fin k) ℂ} {P : Matrix (Fin k) (Fin k) ℂ} (hP : P.PosSemidef) {σ : ℝ} (hσ : 0 < σ) :
    (A * P * Aᴴ + (σ : ℂ) • (1 : Matrix (Fin m) (Fin m) ℂ)).PosDef :=
  PosDef.posSemidef_add (hP.mul_mul_conjTranspose_same A) (PosDef.one.smul (Complex.zero_lt_real.2 hσ))

theorem Wmat_posSemidef {A : Matrix (Fin m) (Fin k) ℂ} {P : Matrix (Fin k) (Fin k) ℂ} (hP : P.PosSemidef) {σ : ℝ} (hσ : 0 < σ) :
    (Wmat A P σ).PosSemidef := by
  have h := ((modelR_posDef (A := A) hP hσ).inv.posSemidef.conjTranspose_mul_mul_same A).conjTranspose_mul_mul_same P
  rw [hP.isHermitian.eq] at h
  unfold Wmat
  simpa only [Matrix.mul_assoc] using h

end Doa.Props
