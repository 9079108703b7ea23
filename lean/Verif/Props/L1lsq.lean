import Mathlib.Analysis.InnerProductSpace.PiL2
import Verif.Model.L1lsq

/-!
# Sparse solver wrappers: C63
-/

namespace Doa.Props

open Doa Matrix

variable {m k n : ℕ}

/-- The documented feasible set of a formulation (class documentation of
`L1RegularizedLeastSquaresProblem`), with the Euclidean norm of Mathlib. -/
def L1Feasible (formulation : String) (nonneg : Bool) (A : Matrix (Fin m) (Fin k) ℝ) (b : Fin m → ℝ) (l : ℝ)
    (x : Fin k → ℝ) : Prop :=
  (formulation = "constrainedl1" → ∑ i, |x i| ≤ l) ∧
  (formulation = "constrainedl2" → ‖WithLp.toLp 2 (A *ᵥ x - b)‖ ≤ l) ∧
  (nonneg = true → ∀ i, 0 ≤ x i)

/-- The documented objective of a formulation. -/
noncomputable def L1Value (formulation : String) (A : Matrix (Fin m) (Fin k) ℝ) (b : Fin m → ℝ) (l : ℝ)
    (x : Fin k → ℝ) : ℝ :=
  if formulation = "penalizedl1" then 1 / 2 * ‖WithLp.toLp 2 (A *ᵥ x - b)‖ ^ 2 + l * ∑ i, |x i|
  else if formulation = "constrainedl1" then ‖WithLp.toLp 2 (A *ᵥ x - b)‖ ^ 2
  else ∑ i, |x i|

/-- `x` solves the documented problem. -/
def IsL1Solution (formulation : String) (nonneg : Bool) (A : Matrix (Fin m) (Fin k) ℝ) (b : Fin m → ℝ) (l : ℝ)
    (x : Fin k → ℝ) : Prop :=
  L1Feasible formulation nonneg A b l x ∧
  ∀ y, L1Feasible formulation nonneg A b l y → L1Value formulation A b l x ≤ L1Value formulation A b l y

theorem sumSquares_eq (v : Fin m → ℝ) : sumSquares v = ‖WithLp.toLp 2 v‖ ^ 2 := by
  rw [EuclideanSpace.norm_sq_eq]
  simp [sumSquares]

theorem sqrt_sumSquares (v : Fin m → ℝ) : Real.sqrt (sumSquares v) = ‖WithLp.toLp 2 v‖ := by
  rw [sumSquares_eq, Real.sqrt_sq (norm_nonneg _)]

/-- **C63** (construction). Exactly the three documented formulations are accepted; other names raise
`ValueError`; without CVXPY the constructor raises `RuntimeError`. -/
theorem C63_init (m k : ℕ) (formulation : String) (nonneg : Bool) :
    ((∃ p, l1Init m k true formulation nonneg = .ok p) ↔
      formulation ∈ ["penalizedl1", "constrainedl1", "constrainedl2"]) ∧
    (formulation ∉ ["penalizedl1", "constrainedl1", "constrainedl2"] →
      l1Init m k true formulation nonneg = .error .valueError) ∧
    l1Init m k false formulation nonneg = .error .runtimeError := by
  refine ⟨?_, ?_, ?_⟩
  · by_cases h1 : formulation = "penalizedl1"
    · simp [l1Init, h1]
    by_cases h2 : formulation = "constrainedl1"
    · simp [l1Init, h2]
    by_cases h3 : formulation = "constrainedl2"
    · simp [l1Init, h3]
    simp [l1Init, h1, h2, h3]
  · intro h
    simp only [List.mem_cons, List.not_mem_nil, or_false, not_or] at h
    simp [l1Init, h.1, h.2.1, h.2.2]
  · simp [l1Init]

theorem l1Init_spec {formulation : String} {nonneg : Bool} {p : L1Problem m k}
    (hp : l1Init m k true formulation nonneg = .ok p) (A : Matrix (Fin m) (Fin k) ℝ) (b : Fin m → ℝ) (l : ℝ) :
    (∀ x, p.obj A b l x = L1Value formulation A b l x) ∧
    (∀ x, (∀ c ∈ p.cons.map fun c => c A b l, c x) ↔ L1Feasible formulation nonneg A b l x) := by
  have hmem := (C63_init m k formulation nonneg).1.1 ⟨p, hp⟩
  simp only [List.mem_cons, List.not_mem_nil, or_false] at hmem
  rcases hmem with rfl | rfl | rfl
  · simp [l1Init] at hp
    subst hp
    refine ⟨fun x => ?_, fun x => ?_⟩
    · simp only [L1Value, if_true, sumSquares_eq, norm1]; norm_num
    · cases nonneg <;> simp [L1Feasible]
  · simp [l1Init] at hp
    subst hp
    refine ⟨fun x => ?_, fun x => ?_⟩
    · simp [L1Value, sumSquares_eq]
    · cases nonneg <;> simp [L1Feasible, norm1]
  · simp [l1Init] at hp
    subst hp
    refine ⟨fun x => ?_, fun x => ?_⟩
    · simp [L1Value, norm1]
    · cases nonneg <;> simp [L1Feasible, sqrt_sumSquares]

/-- A call of `solve` in an arbitrary state of the problem object. -/
theorem solve_any_state {formulation : String} {nonneg : Bool} {p : L1Problem m k}
    (hp : l1Init m k true formulation nonneg = .ok p) (A : Matrix (Fin m) (Fin k) ℝ) (b : Fin m → ℝ) (l : ℝ) (hl : 0 ≤ l) :
    ∃ (f : (Fin k → ℝ) → ℝ) (cs : List ((Fin k → ℝ) → Prop)),
      (∀ x, f x = L1Value formulation A b l x) ∧
      (∀ x, (∀ c ∈ cs, c x) ↔ L1Feasible formulation nonneg A b l x) ∧
      ∀ (sv : CvxSolver (Fin k → ℝ)) (st : L1Params m k × sv.S),
        (∀ e s', sv.run st.2 f cs = (.raised e, s') → (p.solve sv st A b l).1 = .error e) ∧
        (∀ status x s', sv.run st.2 f cs = (.finished status x, s') → status ≠ "optimal" →
          (p.solve sv st A b l).1 = .ok 0) ∧
        (∀ x s', sv.run st.2 f cs = (.finished "optimal" x, s') →
          (p.solve sv st A b l).1 = .ok x ∧ IsL1Solution formulation nonneg A b l x) := by
  obtain ⟨h1, h2⟩ := l1Init_spec hp A b l
  refine ⟨p.obj A b l, p.cons.map fun c => c A b l, h1, h2, fun sv st => ?_⟩
  have hrun : p.solve sv st A b l =
      match sv.run st.2 (p.obj A b l) (p.cons.map fun c => c A b l) with
      | (.raised e, s) => (.error e, ({ A := some A, b := some b, l := some l }, s))
      | (.finished status x, s) => (.ok (if status ≠ "optimal" then 0 else x), ({ A := some A, b := some b, l := some l }, s)) := by
    unfold L1Problem.solve
    rw [dif_pos ⟨rfl, rfl⟩, dif_pos rfl, if_pos hl]
    rfl
  refine ⟨?_, ?_, ?_⟩
  · intro e s' h
    rw [hrun, h]
  · intro status x s' h hs
    rw [hrun, h]
    simp only [if_pos hs]
  · intro x s' h
    refine ⟨by rw [hrun, h]; simp, ?_⟩
    obtain ⟨g1, g2⟩ := sv.spec _ _ _ _ _ h
    refine ⟨(h2 x).1 g1, fun y hy => ?_⟩
    rw [← h1, ← h1]
    exact g2 y ((h2 y).2 hy)

/-- **C63** (calls on a reused object). Whatever calls were made before (including failing ones that leave
parameters half assigned) and whatever the solver remembers, `solve(A, b, l)` with `l ≥ 0` hands the solver
the documented problem for exactly these arguments; the result is the solver's exception, or all zeros if
the status is not `'optimal'`, or otherwise a solution of the documented problem for these arguments. -/
theorem C63_solve {formulation : String} {nonneg : Bool} {p : L1Problem m k}
    (hp : l1Init m k true formulation nonneg = .ok p) (A : Matrix (Fin m) (Fin k) ℝ) (b : Fin m → ℝ) (l : ℝ) (hl : 0 ≤ l) :
    ∃ (f : (Fin k → ℝ) → ℝ) (cs : List ((Fin k → ℝ) → Prop)),
      (∀ x, f x = L1Value formulation A b l x) ∧
      (∀ x, (∀ c ∈ cs, c x) ↔ L1Feasible formulation nonneg A b l x) ∧
      ∀ (sv : CvxSolver (Fin k → ℝ)) (s0 : sv.S) (calls : List L1Call),
        (∀ e s', sv.run (p.run sv s0 calls).2 f cs = (.raised e, s') →
          (p.solve sv (p.run sv s0 calls) A b l).1 = .error e) ∧
        (∀ status x s', sv.run (p.run sv s0 calls).2 f cs = (.finished status x, s') → status ≠ "optimal" →
          (p.solve sv (p.run sv s0 calls) A b l).1 = .ok 0) ∧
        (∀ x s', sv.run (p.run sv s0 calls).2 f cs = (.finished "optimal" x, s') →
          (p.solve sv (p.run sv s0 calls) A b l).1 = .ok x ∧ IsL1Solution formulation nonneg A b l x) := by
  obtain ⟨f, cs, h1, h2, h3⟩ := solve_any_state hp A b l hl
  exact ⟨f, cs, h1, h2, fun sv s0 calls => h3 sv _⟩

/-- A solver that succeeds on every problem that has a solution. -/
def _root_.Doa.CvxSolver.Complete {X : Type} (sv : CvxSolver X) : Prop :=
  ∀ s obj cons, (∃ x, (∀ c ∈ cons, c x) ∧ ∀ y, (∀ c ∈ cons, c y) → obj x ≤ obj y) →
    ∃ x s', sv.run s obj cons = (.finished "optimal" x, s')

/-- **C63** (memorylessness). If the documented problem has exactly one solution `x`, every solver that
does not fail on solvable problems makes `solve` return `x`, whatever the history of the object and the
state of the solver. -/
theorem C63_memoryless {formulation : String} {nonneg : Bool} {p : L1Problem m k}
    (hp : l1Init m k true formulation nonneg = .ok p) (A : Matrix (Fin m) (Fin k) ℝ) (b : Fin m → ℝ) {l : ℝ} (hl : 0 ≤ l)
    (x : Fin k → ℝ) (hx : ∀ y, IsL1Solution formulation nonneg A b l y ↔ y = x)
    (sv : CvxSolver (Fin k → ℝ)) (hsv : sv.Complete) (s0 : sv.S) (calls : List L1Call) :
    (p.solve sv (p.run sv s0 calls) A b l).1 = .ok x := by
  obtain ⟨f, cs, hf, hc, h⟩ := C63_solve hp A b l hl
  have hex : ∃ x, (∀ c ∈ cs, c x) ∧ ∀ y, (∀ c ∈ cs, c y) → f x ≤ f y := by
    obtain ⟨g1, g2⟩ := (hx x).2 rfl
    refine ⟨x, (hc x).2 g1, fun y hy => ?_⟩
    rw [hf, hf]
    exact g2 y ((hc y).1 hy)
  obtain ⟨y, s1, h1⟩ := hsv (p.run sv s0 calls).2 f cs hex
  obtain ⟨e1, e2⟩ := (h sv s0 calls).2.2 y s1 h1
  rw [e1, (hx y).1 e2]

/-- **C63** (when the solution is unique). The penalized problem has at most one solution if the
dictionary has linearly independent columns. -/
theorem C63_penalized_unique {A : Matrix (Fin m) (Fin k) ℝ} (hA : Function.Injective A.mulVec) (b : Fin m → ℝ) {l : ℝ}
    (hl : 0 ≤ l) (nonneg : Bool) (x y : Fin k → ℝ) (hx : IsL1Solution "penalizedl1" nonneg A b l x)
    (hy : IsL1Solution "penalizedl1" nonneg A b l y) : x = y := by
  by_contra hne
  let z : Fin k → ℝ := fun i => (x i + y i) / 2
  have hfeas : L1Feasible "penalizedl1" nonneg A b l z := by
    refine ⟨fun h => absurd h (by decide), fun h => absurd h (by decide), fun h i => ?_⟩
    have h1 := hx.1.2.2 h i
    have h2 := hy.1.2.2 h i
    simp only [z]; linarith
  have hz := hx.2 z hfeas
  have hxy := le_antisymm (hx.2 y hy.1) (hy.2 x hx.1)
  simp only [L1Value, if_true, ← sumSquares_eq] at hz hxy
  have hzv : A *ᵥ z - b = fun i => ((A *ᵥ x - b) i + (A *ᵥ y - b) i) / 2 := by
    have : z = (1 / 2 : ℝ) • (x + y) := by funext i; simp [z]; ring
    rw [this, mulVec_smul, mulVec_add]
    funext i; simp; ring
  have hd : ∃ i, (A *ᵥ x - b) i ≠ (A *ᵥ y - b) i := by
    by_contra h
    push Not at h
    exact hne (hA (by
      funext i
      have := h i
      simpa using this))
  have hsq : sumSquares (A *ᵥ z - b) < (sumSquares (A *ᵥ x - b) + sumSquares (A *ᵥ y - b)) / 2 := by
    rw [hzv]
    simp only [sumSquares]
    rw [← Finset.sum_add_distrib, Finset.sum_div]
    obtain ⟨i, hi⟩ := hd
    refine Finset.sum_lt_sum (fun j _ => ?_) ⟨i, Finset.mem_univ _, ?_⟩
    · nlinarith [sq_nonneg ((A *ᵥ x - b) j - (A *ᵥ y - b) j)]
    · have : 0 < ((A *ᵥ x - b) i - (A *ᵥ y - b) i) ^ 2 := by
        have := sub_ne_zero.2 hi
        positivity
      nlinarith
  have hn : ∑ i, |z i| ≤ (∑ i, |x i| + ∑ i, |y i|) / 2 := by
    rw [← Finset.sum_add_distrib, Finset.sum_div]
    refine Finset.sum_le_sum fun i _ => ?_
    simp only [z, abs_div, abs_two]
    have := abs_add_le (x i) (y i)
    linarith
  have := mul_le_mul_of_nonneg_left hn hl
  nlinarith

/-- **C63** (rejected arguments). Arguments of the wrong shape and a negative parameter raise
`ValueError`. -/
theorem C63_bad_arguments (p : L1Problem m k) (sv : CvxSolver (Fin k → ℝ)) (st : L1Params m k × sv.S) {r c t : ℕ}
    (A : Matrix (Fin r) (Fin c) ℝ) (b : Fin t → ℝ) (l : ℝ) (h : r ≠ m ∨ c ≠ k ∨ t ≠ m ∨ l < 0) :
    (p.solve sv st A b l).1 = .error .valueError := by
  unfold L1Problem.solve
  by_cases hA : r = m ∧ c = k
  · rw [dif_pos hA]
    by_cases hb : t = m
    · rw [dif_pos hb, if_neg]
      rcases h with h | h | h | h
      · exact absurd hA.1 h
      · exact absurd hA.2 h
      · exact absurd hb h
      · exact not_le.2 h
    · rw [dif_neg hb]
  · rw [dif_neg hA]

/-- The documented `l_{2,1}` problem. -/
def IsL21Solution (A : Matrix (Fin m) (Fin k) ℂ) (B : Matrix (Fin m) (Fin n) ℂ) (l : ℝ) (X : Matrix (Fin k) (Fin n) ℂ) : Prop :=
  ∀ Y : Matrix (Fin k) (Fin n) ℂ,
    1 / 2 * (∑ i, ∑ j, ‖(A * X - B) i j‖ ^ 2) + l * ∑ i, Real.sqrt (∑ j, ‖X i j‖ ^ 2) ≤
    1 / 2 * (∑ i, ∑ j, ‖(A * Y - B) i j‖ ^ 2) + l * ∑ i, Real.sqrt (∑ j, ‖Y i j‖ ^ 2)

theorem l21Obj_eq (A : Matrix (Fin m) (Fin k) ℂ) (B : Matrix (Fin m) (Fin n) ℂ) (l : ℝ) (X : Matrix (Fin k) (Fin n) ℂ) :
    l21Obj A B l X = 1 / 2 * (∑ i, ∑ j, ‖(A * X - B) i j‖ ^ 2) + l * ∑ i, Real.sqrt (∑ j, ‖X i j‖ ^ 2) := by
  unfold l21Obj froNorm vecNorm
  rw [Real.sq_sqrt (Finset.sum_nonneg fun i _ => Finset.sum_nonneg fun j _ => sq_nonneg _)]
  norm_num

/-- **C63** (`l_{2,1}` problem). The same for the group-sparse problem: in every state of the object, the
result is the solver's exception, zeros, or a solution of the documented problem for these arguments. -/
theorem C63_solve_l21 (A : Matrix (Fin m) (Fin k) ℂ) (B : Matrix (Fin m) (Fin n) ℂ) {l : ℝ} (hl : 0 ≤ l) :
    ∃ f : Matrix (Fin k) (Fin n) ℂ → ℝ, (∀ X, f X = 1 / 2 * (∑ i, ∑ j, ‖(A * X - B) i j‖ ^ 2) + l * ∑ i, Real.sqrt (∑ j, ‖X i j‖ ^ 2)) ∧
      ∀ (sv : CvxSolver (Matrix (Fin k) (Fin n) ℂ)) (st : L21Params m k n × sv.S),
        (∀ e s', sv.run st.2 f [] = (.raised e, s') → (l21Solve sv st A B l).1 = .error e) ∧
        (∀ status X s', sv.run st.2 f [] = (.finished status X, s') → status ≠ "optimal" →
          (l21Solve sv st A B l).1 = .ok 0) ∧
        (∀ X s', sv.run st.2 f [] = (.finished "optimal" X, s') →
          (l21Solve sv st A B l).1 = .ok X ∧ IsL21Solution A B l X) := by
  refine ⟨l21Obj A B l, l21Obj_eq A B l, fun sv st => ?_⟩
  have hrun : l21Solve sv st A B l =
      match sv.run st.2 (l21Obj A B l) [] with
      | (.raised e, s) => (.error e, ({ A := some A, B := some B, l := some l }, s))
      | (.finished status X, s) => (.ok (if status ≠ "optimal" then 0 else X), ({ A := some A, B := some B, l := some l }, s)) := by
    unfold l21Solve
    rw [dif_pos ⟨rfl, rfl⟩, dif_pos ⟨rfl, rfl⟩, if_pos hl]
    rfl
  refine ⟨?_, ?_, ?_⟩
  · intro e s' h
    rw [hrun, h]
  · intro status x s' h hs
    rw [hrun, h]
    simp only [if_pos hs]
  · intro X s' h
    refine ⟨by rw [hrun, h]; simp, fun Y => ?_⟩
    have := (sv.spec _ _ _ _ _ h).2 Y (by simp)
    rwa [l21Obj_eq, l21Obj_eq] at this

/-! ### The hypotheses can be met -/

/-- A solver that finds a minimizer if there is one, and otherwise reports `'infeasible'`. -/
noncomputable def idealSolver (X : Type) [Zero X] : CvxSolver X := by
  classical
  exact
  { S := Unit
    run := fun _ obj cons =>
      if h : ∃ x, (∀ c ∈ cons, c x) ∧ ∀ y, (∀ c ∈ cons, c y) → obj x ≤ obj y then (.finished "optimal" h.choose, ())
      else (.finished "infeasible" 0, ())
    spec := by
      intro s obj cons x s' h
      by_cases hx : ∃ x, (∀ c ∈ cons, c x) ∧ ∀ y, (∀ c ∈ cons, c y) → obj x ≤ obj y
      · rw [dif_pos hx] at h
        have := hx.choose_spec
        simp only [Prod.mk.injEq, SolveOutcome.finished.injEq, true_and, and_true] at h
        rw [h] at this
        exact this
      · rw [dif_neg hx] at h
        simp at h }

theorem idealSolver_complete {X : Type} [Zero X] : (idealSolver X).Complete := fun _ _ _ h =>
  ⟨h.choose, (), by simp only [idealSolver, dif_pos h]⟩

/-- `min 1/2 (x - 3)^2 + |x|` has the unique solution 2, which every complete solver returns, also after a
call that failed. -/
theorem C63_example (sv : CvxSolver (Fin 1 → ℝ)) (hsv : sv.Complete) (s0 : sv.S) :
    ∃ p : L1Problem 1 1, l1Init 1 1 true = .ok p ∧
      (p.solve sv (p.run sv s0 [⟨1, 1, 1, 5, fun _ => 7, -1⟩]) (1 : Matrix (Fin 1) (Fin 1) ℝ) (fun _ : Fin 1 => 3) 1).1 =
        .ok fun _ => 2 := by
  obtain ⟨p, hp⟩ := (C63_init 1 1 "penalizedl1" false).1.2 (by simp)
  refine ⟨p, hp, C63_memoryless hp 1 _ (by norm_num) _ ?_ sv hsv s0 _⟩
  have h2 : IsL1Solution "penalizedl1" false (1 : Matrix (Fin 1) (Fin 1) ℝ) (fun _ => 3) 1 fun _ => 2 := by
    refine ⟨⟨fun h => absurd h (by decide), fun h => absurd h (by decide), fun h => absurd h (by decide)⟩, fun y _ => ?_⟩
    simp only [L1Value, if_true, ← sumSquares_eq, sumSquares, one_mulVec]
    simp only [Fin.sum_univ_one, Pi.sub_apply]
    norm_num
    have := le_abs_self (y 0)
    nlinarith [sq_nonneg (y 0 - 2)]
  intro y
  constructor
  · intro hy
    exact C63_penalized_unique (by intro a b h; simpa using h) _ (by norm_num) false _ _ hy h2
  · rintro rfl; exact h2

example : (idealSolver (Fin 1 → ℝ)).Complete := idealSolver_complete

end Doa.Props
