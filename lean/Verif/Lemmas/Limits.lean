import Mathlib.Analysis.Complex.Polynomial.Basic
import Mathlib.LinearAlgebra.Matrix.Gershgorin
import Mathlib.Topology.Instances.Matrix
import Mathlib.Order.Filter.Ultrafilter.Basic
import Mathlib.Analysis.SpecialFunctions.Complex.Arg
import Verif.Lemmas.Esprit
import Verif.Props.Sources

/-!
# Limits of the outputs of the numerical routines

What `eigh`, `eigvals`, `solve` and `from_z` can return for inputs that converge: along an
ultrafilter, the outputs converge to something the routine could return for the limit.
-/

namespace Doa

open Matrix Doa.Props Doa.Spec Filter Topology
open scoped ComplexOrder

variable {ι : Type*} {m k : ℕ}

/-- Products of converging matrices. -/
theorem tendsto_matMul {p q r : ℕ} {f : Filter ι} {A : ι → Matrix (Fin p) (Fin q) ℂ}
    {B : ι → Matrix (Fin q) (Fin r) ℂ} {A0 B0} (hA : Tendsto A f (𝓝 A0)) (hB : Tendsto B f (𝓝 B0)) :
    Tendsto (fun i => A i * B i) f (𝓝 (A0 * B0)) := by
  refine tendsto_pi_nhds.2 fun a => tendsto_pi_nhds.2 fun b => ?_
  simp only [Matrix.mul_apply]
  refine tendsto_finsetSum _ fun j _ => ?_
  exact ((tendsto_pi_nhds.1 ((tendsto_pi_nhds.1 hA) a)) j).mul
    ((tendsto_pi_nhds.1 ((tendsto_pi_nhds.1 hB) j)) b)

theorem tendsto_conjTranspose {p q : ℕ} {f : Filter ι} {A : ι → Matrix (Fin p) (Fin q) ℂ} {A0}
    (hA : Tendsto A f (𝓝 A0)) : Tendsto (fun i => (A i)ᴴ) f (𝓝 A0ᴴ) := by
  refine tendsto_pi_nhds.2 fun a => tendsto_pi_nhds.2 fun b => ?_
  simp only [conjTranspose_apply]
  exact ((tendsto_pi_nhds.1 ((tendsto_pi_nhds.1 hA) b)) a).star

/-- Along an ultrafilter a function into a finite type is constant. -/
theorem ultra_const {α : Type*} [Finite α] (f : Ultrafilter ι) (g : ι → α) :
    ∃ a, ∀ᶠ i in f, g i = a := by
  obtain ⟨a, ha⟩ := Ultrafilter.eq_pure_of_finite (f.map g)
  refine ⟨a, ?_⟩
  have h1 : ({a} : Set α) ∈ f.map g := by rw [ha]; exact Ultrafilter.mem_pure.2 rfl
  exact h1

/-- Along an ultrafilter a bounded matrix-valued function converges. -/
theorem ultra_bounded {p q : ℕ} (f : Ultrafilter ι) (g : ι → Matrix (Fin p) (Fin q) ℂ) (C : ℝ)
    (h : ∀ᶠ i in f, ∀ r c, ‖g i r c‖ ≤ C) : ∃ g0, Tendsto g f (𝓝 g0) := by
  have hK : IsCompact (Set.univ.pi fun _ : Fin p => Set.univ.pi fun _ : Fin q =>
      Metric.closedBall (0 : ℂ) C) :=
    isCompact_univ_pi fun _ => isCompact_univ_pi fun _ => isCompact_closedBall _ _
  obtain ⟨g0, _, hg⟩ := hK.ultrafilter_le_nhds (f.map g) (by
    rw [le_principal_iff]
    show ∀ᶠ i in (f : Filter ι), g i ∈ _
    filter_upwards [h] with i hi
    intro r _ c _
    simpa using hi r c)
  exact ⟨g0, hg⟩

theorem ultra_bounded_vec {p : ℕ} (f : Ultrafilter ι) (g : ι → Fin p → ℂ) (C : ℝ)
    (h : ∀ᶠ i in f, ∀ r, ‖g i r‖ ≤ C) : ∃ g0, Tendsto g f (𝓝 g0) := by
  have hK : IsCompact (Set.univ.pi fun _ : Fin p => Metric.closedBall (0 : ℂ) C) :=
    isCompact_univ_pi fun _ => isCompact_closedBall _ _
  obtain ⟨g0, _, hg⟩ := hK.ultrafilter_le_nhds (f.map g) (by
    rw [le_principal_iff]
    show ∀ᶠ i in (f : Filter ι), g i ∈ _
    filter_upwards [h] with i hi
    intro r _
    simpa using hi r)
  exact ⟨g0, hg⟩

/-- Entries of a matrix with orthonormal columns are at most 1 in modulus. -/
theorem entry_le_one {p q : ℕ} {E : Matrix (Fin p) (Fin q) ℂ} (h : Eᴴ * E = 1) (r : Fin p) (c : Fin q) :
    ‖E r c‖ ≤ 1 := by
  have h1 := congrFun (congrFun h c) c
  rw [Matrix.mul_apply, one_apply_eq] at h1
  have h2 : ∑ i, ‖E i c‖ ^ 2 = 1 := by
    have h3 : ((∑ i, ‖E i c‖ ^ 2 : ℝ) : ℂ) = 1 := by
      rw [← h1]
      push_cast
      refine Finset.sum_congr rfl fun i _ => ?_
      rw [conjTranspose_apply, Complex.star_def, mul_comm, Complex.mul_conj, Complex.normSq_eq_norm_sq]
      push_cast; rfl
    exact_mod_cast h3
  have h4 : ‖E r c‖ ^ 2 ≤ 1 := by
    rw [← h2]
    exact Finset.single_le_sum (f := fun i => ‖E i c‖ ^ 2) (fun i _ => by positivity) (Finset.mem_univ r)
  nlinarith [norm_nonneg (E r c)]

/-- Eigendecompositions of converging matrices converge, along an ultrafilter, to an
eigendecomposition of the limit. -/
theorem eigh_limit (f : Ultrafilter ι) {R : ι → Matrix (Fin m) (Fin m) ℂ} {w : ι → Fin m → ℝ}
    {E : ι → Matrix (Fin m) (Fin m) ℂ} {R0 : Matrix (Fin m) (Fin m) ℂ} (hR : Tendsto R f (𝓝 R0))
    (h : ∀ᶠ i in f, IsEigh (R i) (w i) (E i)) :
    ∃ w0 E0, IsEigh R0 w0 E0 ∧ Tendsto w f (𝓝 w0) ∧ Tendsto E f (𝓝 E0) := by
  obtain ⟨E0, hE⟩ := ultra_bounded f E 1 (by
    filter_upwards [h] with i hi r c using entry_le_one hi.orth r c)
  have hw1 : ∀ᶠ i in f, w i = fun j => (((E i)ᴴ * (R i * E i)) j j).re := by
    filter_upwards [h] with i hi
    funext j
    rw [hi.eig, ← Matrix.mul_assoc, hi.orth, Matrix.one_mul, diagonal_apply_eq, Complex.ofReal_re]
  have hcont : Tendsto (fun i => (E i)ᴴ * (R i * E i)) f (𝓝 (E0ᴴ * (R0 * E0))) := by
    exact tendsto_matMul (tendsto_conjTranspose hE) (tendsto_matMul hR hE)
  set w0 : Fin m → ℝ := fun j => ((E0ᴴ * (R0 * E0)) j j).re with hw0
  have hw : Tendsto w f (𝓝 w0) := by
    refine Tendsto.congr' (f₁ := fun i j => (((E i)ᴴ * (R i * E i)) j j).re) ?_ ?_
    · filter_upwards [hw1] with i hi using hi.symm
    · rw [tendsto_pi_nhds]
      intro j
      exact (Complex.continuous_re.tendsto _).comp
        ((tendsto_pi_nhds.1 ((tendsto_pi_nhds.1 hcont) j)) j)
  refine ⟨w0, E0, ⟨?_, ?_, ?_⟩, hw, hE⟩
  · intro a b hab
    refine le_of_tendsto_of_tendsto ((tendsto_pi_nhds.1 hw) a) ((tendsto_pi_nhds.1 hw) b) ?_
    filter_upwards [h] with i hi using hi.mono hab
  · refine tendsto_nhds_unique (tendsto_matMul (tendsto_conjTranspose hE) hE) ?_
    refine Tendsto.congr' (f₁ := fun _ => 1) ?_ tendsto_const_nhds
    filter_upwards [h] with i hi using hi.orth.symm
  · refine tendsto_nhds_unique (tendsto_matMul hR hE) ?_
    have hd : Tendsto (fun i => (diagonal fun j => (w i j : ℂ) : Matrix (Fin m) (Fin m) ℂ)) f
        (𝓝 (diagonal fun j => (w0 j : ℂ))) := by
      refine tendsto_pi_nhds.2 fun a => tendsto_pi_nhds.2 fun b => ?_
      simp only [diagonal_apply]
      split_ifs
      · exact (Complex.continuous_ofReal.tendsto _).comp ((tendsto_pi_nhds.1 hw) a)
      · exact tendsto_const_nhds
    refine Tendsto.congr' (f₁ := fun i => E i * diagonal fun j => (w i j : ℂ)) ?_ (tendsto_matMul hE hd)
    filter_upwards [h] with i hi using hi.eig.symm

/-- Solutions of converging linear systems with a nonsingular limit. -/
theorem solve_limit (f : Filter ι) {M B : ι → Matrix (Fin k) (Fin k) ℂ} {M0 B0 : Matrix (Fin k) (Fin k) ℂ}
    (hM : Tendsto M f (𝓝 M0)) (hB : Tendsto B f (𝓝 B0)) (h0 : IsUnit M0.det) :
    (∀ᶠ i in f, npSolve (M i) (B i) = .ok ((M i)⁻¹ * B i)) ∧
      Tendsto (fun i => (M i)⁻¹ * B i) f (𝓝 (M0⁻¹ * B0)) := by
  have hdet : Tendsto (fun i => (M i).det) f (𝓝 M0.det) :=
    ((Continuous.matrix_det continuous_id).tendsto M0).comp hM
  constructor
  · filter_upwards [hdet.eventually_ne h0.ne_zero] with i hi
    unfold npSolve
    rw [if_pos (isUnit_iff_ne_zero.2 hi)]
  · have h1 : Tendsto (fun i => (M i)⁻¹) f (𝓝 M0⁻¹) := by
      have h2 : ∀ A : Matrix (Fin k) (Fin k) ℂ, A⁻¹ = (A.det)⁻¹ • A.adjugate := by
        intro A
        rw [Matrix.inv_def, Ring.inverse_eq_inv']
      simp only [h2]
      exact (hdet.inv₀ h0.ne_zero).smul
        (((Continuous.matrix_adjugate continuous_id).tendsto M0).comp hM)
    exact tendsto_matMul h1 hB

/-- The eigenvalues returned by `eigvals` are bounded by the sum of the moduli of the entries. -/
theorem eigvals_bound (ev : NpEigvals) (M : Matrix (Fin k) (Fin k) ℂ) (i : Fin k) :
    ‖ev.run M i‖ ≤ ∑ r, ∑ c, ‖M r c‖ := by
  have h1 : ev.run M i ∈ M.charpoly.roots := by
    rw [← ev.spec M]
    exact Multiset.mem_map_of_mem _ (Finset.mem_univ i)
  have h2 : M.charpoly.IsRoot (ev.run M i) := Polynomial.isRoot_of_mem_roots h1
  have h3 : Module.End.HasEigenvalue (Matrix.toLin' M) (ev.run M i) := by
    rw [Module.End.hasEigenvalue_iff_isRoot_charpoly, Matrix.charpoly_toLin']
    exact h2
  obtain ⟨r, hr⟩ := eigenvalue_mem_ball h3
  rw [Metric.mem_closedBall, dist_eq_norm] at hr
  have h4 : ‖ev.run M i‖ ≤ ∑ c, ‖M r c‖ := by
    rw [← Finset.add_sum_erase _ _ (Finset.mem_univ r)]
    calc ‖ev.run M i‖ = ‖M r r + (ev.run M i - M r r)‖ := by congr 1; ring
      _ ≤ _ := norm_add_le _ _
      _ ≤ _ := by linarith
  exact h4.trans (Finset.single_le_sum (f := fun r => ∑ c, ‖M r c‖)
    (fun r _ => Finset.sum_nonneg fun c _ => norm_nonneg _) (Finset.mem_univ r))

/-- The tuple returned by `eigvals` factors the characteristic polynomial. -/
theorem eigvals_prod (ev : NpEigvals) (M : Matrix (Fin k) (Fin k) ℂ) :
    ∏ i, (Polynomial.X - Polynomial.C (ev.run M i)) = M.charpoly := by
  have h1 := (IsAlgClosed.splits M.charpoly).eq_prod_roots_of_monic (charpoly_monic M)
  rw [← ev.spec M, Multiset.map_map] at h1
  exact h1.symm

/-- Eigenvalues of converging matrices converge, along an ultrafilter, to the eigenvalues of the
limit, counted with multiplicity. -/
theorem eigvals_limit (f : Ultrafilter ι) (ev : ι → NpEigvals) {M : ι → Matrix (Fin k) (Fin k) ℂ}
    {M0 : Matrix (Fin k) (Fin k) ℂ} (hM : Tendsto M f (𝓝 M0)) :
    ∃ v0 : Fin k → ℂ, Tendsto (fun i => (ev i).run (M i)) f (𝓝 v0) ∧
      Multiset.map v0 Finset.univ.val = M0.charpoly.roots := by
  have hb : Tendsto (fun i => ∑ r, ∑ c, ‖M i r c‖) f (𝓝 (∑ r, ∑ c, ‖M0 r c‖)) := by
    have c1 : Continuous fun N : Matrix (Fin k) (Fin k) ℂ => ∑ r, ∑ c, ‖N r c‖ := by fun_prop
    exact (c1.tendsto M0).comp hM
  obtain ⟨v0, hv⟩ := ultra_bounded_vec f (fun i => (ev i).run (M i)) (∑ r, ∑ c, ‖M0 r c‖ + 1) (by
    filter_upwards [hb.eventually_le_const (lt_add_one _)] with i hi r
    exact ((ev i).run (M i) r |> fun _ => eigvals_bound (ev i) (M i) r).trans hi)
  refine ⟨v0, hv, ?_⟩
  have hp : ∏ i, (Polynomial.X - Polynomial.C (v0 i)) = M0.charpoly := by
    apply Polynomial.funext
    intro x
    rw [Polynomial.eval_prod, Matrix.eval_charpoly]
    simp only [Polynomial.eval_sub, Polynomial.eval_X, Polynomial.eval_C]
    have h1 : Tendsto (fun i => ∏ j, (x - (ev i).run (M i) j)) f (𝓝 (∏ j, (x - v0 j))) := by
      refine tendsto_finsetProd _ fun j _ => ?_
      exact tendsto_const_nhds.sub ((tendsto_pi_nhds.1 hv) j)
    refine tendsto_nhds_unique h1 ?_
    have c1 : Continuous fun N : Matrix (Fin k) (Fin k) ℂ => (scalar (Fin k) x - N).det := by fun_prop
    refine Tendsto.congr (fun i => ?_) ((c1.tendsto M0).comp hM)
    have h2 := congrArg (Polynomial.eval x) (eigvals_prod (ev i) (M i))
    rw [Polynomial.eval_prod, Matrix.eval_charpoly] at h2
    simp only [Polynomial.eval_sub, Polynomial.eval_X, Polynomial.eval_C] at h2
    exact h2.symm
  rw [← hp]
  have h3 := Polynomial.roots_multiset_prod_X_sub_C (Multiset.map v0 Finset.univ.val)
  rw [Multiset.map_map] at h3
  exact h3.symm

end Doa
