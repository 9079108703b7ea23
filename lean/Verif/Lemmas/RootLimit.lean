import Verif.Props.RootMusicEstimate
import Verif.Lemmas.EspritLimit

/-!
# Spectral factorisation of the root-MUSIC polynomial, and its limit
-/

namespace Doa.Props

open Doa Doa.Spec Matrix Polynomial Filter Topology
open scoped ComplexOrder

variable {m k d : ℕ} {ι : Type*}

/-- The factor `(X - y) (1 - conj(y) X)`. -/
noncomputable def pairFactor (y : ℂ) : ℂ[X] := (X - C y) * (1 - C (star y) * X)

theorem pairFactor_eval (y w : ℂ) : (pairFactor y).eval w = (w - y) * (1 - star y * w) := by
  simp [pairFactor]

theorem pairFactor_ne_zero (y : ℂ) : pairFactor y ≠ 0 := by
  unfold pairFactor
  refine mul_ne_zero (X_sub_C_ne_zero y) fun h => ?_
  have := congrArg (fun p : ℂ[X] => p.eval 0) h
  simp at this

open Classical in
/-- On the circle the factor of a point of the closed disc vanishes only at that point, and then twice. -/
theorem pairFactor_mult {y ζ : ℂ} (hζ : ‖ζ‖ = 1) :
    (pairFactor y).rootMultiplicity ζ = if y = ζ then 2 else 0 := by
  have hz : ζ * star ζ = 1 := by
    rw [Complex.star_def, Complex.mul_conj, Complex.normSq_eq_norm_sq, hζ]; simp
  by_cases h : y = ζ
  · subst h
    rw [if_pos rfl]
    have : pairFactor y = C (-star y) * (X - C y) ^ 2 := by
      unfold pairFactor
      have : (1 : ℂ[X]) - C (star y) * X = C (-star y) * (X - C y) := by
        have h1 : (1 : ℂ[X]) = C (star y * y) := by rw [mul_comm, hz, C_1]
        rw [h1, C_mul, C_neg]; ring
      rw [this]; ring
    have hy : -star y ≠ 0 := by
      intro h
      have h0 : star y = 0 := neg_eq_zero.1 h
      rw [h0, mul_zero] at hz
      exact zero_ne_one hz
    rw [this, rootMultiplicity_mul (mul_ne_zero (C_ne_zero.2 hy) (pow_ne_zero _ (X_sub_C_ne_zero y))), rootMultiplicity_C,
      rootMultiplicity_X_sub_C_pow]
  · rw [if_neg h]
    apply rootMultiplicity_eq_zero
    rw [IsRoot.def, pairFactor_eval]
    intro h0
    rcases mul_eq_zero.1 h0 with h1 | h1
    · exact h (sub_eq_zero.1 h1).symm
    · apply h
      have h2 : star y * ζ = 1 := (sub_eq_zero.1 h1).symm
      have h3 : y * star ζ = 1 := by
        have := congrArg star h2
        simpa [mul_comm] using this
      calc y = y * (ζ * star ζ) := by rw [hz, mul_one]
        _ = (y * star ζ) * ζ := by ring
        _ = ζ := by rw [h3, one_mul]

open Classical in
/-- The roots inside the circle are zero and the reflections of those outside. -/
theorem inside_eq (hm : 1 ≤ m) (En : Matrix (Fin m) (Fin d) ℂ) :
    ((polyOf (rootCoeffs (noiseProjector En))).roots.filter fun x => ‖x‖ < 1) =
      Multiset.replicate (polyOf (rootCoeffs (noiseProjector En))).natTrailingDegree 0 +
        ((polyOf (rootCoeffs (noiseProjector En))).roots.filter fun x => 1 < ‖x‖).map fun x => 1 / star x := by
  set p := polyOf (rootCoeffs (noiseProjector En)) with hp
  have hzero : p.rootMultiplicity 0 = p.natTrailingDegree := rootMultiplicity_eq_natTrailingDegree'
  set O := p.roots.filter fun x => 1 < ‖x‖ with hO
  ext x
  rw [Multiset.count_add, Multiset.count_replicate, Multiset.count_filter, count_roots]
  by_cases hx0 : x = 0
  · subst hx0
    rw [if_pos (by simp), if_pos rfl, hzero, Multiset.count_eq_zero.2, add_zero]
    intro h
    obtain ⟨y, hy, hy2⟩ := Multiset.mem_map.1 h
    have : 1 < ‖y‖ := (Multiset.mem_filter.1 hy).2
    have hy0 : y = 0 := by simpa using hy2
    rw [hy0] at this
    norm_num at this
  · rw [if_neg (show ¬ (0 : ℂ) = x from fun h => hx0 h.symm), zero_add]
    have hinv : ∀ y : ℂ, 1 / star (1 / star y) = y := fun y => by simp
    have hinj : Function.Injective fun y : ℂ => 1 / star y := fun a b h => by
      have := congrArg (fun y : ℂ => 1 / star y) h
      simpa [hinv] using this
    have h4 : Multiset.count x (O.map fun y => 1 / star y) = Multiset.count (1 / star x) O := by
      conv_lhs => rw [← hinv x]
      exact Multiset.count_map_eq_count' _ O hinj _
    rw [h4, hO, Multiset.count_filter, count_roots, hp, C45_root_pairs hm En x hx0]
    have hn : ‖(1 / star x : ℂ)‖ = ‖x‖⁻¹ := by simp
    have hxpos : 0 < ‖x‖ := norm_pos_iff.2 hx0
    rw [hn]
    by_cases hlt : ‖x‖ < 1
    · rw [if_pos hlt, if_pos (one_lt_inv_iff₀.2 ⟨hxpos, hlt⟩)]
    · rw [if_neg hlt, if_neg (fun h => hlt (one_lt_inv_iff₀.1 h).2)]

open Classical in
/-- Spectral factorisation, if there are no roots on the circle. -/
theorem spectral_factor (hm : 1 ≤ m) (En : Matrix (Fin m) (Fin d) ℂ)
    (hcirc : ∀ ζ : ℂ, ‖ζ‖ = 1 → ¬ (polyOf (rootCoeffs (noiseProjector En))).IsRoot ζ) :
    ∃ c : ℂ, polyOf (rootCoeffs (noiseProjector En)) =
      C c * (((polyOf (rootCoeffs (noiseProjector En))).roots.filter fun x => ‖x‖ < 1).map pairFactor).prod := by
  set p := polyOf (rootCoeffs (noiseProjector En)) with hp
  have hI := inside_eq hm En
  rw [← hp] at hI
  set e := p.natTrailingDegree with he
  set O := p.roots.filter fun x => 1 < ‖x‖ with hO
  set I := p.roots.filter fun x => ‖x‖ < 1 with hIdef
  have hroots : p.roots = I + O := by
    ext x
    rw [Multiset.count_add, hIdef, hO, Multiset.count_filter, Multiset.count_filter]
    rcases lt_trichotomy ‖x‖ 1 with h | h | h
    · rw [if_pos h, if_neg (not_lt.2 h.le)]; simp
    · rw [if_neg (not_lt.2 h.ge), if_neg (not_lt.2 h.le), count_roots, rootMultiplicity_eq_zero (hcirc x h)]
    · rw [if_neg (not_lt.2 h.le), if_pos h]; simp
  have hsplit : p = C p.leadingCoeff * (p.roots.map fun a => X - C a).prod := 
    (C_leadingCoeff_mul_prod_multiset_X_sub_C (splits_iff_card_roots.1 (IsAlgClosed.splits p))).symm
  -- the factors `1 - conj(y) X`
  have hO1 : ((I.map fun y => (1 : ℂ[X]) - C (star y) * X)).prod =
      C ((O.map fun r => -(1 / r)).prod) * (O.map fun r => X - C r).prod := by
    rw [hI, Multiset.map_add, Multiset.prod_add, Multiset.map_replicate, Multiset.prod_replicate, Multiset.map_map]
    have h1 : ((1 : ℂ[X]) - C (star 0) * X) ^ e = 1 := by simp
    rw [h1, one_mul]
    have h2 : (O.map ((fun y : ℂ => (1 : ℂ[X]) - C (star y) * X) ∘ fun x => 1 / star x)) =
        O.map fun r => C (-(1 / r)) * (X - C r) := by
      refine Multiset.map_congr rfl fun r hr => ?_
      have hr1 : 1 < ‖r‖ := (Multiset.mem_filter.1 hr).2
      have hr0 : r ≠ 0 := by rintro rfl; norm_num at hr1
      simp only [Function.comp_apply]
      have h3 : star (1 / star r) = 1 / r := by simp
      rw [h3, mul_sub, ← C_mul, neg_mul, one_div_mul_cancel hr0, C_neg, C_neg, C_1]
      ring
    rw [h2, Multiset.prod_map_mul]
    congr 1
    have h9 := map_multiset_prod (C : ℂ →+* ℂ[X]) (O.map fun r => -(1 / r))
    rw [Multiset.map_map] at h9
    exact h9.symm
  have hO0 : (O.map fun r => -(1 / r)).prod ≠ 0 := by
    rw [Ne, Multiset.prod_eq_zero_iff]
    intro h
    obtain ⟨r, hr, h0⟩ := Multiset.mem_map.1 h
    have hr1 : 1 < ‖r‖ := (Multiset.mem_filter.1 hr).2
    have hr0 : r ≠ 0 := by rintro rfl; norm_num at hr1
    simp [hr0] at h0
  refine ⟨p.leadingCoeff * ((O.map fun r => -(1 / r)).prod)⁻¹, ?_⟩
  have hpair : (I.map pairFactor).prod = (I.map fun y => X - C y).prod * (I.map fun y => (1 : ℂ[X]) - C (star y) * X).prod := by
    rw [← Multiset.prod_map_mul]
    rfl
  rw [hpair, hO1]
  conv_lhs => rw [hsplit]
  rw [hroots, Multiset.map_add, Multiset.prod_add]
  have : (C (p.leadingCoeff * ((O.map fun r => -(1 / r)).prod)⁻¹) * C ((O.map fun r => -(1 / r)).prod) : ℂ[X]) = C p.leadingCoeff := by
    rw [← C_mul, mul_assoc, inv_mul_cancel₀ hO0, mul_one]
  rw [← this]
  ring

/-- There are more points on the circle than any finite family. -/
theorem exists_circle_ne {n : ℕ} (y : Fin n → ℂ) : ∃ ζ : ℂ, ‖ζ‖ = 1 ∧ ∀ i, ζ ≠ y i := by
  have h1 : (Metric.sphere (0 : ℂ) 1).Infinite := by
    have h2 : Set.Infinite (Set.range fun t : Set.Ioo (0 : ℝ) 1 => Complex.exp ((t.1 : ℝ) * Complex.I)) := by
      have : Infinite (Set.Ioo (0 : ℝ) 1) := Set.infinite_coe_iff.2 (Set.Ioo_infinite one_pos)
      refine Set.infinite_range_of_injective fun a b hab => ?_
      have h3 := congrArg Complex.arg hab
      have hpi := Real.pi_gt_three
      have ha := a.2
      have hb := b.2
      simp only [Complex.arg_exp_mul_I] at h3
      rw [(toIocMod_eq_self _).2, (toIocMod_eq_self _).2] at h3
      · exact Subtype.ext h3
      · constructor <;> [linarith [hb.1]; linarith [hb.2]]
      · constructor <;> [linarith [ha.1]; linarith [ha.2]]
    refine h2.mono ?_
    rintro _ ⟨t, rfl⟩
    simp [Complex.norm_exp_ofReal_mul_I]
  obtain ⟨ζ, hζ, hn⟩ := h1.exists_notMem_finset (Finset.univ.image y)
  refine ⟨ζ, by simpa using hζ, fun i h => hn ?_⟩
  rw [h]
  exact Finset.mem_image_of_mem _ (Finset.mem_univ _)

open Classical in
/-- Limits of spectral factorisations. The polynomials `p i → p0` have the factorisations `c i ∏ (X - y) (1 - conj(y) X)` with `|y| ≤ 1`,
the first `k` of the `y` being at least as close to the circle as the others; the roots of `p0` on the circle are `k` distinct double
roots. Then the first `k` of the `y` converge to these roots. -/
theorem factor_limit (f : Ultrafilter ι) {p : ι → ℂ[X]} {p0 : ℂ[X]} {n : ℕ} {c : ι → ℂ} {y : ι → Fin n → ℂ}
    (hp : ∀ w, Tendsto (fun i => (p i).eval w) f (𝓝 (p0.eval w)))
    (hfac : ∀ᶠ i in f, p i = C (c i) * ∏ j, pairFactor (y i j)) (hy : ∀ᶠ i in f, ∀ j, ‖y i j‖ ≤ 1)
    (hord : ∀ᶠ i in f, ∀ j j' : Fin n, j.1 < k → k ≤ j'.1 → ‖y i j'‖ ≤ ‖y i j‖) (hkn : k ≤ n)
    {z : Fin k → ℂ} (hz : Function.Injective z) (hz1 : ∀ c, ‖z c‖ = 1) (hp0 : p0 ≠ 0)
    (hcirc : ∀ ζ : ℂ, ‖ζ‖ = 1 → (p0.IsRoot ζ ↔ ∃ c, ζ = z c)) (h2 : ∀ c, p0.rootMultiplicity (z c) = 2) :
    ∃ π : Equiv.Perm (Fin k), ∀ j : Fin k, Tendsto (fun i => y i (Fin.castLE hkn j)) f (𝓝 (z (π j))) := by
  obtain ⟨y0, hy0⟩ := ultra_bounded_vec f y 1 hy
  have hyj : ∀ j, Tendsto (fun i => y i j) f (𝓝 (y0 j)) := fun j => tendsto_pi_nhds.1 hy0 j
  have hn1 : ∀ j, ‖y0 j‖ ≤ 1 := fun j => by
    refine le_of_tendsto (hyj j).norm ?_
    filter_upwards [hy] with i hi using hi j
  have hord0 : ∀ j j' : Fin n, j.1 < k → k ≤ j'.1 → ‖y0 j'‖ ≤ ‖y0 j‖ := fun j j' h1 h2 => by
    refine le_of_tendsto_of_tendsto (hyj j').norm (hyj j).norm ?_
    filter_upwards [hord] with i hi using hi j j' h1 h2
  -- products converge
  have hprod : ∀ w, Tendsto (fun i => ∏ j, (pairFactor (y i j)).eval w) f (𝓝 (∏ j, (pairFactor (y0 j)).eval w)) := by
    intro w
    refine tendsto_finsetProd _ fun j _ => ?_
    simp only [pairFactor_eval]
    exact (tendsto_const_nhds.sub (hyj j)).mul (tendsto_const_nhds.sub ((hyj j).star.mul_const w))
  obtain ⟨ζ, hζ, hζy⟩ := exists_circle_ne y0
  have hne : ∏ j, (pairFactor (y0 j)).eval ζ ≠ 0 := by
    rw [Finset.prod_ne_zero_iff]
    intro j _ h
    have := pairFactor_mult (y := y0 j) hζ
    rw [if_neg (fun h => hζy j h.symm)] at this
    have h3 : 0 < (pairFactor (y0 j)).rootMultiplicity ζ := (rootMultiplicity_pos (pairFactor_ne_zero _)).2 h
    omega
  set c0 := p0.eval ζ / ∏ j, (pairFactor (y0 j)).eval ζ with hc0
  have hc : Tendsto c f (𝓝 c0) := by
    refine ((hp ζ).div (hprod ζ) hne).congr' ?_
    have hne' : ∀ᶠ i in f, ∏ j, (pairFactor (y i j)).eval ζ ≠ 0 := (hprod ζ).eventually_ne hne
    filter_upwards [hfac, hne'] with i hi hi'
    rw [Pi.div_apply, hi, eval_mul, eval_C, eval_prod, mul_div_assoc, div_self hi', mul_one]
  have hp0f : p0 = C c0 * ∏ j, pairFactor (y0 j) := by
    refine Polynomial.funext fun w => ?_
    rw [eval_mul, eval_C, eval_prod]
    refine tendsto_nhds_unique (hp w) ?_
    refine (hc.mul (hprod w)).congr' ?_
    filter_upwards [hfac] with i hi
    rw [hi, eval_mul, eval_C, eval_prod]
  have hc00 : c0 ≠ 0 := by
    intro h
    rw [h, C_0, zero_mul] at hp0f
    exact hp0 hp0f
  have hcnt : ∀ ζ : ℂ, ‖ζ‖ = 1 → p0.rootMultiplicity ζ = 2 * (Finset.univ.filter fun j => y0 j = ζ).card := by
    intro ζ hζ
    have hPne : ∏ j, pairFactor (y0 j) ≠ 0 := Finset.prod_ne_zero_iff.2 fun j _ => pairFactor_ne_zero _
    rw [hp0f, rootMultiplicity_mul (mul_ne_zero (C_ne_zero.2 hc00) hPne), rootMultiplicity_C, zero_add]
    have hgen : ∀ S : Finset (Fin n), (∏ j ∈ S, pairFactor (y0 j)).rootMultiplicity ζ = 2 * (S.filter fun j => y0 j = ζ).card := by
      intro S
      induction S using Finset.induction_on with
      | empty => simp [rootMultiplicity_eq_zero]
      | insert a S ha ih =>
        rw [Finset.prod_insert ha, rootMultiplicity_mul (mul_ne_zero (pairFactor_ne_zero _)
          (Finset.prod_ne_zero_iff.2 fun j _ => pairFactor_ne_zero _)), ih, pairFactor_mult hζ, Finset.filter_insert]
        by_cases h : y0 a = ζ
        · rw [if_pos h, if_pos h, Finset.card_insert_of_notMem (by simp [ha])]; ring
        · rw [if_neg h, if_neg h, zero_add]
    exact hgen Finset.univ
  -- exactly one `y0` for every root on the circle
  have hone : ∀ c, (Finset.univ.filter fun j => y0 j = z c).card = 1 := fun c => by
    have := hcnt (z c) (hz1 c)
    rw [h2 c] at this
    omega
  have hcirc' : ∀ j, ‖y0 j‖ = 1 → ∃ c, y0 j = z c := fun j hj => by
    have h3 := hcnt (y0 j) hj
    have h4 : 0 < (Finset.univ.filter fun j' => y0 j' = y0 j).card := Finset.card_pos.2 ⟨j, by simp⟩
    exact (hcirc _ hj).1 ((rootMultiplicity_pos hp0).1 (by omega))
  choose g hg using fun c => Finset.card_eq_one.1 (hone c)
  have hg1 : ∀ c, y0 (g c) = z c := fun c => by
    have : g c ∈ Finset.univ.filter fun j => y0 j = z c := by rw [hg]; simp
    simpa using this
  have hg2 : ∀ c j, y0 j = z c → j = g c := fun c j h => by
    have : j ∈ Finset.univ.filter fun j => y0 j = z c := by simpa using h
    rw [hg] at this
    simpa using this
  have hginj : Function.Injective g := fun a b h => hz (by rw [← hg1 a, ← hg1 b, h])
  -- all of them among the first `k`
  have hfirst : ∀ j : Fin n, j.1 < k → ‖y0 j‖ = 1 := by
    intro j hj
    by_contra hlt
    have hlt' : ‖y0 j‖ < 1 := lt_of_le_of_ne (hn1 j) hlt
    have hgk : ∀ c, (g c).1 < k ∧ g c ≠ j := fun c => by
      refine ⟨?_, fun h => ?_⟩
      · by_contra hge
        have := hord0 j (g c) hj (not_lt.1 hge)
        rw [hg1, hz1] at this
        linarith
      · rw [← h, hg1, hz1] at hlt'
        exact lt_irrefl _ hlt'
    have hcard := Fintype.card_le_of_injective (fun c => (⟨⟨(g c).1, (hgk c).1⟩, fun h => (hgk c).2 (Fin.ext (by simpa using h))⟩ : {x : Fin k // x ≠ ⟨j.1, hj⟩}))
      (fun a b h => hginj (Fin.ext (by simpa using h)))
    rw [Fintype.card_fin, Fintype.card_subtype_compl, Fintype.card_fin, Fintype.card_subtype_eq] at hcard
    omega
  choose π hπ using fun j : Fin k => hcirc' (Fin.castLE hkn j) (hfirst _ j.2)
  have hπinj : Function.Injective π := fun a b h => by
    have h3 := hg2 _ _ (hπ a)
    have h4 := hg2 _ _ (hπ b)
    rw [h, ← h4] at h3
    exact Fin.ext (by simpa using congrArg Fin.val h3)
  refine ⟨Equiv.ofBijective π (Finite.injective_iff_bijective.1 hπinj), fun j => ?_⟩
  rw [Equiv.ofBijective_apply, ← hπ j]
  exact hyj _

end Doa.Props
