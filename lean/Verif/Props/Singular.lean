import Mathlib.LinearAlgebra.Matrix.Rank
import Verif.Props.SourceNumber
import Verif.Props.Signals

/-!
# Source number detection with singular and indefinite covariance matrices: C93
-/

namespace Doa.Props

open Doa Doa.Spec Finset Matrix
open scoped ComplexOrder

/-- If the first NaN is at position `r`, `np.argmin` returns `r`. -/
theorem argminRes_nan (v : ℕ → NpFloat) {n r : ℕ} (hr : r < n) (hv : v r = none) (hb : ∀ i < r, v i ≠ none) :
    argminRes (.ok ((List.range n).map v)) = .ok r := by
  have hmem : none ∈ (List.range n).map v := List.mem_map.2 ⟨r, List.mem_range.2 hr, hv⟩
  have hidx : ((List.range n).map v).idxOf none = r := by
    have hlt := List.idxOf_lt_length_of_mem hmem
    have hget := List.getElem_idxOf hlt
    rw [List.getElem_map, List.getElem_range] at hget
    rcases Nat.lt_trichotomy (((List.range n).map v).idxOf none) r with h | h | h
    · exact absurd hget (hb _ h)
    · exact h
    · have h2 := List.not_of_lt_findIdx (p := (· == none)) (xs := (List.range n).map v) h
      rw [List.getElem_map, List.getElem_range] at h2
      simp [hv] at h2
  have e : npArgmin ((List.range n).map v) = some r := by rw [npArgmin, if_pos hmem, hidx]
  show (match npArgmin _ with | none => _ | some i => _) = _
  rw [e]

/-- A detector whose statistics are `v` with the first NaN at `r`. -/
theorem detectors_nan (f : EigvalshFn) {l : List ℝ} {N : ℕ} (hN : 1 ≤ N) (v : ℕ → NpFloat) (hv : ∀ i < l.length, ldStat l i N = .ok (v i))
    {r : ℕ} (hr : r < l.length) (h0 : v r = none) (hb : ∀ i < r, v i ≠ none) :
    aic f (.vec l) N = .ok r ∧ mdl f (.vec l) N = .ok r := by
  constructor
  · rw [aic, aicVec, mapM_ok_map _ (fun i => npAdd (v i) ((i : ℝ) * (2 * (l.length : ℝ) - (i : ℝ)))) _ fun i hi => by
      rw [hv i (List.mem_range.1 hi)]; rfl]
    exact argminRes_nan _ hr (by rw [h0]; rfl) fun i hi => by simpa [npAdd] using hb i hi
  · rw [mdl, mdlVec, mapM_ok_map _ (fun i => npAdd (v i) ((1 / 2) * ((i : ℝ) * (2 * (l.length : ℝ) - (i : ℝ)) + 1) * Real.log N)) _ fun i hi => by
      simp only [if_neg (by omega : ¬ N = 0)]
      rw [hv i (List.mem_range.1 hi)]; rfl]
    exact argminRes_nan _ hr (by rw [h0]; rfl) fun i hi => by simpa [npAdd] using hb i hi

theorem take_sum (l : List ℝ) {d : ℕ} (hd : d ≤ l.length) : (l.take d).sum = ∑ j ∈ range d, eigAt l j := by
  simpa using take_sum_eq id l d hd

/-- `l` lists the eigenvalues of a positive semidefinite matrix of rank `r`: the `m - r` smallest ones vanish, the others are positive. -/
structure RankList (l : List ℝ) (r : ℕ) : Prop where
  lt : r < l.length
  zero : ∀ j < l.length - r, eigAt l j = 0
  pos : ∀ j < l.length, l.length - r ≤ j → 0 < eigAt l j

/-- **C93** (eigenvalues). If the `m - r` smallest eigenvalues vanish and the `r` largest are positive, `aic` and `mdl` return `r`. -/
theorem C93_eigenvalues (f : EigvalshFn) {l : List ℝ} {r : ℕ} (h : RankList l r) {N : ℕ} (hN : 1 ≤ N) :
    aic f (.vec l) N = .ok r ∧ mdl f (.vec l) N = .ok r := by
  have hlt := h.lt
  have hp : ∀ i < l.length, (l.take (l.length - i)).prod = 0 := by
    intro i hi
    apply List.prod_eq_zero
    have h0 := h.zero 0 (by omega)
    rw [eigAt, List.getD_eq_getElem?_getD, List.getElem?_eq_getElem (by omega)] at h0
    simp only [Option.getD_some] at h0
    rw [← h0]
    exact List.mem_take_iff_getElem.2 ⟨0, by omega, rfl⟩
  have hroot : ∀ i < l.length, npRoot 0 (l.length - i) = some 0 := by
    intro i hi
    have : ((l.length - i : ℕ) : ℝ) ≠ 0 := by exact_mod_cast (by omega : l.length - i ≠ 0)
    rw [npRoot, if_neg (by simp), Real.zero_rpow (by positivity)]
  refine detectors_nan f hN (fun i => if i < r then some ⊤ else none) (fun i hi => ?_) h.lt (by simp) fun i hi => by simp [hi]
  have hd : (0 : ℝ) < ((l.length - i : ℕ) : ℝ) := by exact_mod_cast (by omega : 0 < l.length - i)
  rw [ldStat_def l N hi, hp i hi, hroot i hi, Option.bind_some, npDiv, if_pos rfl, take_sum l (by omega)]
  by_cases hir : i < r
  · have hs : 0 < ∑ j ∈ range (l.length - i), eigAt l j := by
      refine sum_pos' (fun j hj => ?_) ⟨l.length - r, mem_range.2 (by omega), h.pos _ (by omega) le_rfl⟩
      by_cases hjr : j < l.length - r
      · exact (h.zero j hjr).ge
      · exact (h.pos j (by have := mem_range.1 hj; omega) (by omega)).le
    have hq := div_pos hs hd
    rw [if_neg hq.ne', if_pos hq, if_pos hir]
    have hc : (0 : ℝ) < N * ((l.length - i : ℕ) : ℝ) := mul_pos (by exact_mod_cast hN) hd
    rw [mathLog, if_pos rfl]
    show Except.ok (npScale _ (some ⊤)) = _
    rw [npScale, if_neg fun h => hc.ne' h.1, EReal.coe_mul_top_of_pos hc]
  · rw [if_neg hir, sum_eq_zero fun j hj => h.zero j (by have := mem_range.1 hj; omega), zero_div, if_pos rfl]
    rfl

/-- The hypothesis is met by the eigenvalues of a rank-one matrix. -/
example : RankList [0, 0, 7] 1 := by
  refine ⟨by norm_num, fun j hj => ?_, fun j hj h1 => ?_⟩
  · have : j < 2 := hj
    interval_cases j <;> rfl
  · have hj' : j < 3 := hj
    have h1' : 2 ≤ j := h1
    interval_cases j
    norm_num [eigAt]

/-- The sorted eigenvalues of a positive semidefinite matrix of rank `r < m`. -/
theorem rankList_of_posSemidef {f : EigvalshFn} (hf : f.Spec) {m : ℕ} {R : Matrix (Fin m) (Fin m) ℂ} (hR : R.PosSemidef) (hr : R.rank < m) :
    RankList (List.ofFn (f.run m R)) R.rank := by
  obtain ⟨E, hE⟩ := hf m R hR.isHermitian
  generalize f.run m R = w at hE
  have hEE : E * Eᴴ = 1 := mul_eq_one_comm.1 hE.orth
  have hu : IsUnit E.det := by
    have := congrArg det hE.orth
    rw [det_mul, det_one] at this
    exact IsUnit.of_mul_eq_one _ (by rw [mul_comm]; exact this)
  have hrank : R.rank = Fintype.card {i // (w i : ℂ) ≠ 0} := by
    rw [← rank_diagonal, ← rank_mul_eq_left_of_isUnit_det E R hu, hE.eig, rank_mul_eq_right_of_isUnit_det E _ hu]
  have hnn : ∀ i, 0 ≤ w i := by
    intro i
    have hd : Eᴴ * R * E = diagonal fun j => (w j : ℂ) := by
      rw [Matrix.mul_assoc, hE.eig, ← Matrix.mul_assoc, hE.orth, Matrix.one_mul]
    have := (hR.conjTranspose_mul_mul_same E).diag_nonneg (i := i)
    rw [hd, diagonal_apply_eq] at this
    exact_mod_cast this
  have hcard : R.rank = (univ.filter fun i : Fin m => w i ≠ 0).card := by
    rw [hrank, Fintype.card_subtype]
    congr 1
    ext i
    simp
  -- `w` is monotone, so the nonzero entries are the last ones
  have hup : ∀ i : Fin m, w i ≠ 0 → m - R.rank ≤ i := by
    intro i hi
    have hsub : Finset.Ici i ⊆ univ.filter fun i : Fin m => w i ≠ 0 := fun j hj =>
      mem_filter.2 ⟨mem_univ _, (lt_of_lt_of_le (lt_of_le_of_ne (hnn i) (Ne.symm hi)) (hE.mono (mem_Ici.1 hj))).ne'⟩
    have := card_le_card hsub
    rw [Fin.card_Ici, ← hcard] at this
    omega
  have hlow : ∀ i : Fin m, w i = 0 → (i : ℕ) < m - R.rank := by
    intro i hi
    have hsub : Finset.Iic i ⊆ univ.filter fun i : Fin m => w i = 0 := fun j hj =>
      mem_filter.2 ⟨mem_univ _, le_antisymm (hi ▸ hE.mono (mem_Iic.1 hj)) (hnn j)⟩
    have h1 := card_le_card hsub
    have h2 := card_filter_add_card_filter_not (s := (univ : Finset (Fin m))) fun i => w i = 0
    have h3 : (univ.filter fun i : Fin m => ¬ w i = 0).card = R.rank := hcard.symm
    rw [Fin.card_Iic] at h1
    rw [h3, card_univ, Fintype.card_fin] at h2
    omega
  refine ⟨by simpa using hr, fun j hj => ?_, fun j hj hj2 => ?_⟩
  · rw [List.length_ofFn] at hj
    rw [eigAt_ofFn w (by omega)]
    by_contra h0
    have := hup _ h0
    simp only at this
    omega
  · rw [List.length_ofFn] at hj hj2
    rw [eigAt_ofFn w hj]
    refine lt_of_le_of_ne (hnn _) fun h0 => ?_
    have := hlow _ h0.symm
    simp only at this
    omega

/-- **C93** (covariance matrix). For a positive semidefinite matrix that is not invertible, `aic` and `mdl` return its rank, whatever the
number of snapshots. -/
theorem C93_rank {f : EigvalshFn} (hf : f.Spec) {m : ℕ} {R : Matrix (Fin m) (Fin m) ℂ} (hR : R.PosSemidef) (hr : R.rank < m) {N : ℕ} (hN : 1 ≤ N) :
    aic f (.mat m R) N = .ok R.rank ∧ mdl f (.mat m R) N = .ok R.rank :=
  C93_eigenvalues f (rankList_of_posSemidef hf hR hr) hN

theorem rank_of_injective {m k : ℕ} {A : Matrix (Fin m) (Fin k) ℂ} (hA : Function.Injective A.mulVec) : A.rank = k := by
  rw [rank, LinearMap.finrank_range_of_inj (by rw [coe_mulVecLin]; exact hA)]
  simp

/-- **C93** (noise-free covariance). For `A P Aᴴ` with linearly independent steering vectors and a positive definite source covariance,
fewer sources than sensors, both detectors return the number of sources. -/
theorem C93_noise_free {f : EigvalshFn} (hf : f.Spec) {m k : ℕ} {A : Matrix (Fin m) (Fin k) ℂ} (hA : Function.Injective A.mulVec)
    {P : Matrix (Fin k) (Fin k) ℂ} (hP : P.PosDef) (hk : k < m) {N : ℕ} (hN : 1 ≤ N) :
    aic f (.mat m (A * P * Aᴴ)) N = .ok k ∧ mdl f (.mat m (A * P * Aᴴ)) N = .ok k := by
  have hrank : (A * P * Aᴴ).rank = k := by
    apply le_antisymm
    · calc (A * P * Aᴴ).rank ≤ Aᴴ.rank := rank_mul_le_right _ _
        _ = k := by rw [rank_conjTranspose, rank_of_injective hA]
    · have h1 : P.rank = k := by
        rw [rank_of_isUnit _ hP.isUnit]; simp
      have hAA : IsUnit (Aᴴ * A) := (PosDef.conjTranspose_mul_self A hA).isUnit
      have e : Aᴴ * (A * P * Aᴴ) * A = (Aᴴ * A) * P * (Aᴴ * A) := by simp only [Matrix.mul_assoc]
      have h2 : (Aᴴ * (A * P * Aᴴ) * A).rank = k := by
        rw [e, rank_mul_eq_left_of_isUnit_det _ _ ((isUnit_iff_isUnit_det _).1 hAA), rank_mul_eq_right_of_isUnit_det _ _ ((isUnit_iff_isUnit_det _).1 hAA), h1]
      calc k = _ := h2.symm
        _ ≤ (Aᴴ * (A * P * Aᴴ)).rank := rank_mul_le_left _ _
        _ ≤ _ := rank_mul_le_right _ _
  have hpsd : (A * P * Aᴴ).PosSemidef := hP.posSemidef.mul_mul_conjTranspose_same A
  have := C93_rank hf hpsd (by rw [hrank]; exact hk) hN
  rwa [hrank] at this

/-- Non-vacuity: two sources at a three-element ULA. -/
example : aic someEigvalsh (.mat 3 (ulaMat 3 ![1, Complex.I] * (1 : Matrix (Fin 2) (Fin 2) ℂ) * (ulaMat 3 ![1, Complex.I])ᴴ)) 10 = .ok 2 :=
  (C93_noise_free someEigvalsh_spec (ulaMat_injective (m := 3) (z := ![1, Complex.I]) (by
    intro i j hij
    fin_cases i <;> fin_cases j <;> simp_all [Complex.ext_iff]) (by norm_num)) PosDef.one (by norm_num) (by norm_num)).1

/-- **C93** (few snapshots). For fewer snapshots than sensors both detectors, given the covariance returned by
`get_narrowband_snapshots`, return the rank of the snapshot matrix: the number of snapshots if these are linearly independent,
as they are with probability one in noise, however many sources there are. -/
theorem C93_few_snapshots {f : EigvalshFn} (hf : f.Spec) {k n : ℕ} {a : ArrayDesign} {src : Sources k} {wl : ℝ} {S : CMat}
    {N : Option (Res CMat)} (hS : S.c = n) {Y R} (h : getSnapshots a src wl (.ok S) N n = .ok ⟨n, Y, R⟩) (l : Fin a.element.outputSize)
    (hn : 1 ≤ n) (hnm : n < a.size) :
    (aic f (.mat a.size (R l)) n = .ok (Y l).rank ∧ mdl f (.mat a.size (R l)) n = .ok (Y l).rank) ∧
    (Function.Injective (Y l).mulVec → aic f (.mat a.size (R l)) n = .ok n ∧ mdl f (.mat a.size (R l)) n = .ok n) := by
  have hR := getSnapshots_cov hS h l
  have hn0 : (n : ℂ)⁻¹ ≠ 0 := inv_ne_zero (by exact_mod_cast (by omega : n ≠ 0))
  have hrank : (R l).rank = (Y l).rank := by
    rw [hR, ← rank_self_mul_conjTranspose (Y l)]
    exact rank_smul_of_mem_nonZeroDivisors _ (mem_nonZeroDivisors_of_ne_zero hn0)
  have hle : (Y l).rank ≤ n := by simpa using rank_le_width (Y l)
  have hpsd := (C57_covariance a src wl S N hS Y R h l).1
  have hmain := C93_rank hf hpsd (by omega) hn
  rw [hrank] at hmain
  exact ⟨hmain, fun hinj => by rwa [rank_of_injective hinj] at hmain⟩

/-- **C93** (few snapshots, the number of sources is not found). One source in front of three sensors: for some noise, two snapshots
make both detectors report two sources. -/
theorem C93_few_snapshots_violated {f : EigvalshFn} (hf : f.Spec) : ∃ (a : GridArray) (N : Matrix (Fin a.size) (Fin 2) ℂ)
    (Y : Fin a.element.outputSize → Matrix (Fin a.size) (Fin 2) ℂ) (R : Fin a.element.outputSize → Matrix (Fin a.size) (Fin a.size) ℂ),
    ula 3 (.scalar (1 / 2)) none {} = .ok a ∧
    getSnapshots a.toArrayDesign (.ff1 (⟨![0], "sin"⟩ : FF1D 1)) 1 (.ok ⟨1, 2, Matrix.of fun _ _ => 1⟩) (some (.ok ⟨a.size, 2, N⟩)) 2 =
      .ok ⟨2, Y, R⟩ ∧
    ∀ l, aic f (.mat a.size (R l)) 2 = .ok 2 ∧ mdl f (.mat a.size (R l)) 2 = .ok 2 := by
  obtain ⟨a, ha⟩ := ula_ok 3 (1 / 2) none
  obtain ⟨out, hout, hval⟩ := ula_steering ha (⟨![0], "sin"⟩ : FF1D 1) ⟨Or.inr (Or.inr rfl), fun c => Or.inr (Or.inr ⟨rfl, by
    fin_cases c; simp⟩)⟩ 1 "all" (by simp)
  have hsize : a.size = 3 := (C01_ula_geometry _ _ _ _ _ ha).1
  let A : Matrix (Fin a.size) (Fin 1) ℂ := Matrix.of fun i c => phaseFactor (1 / 2) 1 "sin" ((![0] : Fin 1 → ℝ) c) ^ i.1
  have hAl : ∀ l, out.A l = A := fun l => by
    ext i c
    exact hval l i c
  let S : Matrix (Fin 1) (Fin 2) ℂ := Matrix.of fun _ _ => 1
  let F : Matrix (Fin a.size) (Fin 2) ℂ := Matrix.of fun i t => if (i : ℕ) = t then 1 else 0
  have hF : Function.Injective F.mulVec := by
    intro x y hxy
    ext t
    have := congrFun hxy ⟨t, by omega⟩
    simpa [F, mulVec, dotProduct, ← Fin.ext_iff] using this
  have hsnap := (C57_snapshots a.toArrayDesign (.ff1 (⟨![0], "sin"⟩ : FF1D 1)) 1 out hout (grid_scalar ha) S (F - A * S)).2
  refine ⟨a, F - A * S, _, _, ha, hsnap, fun l => ?_⟩
  refine (C93_few_snapshots hf rfl hsnap l (by norm_num) (by show 2 < a.size; omega)).2 ?_
  have : out.A l * S + (F - A * S) = F := by rw [hAl l]; exact add_sub_cancel _ _
  rw [this]
  exact hF

/-- **C93** (negative eigenvalues). If the smallest eigenvalue is negative, however small (rounding produces such values for nearly
singular covariance matrices), and the others are positive, both detectors return 0. -/
theorem C93_negative (f : EigvalshFn) {x : ℝ} (hx : x < 0) {t : List ℝ} (ht : t ≠ []) (hp : ∀ y ∈ t, 0 < y) {N : ℕ} (hN : 1 ≤ N) :
    aic f (.vec (x :: t)) N = .ok 0 ∧ mdl f (.vec (x :: t)) N = .ok 0 := by
  have hlen : 0 < t.length := List.length_pos_iff.2 ht
  have hd1 : (x :: t).length = t.length + 1 := rfl
  refine detectors_nan f hN (fun i => if i < t.length then none else some 0) (fun i hi => ?_) (r := 0) (by simp) (by simp [hlen])
    fun i hi => absurd hi (Nat.not_lt_zero _)
  rw [ldStat_def _ N hi, hd1]
  by_cases hit : i < t.length
  · obtain ⟨d, hd⟩ : ∃ d, t.length + 1 - i = d + 1 := ⟨t.length - i, by omega⟩
    have hpr : ((x :: t).take (t.length + 1 - i)).prod < 0 := by
      rw [hd, List.take_succ_cons, List.prod_cons]
      exact mul_neg_of_neg_of_pos hx (log_list_prod _ fun y hy => hp y (List.mem_of_mem_take hy)).1
    rw [npRoot, if_pos ⟨hpr, by omega⟩]
    simp only [if_pos hit]
    rfl
  · have hi' : i = t.length := by omega
    subst hi'
    simp only [Nat.add_sub_cancel_left, List.take_succ_cons, List.take_zero, List.prod_cons, List.prod_nil, List.sum_cons, List.sum_nil, mul_one, add_zero,
      lt_irrefl, if_false, Nat.cast_one, div_one]
    rw [npRoot, if_neg (by simp), Option.bind_some, npDiv]
    simp only [Nat.cast_one, div_one, Real.rpow_one, if_neg hx.ne, div_self hx.ne]
    rw [mathLog_pos one_pos, Real.log_one]
    show Except.ok (npScale _ (some _)) = _
    rw [npScale, if_neg (fun h => h.2.elim (EReal.coe_ne_top _) (EReal.coe_ne_bot _))]
    simp

/-- **C93** (discontinuity). Two sources in front of three sensors without noise: the detectors return 2, but 0 as soon as the zero
eigenvalue is computed as any negative number. -/
theorem C93_rounding_violated (f : EigvalshFn) {ε : ℝ} (hε : 0 < ε) :
    (aic f (.vec [0, 1, 2]) 100 = .ok 2 ∧ mdl f (.vec [0, 1, 2]) 100 = .ok 2) ∧
    aic f (.vec [-ε, 1, 2]) 100 = .ok 0 ∧ mdl f (.vec [-ε, 1, 2]) 100 = .ok 0 := by
  constructor
  · refine C93_eigenvalues f ⟨by norm_num, ?_, ?_⟩ (by norm_num)
    · intro j hj
      have : j < 1 := hj
      interval_cases j
      rfl
    · intro j hj h1
      have hj' : j < 3 := hj
      have h1' : 1 ≤ j := h1
      interval_cases j <;> norm_num [eigAt]
  · exact C93_negative f (by linarith) (by simp) (by simp) (by norm_num)

end Doa.Props
