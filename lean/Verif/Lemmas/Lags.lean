import Verif.Lemmas.Coarray
import Mathlib.RingTheory.Coprime.Lemmas
import Mathlib.Data.Int.GCD
import Mathlib.Tactic.IntervalCases

/-! Lag computations for the concrete 1-D designs. -/

namespace Doa

open Spec

theorem isLag_iff_mem {l : List ℤ} {d : ℤ} : IsLag l d ↔ ∃ a ∈ l, ∃ b ∈ l, a - b = d := by
  constructor
  · rintro ⟨i, j, h⟩; exact ⟨l[i], List.getElem_mem _, l[j], List.getElem_mem _, h⟩
  · rintro ⟨a, ha, b, hb, h⟩
    obtain ⟨i, hi, rfl⟩ := List.mem_iff_getElem.1 ha
    obtain ⟨j, hj, rfl⟩ := List.mem_iff_getElem.1 hb
    exact ⟨⟨i, hi⟩, ⟨j, hj⟩, h⟩

theorem pairCount_neg (l : List ℤ) (d : ℤ) : pairCount l (-d) = pairCount l d := by
  unfold pairCount
  apply Finset.card_bij (fun p _ => (p.2, p.1))
  · rintro ⟨i, j⟩ h
    simp only [pairs, Finset.mem_filter, Finset.mem_univ, true_and] at h ⊢
    omega
  · rintro ⟨i, j⟩ _ ⟨i', j'⟩ _ h
    simp only [Prod.mk.injEq] at h ⊢
    exact ⟨h.2, h.1⟩
  · rintro ⟨i, j⟩ h
    refine ⟨(j, i), ?_, rfl⟩
    simp only [pairs, Finset.mem_filter, Finset.mem_univ, true_and] at h ⊢
    omega

/-- The index list of a ULA. -/
def ulaIdx (n : ℕ) : List ℤ := (List.range n).map fun i : ℕ => (i : ℤ)

theorem length_ulaIdx (n : ℕ) : (ulaIdx n).length = n := by simp [ulaIdx]

theorem getElem_ulaIdx (n : ℕ) (i : ℕ) (h : i < (ulaIdx n).length) : (ulaIdx n)[i] = i := by
  simp [ulaIdx]

theorem mem_ulaIdx (n : ℕ) (x : ℤ) : x ∈ ulaIdx n ↔ 0 ≤ x ∧ x < n := by
  simp only [ulaIdx, List.mem_map, List.mem_range]
  constructor
  · rintro ⟨i, hi, rfl⟩; omega
  · rintro ⟨h1, h2⟩; exact ⟨x.toNat, by omega, by omega⟩

theorem pairCount_ula_nonneg (n k : ℕ) : pairCount (ulaIdx n) k = n - k := by
  unfold pairCount
  rw [← Fintype.card_fin (n - k), ← Finset.card_univ]
  symm
  apply Finset.card_bij (fun (j : Fin (n - k)) _ =>
    ((⟨j.1 + k, by rw [length_ulaIdx]; omega⟩ : Fin (ulaIdx n).length),
      (⟨j.1, by rw [length_ulaIdx]; omega⟩ : Fin (ulaIdx n).length)))
  · intro j _
    simp only [pairs, Finset.mem_filter, Finset.mem_univ, true_and, Fin.getElem_fin,
      getElem_ulaIdx]
    push_cast; omega
  · intro a _ b _ h
    simp only [Prod.mk.injEq, Fin.mk.injEq] at h
    exact Fin.ext h.2
  · rintro ⟨i, j⟩ h
    simp only [pairs, Finset.mem_filter, Finset.mem_univ, true_and, Fin.getElem_fin,
      getElem_ulaIdx] at h
    have hi : i.1 < n := lt_of_lt_of_eq i.2 (length_ulaIdx n)
    have hj : j.1 < n := lt_of_lt_of_eq j.2 (length_ulaIdx n)
    refine ⟨⟨j.1, by omega⟩, Finset.mem_univ _, ?_⟩
    ext <;> simp <;> omega

theorem pairCount_ula (n : ℕ) (d : ℤ) : pairCount (ulaIdx n) d = n - d.natAbs := by
  rcases Int.natAbs_eq d with e | e
  · rw [e, pairCount_ula_nonneg, Int.natAbs_natCast]
  · rw [e, pairCount_neg, pairCount_ula_nonneg, Int.natAbs_neg, Int.natAbs_natCast]

theorem ula_central (n : ℕ) : IsCentralSize (ulaIdx n) n := by
  rw [isCentralSize_iff]
  refine ⟨fun k hk => ?_, fun h => ?_⟩
  · rw [← pairCount_pos, pairCount_ula]; simp; exact hk
  · rw [← pairCount_pos, pairCount_ula] at h; simp at h

/-! ### Nested arrays -/

theorem mem_nested (n1 n2 : ℕ) (x : ℤ) : x ∈ nestedIndices n1 n2 ↔
    (0 ≤ x ∧ x < n1) ∨ ∃ q : ℕ, q < n2 ∧ x = ((q : ℤ) + 1) * ((n1 : ℤ) + 1) - 1 := by
  simp only [nestedIndices, List.mem_append, List.mem_map, List.mem_range]
  constructor
  · rintro (⟨i, hi, rfl⟩ | ⟨q, hq, rfl⟩)
    · left; omega
    · right; exact ⟨q, hq, rfl⟩
  · rintro (⟨h1, h2⟩ | ⟨q, hq, rfl⟩)
    · left; exact ⟨x.toNat, by omega, by omega⟩
    · right; exact ⟨q, hq, rfl⟩

theorem nested_bounds (n1 n2 : ℕ) (hn : 1 ≤ n2) (x : ℤ) (h : x ∈ nestedIndices n1 n2) :
    0 ≤ x ∧ x < n2 * (n1 + 1) := by
  rcases (mem_nested n1 n2 x).1 h with ⟨h1, h2⟩ | ⟨q, hq, rfl⟩
  · refine ⟨h1, ?_⟩
    have : (1 : ℤ) * (n1 + 1) ≤ n2 * (n1 + 1) := by
      apply mul_le_mul_of_nonneg_right <;> omega
    omega
  · have h1 : (0 : ℤ) ≤ q * (n1 + 1) := by positivity
    have h2 : ((q : ℤ) + 1) * (n1 + 1) ≤ n2 * (n1 + 1) := by
      apply mul_le_mul_of_nonneg_right <;> omega
    constructor
    · have : ((q : ℤ) + 1) * (n1 + 1) = q * (n1 + 1) + (n1 + 1) := by ring
      omega
    · omega

theorem nested_zero_mem (n1 n2 : ℕ) (hn : 1 ≤ n2) : (0 : ℤ) ∈ nestedIndices n1 n2 := by
  rw [mem_nested]
  by_cases h : n1 = 0
  · right; exact ⟨0, by omega, by simp [h]⟩
  · left; omega

theorem nested_lag (n1 n2 : ℕ) (hn : 1 ≤ n2) (k : ℕ) (hk : k < n2 * (n1 + 1)) :
    IsLag (nestedIndices n1 n2) k := by
  rw [isLag_iff_mem]
  have hpos : 0 < n1 + 1 := Nat.succ_pos _
  set q := k / (n1 + 1) with hq
  set r := k % (n1 + 1) with hr
  have hqn : q < n2 := (Nat.div_lt_iff_lt_mul hpos).2 hk
  have hrn : r < n1 + 1 := Nat.mod_lt _ hpos
  have hk' : (k : ℤ) = q * (n1 + 1) + r := by
    have := Nat.div_add_mod k (n1 + 1)
    have h2 : k = (n1 + 1) * q + r := this.symm
    rw [h2]; push_cast; ring
  have ha : ((q : ℤ) + 1) * ((n1 : ℤ) + 1) - 1 ∈ nestedIndices n1 n2 :=
    (mem_nested _ _ _).2 (Or.inr ⟨q, hqn, rfl⟩)
  have hexp : ((q : ℤ) + 1) * ((n1 : ℤ) + 1) = q * (n1 + 1) + (n1 + 1) := by ring
  by_cases h0 : r = 0
  · refine ⟨_, ha, ((0 : ℕ) + 1 : ℤ) * (n1 + 1) - 1,
      (mem_nested _ _ _).2 (Or.inr ⟨0, by omega, rfl⟩), ?_⟩
    rw [hk', h0]; push_cast; ring
  · by_cases h1 : r = n1
    · exact ⟨_, ha, 0, nested_zero_mem _ _ hn, by rw [hk', hexp, h1]; ring⟩
    · refine ⟨_, ha, (n1 : ℤ) - r, (mem_nested _ _ _).2 (Or.inl ⟨by omega, by omega⟩), ?_⟩
      rw [hk', hexp]; ring

theorem nested_isLag_iff (n1 n2 : ℕ) (hn : 1 ≤ n2) (d : ℤ) :
    IsLag (nestedIndices n1 n2) d ↔ |d| < n2 * (n1 + 1) := by
  constructor
  · rw [isLag_iff_mem]
    rintro ⟨a, ha, b, hb, rfl⟩
    have h1 := nested_bounds n1 n2 hn a ha
    have h2 := nested_bounds n1 n2 hn b hb
    rw [abs_lt]; constructor <;> omega
  · intro h
    have hk := nested_lag n1 n2 hn d.natAbs (by
      rw [Int.abs_eq_natAbs] at h; exact_mod_cast h)
    rcases Int.natAbs_eq d with e | e
    · rw [e]; exact hk
    · rw [e]; exact hk.neg

theorem nested_central (n1 n2 : ℕ) (hn : 1 ≤ n2) :
    IsCentralSize (nestedIndices n1 n2) (n2 * (n1 + 1)) := by
  constructor
  · intro d hd; rw [nested_isLag_iff _ _ hn]; exact_mod_cast hd
  · intro h
    have := h ((n2 * (n1 + 1) : ℕ) : ℤ) (by rw [abs_of_nonneg (by positivity)]; omega)
    rw [nested_isLag_iff _ _ hn, abs_of_nonneg (by positivity)] at this
    push_cast at this; omega

theorem nested_nodup (n1 n2 : ℕ) : (nestedIndices n1 n2).Nodup := by
  unfold nestedIndices
  rw [List.nodup_append]
  refine ⟨?_, ?_, ?_⟩
  · exact List.Nodup.map (fun a b h => by simpa using h) List.nodup_range
  · refine List.Nodup.map (fun a b h => ?_) List.nodup_range
    have h2 : ((a : ℤ) + 1) * ((n1 : ℤ) + 1) = ((b : ℤ) + 1) * ((n1 : ℤ) + 1) := by omega
    have := mul_right_cancel₀ (by omega : ((n1 : ℤ) + 1) ≠ 0) h2
    omega
  · intro a ha b hb
    simp only [List.mem_map, List.mem_range] at ha hb
    obtain ⟨i, hi, rfl⟩ := ha
    obtain ⟨q, hq, rfl⟩ := hb
    have : (0 : ℤ) ≤ q * (n1 + 1) := by positivity
    have e : ((q : ℤ) + 1) * ((n1 : ℤ) + 1) = q * (n1 + 1) + (n1 + 1) := by ring
    omega

/-! ### Co-prime arrays -/

/-- Index list of a co-prime array with `t` extra elements in the second subarray. -/
def cpIdx (m n t : ℕ) : List ℤ :=
  (List.range n).map (fun i : ℕ => (i : ℤ) * (m : ℤ)) ++
    (List.range t).map (fun i : ℕ => ((i : ℤ) + 1) * (n : ℤ))

theorem mem_cpIdx (m n t : ℕ) (x : ℤ) : x ∈ cpIdx m n t ↔
    (∃ i : ℤ, 0 ≤ i ∧ i < n ∧ x = i * m) ∨ (∃ j : ℤ, 1 ≤ j ∧ j ≤ t ∧ x = j * n) := by
  simp only [cpIdx, List.mem_append, List.mem_map, List.mem_range]
  constructor
  · rintro (⟨i, hi, rfl⟩ | ⟨j, hj, rfl⟩)
    · left; exact ⟨i, by omega, by omega, rfl⟩
    · right; exact ⟨j + 1, by omega, by omega, rfl⟩
  · rintro (⟨i, h1, h2, rfl⟩ | ⟨j, h1, h2, rfl⟩)
    · left; exact ⟨i.toNat, by omega, by rw [Int.toNat_of_nonneg h1]⟩
    · right
      refine ⟨(j - 1).toNat, by omega, ?_⟩
      rw [Int.toNat_of_nonneg (by omega)]; ring

theorem cp_zero (m n t : ℕ) (hn : 1 ≤ n) : (0 : ℤ) ∈ cpIdx m n t :=
  (mem_cpIdx _ _ _ _).2 (Or.inl ⟨0, by omega, by omega, by simp⟩)

/-- `j * n` with `0 ≤ j ≤ t` is an element. -/
theorem cp_second (m n t : ℕ) (hn : 1 ≤ n) (j : ℤ) (h0 : 0 ≤ j) (ht : j ≤ t) :
    j * n ∈ cpIdx m n t := by
  by_cases h : j = 0
  · rw [h, zero_mul]; exact cp_zero m n t hn
  · exact (mem_cpIdx _ _ _ _).2 (Or.inr ⟨j, by omega, ht, rfl⟩)

/-- Residue solving: for coprime `m, n` there is `0 ≤ j < m` with `m ∣ j * n - d`. -/
theorem exists_residue (m n : ℕ) (hm : 1 ≤ m) (hc : Nat.gcd m n = 1) (d : ℤ) :
    ∃ j i : ℤ, 0 ≤ j ∧ j < m ∧ j * n - d = i * m := by
  have hco : IsCoprime (m : ℤ) (n : ℤ) := Nat.isCoprime_iff_coprime.2 hc
  obtain ⟨a, b, hab⟩ := hco
  have hmz : (m : ℤ) ≠ 0 := by omega
  refine ⟨(d * b) % m, -(d * a) - n * ((d * b) / m), Int.emod_nonneg _ hmz,
    Int.emod_lt_of_pos _ (by omega), ?_⟩
  have h1 : (d * b) % m = d * b - m * ((d * b) / m) := by
    have := Int.emod_add_mul_ediv (d * b) m; omega
  rw [h1]
  have h2 : d * b * n = d - d * a * m := by
    have : d * (a * m + b * n) = d := by rw [hab, mul_one]
    linear_combination this
  linear_combination h2

theorem coprime_dvd_left {m n : ℕ} (hc : Nat.gcd m n = 1) {x : ℤ} (h : (n : ℤ) ∣ x * m) :
    (n : ℤ) ∣ x := by
  have hco : IsCoprime (n : ℤ) (m : ℤ) := (Nat.isCoprime_iff_coprime.2 hc).symm
  exact hco.dvd_of_dvd_mul_right h

theorem cp2m_lag (m n : ℕ) (hm : 1 ≤ m) (hmn : m ≤ n) (hc : Nat.gcd m n = 1) (k : ℕ)
    (hk : k < m * n + m) : IsLag (cpIdx m n (2 * m - 1)) k := by
  rw [isLag_iff_mem]
  obtain ⟨j, i, hj0, hjm, hji⟩ := exists_residue m n hm hc k
  have hn : 1 ≤ n := by omega
  have hm0 : (0 : ℤ) < m := by omega
  have hn0 : (0 : ℤ) < n := by omega
  have hkz : (k : ℤ) < m * n + m := by exact_mod_cast hk
  have hin : i < n := by
    by_contra hc'
    have h1 : (n : ℤ) * m ≤ i * m := mul_le_mul_of_nonneg_right (by omega) hm0.le
    have h2 : j * n ≤ (m - 1) * n := mul_le_mul_of_nonneg_right (by omega) hn0.le
    have h3 : ((m : ℤ) - 1) * n = n * m - n := by ring
    omega
  by_cases hi : 0 ≤ i
  · exact ⟨j * n, cp_second m n _ hn j hj0 (by omega), i * m,
      (mem_cpIdx _ _ _ _).2 (Or.inl ⟨i, hi, hin, rfl⟩), by omega⟩
  · have hi2 : -(n : ℤ) ≤ i := by
      by_contra hc'
      have h1 : i * m ≤ (-(n : ℤ) - 1) * m := mul_le_mul_of_nonneg_right (by omega) hm0.le
      have h2 : 0 ≤ j * n := mul_nonneg hj0 hn0.le
      have h3 : (-(n : ℤ) - 1) * m = -(m * n + m) := by ring
      omega
    refine ⟨(j + m) * n, cp_second m n _ hn (j + m) (by omega) (by omega), (i + n) * m,
      (mem_cpIdx _ _ _ _).2 (Or.inl ⟨i + n, by omega, by omega, rfl⟩), ?_⟩
    linear_combination hji

theorem cp2m_hole (m n : ℕ) (hm : 1 ≤ m) (hmn : m ≤ n) (hc : Nat.gcd m n = 1) :
    ¬ IsLag (cpIdx m n (2 * m - 1)) ((m * n + m : ℕ) : ℤ) := by
  rw [isLag_iff_mem]
  have hm0 : (0 : ℤ) < m := by omega
  have hn0 : (0 : ℤ) < n := by omega
  rintro ⟨a, ha, b, hb, hab⟩
  push_cast at hab
  have hb0 : 0 ≤ b := by
    rcases (mem_cpIdx _ _ _ _).1 hb with ⟨i, h1, h2, rfl⟩ | ⟨j, h1, h2, rfl⟩
    · exact mul_nonneg h1 hm0.le
    · exact mul_nonneg (by omega) hn0.le
  rcases (mem_cpIdx _ _ _ _).1 ha with ⟨i, h1, h2, rfl⟩ | ⟨j, h1, h2, rfl⟩
  · have : i * m ≤ ((n : ℤ) - 1) * m := mul_le_mul_of_nonneg_right (by omega) hm0.le
    have e : ((n : ℤ) - 1) * m = m * n - m := by ring
    omega
  · rcases (mem_cpIdx _ _ _ _).1 hb with ⟨i, h3, h4, rfl⟩ | ⟨j', h3, h4, rfl⟩
    · have hd : (n : ℤ) ∣ (i + 1) * m := ⟨j - m, by linear_combination (-1 : ℤ) * hab⟩
      have hd2 := coprime_dvd_left hc hd
      have hi : i + 1 = n := by
        have := Int.le_of_dvd (by omega) hd2; omega
      have h5 : (j - 2 * m) * n = 0 := by
        have : i = n - 1 := by omega
        rw [this] at hab; linear_combination hab
      rcases mul_eq_zero.1 h5 with h6 | h6 <;> omega
    · have hd : (n : ℤ) ∣ 1 * m := ⟨j - j' - m, by linear_combination (-1 : ℤ) * hab⟩
      have hd2 := coprime_dvd_left hc hd
      have hn1 : (n : ℤ) = 1 := by
        have := Int.le_of_dvd (by omega) hd2; omega
      have hn1' : n = 1 := by exact_mod_cast hn1
      have hm1 : m = 1 := by omega
      subst hn1' hm1
      simp at hab; omega

theorem cp2m_central (m n : ℕ) (hm : 1 ≤ m) (hmn : m ≤ n) (hc : Nat.gcd m n = 1) :
    IsCentralSize (cpIdx m n (2 * m - 1)) (m * n + m) := by
  rw [isCentralSize_iff]
  exact ⟨fun k hk => cp2m_lag m n hm hmn hc k hk, cp2m_hole m n hm hmn hc⟩

theorem cpm_lag (m n : ℕ) (hm : 2 ≤ m) (hmn : m ≤ n) (hc : Nat.gcd m n = 1) (k : ℕ)
    (hk : k < m + n) : IsLag (cpIdx m n (m - 1)) k := by
  rw [isLag_iff_mem]
  obtain ⟨j, i, hj0, hjm, hji⟩ := exists_residue m n (by omega) hc k
  have hn : 1 ≤ n := by omega
  have hm0 : (0 : ℤ) < m := by omega
  have hn0 : (0 : ℤ) < n := by omega
  have hin : i < n := by
    by_contra hc'
    have h1 : (n : ℤ) * m ≤ i * m := mul_le_mul_of_nonneg_right (by omega) hm0.le
    have h2 : j * n ≤ (m - 1) * n := mul_le_mul_of_nonneg_right (by omega) hn0.le
    have h3 : ((m : ℤ) - 1) * n = n * m - n := by ring
    omega
  by_cases hi : 0 ≤ i
  · exact ⟨j * n, cp_second m n _ hn j hj0 (by omega), i * m,
      (mem_cpIdx _ _ _ _).2 (Or.inl ⟨i, hi, hin, rfl⟩), by omega⟩
  · have h1 : i * m ≤ (-1) * m := mul_le_mul_of_nonneg_right (by omega) hm0.le
    by_cases hj : j = 0
    · subst hj
      refine ⟨(-i) * m, (mem_cpIdx _ _ _ _).2 (Or.inl ⟨-i, by omega, ?_, rfl⟩), 0,
        cp_zero m n _ hn, by linear_combination hji⟩
      by_contra hc'
      have h2 : (n : ℤ) * m ≤ (-i) * m := mul_le_mul_of_nonneg_right (by omega) hm0.le
      have h3 : (-i) * (m : ℤ) = k := by linear_combination hji
      have h4 : (2 : ℤ) * n ≤ m * n := mul_le_mul_of_nonneg_right (by omega) hn0.le
      have h5 : (m : ℤ) * n = n * m := by ring
      have h6 : m = n := by omega
      subst h6
      simp at hc; omega
    · have h2 : (1 : ℤ) * n ≤ j * n := mul_le_mul_of_nonneg_right (by omega) hn0.le
      omega

theorem cpm_hole (m n : ℕ) (hm : 2 ≤ m) (hmn : m ≤ n) (hc : Nat.gcd m n = 1) :
    ¬ IsLag (cpIdx m n (m - 1)) ((m + n : ℕ) : ℤ) := by
  rw [isLag_iff_mem]
  have hm0 : (0 : ℤ) < m := by omega
  have hn0 : (0 : ℤ) < n := by omega
  have hc' : Nat.gcd n m = 1 := by rw [Nat.gcd_comm]; exact hc
  have hlt : m < n := by
    rcases Nat.lt_or_ge m n with h | h
    · exact h
    · have : m = n := by omega
      subst this; simp at hc; omega
  rintro ⟨a, ha, b, hb, hab⟩
  push_cast at hab
  rcases (mem_cpIdx _ _ _ _).1 ha with ⟨i, h1, h2, rfl⟩ | ⟨j, h1, h2, rfl⟩
  · rcases (mem_cpIdx _ _ _ _).1 hb with ⟨i', h3, h4, rfl⟩ | ⟨j', h3, h4, rfl⟩
    · have hd : (m : ℤ) ∣ 1 * n := ⟨i - i' - 1, by linear_combination (-1 : ℤ) * hab⟩
      have := Int.le_of_dvd (by omega) (coprime_dvd_left hc' hd)
      omega
    · have hd : (m : ℤ) ∣ (j' + 1) * n := ⟨i - 1, by linear_combination (-1 : ℤ) * hab⟩
      have h5 := Int.le_of_dvd (by omega) (coprime_dvd_left hc' hd)
      have hj : j' = m - 1 := by omega
      subst hj
      have h6 : (i - 1 - n) * m = 0 := by linear_combination hab
      rcases mul_eq_zero.1 h6 with h7 | h7 <;> omega
  · rcases (mem_cpIdx _ _ _ _).1 hb with ⟨i, h3, h4, rfl⟩ | ⟨j', h3, h4, rfl⟩
    · have hd : (n : ℤ) ∣ (i + 1) * m := ⟨j - 1, by linear_combination (-1 : ℤ) * hab⟩
      have h5 := Int.le_of_dvd (by omega) (coprime_dvd_left hc hd)
      have hi : i = n - 1 := by omega
      subst hi
      have h6 : (j - 1 - m) * n = 0 := by linear_combination hab
      rcases mul_eq_zero.1 h6 with h7 | h7 <;> omega
    · have hd : (n : ℤ) ∣ 1 * m := ⟨j - j' - 1, by linear_combination (-1 : ℤ) * hab⟩
      have := Int.le_of_dvd (by omega) (coprime_dvd_left hc hd)
      omega

theorem cpm_central (m n : ℕ) (hm : 2 ≤ m) (hmn : m ≤ n) (hc : Nat.gcd m n = 1) :
    IsCentralSize (cpIdx m n (m - 1)) (m + n) := by
  rw [isCentralSize_iff]
  exact ⟨fun k hk => cpm_lag m n hm hmn hc k hk, cpm_hole m n hm hmn hc⟩

theorem cp_nodup (m n t : ℕ) (hm : 1 ≤ m) (hn : 1 ≤ n) (hc : Nat.gcd m n = 1) :
    (cpIdx m n t).Nodup := by
  unfold cpIdx
  have hm0 : (m : ℤ) ≠ 0 := by omega
  have hn0 : (n : ℤ) ≠ 0 := by omega
  rw [List.nodup_append]
  refine ⟨?_, ?_, ?_⟩
  · refine List.Nodup.map (fun a b h => ?_) List.nodup_range
    have := mul_right_cancel₀ hm0 h
    omega
  · refine List.Nodup.map (fun a b h => ?_) List.nodup_range
    have := mul_right_cancel₀ hn0 h
    omega
  · intro a ha b hb
    simp only [List.mem_map, List.mem_range] at ha hb
    obtain ⟨i, hi, rfl⟩ := ha
    obtain ⟨q, hq, rfl⟩ := hb
    intro h
    have hd : (n : ℤ) ∣ (i : ℤ) * m := ⟨q + 1, by linear_combination h⟩
    have hd2 := coprime_dvd_left hc hd
    by_cases h0 : i = 0
    · subst h0
      simp at h
      omega
    · have := Int.le_of_dvd (by omega) hd2
      omega

end Doa
