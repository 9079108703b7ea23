import Verif.Lemmas.Grid
import Verif.Lemmas.Lags
import Mathlib.Analysis.SpecialFunctions.Trigonometric.Angle

/-!
# C01-C08: geometry of the array designs and of their difference coarrays
-/

namespace Doa.Props

open Doa Doa.Spec

/-! ## C01 -/

theorem ula_ok (n : ℕ) (x : ℝ) (name : Option String) :
    ∃ a, ula n (.scalar x) name {} = .ok a :=
  gridInit_ok_of (d := []) (by simp [GridArgsMatch]) rfl

/-- **C01** (geometry). Every successfully created ULA (whatever the keyword arguments) has `n`
elements, the `i`-th at `i * d0` on the x-axis. -/
theorem C01_ula_geometry (n : ℕ) (x : ℝ) (name : Option String) (kw : Kwargs) (a : GridArray)
    (h : ula n (.scalar x) name kw = .ok a) :
    a.size = n ∧ a.ndim = 1 ∧ ∀ i, i < n → a.locations.get? i 0 = some ((i : ℝ) * x) := by
  obtain ⟨⟨h1, h2, h3⟩, h4, h5⟩ := gridInit_col h
  refine ⟨by rw [h3]; simp, h2, fun i hi => ?_⟩
  rw [h5 i (by simpa using hi)]; simp

/-- **C01** (coarray). The weight function of a ULA is `n - |d|` inside `|d| < n` and `0` outside,
and the central ULA has `2n-1` elements, `n` without the negative part. -/
theorem C01_ula_coarray (n : ℕ) (x : ℝ) (name : Option String) (kw : Kwargs) (a : GridArray)
    (h : ula n (.scalar x) name kw = .ok a) :
    ∃ w, WeightFunction.init a = .ok w ∧
      (∀ d : ℤ, (w.weightOf d : ℤ) = if |d| < n then n - |d| else 0) ∧
      (w.centralUlaSize true).1 = n ∧ (w.centralUlaSize false).1 = 2 * n - 1 := by
  obtain ⟨hg, _, _⟩ := gridInit_col h
  refine ⟨_, weightFunction_init hg, ?_, ?_, ?_⟩
  · intro d
    rw [weightOf_eq (l := ulaIdx n) rfl, pairCount_ula, Int.abs_eq_natAbs]
    split <;> omega
  · have := (countLags_central (ulaIdx n)).unique (ula_central n)
    simp only [WeightFunction.centralUlaSize, if_true]
    exact_mod_cast this
  · have := (countLags_central (ulaIdx n)).unique (ula_central n)
    simp only [WeightFunction.centralUlaSize]
    have h2 : ((WeightFunction.countLags (buildMapLoop [] 0
      (locationDifferences (ulaIdx n))) 0 : ℕ) : ℤ) = n := by exact_mod_cast this
    change ((WeightFunction.countLags (buildMapLoop [] 0
      (locationDifferences (ulaIdx n))) 0 : ℕ) : ℤ) * 2 - 1 = _
    rw [h2]; ring

example : ∃ a, ula 5 (.scalar (1/2)) none {} = .ok a := ula_ok 5 _ _

/-! ## C02 -/

/-- **C02**. A nested array has `n1 + n2` distinct elements and its difference coarray is exactly
`|d| < n2 * (n1 + 1)`: no holes. -/
theorem C02_nested (n1 n2 : ℕ) (hn : 1 ≤ n2) (x : ℝ) (name : Option String) (kw : Kwargs)
    (a : GridArray) (h : nested n1 n2 (.scalar x) name kw = .ok a) :
    ∃ l, Is1DGrid a l ∧ l.length = n1 + n2 ∧ l.Nodup ∧
      (∀ d, IsLag l d ↔ |d| < n2 * (n1 + 1)) ∧
      ∃ w, WeightFunction.init a = .ok w ∧
        (∀ d, 0 < w.weightOf d ↔ |d| < n2 * (n1 + 1)) ∧
        (w.centralUlaSize true).1 = n2 * (n1 + 1) ∧
        (w.centralUlaSize false).1 = 2 * (n2 * (n1 + 1)) - 1 := by
  obtain ⟨hg, _, _⟩ := gridInit_col h
  refine ⟨_, hg, by simp [nestedIndices], nested_nodup _ _, nested_isLag_iff _ _ hn, _,
    weightFunction_init hg, ?_, ?_, ?_⟩
  · intro d
    rw [weightOf_eq (l := nestedIndices n1 n2) rfl, pairCount_pos, nested_isLag_iff _ _ hn]
  · have := (countLags_central (nestedIndices n1 n2)).unique (nested_central n1 n2 hn)
    simp only [WeightFunction.centralUlaSize, if_true]
    exact_mod_cast this
  · have := (countLags_central (nestedIndices n1 n2)).unique (nested_central n1 n2 hn)
    have h2 : ((WeightFunction.countLags (buildMapLoop [] 0
      (locationDifferences (nestedIndices n1 n2))) 0 : ℕ) : ℤ) = n2 * (n1 + 1) := by
      exact_mod_cast this
    change ((WeightFunction.countLags (buildMapLoop [] 0
      (locationDifferences (nestedIndices n1 n2))) 0 : ℕ) : ℤ) * 2 - 1 = _
    rw [h2]; ring

theorem nested_ok (n1 n2 : ℕ) (x : ℝ) (name : Option String) :
    ∃ a, nested n1 n2 (.scalar x) name {} = .ok a :=
  gridInit_ok_of (d := []) (by simp [GridArgsMatch]) rfl

example : ∃ a, nested 3 4 (.scalar 1) none {} = .ok a := nested_ok 3 4 _ _
example : nestedIndices 3 2 = [0, 1, 2, 3, 7] := by decide

/-! ## C03, C04 -/

/-- The mode strings the co-prime array understands. -/
def ModeOk (mode : String) : Prop := mode.toLower = "m" ∨ mode.toLower = "2m"

/-- **C03** (errors). With a scalar spacing and no perturbations, `CoPrimeArray(m, n)` raises
`ValueError` exactly when `gcd(m, n) ≠ 1` or the mode is unknown, and otherwise succeeds. -/
theorem C03_coprime_raises_iff (m n : ℕ) (x : ℝ) (mode : String) (name : Option String) :
    (coprime m n (.scalar x) mode name {} = .error .valueError ↔
      (Nat.gcd m n ≠ 1 ∨ ¬ ModeOk mode)) ∧
    ((∃ a, coprime m n (.scalar x) mode name {} = .ok a) ↔
      (Nat.gcd m n = 1 ∧ ModeOk mode)) := by
  have hg : ∀ idx : List ℤ, ∀ nm, ∃ a, GridArray.init (Mat.col idx) (.d0 (.scalar x)) nm {} = .ok a :=
    fun idx nm => gridInit_ok_of (d := []) (by simp [GridArgsMatch]) rfl
  have hgcd : Nat.gcd (if m > n then n else m) (if m > n then m else n) = Nat.gcd m n := by
    split
    · rw [Nat.gcd_comm]
    · rfl
  by_cases h1 : Nat.gcd m n = 1
  · have hno : ¬ (Nat.gcd (if m > n then n else m) (if m > n then m else n) ≠ 1) := by
      rw [hgcd]; simpa using h1
    by_cases h2 : mode.toLower = "2m"
    · simp only [coprime, coprimeIndices, hno, if_false, h2, if_true]
      obtain ⟨a, ha⟩ := hg ((List.range (if m > n then m else n)).map
          (fun i : ℕ => (i : ℤ) * ((if m > n then n else m : ℕ) : ℤ)) ++
        (List.range (2 * (if m > n then n else m) - 1)).map
          (fun i : ℕ => ((i : ℤ) + 1) * ((if m > n then m else n : ℕ) : ℤ)))
        (some (name.getD ("Co-prime (" ++ toString m ++ "," ++ toString n ++ ")")))
      rw [ha]
      simp [h1, ModeOk, h2]
    · by_cases h3 : mode.toLower = "m"
      · have hne : ¬ ("m" : String) = "2m" := by decide
        simp only [coprime, coprimeIndices, hno, if_false, h3, if_true, hne]
        obtain ⟨a, ha⟩ := hg ((List.range (if m > n then m else n)).map
            (fun i : ℕ => (i : ℤ) * ((if m > n then n else m : ℕ) : ℤ)) ++
          (List.range ((if m > n then n else m) - 1)).map
            (fun i : ℕ => ((i : ℤ) + 1) * ((if m > n then m else n : ℕ) : ℤ)))
          (some (name.getD ("Co-prime (" ++ toString m ++ "," ++ toString n ++ ")")))
        rw [ha]
        simp [h1, ModeOk, h3]
      · simp only [coprime, coprimeIndices, hno, if_false, h2, h3]
        simp [ModeOk, h2, h3]
  · have hno : Nat.gcd (if m > n then n else m) (if m > n then m else n) ≠ 1 := by
      rw [hgcd]; exact h1
    simp only [coprime, coprimeIndices, hno, if_true, ne_eq, not_false_eq_true]
    simp [h1]

/-- What a successful constructor call produces. -/
theorem coprime_indices {m n : ℕ} {x : ℝ} {mode : String} {name : Option String} {kw : Kwargs}
    {a : GridArray} (h : coprime m n (.scalar x) mode name kw = .ok a) :
    Nat.gcd (min m n) (max m n) = 1 ∧
    ((mode.toLower = "2m" ∧ Is1DGrid a (cpIdx (min m n) (max m n) (2 * min m n - 1))) ∨
     (mode.toLower = "m" ∧ Is1DGrid a (cpIdx (min m n) (max m n) (min m n - 1)))) := by
  have e1 : (if m > n then n else m) = min m n := by
    rw [Nat.min_def]; split <;> split <;> omega
  have e2 : (if m > n then m else n) = max m n := by
    rw [Nat.max_def]; split <;> split <;> omega
  unfold coprime coprimeIndices at h
  simp only [e1, e2] at h
  by_cases hg : Nat.gcd (min m n) (max m n) = 1
  · refine ⟨hg, ?_⟩
    simp only [hg, ne_eq, not_true, if_false] at h
    by_cases h2 : mode.toLower = "2m"
    · simp only [h2, if_true] at h
      exact Or.inl ⟨h2, (gridInit_col h).1⟩
    · simp only [h2, if_false] at h
      by_cases h3 : mode.toLower = "m"
      · simp only [h3, if_true] at h
        exact Or.inr ⟨h3, (gridInit_col h).1⟩
      · simp [h3] at h
  · simp [hg] at h

/-- **C03** (elements). A created co-prime array has pairwise distinct elements,
`n' + 2m' - 1` of them in mode '2m' and `n' + m' - 1` in mode 'm', where `m' = min m n` and
`n' = max m n`. -/
theorem C03_coprime_elements (m n : ℕ) (hm : 1 ≤ m) (hn : 1 ≤ n) (x : ℝ) (mode : String)
    (name : Option String) (kw : Kwargs) (a : GridArray)
    (h : coprime m n (.scalar x) mode name kw = .ok a) :
    ∃ l, Is1DGrid a l ∧ l.Nodup ∧
      a.size = max m n + (if mode.toLower = "2m" then 2 * min m n - 1 else min m n - 1) := by
  obtain ⟨hg, ⟨h2, hl⟩ | ⟨h2, hl⟩⟩ := coprime_indices h
  · exact ⟨_, hl, cp_nodup _ _ _ (by omega) (by omega) hg, by rw [hl.2.2]; simp [cpIdx, h2]⟩
  · exact ⟨_, hl, cp_nodup _ _ _ (by omega) (by omega) hg, by
      have hne : ¬ ("m" : String) = "2m" := by decide
      rw [hl.2.2]; simp [cpIdx, h2]⟩

/-- **C03** (order of the pair). `CoPrimeArray(m, n)` and `CoPrimeArray(n, m)` agree on success and
have the same element indices in the same order. -/
theorem C03_coprime_swap (m n : ℕ) (mode : String) :
    coprimeIndices m n mode = coprimeIndices n m mode := by
  have e1 : (if m > n then n else m) = (if n > m then m else n) := by split <;> split <;> omega
  have e2 : (if m > n then m else n) = (if n > m then n else m) := by split <;> split <;> omega
  unfold coprimeIndices
  rw [e1, e2]

example : coprimeIndices 5 3 "2m" = .ok [0, 3, 6, 9, 12, 5, 10, 15, 20, 25] := by decide +kernel
example : Nat.gcd 4 6 ≠ 1 := by decide
example : ModeOk "2M" := by right; decide +kernel

/-- **C04** (mode '2m'). For a co-prime pair `1 ≤ m ≤ n` exactly the lags `|d| ≤ mn + m - 1` form
the central ULA: all are present and `mn + m` is a hole. -/
theorem C04_central_2m (m n : ℕ) (hm : 1 ≤ m) (hmn : m ≤ n) (x : ℝ) (mode : String)
    (hmode : mode.toLower = "2m") (name : Option String) (kw : Kwargs) (a : GridArray)
    (h : coprime m n (.scalar x) mode name kw = .ok a) :
    ∃ l, Is1DGrid a l ∧ (∀ d : ℤ, |d| ≤ m * n + m - 1 → IsLag l d) ∧ ¬ IsLag l (m * n + m) ∧
      ∃ w, WeightFunction.init a = .ok w ∧ (w.centralUlaSize true).1 = m * n + m ∧
        (w.centralUlaSize false).1 = 2 * (m * n + m) - 1 := by
  obtain ⟨hg, ⟨h2, hl⟩ | ⟨h2, hl⟩⟩ := coprime_indices h
  · rw [Nat.min_eq_left hmn, Nat.max_eq_right hmn] at hg hl
    have hc := cp2m_central m n hm hmn hg
    have hu := (countLags_central _).unique hc
    have hu' : ((WeightFunction.countLags (buildMapLoop [] 0
      (locationDifferences (cpIdx m n (2 * m - 1)))) 0 : ℕ) : ℤ) = m * n + m := by
      exact_mod_cast hu
    refine ⟨_, hl, fun d hd => hc.1 d (by push_cast; omega), ?_, _, weightFunction_init hl, ?_, ?_⟩
    · have := (isCentralSize_iff.1 hc).2
      push_cast at this; exact this
    · simpa [WeightFunction.centralUlaSize] using hu'
    · change ((WeightFunction.countLags (buildMapLoop [] 0
        (locationDifferences (cpIdx m n (2 * m - 1)))) 0 : ℕ) : ℤ) * 2 - 1 = _
      rw [hu']; ring
  · rw [hmode] at h2; exact absurd h2 (by decide)

/-- **C04** (mode 'm'). For a co-prime pair `2 ≤ m ≤ n` exactly the lags `|d| ≤ m + n - 1` form
the central ULA: all are present and `m + n` is a hole. -/
theorem C04_central_m (m n : ℕ) (hm : 2 ≤ m) (hmn : m ≤ n) (x : ℝ) (mode : String)
    (hmode : mode.toLower = "m") (name : Option String) (kw : Kwargs) (a : GridArray)
    (h : coprime m n (.scalar x) mode name kw = .ok a) :
    ∃ l, Is1DGrid a l ∧ (∀ d : ℤ, |d| ≤ m + n - 1 → IsLag l d) ∧ ¬ IsLag l (m + n) ∧
      ∃ w, WeightFunction.init a = .ok w ∧ (w.centralUlaSize true).1 = m + n ∧
        (w.centralUlaSize false).1 = 2 * (m + n) - 1 := by
  obtain ⟨hg, ⟨h2, hl⟩ | ⟨h2, hl⟩⟩ := coprime_indices h
  · rw [hmode] at h2; exact absurd h2 (by decide)
  · rw [Nat.min_eq_left hmn, Nat.max_eq_right hmn] at hg hl
    have hc := cpm_central m n hm hmn hg
    have hu := (countLags_central _).unique hc
    have hu' : ((WeightFunction.countLags (buildMapLoop [] 0
      (locationDifferences (cpIdx m n (m - 1)))) 0 : ℕ) : ℤ) = m + n := by
      exact_mod_cast hu
    refine ⟨_, hl, fun d hd => hc.1 d (by push_cast; omega), ?_, _, weightFunction_init hl, ?_, ?_⟩
    · have := (isCentralSize_iff.1 hc).2
      push_cast at this; exact this
    · simpa [WeightFunction.centralUlaSize] using hu'
    · change ((WeightFunction.countLags (buildMapLoop [] 0
        (locationDifferences (cpIdx m n (m - 1)))) 0 : ℕ) : ℤ) * 2 - 1 = _
      rw [hu']; ring

example : ∃ a, coprime 3 5 (.scalar 1) "2m" none {} = .ok a :=
  (C03_coprime_raises_iff 3 5 1 "2m" none).2.2 ⟨by decide, Or.inr (by decide +kernel)⟩
example : ∃ a, coprime 3 5 (.scalar 1) "m" none {} = .ok a :=
  (C03_coprime_raises_iff 3 5 1 "m" none).2.2 ⟨by decide, Or.inl (by decide +kernel)⟩

/-! ## C05 -/

/-- Restricted minimum redundancy property of one index list: distinct elements inside `[0, L]`,
`L` the last one, every lag `0..L` present. -/
def HoleFree (l : List ℤ) (L : ℕ) : Prop :=
  l.Nodup ∧ (∀ x ∈ l, 0 ≤ x ∧ x ≤ L) ∧ ∀ k ∈ List.range (L + 1), ∃ a ∈ l, ∃ b ∈ l, a - b = (k : ℤ)

/-- Boolean checker used on the (finite) preset table. -/
def holeFreeCheck (l : List ℕ) (L : ℕ) : Bool :=
  decide (l.Pairwise (· < ·)) && l.all (fun x => Nat.ble x L) &&
    (List.range (L + 1)).all fun k => l.any fun b => l.any fun a => Nat.beq a (b + k)

theorem holeFree_of_check (l : List ℤ) (L : ℕ) (ln : List ℕ)
    (hl : l = ln.map fun x : ℕ => (x : ℤ)) (h : holeFreeCheck ln L = true) : HoleFree l L := by
  simp only [holeFreeCheck, Bool.and_eq_true, decide_eq_true_eq, List.all_eq_true, List.any_eq_true,
    Nat.ble_eq, Nat.beq_eq] at h
  obtain ⟨⟨h1, h2⟩, h3⟩ := h
  subst hl
  refine ⟨?_, ?_, ?_⟩
  · exact List.Nodup.map (fun a b h => by simpa using h) (h1.imp fun h => Nat.ne_of_lt h)
  · intro x hx
    obtain ⟨y, hy, rfl⟩ := List.mem_map.1 hx
    have := h2 y hy
    omega
  · intro k hk
    obtain ⟨b, hb, a, ha, he⟩ := h3 k hk
    exact ⟨a, List.mem_map.2 ⟨a, ha, rfl⟩, b, List.mem_map.2 ⟨b, hb, rfl⟩, by omega⟩

theorem mrla_table_check : ∀ k ∈ List.range 20, ∃ l ∈ mrlaPresets[k]?,
    l.length = k + 1 ∧ l = (l.map Int.toNat).map (fun x : ℕ => (x : ℤ)) ∧
    holeFreeCheck (l.map Int.toNat) ((l.getLast?.getD 0).toNat) = true := by decide +kernel

theorem mrla_table : ∀ k ∈ List.range 20, ∃ l ∈ mrlaPresets[k]?,
    l.length = k + 1 ∧ HoleFree l ((l.getLast?.getD 0).toNat) := by
  intro k hk
  obtain ⟨l, h1, h2, h3, h4⟩ := mrla_table_check k hk
  exact ⟨l, h1, h2, holeFree_of_check l _ _ h3 h4⟩

/-- **C05**, part that holds: for `1 ≤ n ≤ 19` the array is created, has `n` distinct elements and
a hole-free coarray up to its aperture `L`.  Missing with respect to C05: `n = 20`, which the
documentation allows, is rejected (`C05_n20_rejected`). -/
theorem C05_mrla_partial (n : ℤ) (h1 : 1 ≤ n) (h2 : n ≤ 19) (x : ℝ) (name : Option String) :
    ∃ a l, mrla n (.scalar x) name {} = .ok a ∧ Is1DGrid a l ∧ (a.size : ℤ) = n ∧ l.Nodup ∧
      ∃ L : ℕ, (∀ e ∈ l, 0 ≤ e ∧ e ≤ L) ∧ ∀ d : ℤ, IsLag l d ↔ |d| ≤ L := by
  obtain ⟨l, hl, hlen, hnd, hb, hlag⟩ := mrla_table (n - 1).toNat (by simp; omega)
  have hidx : mrlaIndices n = .ok l := by
    have : ¬ (n < 1 ∨ n ≥ (mrlaPresets.length : ℤ)) := by
      have : mrlaPresets.length = 20 := by decide
      rw [this]; push_cast; omega
    simp only [mrlaIndices, this, if_false]
    rw [Option.mem_def] at hl
    rw [hl]
  obtain ⟨a, ha⟩ : ∃ a, mrla n (.scalar x) name {} = .ok a := by
    simp only [mrla, hidx]
    exact gridInit_ok_of (d := []) (by simp [GridArgsMatch]) rfl
  have ha' := ha
  simp only [mrla, hidx] at ha'
  have hg := (gridInit_col ha').1
  refine ⟨a, l, ha, hg, by rw [hg.2.2, hlen]; omega, hnd, _, hb, ?_⟩
  intro d
  constructor
  · rw [isLag_iff_mem]
    rintro ⟨p, hp, q, hq, rfl⟩
    have h3 := hb p hp; have h4 := hb q hq
    rw [abs_le]; constructor <;> omega
  · intro hd
    have : IsLag l (d.natAbs : ℤ) := by
      rw [isLag_iff_mem]
      exact hlag d.natAbs (by rw [Int.abs_eq_natAbs] at hd; simp; omega)
    rcases Int.natAbs_eq d with e | e
    · rw [e]; exact this
    · rw [e]; exact this.neg

/-- Outside `1..19` the constructor raises `ValueError`. -/
theorem C05_mrla_rejects (n : ℤ) (h : n < 1 ∨ 20 ≤ n) (d0 : D0Arg) (name : Option String)
    (kw : Kwargs) : mrla n d0 name kw = .error .valueError := by
  have : n < 1 ∨ n ≥ (mrlaPresets.length : ℤ) := by
    have h2 : mrlaPresets.length = 20 := by decide
    rw [h2]; push_cast; omega
  simp only [mrla, mrlaIndices, this, if_true]

/-- **C05 is false of the code**: "accepts exactly the documented `n` in 1..20" fails at `n = 20`,
although the table contains a valid 20-element preset. -/
theorem C05_n20_rejected :
    (¬ ∀ n : ℤ, 1 ≤ n → n ≤ 20 → ∃ a, mrla n (.scalar 1) none {} = .ok a) ∧
    ∃ l ∈ mrlaPresets[19]?, l.length = 20 ∧ HoleFree l 125 := by
  refine ⟨fun h => ?_, ?_⟩
  swap
  · obtain ⟨l, h1, h2, h3⟩ := mrla_table 19 (by decide)
    have hl : l = [0, 1, 10, 22, 34, 46, 58, 70, 82, 94, 106, 108, 110, 112, 114, 117, 119, 121,
      123, 125] := (Option.some.inj h1).symm
    refine ⟨l, h1, h2, ?_⟩
    rw [hl] at h3 ⊢
    exact h3
  obtain ⟨a, ha⟩ := h 20 (by norm_num) (by norm_num)
  rw [C05_mrla_rejects 20 (by norm_num)] at ha
  cases ha

example : mrlaIndices 5 = .ok [0, 1, 4, 7, 9] := by decide

/-! ## C06 -/

theorem uca_locations (n : ℕ) (hn : n ≠ 0) (r : ℝ) (name : Option String) (kw : Kwargs) :
    uca n r name kw = .ok
      { locations := ⟨2, (linspace (0 : ℝ) (Real.pi * (2 - 2 / (n : ℝ))) n).map
          fun t => ![r * Real.cos t, r * Real.sin t]⟩,
        name := some (name.getD ("UCA " ++ toString n)), element := .isotropicScalar,
        perts := [] } := by
  simp [uca, hn, ArrayDesign.init, addPerturbations]

theorem uca_theta (n : ℕ) (hn : n ≠ 0) (i : ℕ) (hi : i < n) :
    (linspace (0 : ℝ) (Real.pi * (2 - 2 / (n : ℝ))) n)[i]? = some (2 * Real.pi * i / n) := by
  simp only [linspace, List.getElem?_map, List.getElem?_range hi, Option.map_some]
  congr 1
  have hn' : (n : ℝ) ≠ 0 := by exact_mod_cast hn
  by_cases h1 : n = 1
  · subst h1
    have : i = 0 := by omega
    simp [this]
  · have hn1 : ((n - 1 : ℕ) : ℝ) = n - 1 := by
      rw [Nat.cast_sub (by omega)]; simp
    have hn2 : (n : ℝ) - 1 ≠ 0 := by
      intro h; apply h1; have : (n : ℝ) = 1 := by linarith
      exact_mod_cast this
    rw [hn1]; field_simp; ring

/-- **C06** (geometry). The `i`-th element of a UCA is at angle `2πi/n` on the circle of radius
`r`; there are `n` elements. -/
theorem C06_uca_geometry (n : ℕ) (hn : 1 ≤ n) (r : ℝ) (name : Option String) (kw : Kwargs) :
    ∃ a, uca n r name kw = .ok a ∧ a.size = n ∧ a.ndim = 2 ∧
      ∀ i, i < n →
        a.locations.get? i 0 = some (r * Real.cos (2 * Real.pi * i / n)) ∧
        a.locations.get? i 1 = some (r * Real.sin (2 * Real.pi * i / n)) ∧
        (a.locations.at0 i 0) ^ 2 + (a.locations.at0 i 1) ^ 2 = r ^ 2 := by
  refine ⟨_, uca_locations n (by omega) r name kw, by simp [ArrayDesign.size, Mat.nrows, linspace],
    rfl, fun i hi => ?_⟩
  have h0 : ∀ j : Fin 2, Mat.get? (⟨2, (linspace (0 : ℝ) (Real.pi * (2 - 2 / (n : ℝ))) n).map
          fun t => ![r * Real.cos t, r * Real.sin t]⟩ : Mat ℝ) i j.1 =
        some ((![r * Real.cos (2 * Real.pi * i / n), r * Real.sin (2 * Real.pi * i / n)] :
          Fin 2 → ℝ) j) := by
    intro j
    have : Mat.get? (⟨2, (linspace (0 : ℝ) (Real.pi * (2 - 2 / (n : ℝ))) n).map
          fun t => ![r * Real.cos t, r * Real.sin t]⟩ : Mat ℝ) i j.1 =
        (((linspace (0 : ℝ) (Real.pi * (2 - 2 / (n : ℝ))) n).map
          fun t => (![r * Real.cos t, r * Real.sin t] : Fin 2 → ℝ))[i]?).bind
          fun r => if h : j.1 < 2 then some (r ⟨j.1, h⟩) else none := rfl
    rw [this, List.getElem?_map, uca_theta n (by omega) i hi]
    simp
    omega
  have h00 := h0 0
  have h01 := h0 1
  refine ⟨h00, h01, ?_⟩
  have e0 : ∀ M : Mat ℝ, ∀ j v, M.get? i j = some v → M.at0 i j = v := by
    intro M j v hv; rw [Mat.at0, hv]; rfl
  rw [e0 _ 0 _ h00, e0 _ 1 _ h01]
  simp only [Matrix.cons_val_zero, Matrix.cons_val_one]
  have := Real.sin_sq_add_cos_sq (2 * Real.pi * i / n)
  linear_combination r ^ 2 * this

/-- **C06** (distinctness). For `r ≠ 0` the elements of a UCA are pairwise distinct. -/
theorem C06_uca_distinct (n : ℕ) (r : ℝ) (hr : r ≠ 0) (name : Option String)
    (kw : Kwargs) (a : ArrayDesign) (h : uca n r name kw = .ok a) (i j : ℕ) (hi : i < n)
    (hj : j < n) (hx : a.locations.get? i 0 = a.locations.get? j 0)
    (hy : a.locations.get? i 1 = a.locations.get? j 1) : i = j := by
  have hn : 1 ≤ n := by omega
  obtain ⟨a', ha', _, _, hg⟩ := C06_uca_geometry n hn r name kw
  rw [h] at ha'
  cases ha'
  rw [(hg i hi).1, (hg j hj).1, Option.some.injEq] at hx
  rw [(hg i hi).2.1, (hg j hj).2.1, Option.some.injEq] at hy
  have hc := mul_left_cancel₀ hr hx
  have hs := mul_left_cancel₀ hr hy
  have hang : ((2 * Real.pi * i / n : ℝ) : Real.Angle) = (2 * Real.pi * j / n : ℝ) :=
    Real.Angle.cos_sin_inj hc hs
  rw [Real.Angle.angle_eq_iff_two_pi_dvd_sub] at hang
  obtain ⟨k, hk⟩ := hang
  have hn' : (n : ℝ) ≠ 0 := by
    have : n ≠ 0 := by omega
    exact_mod_cast this
  have hpi := Real.pi_ne_zero
  have hk2 : (i : ℝ) - j = k * n := by
    field_simp at hk; linarith
  have hk3 : (i : ℤ) - j = k * n := by exact_mod_cast hk2
  have hk0 : k = 0 := by
    by_contra hne
    rcases lt_or_gt_of_ne hne with hlt | hgt
    · have : k * n ≤ (-1) * (n : ℤ) := mul_le_mul_of_nonneg_right (by omega) (by omega)
      omega
    · have : 1 * (n : ℤ) ≤ k * n := mul_le_mul_of_nonneg_right (by omega) (by omega)
      omega
  rw [hk0] at hk3; omega

/-- **C06 is false of the code** (keyword arguments): every keyword argument is silently ignored;
in particular a perturbation passed to the constructor is not in the array. -/
theorem C06_uca_kwargs_dropped (n : ℕ) (r : ℝ) (name : Option String) (kw : Kwargs) :
    uca n r name kw = uca n r name {} ∧
    ∀ a, uca n r name kw = .ok a → a.perturbations = [] ∧ a.element = .isotropicScalar := by
  refine ⟨rfl, fun a ha => ?_⟩
  by_cases hn : n = 0
  · simp [uca, hn] at ha
  · rw [uca_locations n hn] at ha; cases ha; exact ⟨rfl, rfl⟩

example : ∃ a, uca 8 1 none {} = .ok a := ⟨_, uca_locations 8 (by norm_num) 1 none {}⟩

/-! ## C07 -/

theorem ura_get (m n i j c : ℕ) (hi : i < m) (hj : j < n) (hc : c < 2) :
    (uraIndices m n).get? (i * n + j) c = some (if c = 0 then (i : ℤ) else (j : ℤ)) := by
  have h : (uraIndices m n).get? (i * n + j) c =
      (((List.range m).flatMap fun i : ℕ => (List.range n).map fun j : ℕ =>
        (![(i : ℤ), (j : ℤ)] : Fin 2 → ℤ))[i * n + j]?).bind
      fun r => if h : c < 2 then some (r ⟨c, h⟩) else none := rfl
  rw [h, ListAux.getElem?_flatMap_uniform _ n _ (by simp) i j hj]
  simp only [List.getElem?_range hi, Option.bind_some, List.getElem?_map, List.getElem?_range hj,
    Option.map_some, hc, dif_pos]
  have : c = 0 ∨ c = 1 := by omega
  rcases this with rfl | rfl <;> simp

theorem ura_nrows (m n : ℕ) : (uraIndices m n).nrows = m * n := by
  have : (uraIndices m n).nrows = ((List.range m).flatMap fun i : ℕ => (List.range n).map
    fun j : ℕ => (![(i : ℤ), (j : ℤ)] : Fin 2 → ℤ)).length := rfl
  rw [this, ListAux.length_flatMap_uniform _ n _ (by simp)]; simp

/-- The two spacings described by `d0`. -/
def uraSpacing : D0Arg → Option (ℝ × ℝ)
  | .scalar x => some (x, x)
  | .vec [x, y] => some (x, y)
  | _ => none

/-- **C07**. `UniformRectangularArray(m, n, d0)` (with a scalar or two-element `d0` giving the
spacings `(dx, dy)`) has `m*n` elements and element number `i*n+j` sits at `(i*dx, j*dy)`. -/
theorem C07_ura (m n : ℕ) (d0 : D0Arg) (dx dy : ℝ) (hd : uraSpacing d0 = some (dx, dy))
    (name : Option String) (kw : Kwargs) (a : GridArray) (h : ura m n d0 name kw = .ok a) :
    a.size = m * n ∧ a.ndim = 2 ∧
    (∀ i j, i < m → j < n →
      a.locations.get? (i * n + j) 0 = some ((i : ℝ) * dx) ∧
      a.locations.get? (i * n + j) 1 = some ((j : ℝ) * dy)) ∧
    (dx ≠ 0 → dy ≠ 0 → ∀ p q, p < m * n → q < m * n →
      (∀ c, a.locations.get? p c = a.locations.get? q c) → p = q) := by
  obtain ⟨h1, h2, h3, h4, h5, h6, h7, h8, h9, h10⟩ := gridInit_spec h
  have hb : a.bases = Mat.eyeMul [dx, dy] := by
    cases d0 with
    | scalar x =>
      simp only [uraSpacing, Option.some.injEq, Prod.mk.injEq] at hd
      obtain ⟨rfl, rfl⟩ := hd
      simp only at h10
      rw [h10.2, h10.1]; rfl
    | vec l =>
      simp only at h10
      rw [h10.2.1]
      rcases l with _ | ⟨x, _ | ⟨y, _ | ⟨z, l⟩⟩⟩
      · simp [uraSpacing] at hd
      · simp [uraSpacing] at hd
      · simp only [uraSpacing, Option.some.injEq, Prod.mk.injEq] at hd
        obtain ⟨rfl, rfl⟩ := hd
        rfl
      · simp [uraSpacing] at hd
    | nd => simp [uraSpacing] at hd
  have hdim : a.ndim = 2 := by rw [h7, hb]; rfl
  have hcols : (uraIndices m n).ncols = 2 := rfl
  have hloc : ∀ i j, i < m → j < n →
      a.locations.get? (i * n + j) 0 = some ((i : ℝ) * dx) ∧
      a.locations.get? (i * n + j) 1 = some ((j : ℝ) * dy) := by
    intro i j hi hj
    have hr : i * n + j < (uraIndices m n).nrows := by
      rw [ura_nrows]
      calc i * n + j < i * n + n := by omega
        _ = (i + 1) * n := by ring
        _ ≤ m * n := Nat.mul_le_mul_right _ hi
    constructor
    · rw [h9 _ 0 hr (by omega), hb, sum_eyeMul _ [dx, dy] _ 0 hcols (by rw [hcols]; omega),
        Mat.at0, ura_get m n i j 0 hi hj (by omega)]
      simp
    · rw [h9 _ 1 hr (by omega), hb, sum_eyeMul _ [dx, dy] _ 1 hcols (by rw [hcols]; omega),
        Mat.at0, ura_get m n i j 1 hi hj (by omega)]
      simp
  refine ⟨by rw [h5, ura_nrows], hdim, hloc, ?_⟩
  intro hx hy p q hp hq hpq
  have hn : 0 < n := by
    rcases Nat.eq_zero_or_pos n with h0 | h0
    · simp [h0] at hp
    · exact h0
  have dp := Nat.div_add_mod p n
  have dq := Nat.div_add_mod q n
  have hp1 : p / n < m := (Nat.div_lt_iff_lt_mul hn).2 hp
  have hq1 : q / n < m := (Nat.div_lt_iff_lt_mul hn).2 hq
  have lp := hloc (p / n) (p % n) hp1 (Nat.mod_lt _ hn)
  have lq := hloc (q / n) (q % n) hq1 (Nat.mod_lt _ hn)
  have ep : p / n * n + p % n = p := by rw [Nat.mul_comm]; exact dp
  have eq : q / n * n + q % n = q := by rw [Nat.mul_comm]; exact dq
  rw [ep] at lp
  rw [eq] at lq
  have c0 := hpq 0
  have c1 := hpq 1
  rw [lp.1, lq.1, Option.some.injEq] at c0
  rw [lp.2, lq.2, Option.some.injEq] at c1
  have e0 : p / n = q / n := by exact_mod_cast mul_right_cancel₀ hx c0
  have e1 : p % n = q % n := by exact_mod_cast mul_right_cancel₀ hy c1
  rw [← ep, ← eq, e0, e1]

example : ∃ a, ura 3 4 (.vec [1, 2]) none {} = .ok a :=
  gridInit_ok_of (d := []) ⟨rfl, by decide⟩ rfl
example : uraSpacing (.vec [1, 2]) = some (1, 2) := rfl

/-! ## C08 -/

/-- **C08** (placement). The element with grid index `(i₁,…,i_d)` is at `i₁ v₁ + … + i_d v_d`,
where the basis vectors are described by the arguments; a scalar spacing is the constant list. -/
theorem C08_placement (idx : Mat ℤ) (spec : GridSpec) (name : Option String) (kw : Kwargs)
    (a : GridArray) (h : GridArray.init idx spec name kw = .ok a) :
    a.size = idx.nrows ∧ a.ndim = gridDim idx spec ∧
    ∀ i j, i < idx.nrows → j < a.ndim →
      a.locations.get? i j =
        some (∑ k ∈ Finset.range idx.ncols, (idx.at0 i k : ℝ) * basisCoord spec k j) := by
  obtain ⟨h1, h2, h3, h4, h5, h6, h7, h8, h9, h10⟩ := gridInit_spec h
  cases spec with
  | d0 x =>
    cases x with
    | scalar x =>
      simp only at h10
      have hl : a.d0.length = idx.ncols := by rw [h10.1]; simp
      refine ⟨h5, by rw [h7, h10.2]; simp [gridDim, hl], fun i j hi hj => ?_⟩
      rw [h9 i j hi hj, h10.2]
      congr 1
      apply Finset.sum_congr rfl
      intro k hk
      rw [Mat.at0_eyeMul, basisCoord]
      by_cases hkj : k = j
      · subst hkj
        have : k < idx.ncols := Finset.mem_range.1 hk
        simp [h10.1, this]
      · simp [hkj]
    | vec l =>
      simp only at h10
      refine ⟨h5, by rw [h7, h10.2.1]; simp [gridDim, h10.2.2], fun i j hi hj => ?_⟩
      rw [h9 i j hi hj, h10.2.1]
      congr 1
      apply Finset.sum_congr rfl
      intro k hk
      rw [Mat.at0_eyeMul, basisCoord]
      by_cases hkj : k = j
      · subst hkj; rfl
      · simp [hkj]
    | nd => exact h10.elim
  | bases B =>
    simp only at h10
    refine ⟨h5, by rw [h7, h10.1]; rfl, fun i j hi hj => ?_⟩
    rw [h9 i j hi hj, h10.1]; rfl

/-- **C08** (argument errors). Without perturbations, construction succeeds exactly when the grid
arguments match, and otherwise raises `ValueError`. -/
theorem C08_errors (idx : Mat ℤ) (spec : GridSpec) (name : Option String) (el : Element) :
    ((∃ a, GridArray.init idx spec name { element := el } = .ok a) ↔ GridArgsMatch idx spec) ∧
    (GridArray.init idx spec name { element := el } = .error .valueError ↔
      ¬ GridArgsMatch idx spec) := by
  have h1 : (∃ a, GridArray.init idx spec name { element := el } = .ok a) ↔
      GridArgsMatch idx spec :=
    ⟨fun ⟨a, ha⟩ => gridArgsMatch_of_ok ha, fun h => gridInit_ok_of (d := []) h rfl⟩
  refine ⟨h1, fun he hm => ?_, fun h => gridInit_error h⟩
  obtain ⟨a, ha⟩ := h1.2 hm
  rw [ha] at he; cases he

/-- **C08** (scalar spacing). A scalar `d0` gives the same array as the constant list. -/
theorem C08_scalar_eq_list (idx : Mat ℤ) (x : ℝ) (name : Option String) (kw : Kwargs) :
    GridArray.init idx (.d0 (.scalar x)) name kw =
      GridArray.init idx (.d0 (.vec (List.replicate idx.ncols x))) name kw := rfl

example : GridArgsMatch (uraIndices 2 3) (.bases ⟨3, [![1, 0, 0], ![0, 1, 1]]⟩) :=
  ⟨rfl, by decide⟩
example : ¬ GridArgsMatch (uraIndices 2 3) (.d0 (.vec [1, 2, 3])) := by
  rintro ⟨h, _⟩; simp [uraIndices] at h

end Doa.Props
