import Verif.Model.ArrayQueries
import Verif.Props.Bookkeeping

/-! # C75: the perturbation queries report what was set -/

namespace Doa.Props
open Doa Doa.Spec

/-- What `has_perturbation`, `is_perturbation_known` and `get_perturbation_params` answer for one
type of perturbation, when the perturbation of that type is `p` (`none`: there is none). -/
def Answers (a : ArrayDesign) (k : PertKind) (p : Option Perturbation) : Prop :=
  match p with
  | none => a.hasPerturbation k = false ∧ a.isPerturbationKnown k = .error .keyError ∧
      a.getPerturbationParams k = .error .keyError
  | some p => a.hasPerturbation k = true ∧ a.isPerturbationKnown k = .ok p.isKnown ∧
      a.getPerturbationParams k = .ok p.params

theorem answers_get (a : ArrayDesign) (k : PertKind) : Answers a k (a.perts.get? k) := by
  unfold Answers
  cases h : a.perts.get? k with
  | none =>
    exact ⟨by simp [ArrayDesign.hasPerturbation, PyDict.contains, h],
      by simp [ArrayDesign.isPerturbationKnown, h], by simp [ArrayDesign.getPerturbationParams, h]⟩
  | some p =>
    exact ⟨by simp [ArrayDesign.hasPerturbation, PyDict.contains, h],
      by simp [ArrayDesign.isPerturbationKnown, h], by simp [ArrayDesign.getPerturbationParams, h]⟩

/-- In a list without two entries of the same type, the last of a type is the only one. -/
theorem lastOfKind_of_nodup {ps : List Perturbation} (h : (ps.map Perturbation.kind).Nodup)
    {p : Perturbation} (hp : p ∈ ps) : lastOfKind ps p.kind = some p := by
  cases hf : lastOfKind ps p.kind with
  | none =>
    unfold lastOfKind at hf
    rw [List.find?_eq_none] at hf
    exact absurd (by simp) (hf p (List.mem_reverse.2 hp))
  | some q =>
    unfold lastOfKind at hf
    have h1 := List.find?_some hf
    have h2 := List.mem_reverse.1 (List.mem_of_find?_eq_some hf)
    have h3 : q.kind = p.kind := by simpa using h1
    rw [List.inj_on_of_nodup_map h h2 hp h3]

theorem lastOfKind_none {ps : List Perturbation} {k : PertKind}
    (h : ∀ p ∈ ps, p.kind ≠ k) : lastOfKind ps k = none := by
  unfold lastOfKind
  rw [List.find?_eq_none]
  intro p hp
  simpa using h p (List.mem_reverse.1 hp)

/-- **C75** (consistency). After any history of constructor calls, copies and accessor calls, the
four queries of every array object agree: for each type either there is exactly one perturbation of
that type in `perturbations`, and the queries report its flag and parameters, or there is none,
`has_perturbation` is false and the other two raise `KeyError`. `is_perturbed` is true exactly when
some type is present. -/
theorem C75_consistent (ops : List ArrOp) (r : ℕ) (a : ArrayDesign)
    (h : (Heap.run {} ops).view r = some a) :
    (∀ k, (∃ p, p ∈ a.perturbations ∧ p.kind = k ∧
        (∀ q ∈ a.perturbations, q.kind = k → q = p) ∧ Answers a k (some p)) ∨
      ((∀ p ∈ a.perturbations, p.kind ≠ k) ∧ Answers a k none)) ∧
    (a.isPerturbed = true ↔ ∃ k, a.hasPerturbation k = true) := by
  obtain ⟨h1, _, h3⟩ := C09_invariant ops r a h
  constructor
  · intro k
    have ha := answers_get a k
    cases hk : a.perts.get? k with
    | none =>
      rw [hk] at ha
      refine Or.inr ⟨fun p hp hpk => ?_, ha⟩
      have := (h3 k p).2 ⟨hp, hpk⟩
      rw [hk] at this; cases this
    | some p =>
      rw [hk] at ha
      obtain ⟨h4, h5⟩ := (h3 k p).1 hk
      refine Or.inl ⟨p, h4, h5, fun q hq hqk => ?_, ha⟩
      have := (h3 k q).2 ⟨hq, hqk⟩
      rw [hk] at this; exact (Option.some.inj this).symm
  · constructor
    · intro hp
      have hl : 0 < a.perturbations.length := by
        simpa [ArrayDesign.isPerturbed, ArrayDesign.perturbations, PyDict.values] using hp
      obtain ⟨p, hp⟩ := List.exists_mem_of_length_pos hl
      have := (h3 p.kind p).2 ⟨hp, rfl⟩
      exact ⟨p.kind, by simp [ArrayDesign.hasPerturbation, PyDict.contains, this]⟩
    · rintro ⟨k, hk⟩
      have hk' : (a.perts.get? k).isSome := by
        simpa [ArrayDesign.hasPerturbation, PyDict.contains] using hk
      obtain ⟨p, hp⟩ := Option.isSome_iff_exists.1 hk'
      have hm := ((h3 k p).1 hp).1
      have hl := List.length_pos_of_mem hm
      simpa [ArrayDesign.isPerturbed, ArrayDesign.perturbations, PyDict.values] using hl

/-- **C75** (constructor). The queries of a new array report the perturbation of each type given to
the constructor, and nothing else. -/
theorem C75_constructor (loc : Nd ℝ) (nm : Option String) (el : Element) (ps : List Perturbation)
    (a : ArrayDesign) (h : ArrayDesign.init loc nm ⟨ps, el⟩ = .ok a) :
    (∀ p ∈ ps, Answers a p.kind (some p)) ∧ ∀ k, (∀ p ∈ ps, p.kind ≠ k) → Answers a k none := by
  have key : ∃ n, addPerturbations n el true [] ps = .ok a.perts := by
    have fin : ∀ M : Mat ℝ, (match addPerturbations M.nrows el true [] ps with
        | .error e => (.error e : Res ArrayDesign)
        | .ok d => .ok { locations := M, name := nm, element := el, perts := d }) = .ok a →
        ∃ n, addPerturbations n el true [] ps = .ok a.perts := by
      intro M hM
      refine ⟨M.nrows, ?_⟩
      cases hd : addPerturbations M.nrows el true [] ps with
      | error e => rw [hd] at hM; cases hM
      | ok d => rw [hd] at hM; cases hM; rfl
    cases loc with
    | tensor => simp [ArrayDesign.init] at h
    | scalar x => simp [ArrayDesign.init] at h
    | vec l => exact fin _ h
    | mat M =>
      by_cases h3 : M.ncols > 3
      · simp [ArrayDesign.init, h3] at h
      · simp only [ArrayDesign.init, h3, if_false] at h
        exact fin _ h
  obtain ⟨n, hn⟩ := key
  have hg := addPerturbations_get? hn
  have hnd := (addPerturbations_true_ok_iff.1 ⟨_, hn⟩).2.1
  constructor
  · intro p hp
    have h1 := hg p.kind
    rw [lastOfKind_of_nodup hnd hp] at h1
    have := answers_get a p.kind
    rw [h1] at this
    exact this
  · intro k hk
    have h1 := hg k
    rw [lastOfKind_none hk] at h1
    have := answers_get a k
    rw [h1] at this
    exact this

/-- **C75** (copies). The queries of a perturbed copy report, for every type that occurs in the
argument, the last perturbation of that type in the argument, and for every other type what the
original array reports. The queries of a perturbation-free copy report nothing. -/
theorem C75_copies (h : Heap) (r : ℕ) (a : ArrayDesign) (hv : h.view r = some a) (ps : PertInput)
    (nm : Option String) :
    (∀ r', (h.perturbedCopy r ps nm).1 = .ok r' → ∃ l b, ps.parse = .ok l ∧
      (h.perturbedCopy r ps nm).2.view r' = some b ∧
      (∀ l1 p l2, l = l1 ++ p :: l2 → (∀ q ∈ l2, q.kind ≠ p.kind) → Answers b p.kind (some p)) ∧
      ∀ k, (∀ p ∈ l, p.kind ≠ k) → b.hasPerturbation k = a.hasPerturbation k ∧
        b.isPerturbationKnown k = a.isPerturbationKnown k ∧
        b.getPerturbationParams k = a.getPerturbationParams k) ∧
    ∃ r' b, (h.freeCopy r nm).1 = .ok r' ∧ (h.freeCopy r nm).2.view r' = some b ∧
      ∀ k, Answers b k none := by
  obtain ⟨_, h2, r', b, f1, f2, f3, _⟩ := C10_copy h r a hv ps nm
  refine ⟨fun r' hr => ?_, r', b, f1, f2, fun k => ?_⟩
  · obtain ⟨l, b, g1, g2, g3, _⟩ := h2 r' hr
    refine ⟨l, b, g1, g2, ?_, ?_⟩
    · intro l1 p l2 hl hq
      have hlast : lastOfKind l p.kind = some p := by
        unfold lastOfKind
        rw [hl]
        simp only [List.reverse_append, List.reverse_cons, List.append_assoc, List.find?_append]
        have : List.find? (fun p_1 => decide (p_1.kind = p.kind)) l2.reverse = none := by
          rw [List.find?_eq_none]
          intro q hq'
          simpa using hq q (List.mem_reverse.1 hq')
        rw [this]
        simp
      have hb := answers_get b p.kind
      rw [g3 p.kind, hlast] at hb
      exact hb
    · intro k hk
      have hb := g3 k
      rw [lastOfKind_none hk] at hb
      have hb' : b.perts.get? k = a.perts.get? k := by simpa using hb
      exact ⟨by simp [ArrayDesign.hasPerturbation, PyDict.contains, hb'],
        by simp [ArrayDesign.isPerturbationKnown, hb'],
        by simp [ArrayDesign.getPerturbationParams, hb']⟩
  · have hp : b.perts = [] := by
      simpa [ArrayDesign.perturbations, PyDict.values] using f3
    have := answers_get b k
    rw [hp] at this
    exact this

/-- What the entry `key: (params, known)` of a perturbation dictionary asks for: a perturbation of the
type named by the key, with these parameters and this flag.  Location errors need one to three columns,
gain and phase errors a one-dimensional ndarray, a coupling matrix two dimensions. -/
def AsksFor : DictItem → Perturbation → Prop
  | .locationErrors x known, p => ∃ M : Mat ℝ, x = .mat M ∧ 1 ≤ M.ncols ∧ M.ncols ≤ 3 ∧
      p.kind = .location ∧ p.params = .locations M ∧ p.isKnown = known
  | .gainErrors x known, p => ∃ g : List ℝ, x = .ndarray (.vec g) ∧
      p.kind = .gain ∧ p.params = .gains g ∧ p.isKnown = known
  | .phaseErrors x known, p => ∃ g : List ℝ, x = .ndarray (.vec g) ∧
      p.kind = .phase ∧ p.params = .phases g ∧ p.isKnown = known
  | .mutualCoupling C known, p => ∃ M : Mat ℂ, C = .mat M ∧
      p.kind = .coupling ∧ p.params = .coupling M ∧ p.isKnown = known
  | .unknownKey, _ => False

theorem build_iff (i : DictItem) (p : Perturbation) : i.build = .ok p ↔ AsksFor i p := by
  cases i with
  | locationErrors x k =>
    cases x with
    | mat M =>
      by_cases h : M.ncols < 1 ∨ M.ncols > 3
      · simp only [DictItem.build, Perturbation.mkLocation, if_pos h, AsksFor]
        constructor
        · intro h'; cases h'
        · rintro ⟨M', hM, h1, h3, _⟩
          cases hM
          omega
      · simp only [DictItem.build, Perturbation.mkLocation, if_neg h, AsksFor]
        constructor
        · intro h'; cases h'; exact ⟨M, rfl, by omega, by omega, rfl, rfl, rfl⟩
        · rintro ⟨M', hM, -, -, h4, h5, h6⟩
          cases hM
          cases p <;> simp_all [Perturbation.kind, Perturbation.params, Perturbation.isKnown]
    | _ => simp [DictItem.build, Perturbation.mkLocation, AsksFor]
  | gainErrors x k =>
    rcases x with (_ | _ | _ | _) | _ <;> simp only [DictItem.build, Perturbation.mkGain, AsksFor]
    case ndarray.vec g =>
      constructor
      · intro h'; cases h'; exact ⟨g, rfl, rfl, rfl, rfl⟩
      · rintro ⟨g', hg, h4, h5, h6⟩
        cases hg
        cases p <;> simp_all [Perturbation.kind, Perturbation.params, Perturbation.isKnown]
    all_goals simp
  | phaseErrors x k =>
    rcases x with (_ | _ | _ | _) | _ <;> simp only [DictItem.build, Perturbation.mkPhase, AsksFor]
    case ndarray.vec g =>
      constructor
      · intro h'; cases h'; exact ⟨g, rfl, rfl, rfl, rfl⟩
      · rintro ⟨g', hg, h4, h5, h6⟩
        cases hg
        cases p <;> simp_all [Perturbation.kind, Perturbation.params, Perturbation.isKnown]
    all_goals simp
  | mutualCoupling C k =>
    cases C <;> simp only [DictItem.build, Perturbation.mkCoupling, AsksFor]
    case mat M =>
      constructor
      · intro h'; cases h'; exact ⟨M, rfl, rfl, rfl, rfl⟩
      · rintro ⟨g', hg, h4, h5, h6⟩
        cases hg
        cases p <;> simp_all [Perturbation.kind, Perturbation.params, Perturbation.isKnown]
    all_goals simp
  | unknownKey => simp [DictItem.build, AsksFor]

/-- **C75** (dictionary form). A perturbation dictionary is read as the list of the perturbations its
entries ask for, in order; the call is rejected exactly when some entry asks for nothing that exists. -/
theorem C75_dictionary (items : List DictItem) (l : List Perturbation) :
    (PertInput.dict items).parse = .ok l ↔ List.Forall₂ AsksFor items l := by
  change items.mapM DictItem.build = .ok l ↔ _
  induction items generalizing l with
  | nil =>
    rw [List.mapM_nil]
    constructor
    · intro h; cases h; exact .nil
    · intro h; cases h; rfl
  | cons i items ih =>
    rw [List.mapM_cons]
    cases hb : i.build with
    | error e =>
      constructor
      · intro h; cases h
      · intro h
        cases h with
        | cons h1 h2 =>
          rw [(build_iff _ _).2 h1] at hb; cases hb
    | ok p =>
      have hp := (build_iff _ _).1 hb
      cases hm : items.mapM DictItem.build with
      | error e =>
        constructor
        · intro h; cases h
        · intro h
          cases h with
          | cons h1 h2 =>
            rw [(ih _).2 h2] at hm; cases hm
      | ok l' =>
        have hl := (ih l').1 hm
        constructor
        · intro h; cases h; exact .cons hp hl
        · intro h
          cases h with
          | cons h1 h2 =>
            rw [(build_iff _ _).2 h1] at hb
            rw [(ih _).2 h2] at hm
            cases hb; cases hm; rfl

example : List.Forall₂ AsksFor [.phaseErrors (.ndarray (.vec [0.1, 0.2])) true,
    .locationErrors (.mat ⟨1, [fun _ => 0.5, fun _ => 0]⟩) false]
    [.phase [0.1, 0.2] true, .location ⟨1, [fun _ => 0.5, fun _ => 0]⟩ false] :=
  .cons ⟨_, rfl, rfl, rfl, rfl⟩ (.cons ⟨_, rfl, le_rfl, by norm_num, rfl, rfl, rfl⟩ .nil)

/-- The example history: the queries of the perturbed copy. -/
example : ∃ a, (Heap.run {} exampleOps).view 1 = some a ∧
    a.isPerturbationKnown .gain = .ok true ∧
    a.getPerturbationParams .gain = .ok (.gains [0.1, 0.2]) ∧
    a.isPerturbationKnown .phase = .error .keyError ∧ a.isPerturbed = true := by
  refine ⟨_, rfl, rfl, rfl, rfl, rfl⟩

end Doa.Props
