import Mathlib.Data.EReal.Basic
import Verif.Model.SourceHeap
import Verif.Model.Sources
import Verif.Model.Subspace

/-!
# Model of `CovarianceBasedMLEstimator` (estimation/ml.py:18-203): the working state

Placements live in the heap of `Verif/Model/SourceHeap.lean` (one row of coordinates per source). The
numerical optimizer is an arbitrary terminating strategy that evaluates the objective at points of its
choice and finally reports success or failure, or raises. The objective is an arbitrary function of
the current locations that may raise; the concrete objectives are in `Verif/Model/MLObjective.lean`.
-/

namespace Doa

/-- One row of a location array; `isInt` records an integer dtype of the array.
[`locations` of model/sources.py:68-76 as used in ml.py:115, 129-133] -/
structure LocRow where
  isInt : Bool
  coords : List ℝ

/-- The source placement classes.
[model/sources.py:157, 325, 427] -/
inductive SrcKind where
  | ff1 | ff2 | nf2

/-- `valid_ranges` (model/sources.py:181-185, 239-240, 340-343, 373-374, 449-450). -/
noncomputable def validRanges : SrcKind → String → Res (List (EReal × EReal))
  | .ff1, u =>
    match validRange1D u with
    | none => .error .keyError
    | some p => .ok [((p.1 : EReal), (p.2 : EReal))]
  | .ff2, u =>
    match validRange2D u with
    | none => .error .keyError
    | some p => .ok [((p.1.1 : EReal), (p.1.2 : EReal)), ((p.2.1 : EReal), (p.2.2 : EReal))]
  | .nf2, _ => .ok [(⊥, ⊤), (⊥, ⊤)]

/-- A run of `scipy.optimize.minimize`: evaluate the objective and continue with the value, finish with
`(res.success, res.x)`, or raise.
[called in ml.py:193-198] -/
inductive Optimizer where
  | done (success : Bool) (x : List ℝ)
  | raise (e : PyErr)
  | query (x : List ℝ) (next : WithTop ℝ → Optimizer)

/-- `x[:n].reshape((k, d))` for rows of the given lengths: consecutive chunks.
[ml.py:132] -/
def reshapeLike : List LocRow → List ℝ → List LocRow
  | [], _ => []
  | row :: rows, x => ⟨false, x.take row.coords.length⟩ :: reshapeLike rows (x.drop row.coords.length)

/-- `locations.size`.
[ml.py:129] -/
def totalSize (rows : List LocRow) : ℕ := (rows.map fun r => r.coords.length).sum

/-- `np.copyto(self._estimates.locations, ...)`: overwrite the buffer of `r`.
[ml.py:130-133] -/
def SHeap.writeAll {α : Type} (h : SHeap α) (r : ℕ) (b : List α) : SHeap α :=
  match h.objs[r]? with
  | none => h
  | some o => { h with bufs := h.bufs.modify o.buf fun _ => b }

/-- `_update_estimates_from_x(x)` (ml.py:121-133). `reshape` fails if `x` is too short; `np.copyto`
raises `TypeError` when the target has an integer dtype (casting rule `same_kind`). -/
def updateEstimates (h : SHeap LocRow) (r : ℕ) (x : List ℝ) : Res (SHeap LocRow) :=
  match h.view r with
  | none => .error .attributeError
  | some (rows, _) =>
    if x.length < totalSize rows then .error .valueError
    else if rows.any LocRow.isInt then .error .typeError
    else .ok (h.writeAll r (reshapeLike rows x))

/-- The `minimize` call with the objective of `_prepare_opt_prob` (ml.py:110, 135-146, 193-198): each
evaluation first overwrites the working placement. -/
def runOptimizer (nll : List LocRow → String → Res (WithTop ℝ)) (r : ℕ) :
    Optimizer → SHeap LocRow → Res (Bool × List ℝ) × SHeap LocRow
  | .done s x, h => (.ok (s, x), h)
  | .raise e, h => (.error e, h)
  | .query x next, h =>
    match updateEstimates h r x with
    | .error e => (.error e, h)
    | .ok h' =>
      match h'.view r with
      | none => (.error .attributeError, h')
      | some (rows, unit) =>
        match nll rows unit with
        | .error e => (.error e, h')
        | .ok v => runOptimizer nll r (next v) h'

/-- `list * k` in Python.
[ml.py:118] -/
def pyRepeat {α : Type} (l : List α) (k : ℕ) : List α := (List.replicate k l).flatten

/-- Everything one `estimate` call depends on besides the estimator and `sources0`: `R.shape`, the
precomputation of a subclass (WSF: `_prepare_m`, which may raise), the objective and the optimizer.
[ml.py:148, 182-203] -/
structure MLCall where
  shape : List ℕ
  kind : SrcKind
  prepare : Res Unit
  nll : List LocRow → String → Res (WithTop ℝ)
  opt : List ℝ → List (EReal × EReal) → Optimizer

/-- The estimator (`size` is `array.size`, `est` is `_estimates`) together with the heap.
[ml.py:26-29] -/
structure MLState where
  heap : SHeap LocRow := {}
  est : Option ℕ := none

/-- `get_last_estimates()` (ml.py:31-36). -/
def MLState.getLast (st : MLState) : Res ℕ × MLState :=
  match st.est with
  | none => (.error .runtimeError, st)
  | some r =>
    match st.heap.getitem r (.slice none none none) with
    | (.error e, h) => (.error e, { st with heap := h })
    | (.ok (.item _), h) => (.error .typeError, { st with heap := h })
    | (.ok (.obj q), h) => (.ok q, { st with heap := h })

/-- `estimate(R, sources0)` (ml.py:148-203); `r0` refers to `sources0`. -/
noncomputable def MLState.estimate (size : ℕ) (c : MLCall) (st : MLState) (r0 : ℕ) :
    Res (Bool × Option ℕ) × MLState :=
  match st.heap.view r0 with
  | none => (.error .attributeError, st)
  | some (rows, unit) =>
    match ensureNResolvable rows.length ((size : ℤ) - 1) with
    | .error e => (.error e, st)
    | .ok () =>
      match ensureCovarianceSize c.shape size with
      | .error e => (.error e, st)
      | .ok () =>
        match st.heap.getitem r0 (.slice none none none) with
        | (.error e, h) => (.error e, { st with heap := h })
        | (.ok (.item _), h) => (.error .typeError, { st with heap := h })
        | (.ok (.obj q), h) =>
          match c.prepare with
          | .error e => (.error e, ⟨h, some q⟩)
          | .ok () =>
            match validRanges c.kind unit with
            | .error e => (.error e, ⟨h, some q⟩)
            | .ok ranges =>
              match runOptimizer c.nll q
                  (c.opt (rows.flatMap LocRow.coords) (pyRepeat ranges rows.length)) h with
              | (.error e, h1) => (.error e, ⟨h1, some q⟩)
              | (.ok (false, _), h1) => (.ok (false, none), ⟨h1, some q⟩)
              | (.ok (true, x), h1) =>
                match updateEstimates h1 q x with
                | .error e => (.error e, ⟨h1, some q⟩)
                | .ok h2 =>
                  match (MLState.mk h2 (some q)).getLast with
                  | (.error e, st') => (.error e, st')
                  | (.ok p, st') => (.ok (true, some p), st')

/-- A program using one ML estimator: the placements the user holds are `user`.
[no code; a client of ml.py:31-36, 148-203] -/
structure MLWorld where
  st : MLState := {}
  user : List ℕ := []

/-- Steps of such a program; placements are named by their position in the list of those the user
holds.
[no code; a client of ml.py:31-36, 148-203] -/
inductive MLOp where
  | create (b : List LocRow) (unit : String)
  | getitem (p : ℕ) (key : SKey)
  | write (p : ℕ) (i : ℕ) (v : LocRow)
  | estimate (c : MLCall) (p : ℕ)
  | getLast

/-- Execute one step; every placement returned to the user is added to the list. Exceptions leave the
state as it is at that point.
[no code; a client of ml.py:31-36, 148-203] -/
noncomputable def MLOp.step (size : ℕ) (w : MLWorld) : MLOp → MLWorld
  | .create b u => ⟨{ w.st with heap := w.st.heap.create b u }, w.user ++ [w.st.heap.objs.length]⟩
  | .getitem p key =>
    match w.user[p]? with
    | none => w
    | some r =>
      match w.st.heap.getitem r key with
      | (.ok (.obj q), h) => ⟨{ w.st with heap := h }, w.user ++ [q]⟩
      | (_, h) => ⟨{ w.st with heap := h }, w.user⟩
  | .write p i v =>
    match w.user[p]? with
    | none => w
    | some r => ⟨{ w.st with heap := w.st.heap.write r i v }, w.user⟩
  | .estimate c p =>
    match w.user[p]? with
    | none => w
    | some r =>
      match w.st.estimate size c r with
      | (.ok (_, some q), st') => ⟨st', w.user ++ [q]⟩
      | (_, st') => ⟨st', w.user⟩
  | .getLast =>
    match w.st.getLast with
    | (.ok q, st') => ⟨st', w.user ++ [q]⟩
    | (.error _, st') => ⟨st', w.user⟩

/-- Execute a program.
[no code; a client of ml.py:31-36, 148-203] -/
noncomputable def MLOp.run (size : ℕ) (w : MLWorld) (ops : List MLOp) : MLWorld := ops.foldl (MLOp.step size) w

/-- What the user sees of the placement at position `p`.
[no code; a client reading `locations`, model/sources.py:68-76] -/
def MLWorld.userView (w : MLWorld) (p : ℕ) : Option (List LocRow × String) :=
  (w.user[p]?).bind w.st.heap.view

/-- What `get_last_estimates()` shows: the contents of the placement it returns.
[ml.py:31-36, dereferenced] -/
def MLWorld.lastView (w : MLWorld) : Option (List LocRow × String) :=
  match w.st.getLast with
  | (.ok q, st') => st'.heap.view q
  | (.error _, _) => none

end Doa
