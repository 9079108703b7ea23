import Verif.Model.Arrays

/-!
# Array objects with shared mutable state

`get_perturbed_copy` and `get_perturbation_free_copy` use `copy.copy`, so array objects share
location buffers and could share perturbation dictionaries.  Here objects, dictionaries and location
buffers live in a heap; references are positions.  An exception does not roll the heap back.
-/

namespace Doa

/-- One entry of a perturbation dictionary `{key: (params, known)}`; the key selects the factory
(model/arrays.py:206-215). `unknownKey` is any other key. -/
inductive DictItem where
  | locationErrors (x : Nd ℝ) (known : Bool)
  | gainErrors (x : Perturbation.VecArg ℝ) (known : Bool)
  | phaseErrors (x : Perturbation.VecArg ℝ) (known : Bool)
  | mutualCoupling (C : Nd ℂ) (known : Bool)
  | unknownKey

/-- `factories[k](v[0], v[1])` (model/arrays.py:208-214). -/
def DictItem.build : DictItem → Res Perturbation
  | .locationErrors x k => Perturbation.mkLocation x k
  | .gainErrors x k => Perturbation.mkGain x k
  | .phaseErrors x k => Perturbation.mkPhase x k
  | .mutualCoupling C k => Perturbation.mkCoupling C k
  | .unknownKey => .error .keyError

/-- The `perturbations` argument: a list or a dictionary.
[model/arrays.py:206-215] -/
inductive PertInput where
  | list (ps : List Perturbation)
  | dict (items : List DictItem)

/-- `_parse_input_perturbations` (model/arrays.py:206-215). -/
def PertInput.parse : PertInput → Res (List Perturbation)
  | .list ps => .ok ps
  | .dict items => items.mapM DictItem.build

/-- An `ArrayDesign` instance: references to its location buffer and perturbation dictionary
(model/arrays.py:84-88). -/
structure ArrObj where
  locRef : ℕ
  name : Option String
  element : Element
  dictRef : ℕ

/-- The heap.
[state behind model/arrays.py:84-89, locations and perturbation dictionaries being shared by reference] -/
structure Heap where
  locs : List (Mat ℝ) := []
  dicts : List PDict := []
  objs : List ArrObj := []

namespace Heap

/-- What the object at reference `r` looks like through its accessors.
[model/arrays.py:91-182] -/
def view (h : Heap) (r : ℕ) : Option ArrayDesign :=
  (h.objs[r]?).bind fun o => (h.locs[o.locRef]?).bind fun l => (h.dicts[o.dictRef]?).bind fun d =>
    some { locations := l, name := o.name, element := o.element, perts := d }

/-- `_add_perturbation_from_list` (model/arrays.py:184-204) on the object at `r`: the dictionary it
refers to is updated in place, item by item. -/
def addFromList (h : Heap) (r : ℕ) (raiseOnOverride : Bool) : List Perturbation → Res Unit × Heap
  | [] => (.ok (), h)
  | p :: ps =>
    match h.view r, h.objs[r]? with
    | some a, some o =>
      match addPerturbation a.size a.element raiseOnOverride a.perts p with
      | .error e => (.error e, h)
      | .ok d => addFromList { h with dicts := h.dicts.set o.dictRef d } r raiseOnOverride ps
    | _, _ => (.error .attributeError, h)

/-- `get_perturbation_free_copy` (model/arrays.py:258-276): `copy.copy`, then a new empty
dictionary and the name are assigned to the copy. -/
def freeCopy (h : Heap) (r : ℕ) (newName : Option String) : Res ℕ × Heap :=
  match h.objs[r]? with
  | none => (.error .attributeError, h)
  | some o =>
    let o' : ArrObj := { o with dictRef := h.dicts.length, name := newName.or o.name }
    (.ok h.objs.length, { h with dicts := h.dicts ++ [[]], objs := h.objs ++ [o'] })

/-- `get_perturbed_copy` (model/arrays.py:217-256). -/
def perturbedCopy (h : Heap) (r : ℕ) (ps : PertInput) (newName : Option String) : Res ℕ × Heap :=
  match h.freeCopy r newName with
  | (.error e, h1) => (.error e, h1)
  | (.ok r', h1) =>
    match ps.parse with
    | .error e => (.error e, h1)
    | .ok ps =>
      match h1.objs[r]?, h1.view r, h1.objs[r']? with
      | some _, some a, some o' =>
        -- `array._perturbations = self._perturbations.copy()`
        let h2 : Heap := { h1 with
          dicts := h1.dicts ++ [a.perts]
          objs := h1.objs.set r' { o' with dictRef := h1.dicts.length } }
        let out := h2.addFromList r' false ps
        (out.1.map fun _ => r', out.2)
      | _, _, _ => (.error .attributeError, h1)

/-- The end of `ArrayDesign.__init__` (model/arrays.py:84-89): the fields are assigned, then the
perturbations are parsed and added. -/
def constructWith (h : Heap) (M : Mat ℝ) (name : Option String) (element : Element)
    (ps : PertInput) : Res ℕ × Heap :=
  let r := h.objs.length
  let h1 : Heap :=
    { locs := h.locs ++ [M], dicts := h.dicts ++ [[]],
      objs := h.objs ++ [{ locRef := h.locs.length, name := name, element := element,
                           dictRef := h.dicts.length }] }
  match ps.parse with
  | .error e => (.error e, h1)
  | .ok ps =>
    let out := h1.addFromList r true ps
    (out.1.map fun _ => r, out.2)

/-- `ArrayDesign.__init__` (model/arrays.py:74-89) as an allocation. -/
def construct (h : Heap) (locations : Nd ℝ) (name : Option String) (element : Element)
    (ps : PertInput) : Res ℕ × Heap :=
  match locations with
  | .tensor => (.error .valueError, h)
  | .vec l => h.constructWith (Mat.col l) name element ps
  | .mat M => if M.ncols > 3 then (.error .valueError, h) else h.constructWith M name element ps
  | .scalar _ => (.error .indexError, h)

/-- `element_locations` (model/arrays.py:110-118): a new buffer with a copy of the contents. Returns
the reference of the buffer handed to the caller. -/
def elementLocations (h : Heap) (r : ℕ) : Res ℕ × Heap :=
  match (h.objs[r]?).bind fun o => h.locs[o.locRef]? with
  | none => (.error .attributeError, h)
  | some M => (.ok h.locs.length, { h with locs := h.locs ++ [M] })

/-- `actual_element_locations` (model/arrays.py:120-134): starts from the buffer of the object
itself; each location perturbation replaces it by a new buffer, other perturbations return their
argument unchanged (model/perturbations.py:46-60). -/
def actualElementLocations (h : Heap) (r : ℕ) : Res ℕ × Heap :=
  match h.objs[r]?, h.view r with
  | some o, some a =>
    a.perts.values.foldl (fun (acc : Res ℕ × Heap) p =>
      match acc with
      | (.error e, h') => (.error e, h')
      | (.ok b, h') =>
        match p with
        | .location err _ =>
          match h'.locs[b]? with
          | none => (.error .attributeError, h')
          | some M =>
            (.ok h'.locs.length, { h' with locs := h'.locs ++ [perturbLocations err M] })
        | _ => (.ok b, h')) (.ok o.locRef, h)
  | _, _ => (.error .attributeError, h)

/-- The user overwrites the contents of a buffer obtained from an accessor.
[what a caller may do with the result of model/arrays.py:110-134] -/
def writeBuf (h : Heap) (b : ℕ) (M : Mat ℝ) : Heap := { h with locs := h.locs.set b M }

end Heap

/-- The operations a program can perform on array objects.
[model/arrays.py:74-89, 110-134, 217-276] -/
inductive ArrOp where
  | construct (locations : Nd ℝ) (name : Option String) (element : Element) (ps : PertInput)
  | perturbedCopy (r : ℕ) (ps : PertInput) (newName : Option String)
  | freeCopy (r : ℕ) (newName : Option String)
  | elementLocations (r : ℕ)
  | actualElementLocations (r : ℕ)

/-- One operation: outcome (a reference or an exception) and new heap.
[model/arrays.py:74-89, 110-134, 217-276] -/
def Heap.step (h : Heap) : ArrOp → Res ℕ × Heap
  | .construct l n e ps => h.construct l n e ps
  | .perturbedCopy r ps n => h.perturbedCopy r ps n
  | .freeCopy r n => h.freeCopy r n
  | .elementLocations r => h.elementLocations r
  | .actualElementLocations r => h.actualElementLocations r

/-- A history of operations, exceptions being caught by the caller.
[no code; a client of model/arrays.py:74-276] -/
def Heap.run (h : Heap) (ops : List ArrOp) : Heap := ops.foldl (fun h op => (h.step op).2) h

end Doa
