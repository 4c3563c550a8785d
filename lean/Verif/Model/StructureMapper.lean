/-
/repo/concept_formation/structure_mapper.py: renaming the variables of a flat instance to those of a
concept.

Simplifications, for the whole file:
* a frozenset is the list of its elements in some order;
* the costs of mappings are not modelled: `Munkres.compute` and `hill_climbing` (of the packages munkres
  and py_search), which compare them, are unknown functions that may also raise whatever computing a
  cost raises (`Search`);
* the pairs of a mapping given by the user have different first elements (with the same variable twice,
  `dict` takes the pair that happens to come last in the frozenset).
-/
import Verif.Model.Preprocessor

namespace CF

/-- `rename_flat` (structure_mapper.py:73-103); the accumulator is `temp_instance`. -/
def renameFlatInto (m : Dict Py Py) : List (Py × Py) → PyInst → PyInst
  | [], temp => temp
  | (attr, v) :: rest, temp => renameFlatInto m rest (temp.set (renameEl m attr) v)

/-- `rename_flat` (structure_mapper.py:73-103).  Its three cases are those of `renameEl`. -/
def renameFlat (target : PyInst) (m : Dict Py Py) : PyInst := renameFlatInto m target []

/-- `get_component_names` (structure_mapper.py:33-70) of the attributes of an instance or a table. The set
is a list, possibly with repetitions. -/
def componentNames : List Py → Res (List Py)
  | [] => .ok []
  | a :: as => do
    let x ← components a
    let xs ← componentNames as
    pure (x ++ xs)

/-- A state of the search (structure_mapper.py:219): the mapping, and the variables of the base that are
not in use. -/
abbrev MapState := Dict Py Py × List Py

/-- The external parts of the search. -/
structure Search where
  /-- The order in which a frozenset is iterated over. -/
  listOf : List Py → List Py
  /-- `Munkres().compute(cost_matrix)` for the two lists of names (structure_mapper.py:251-268). -/
  assign : List Py → List Py → PyInst → Res (List (ℕ × ℕ))
  /-- `next(hill_climbing(problem)).state_node.state` (structure_mapper.py:217-224). -/
  climb : MapState → PyInst → Res MapState

/-- The loop of `hungarian_mapping` (structure_mapper.py:279-283). -/
def assignLoop (inames cnames : List Py) : List (ℕ × ℕ) → Dict Py Py → Res (Dict Py Py)
  | [], m => .ok m
  | (row, col) :: rest, m =>
    match inames[row]? with
    | none => .error .indexErr
    | some o =>
      if col ≥ cnames.length then assignLoop inames cnames rest (m.set o o)
      else match cnames[col]? with
        | none => .error .indexErr
        | some c => assignLoop inames cnames rest (m.set o c)

/-- `hungarian_mapping` (structure_mapper.py:227-285). -/
def hungarianMapping (S : Search) (inames cnames : List Py) (target : PyInst) : Res (Dict Py Py) := do
  let idx ← S.assign (S.listOf inames) (S.listOf cnames) target
  assignLoop (S.listOf inames) (S.listOf cnames) idx []

/-- The initial mapping of `flat_match` (structure_mapper.py:207-211). -/
def initialMapping (S : Search) (user : Option (List (Py × Py))) (inames cnames : List Py)
    (target : PyInst) : Res (Dict Py Py) :=
  match user with
  | none => hungarianMapping S inames cnames target
  | some ps => .ok (ps.filter fun p => decide (p.1 ∈ inames) && decide (p.2 ∈ cnames))

/-- `cnames - frozenset(dict(initial_mapping).values())` (structure_mapper.py:213). -/
def unusedNames (cnames : List Py) (m : Dict Py Py) : List Py :=
  cnames.filter fun c => decide (c ∉ m.map Prod.snd)

/-- `flat_match` (structure_mapper.py:173-224).  `base` are the attributes of the table of the base. -/
def flatMatch (S : Search) (base : List Py) (user : Option (List (Py × Py))) (target : PyInst) :
    Res (Dict Py Py) := do
  let is ← componentNames target.keys
  let cs ← componentNames base
  if is.length = 0 ∨ cs.length = 0 then pure []
  else if ∃ x ∈ is, x ∈ cs then .error .exc
  else do
    let m ← initialMapping S user is cs target
    let s ← S.climb (m, unusedNames (S.listOf cs) m) target
    pure s.1

/-! ### The search space -/

/-- `swap_two` (structure_mapper.py:355-372) of two entries of the mapping. -/
def swapTwo (s : MapState) (e1 e2 : Py × Py) : MapState :=
  let m := s.1.set e1.1 (if e2.2 = e2.1 then e1.1 else e2.2)
  (m.set e2.1 (if e1.2 = e1.1 then e2.1 else e1.2), s.2)

/-- `swap_unnamed` (structure_mapper.py:374-389) of an entry and an unused variable. -/
def swapUnnamed (s : MapState) (e : Py × Py) (c : Py) : MapState :=
  let u := s.2.erase c
  (s.1.set e.1 c, if e.2 = e.1 then u else u ++ [e.2])

/-- `itertools.combinations(l, 2)`. -/
def combos {α : Type} : List α → List (α × α)
  | [] => []
  | x :: xs => xs.map (fun y => (x, y)) ++ combos xs

/-- `successors` (structure_mapper.py:418-436). -/
def successors (s : MapState) : List MapState :=
  (combos s.1).filterMap (fun e =>
    if e.1.1 = e.2.1 ∨ (e.1.2 = e.1.1 ∧ e.2.2 = e.2.1) then none else some (swapTwo s e.1 e.2)) ++
  s.1.flatMap fun e => s.2.map fun c => swapUnnamed s e c

/-- The states that `random_successor` (structure_mapper.py:391-416) can return. -/
def randomSuccessors (s : MapState) : List MapState :=
  (s.1.filter fun e => ¬ (e.2 = e.1 ∧ s.2.length = 0)).flatMap fun e =>
    (s.1.filter fun f => f.1 ≠ e.1 ∧ ¬ (e.2 = e.1 ∨ f.2 = f.1)).map (swapTwo s e) ++
    s.2.map (swapUnnamed s e)

/-! ### `StructureMapper` -/

/-- `StructureMapper` (structure_mapper.py:490-550) with base `base`; the object's state is
`reverse_mapping`. `mapping` is read nowhere else.  `user` is the argument `initial_mapping` of
`transform`. -/
def structureMapper {γ : Type} (S : Search) (base : List Py) (user : Option (List (Py × Py))) :
    Preproc γ (Option (Dict Py Py)) where
  transform target := fun s =>
    match flatMatch S base user target with
    | .ok m => (.ok (renameFlat target m), (s.1, some (reverseMap m)))
    | .error e => (.error e, s)
  undo target := fun s =>
    match s.2 with
    | none => (.error .exc, s)
    | some rm => (.ok (renameFlat target rm), s)

/-- `get_mapping` (structure_mapper.py:510-517). -/
def getMapping (rm : Dict Py Py) : Dict Py Py := reverseMap rm

end CF
