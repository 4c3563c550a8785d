/-
/repo/concept_formation/structure_mapper.py: what a mapping costs, and the assignment that the search starts from.

Simplification: `mapping_cost` tells an instance from a probability table by the type of the first value; here
these are two functions.  So the instance is a flattened one (no value is a dict), as `TrestleTree` makes them.
-/
import Verif.Model.Trestle
import Mathlib.Data.Real.Basic
import Mathlib.Algebra.Order.Monoid.WithTop

namespace CF

/-- `mapping_cost` (structure_mapper.py:288-326) of an instance; `base` is the table of the base, `cfg` and `sc`
are those of its tree.  `next(iter({}.values()))` raises. -/
noncomputable def mappingCost (cfg : Cfg3 Py Py) (sc : Scales Py) (base : Stats3 Py Py) (m : Dict Py Py)
    (target : PyInst) : Res ℝ :=
  match renameFlat target m with
  | [] => .error .stopIter
  | r => do
    let g ← Stats3.ecg hid3 cfg sc ((Stats3.fresh.addFrom base).incr (inst3 r))
    pure (-g)

/-- `rename_flat` (structure_mapper.py:73-103) of a table; the accumulator is `temp_instance`. -/
def renameTabInto (m : Dict Py Py) : Dict Py (Tab Py) → Dict Py (Tab Py) → Dict Py (Tab Py)
  | [], temp => temp
  | (attr, t) :: rest, temp => renameTabInto m rest (temp.set (renameEl m attr) t)

/-- `rename_flat` (structure_mapper.py:73-103) of a table. -/
def renameTab (target : Dict Py (Tab Py)) (m : Dict Py Py) : Dict Py (Tab Py) := renameTabInto m target []

/-- The count given to the concept made from a table (structure_mapper.py:317-320): the largest number of
values recorded under an attribute. -/
def tableCount (av : Dict Py (Tab Py)) : ℕ := (av.map fun p => p.2.total).foldr max 0

/-- `mapping_cost` (structure_mapper.py:288-326) of a probability table. -/
noncomputable def mappingCostTab (cfg : Cfg3 Py Py) (sc : Scales Py) (base : Stats3 Py Py) (m : Dict Py Py)
    (target : Dict Py (Tab Py)) : Res ℝ :=
  match renameTab target m with
  | [] => .error .stopIter
  | r => do
    let g ← Stats3.ecg hid3 cfg sc ((Stats3.fresh.addFrom base).addFrom ⟨tableCount r, r⟩)
    pure (-g)

/-- The costs of mapping `o` to each of the variables of the base (structure_mapper.py:254-258). -/
noncomputable def costsTo (cost : Dict Py Py → Res ℝ) (o : Py) : List Py → Res (List (WithTop ℝ))
  | [] => .ok []
  | c :: cs => do
    let x ← cost [(o, c)]
    let xs ← costsTo cost o cs
    pure ((x : WithTop ℝ) :: xs)

/-- A row of the cost matrix (structure_mapper.py:252-264).  `float('inf')` is `⊤`. -/
noncomputable def costRow (cost : Dict Py Py → Res ℝ) (inames cnames : List Py) (o : Py) :
    Res (List (WithTop ℝ)) := do
  let row ← costsTo cost o cnames
  let u ← cost []
  pure (row ++ inames.map fun o' => if o' = o then (u : WithTop ℝ) else ⊤)

/-- The rows of the cost matrix (structure_mapper.py:250-265), for the variables of the second list. -/
noncomputable def costRows (cost : Dict Py Py → Res ℝ) (inames cnames : List Py) :
    List Py → Res (List (List (WithTop ℝ)))
  | [] => .ok []
  | o :: os => do
    let r ← costRow cost inames cnames o
    let rs ← costRows cost inames cnames os
    pure (r :: rs)

/-- The part of `hungarian_mapping` that finds the assignment (structure_mapper.py:247-268). -/
noncomputable def munkresAssign (compute : List (List (WithTop ℝ)) → Res (List (ℕ × ℕ)))
    (cost : Dict Py Py → Res ℝ) (inames cnames : List Py) : Res (List (ℕ × ℕ)) := do
  let mat ← costRows cost inames cnames inames
  compute mat

/-- The loop of `random_successor` that draws the first variable ends with an entry that satisfies this
(structure_mapper.py:400-402). -/
def drawn (s : MapState) (e : Py × Py) : Prop := e ∈ s.1 ∧ ¬ (e.2 = e.1 ∧ s.2.length = 0)

/-- `possible_flips` (structure_mapper.py:404-406). -/
def flips (s : MapState) (e : Py × Py) : List (Py × Py) :=
  s.1.filter fun f => f.1 ≠ e.1 ∧ ¬ (e.2 = e.1 ∨ f.2 = f.1)

/-- The rest of `random_successor` (structure_mapper.py:404-416): `r` is the value of `random()` and `k` decides
the second `choice`, which raises on an empty list. -/
def randomSuccessor (s : MapState) (e : Py × Py) (r : ℚ) (k : ℕ) : Res MapState := do
  let p ← pyDiv ((flips s e).length : ℚ) (((flips s e).length : ℚ) + (s.2.length : ℚ))
  if r ≤ p then
    match (flips s e)[k % (flips s e).length]? with
    | none => .error .indexErr
    | some f => pure (swapTwo s e f)
  else
    match s.2[k % s.2.length]? with
    | none => .error .indexErr
    | some c => pure (swapUnnamed s e c)

end CF
