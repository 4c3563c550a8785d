/-
/repo/concept_formation/preprocessor.py: preprocessors in general, pipelines, the flattener, the
sub-component processor and the name standardizer.

Simplifications, for the whole file:
* an instance is the list of its entries, so `instance[attr]` in a loop over `instance` is the value next
  to the attribute;
* dicts are values: a dict that the code shares between its argument and its result, and later changes,
  is a copy here;
* the tests on the length and the elements of a key treat an object of another class like a number.
-/
import Verif.Py.Same
import Mathlib.Data.List.Sort

namespace CF

/-- `preprocessor.py` code with state: the result (or exception) and the state afterwards. -/
def SM (σ α : Type) : Type := σ → Res α × σ

namespace SM
variable {σ α β : Type}

def ret (a : α) : SM σ α := fun s => (.ok a, s)
def andThen (m : SM σ α) (f : α → SM σ β) : SM σ β := fun s =>
  match m s with
  | (.ok a, s') => f a s'
  | (.error e, s') => (.error e, s')
def raise (e : PyErr) : SM σ α := fun s => (.error e, s)
/-- A stateless computation. -/
def lift (r : Res α) : SM σ α := fun s => (r, s)
def get : SM σ σ := fun s => (.ok s, s)
def put (s : σ) : SM σ Unit := fun _ => (.ok (), s)

instance : Monad (SM σ) where
  pure := ret
  bind := andThen

end SM

/-! ### Preprocessors and pipelines -/

/-- A `Preprocessor` object (preprocessor.py:124-153): its two methods.  `τ` is the object's own state,
`γ` the state shared with other objects (the counters that generate names). -/
structure Preproc (γ τ : Type) where
  transform : PyInst → SM (γ × τ) PyInst
  undo : PyInst → SM (γ × τ) PyInst

/-- `batch_transform` (preprocessor.py:143-147), and `batch_undo` (149-153) for the other method. -/
def batch {σ : Type} (f : PyInst → SM σ PyInst) : List PyInst → SM σ (List PyInst)
  | [] => SM.ret []
  | i :: l => do
    let o ← f i
    let os ← batch f l
    SM.ret (o :: os)

/-- The `undo_transform` of a `OneWayPreprocessor` (preprocessor.py:163-167). -/
def oneWayUndo (i : PyInst) : Res PyInst := .ok (Dict.ofPairs i)

/-- A preprocessor without state. -/
def stateless {γ τ : Type} (f g : PyInst → Res PyInst) : Preproc γ τ where
  transform i := SM.lift (f i)
  undo i := SM.lift (g i)

section
variable {γ τ : Type}

/-- A stage of a pipeline: an object, given by its address, and its class. -/
structure Stage (γ τ : Type) where
  addr : ℕ
  cls : Preproc γ τ

/-- A method call on the object at an address. -/
def callAt (a : ℕ) (m : SM (γ × τ) PyInst) : SM (γ × (ℕ → τ)) PyInst := fun s =>
  let r := m (s.1, s.2 a)
  (r.1, (r.2.1, Function.update s.2 a r.2.2))

/-- `Pipeline.transform` (preprocessor.py:180-186). -/
def pipeTransform : List (Stage γ τ) → PyInst → SM (γ × (ℕ → τ)) PyInst
  | [], i => SM.ret i
  | p :: ps, i => do
    let i ← callAt p.addr (p.cls.transform i)
    pipeTransform ps i

/-- The loop of `Pipeline.undo_transform` (preprocessor.py:192-194) over the reversed stages. -/
def pipeUndoLoop : List (Stage γ τ) → PyInst → SM (γ × (ℕ → τ)) PyInst
  | [], i => SM.ret i
  | p :: ps, i => do
    let i ← callAt p.addr (p.cls.undo i)
    pipeUndoLoop ps i

/-- A `Pipeline` (preprocessor.py:170-194). -/
def pipeline (ps : List (Stage γ τ)) : Preproc γ (ℕ → τ) where
  transform := pipeTransform ps
  undo := pipeUndoLoop ps.reverse

end

/-! ### Variables in attributes -/

/-- `len(s) > 0 and s[0] == '?'` for a string. -/
def isVar (s : PStr) : Bool := s.head? == some '?'

/-- `isinstance(x, str) and len(x) > 0 and x[0] == '?'`. -/
def isVarPy : Py → Bool
  | .str s => isVar s
  | _ => false

mutual
/-- An element of a tuple in `get_attribute_components` (preprocessor.py:88-94) with `vars_only`.  `len`
raises on an element that is not a string or a tuple. -/
def componentsE : Py → Res (List Py)
  | .tup l => componentsL l
  | .str s => .ok (if isVar s then [.str s] else [])
  | _ => .error .typeErr
/-- The loop of `get_attribute_components` over a tuple (preprocessor.py:87-94). -/
def componentsL : List Py → Res (List Py)
  | [] => .ok []
  | x :: xs => do
    let a ← componentsE x
    let b ← componentsL xs
    pure (a ++ b)
end

/-- `get_attribute_components` (preprocessor.py:60-100) with `vars_only=True`, the only way it is called.
The set is a list, possibly with repetitions.  Attributes are keys of dicts, so lists and dicts, which are
not hashable, do not occur. -/
def components : Py → Res (List Py)
  | .tup l => componentsL l
  | .list _ | .dict _ => .error .typeErr
  | a => do
    let x ← a.index0
    pure (if x = .str c!"?" then [a] else [])

mutual
/-- The elements of the tuple that `rename_relation` (preprocessor.py:304-329) builds. -/
def renameRel (m : Dict Py Py) : List Py → List Py
  | [] => []
  | v :: vs => renameEl m v :: renameRel m vs
/-- `mapping[v] if v in mapping else rename_relation(v, mapping) if isinstance(v, tuple) else v`. -/
def renameEl (m : Dict Py Py) : Py → Py
  | .tup l => match m.get? (.tup l) with
    | some w => w
    | none => .tup (renameRel m l)
  | v => match m.get? v with
    | some w => w
    | none => v
end

/-- `rename_relation` (preprocessor.py:304-329) of a tuple. -/
def renameRelation (m : Dict Py Py) : Py → Py
  | .tup l => .tup (renameRel m l)
  | a => a

/-! ### `NameStandardizer` -/

/-- What the name standardizer takes from Python and its user: the sort key `str(attr)`, the order in
which a set is iterated over, and the names that `gensym` returns, one after the other. -/
structure StdCfg where
  strOf : Py → PStr
  setOrder : List Py → List Py
  gensym : ℕ → PStr

/-- The state of `_standardize`: the number of names generated so far, and `mapping`. -/
structure StdSt where
  ctr : ℕ
  mapping : Dict Py Py

/-- `'?o' + str(n)` after `n += 1` (preprocessor.py:103-112, trestle.py:77-83). -/
def defaultGensym (n : ℕ) : PStr := '?' :: 'o' :: (Nat.repr (n + 1)).toList

/-- `sorted(instance, key=lambda at: str(at))` (preprocessor.py:499) with the values. -/
def sortEntries (cfg : StdCfg) (l : PyInst) : PyInst :=
  l.insertionSort fun a b => cfg.strOf a.1 ≤ cfg.strOf b.1

mutual
/-- The dicts that `_standardize` visits, sorted all at once: the code sorts each one when it visits it,
by keys only, so the order of the visits is the same. -/
def sortVal (cfg : StdCfg) : Py → Py
  | .dict l => .dict (sortEntries cfg (sortD cfg l))
  | .list l => .list (sortL cfg l)
  | v => v
/-- The dicts among the elements of a list. -/
def sortL (cfg : StdCfg) : List Py → List Py
  | [] => []
  | .dict l :: xs => .dict (sortEntries cfg (sortD cfg l)) :: sortL cfg xs
  | x :: xs => x :: sortL cfg xs
def sortD (cfg : StdCfg) : List (Py × Py) → List (Py × Py)
  | [] => []
  | (k, v) :: l => (k, sortVal cfg v) :: sortD cfg l
end

/-- `if v not in mapping: mapping[v] = self.gensym()` (preprocessor.py:510-511, 524-525). -/
def bindVar (cfg : StdCfg) (v : Py) : SM StdSt Unit := fun s =>
  if s.mapping.has v then (.ok (), s)
  else (.ok (), ⟨s.ctr + 1, s.mapping.set v (.str (cfg.gensym s.ctr))⟩)

/-- The loop over the variables of a relation (preprocessor.py:523-525). -/
def bindVars (cfg : StdCfg) : List Py → SM StdSt Unit
  | [] => SM.ret ()
  | v :: vs => do
    bindVar cfg v
    bindVars cfg vs

/-- `name` (preprocessor.py:501-512): the new name of a variable, any other attribute itself. -/
def stdName (cfg : StdCfg) (attr : Py) : SM StdSt Py :=
  if isVarPy attr then do
    bindVar cfg attr
    let s ← SM.get
    match s.mapping.get? attr with
    | some n => SM.ret n
    | none => SM.raise .keyErr
  else SM.ret attr

/-- The last loop of `_standardize` (preprocessor.py:530-532). -/
def addRelations (m : Dict Py Py) (new : PyInst) : List (Py × Py) → PyInst
  | [] => new
  | (r, v) :: rs => addRelations m (new.set (renameRelation m r) v) rs

mutual
/-- The value of an attribute (preprocessor.py:516-520). -/
def stdVal (cfg : StdCfg) : Py → SM StdSt Py
  | .dict l => do
    let d ← stdD cfg l [] []
    SM.ret (.dict d)
  | .list l => do
    let l ← stdL cfg l
    SM.ret (.list l)
  | v => SM.ret v
/-- The elements of a list (preprocessor.py:519-520). -/
def stdL (cfg : StdCfg) : List Py → SM StdSt (List Py)
  | [] => SM.ret []
  | .dict l :: xs => do
    let d ← stdD cfg l [] []
    let xs ← stdL cfg xs
    SM.ret (.dict d :: xs)
  | x :: xs => do
    let xs ← stdL cfg xs
    SM.ret (x :: xs)
/-- `_standardize` (preprocessor.py:451-534) on a sorted instance; the accumulators are `new_instance`
and `relations`. -/
def stdD (cfg : StdCfg) : List (Py × Py) → PyInst → List (Py × Py) → SM StdSt PyInst
  | [], new, rels => do
    let s ← SM.get
    SM.ret (addRelations s.mapping new rels)
  | (attr, v) :: rest, new, rels => do
    let name ← stdName cfg attr
    let v ← stdVal cfg v
    if name.isTup then do
      let os ← SM.lift (components name)
      bindVars cfg (cfg.setOrder os)
      stdD cfg rest new (rels ++ [(name, v)])
    else stdD cfg rest (new.set name v) rels
end

/-- `{mapping[o]: o for o in mapping}` (preprocessor.py:414). -/
def reverseMap (m : Dict Py Py) : Dict Py Py := Dict.ofPairs (m.map fun p => (p.2, p.1))

/-- The key under which `_undo_standardize` stores the value of an attribute (preprocessor.py:431-447).
The branch 434-435 for a tuple in the mapping is left out: the keys of `mapping` are variables, which are
strings. -/
def undoKey (rm : Dict Py Py) (attr v : Py) : Py :=
  if v.isDict || v.isList then (rm.get? attr).getD attr
  else renameRelation rm attr

mutual
/-- The value of an attribute (preprocessor.py:437-442). -/
def undoStdV (rm : Dict Py Py) : Py → Py
  | .dict l => .dict (undoStdD rm l [])
  | .list l => .list (undoStdL rm l)
  | v => v
/-- The elements of a list (preprocessor.py:440-442). -/
def undoStdL (rm : Dict Py Py) : List Py → List Py
  | [] => []
  | .dict l :: xs => .dict (undoStdD rm l []) :: undoStdL rm xs
  | x :: xs => x :: undoStdL rm xs
/-- `_undo_standardize` (preprocessor.py:426-449). -/
def undoStdD (rm : Dict Py Py) : List (Py × Py) → PyInst → PyInst
  | [], new => new
  | (attr, v) :: rest, new => undoStdD rm rest (new.set (undoKey rm attr v) (undoStdV rm v))
end

/-- `NameStandardizer` (preprocessor.py:332-534): the object's state is `reverse_mapping`, the shared
state the number of names generated. -/
def nameStandardizer (cfg : StdCfg) : Preproc ℕ (Option (Dict Py Py)) where
  transform i := fun s =>
    match stdD cfg (sortEntries cfg (sortD cfg i)) [] [] ⟨s.1, []⟩ with
    | (.ok new, st) => (.ok new, (st.ctr, some (reverseMap st.mapping)))
    | (.error e, st) => (.error e, (st.ctr, s.2))
  undo i := fun s =>
    match s.2 with
    | none => (.error .exc, s)
    | some rm => (.ok (undoStdD rm i []), s)

/-! ### `Flattener` -/

/-- The flattened name of an attribute (preprocessor.py:707-712). -/
def flatName (outer : Option Py) (attr : Py) : Res Py :=
  match outer with
  | none => .ok attr
  | some o => do
    let x ← attr.index0
    if x = .str c!"_" then pure (.tup [.str c!"_", .tup [attr, o]])
    else pure (.tup [attr, o])

/-- `for so_attr in so: temp[so_attr] = so[so_attr]` (preprocessor.py:716-717). -/
def setAll (temp so : PyInst) : PyInst := so.foldl (fun d p => d.set p.1 p.2) temp

mutual
/-- An attribute's value in `_flatten` (preprocessor.py:714-719), `attr` being its flattened name. -/
def flattenV (attr : Py) : Py → PyInst → Res PyInst
  | .dict l, temp => do
    let so ← flattenD (some attr) l []
    pure (setAll temp so)
  | v, temp => .ok (temp.set attr v)
/-- `_flatten` (preprocessor.py:644-720); the accumulator is `temp`. -/
def flattenD (outer : Option Py) : List (Py × Py) → PyInst → Res PyInst
  | [], temp => .ok temp
  | (attr, v) :: rest, temp => do
    let a ← flatName outer attr
    let temp ← flattenV a v temp
    flattenD outer rest temp
end

/-- The loop of `_get_path` (preprocessor.py:602-610), from the inside out. -/
def getPathRev : Py → List Py
  | .tup [a, b] => if a = .str c!"_" then getPathRev b else a :: getPathRev b
  | x => [x]

/-- `_get_path` (preprocessor.py:591-612). -/
def getPath (attr : Py) : List Py := (getPathRev attr).reverse

/-- The descent and assignment of `_structurize` (preprocessor.py:633-638) from one dict on.  Going
through a value that is not a dict raises (the code would accept a list or a tuple and an integer attribute). -/
def insertPath (d : PyInst) (v : Py) : List Py → Res PyInst
  | [] => .error .indexErr
  | [k] => .ok (d.set k v)
  | k :: k' :: ks =>
    match d.get? k with
    | none => do
      let e ← insertPath [] v (k' :: ks)
      pure (d.set k (.dict e))
    | some (.dict e) => do
      let e ← insertPath e v (k' :: ks)
      pure (d.set k (.dict e))
    | some _ => .error .typeErr

/-- `_structurize` (preprocessor.py:614-642); the accumulator is `temp`. -/
def structurize : List (Py × Py) → PyInst → Res PyInst
  | [], temp => .ok temp
  | (attr, v) :: rest, temp =>
    match attr with
    | .tup [_, _] => do
      let temp ← insertPath temp v (getPath attr)
      structurize rest temp
    | _ => structurize rest (temp.set attr v)

/-- `Flattener.transform` (preprocessor.py:579-583). -/
def flatten (i : PyInst) : Res PyInst := flattenD none i []
/-- `Flattener.undo_transform` (preprocessor.py:585-589). -/
def unflatten (i : PyInst) : Res PyInst := structurize i []

def flattener {γ τ : Type} : Preproc γ τ := stateless flatten unflatten

/-! ### `SubComponentProcessor` -/

mutual
/-- `_extract_attr` (preprocessor.py:1318-1328). -/
def extractAttr : Py → Py
  | .tup [outer, inner] => if isVarPy outer then outer else .tup [outer, extractAttr inner]
  | .tup l => .tup (extractAttrL l)
  | a => a
def extractAttrL : List Py → List Py
  | [] => []
  | x :: xs => extractAttr x :: extractAttrL xs
end

/-- `('has-component', inner, comp)`. -/
def hasComp (inner comp : Py) : Py := .tup [.str c!"has-component", inner, comp]

/-- `if last_comp is not None: relations.append(...)` (preprocessor.py:1347-1348). -/
def pushComp (last : Option Py) (inner : Py) (rels : List Py) : List Py :=
  match last with
  | none => rels
  | some c => rels ++ [hasComp inner c]

/-- The `while` loop and the end of `_get_has_components` (preprocessor.py:1344-1356).  A string of two
characters has length two as well. -/
def compLoop : Py → (last : Option Py) → (inner : Py) → (rels : List Py) → Res (List Py)
  | .tup [a, attr], last, inner, rels =>
    if isVarPy a then compLoop attr (some a) (extractAttr attr) (pushComp last inner rels)
    else compLoop attr last inner rels
  | .str [c, c'], last, inner, rels =>
    let s' : Py := .str [c']
    if isVar [c] then
      .ok (if isVar [c'] then pushComp (some (.str [c])) s' (pushComp last inner rels)
        else pushComp last inner rels)
    else .ok (if isVar [c'] then pushComp last inner rels else rels)
  | .str s, last, inner, rels => .ok (if isVar s then pushComp last inner rels else rels)
  | .tup _, _, _, rels => .ok rels
  | _, _, _, _ => .error .typeErr

mutual
/-- `_get_has_components` (preprocessor.py:1330-1356). -/
def hasComponents : Py → Res (List Py)
  | .tup [a, b] => compLoop (.tup [a, b]) none .none []
  | .tup l => hasComponentsL l
  | _ => .ok []
def hasComponentsL : List Py → Res (List Py)
  | [] => .ok []
  | x :: xs => do
    let a ← hasComponents x
    let b ← hasComponentsL xs
    pure (a ++ b)
end

/-- `_extract_sub_objects` (preprocessor.py:1308-1316); the accumulator is `new_instance`. -/
def extractD : List (Py × Py) → PyInst → Res PyInst
  | [], new => .ok new
  | (a, v) :: rest, new => do
    let rels ← hasComponents a
    extractD rest ((setAll new (rels.map fun r => (r, .bool true))).set (extractAttr a) v)

/-- The entry of `so_mapping` for an attribute, if any (preprocessor.py:1284-1286). -/
def compEntry : Py → Option (Py × Py)
  | .tup [.str r, x, y] => if r = c!"has-component" then some (y, .tup [y, x]) else none
  | _ => none

/-- `so_mapping` (preprocessor.py:1284-1286). -/
def soMapping (i : PyInst) : Dict Py Py := Dict.ofPairs (i.filterMap fun p => compEntry p.1)

/-- `[f(x) for x in l]`. -/
def mapRes {α β : Type} (f : α → Res β) : List α → Res (List β)
  | [] => .ok []
  | x :: xs => do
    let y ← f x
    let ys ← mapRes f xs
    pure (y :: ys)

/-- `_rename_embedding` (preprocessor.py:1292-1306).  The fuel is the depth of recursion, which Python
bounds too (`RecursionError`). -/
def renameEmb (m : Dict Py Py) : ℕ → Py → Res Py
  | 0, _ => .error .outOfFuel
  | n + 1, attr =>
    match m.get? attr with
    | some (.tup [x, y]) => do
      let y ← renameEmb m n y
      pure (.tup [x, y])
    | some a => .ok a
    | none =>
      match attr with
      | .tup [x, y] => do
        let y ← renameEmb m n y
        pure (.tup [x, y])
      | .tup l => do
        let l ← mapRes (renameEmb m n) l
        pure (.tup l)
      | a => .ok a

/-- The comprehension of `_embed_sub_objects` (preprocessor.py:1288-1290). -/
def embedD (m : Dict Py Py) (fuel : ℕ) : List (Py × Py) → PyInst → Res PyInst
  | [], new => .ok new
  | (a, v) :: rest, new =>
    match compEntry a with
    | some _ => embedD m fuel rest new
    | none => do
      let a ← renameEmb m fuel a
      embedD m fuel rest (new.set a v)

/-- `SubComponentProcessor.transform` (preprocessor.py:1264-1270). -/
def extractSub (i : PyInst) : Res PyInst := extractD i []
/-- `SubComponentProcessor.undo_transform` (preprocessor.py:1272-1290). -/
def embedSub (fuel : ℕ) (i : PyInst) : Res PyInst := embedD (soMapping i) fuel i []

def subComponent {γ τ : Type} (fuel : ℕ) : Preproc γ τ := stateless extractSub (embedSub fuel)

end CF
