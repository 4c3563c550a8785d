/-
/repo/concept_formation/preprocessor.py: `ExtractListElements`, `ListsToRelations` and `ListProcessor`.

Simplifications, besides those of `Verif.Model.Preprocessor`: `str(x)` is a parameter for everything that is
not a string; `_undo_extract` of something that is not a dict raises `TypeError` (the code would return `{}`
for an empty string or list).
-/
import Verif.Model.Preprocessor

namespace CF

/-! ### `ExtractListElements` -/

/-- What list extraction takes from its environment: `str` and the names that `gensym` returns. -/
structure ListCfg where
  strOf : Py → PStr
  gensym : ℕ → PStr

/-- `str(x)`. -/
def ListCfg.str (cfg : ListCfg) : Py → PStr
  | .str s => s
  | v => cfg.strOf v

/-- `self.gensym()` (preprocessor.py:922-926, 103-112). -/
def nextName (cfg : ListCfg) : SM ℕ Py := fun n => (.ok (.str (cfg.gensym n)), n + 1)

/-- `'val'`. -/
def valKey : Py := .str c!"val"

/-- `if a[0] == '_'` (preprocessor.py:983). -/
def hiddenList (a : Py) : Res Bool := do
  let x ← a.index0
  pure (decide (x = .str c!"_"))

mutual
/-- An attribute `a` and its value in `_extract` (preprocessor.py:980-1005); `new` is `new_instance`. -/
def extractV (cfg : ListCfg) (a : Py) : Py → PyInst → SM ℕ PyInst
  | .list l, new => do
    let h ← SM.lift (hiddenList a)
    if h then SM.ret (new.set a (.str (cfg.str (.list l))))
    else do
      let r ← extractL cfg l new []
      SM.ret (r.1.set a (.list r.2))
  | .dict l, new => do
    let d ← extractE cfg l []
    SM.ret (new.set a (.dict d))
  | v, new => SM.ret (new.set a v)
/-- `_extract` of an element of a list (preprocessor.py:990-996): of a dict itself, of `{'val': el}` for
anything else. -/
def extractEl (cfg : ListCfg) : Py → SM ℕ PyInst
  | .dict l => extractE cfg l []
  | .list l => do
    let r ← extractL cfg l [] []
    SM.ret (r.1.set valKey (.list r.2))
  | v => SM.ret [(valKey, v)]
/-- The loop over the elements of a list (preprocessor.py:988-997); the accumulators are `new_instance` and
`new_list`. -/
def extractL (cfg : ListCfg) : List Py → PyInst → List Py → SM ℕ (PyInst × List Py)
  | [], new, names => SM.ret (new, names)
  | el :: els, new, names => do
    let n ← nextName cfg
    let o ← extractEl cfg el
    extractL cfg els (new.set n (.dict o)) (names ++ [n])
/-- `_extract` (preprocessor.py:974-1006). -/
def extractE (cfg : ListCfg) : List (Py × Py) → PyInst → SM ℕ PyInst
  | [], new => SM.ret new
  | (a, v) :: rest, new => do
    let new ← extractV cfg a v new
    extractE cfg rest new
end

/-- The object of a list element, made an element again (preprocessor.py:955-960). -/
def elementOf : Py → Py
  | .dict o => match Dict.get? o valKey with
    | some v => v
    | none => .dict o
  | v => v

/-- The elements of a list (preprocessor.py:953-960).  `vals` has the undone value of every attribute. -/
def unextElems (vals : Dict Py (Res Py)) : List Py → Res (List Py)
  | [] => .ok []
  | n :: ns =>
    if n.hashable then
      match Dict.get? vals n with
      | none => .error .keyErr
      | some r => do
        let o ← r
        let os ← unextElems vals ns
        pure (elementOf o :: os)
    else .error .typeErr

/-- The first loop (preprocessor.py:950-961): `new_instance` and `elements`. -/
def unextLists (vals : Dict Py (Res Py)) : List (Py × Py) → PyInst → List Py → Res (PyInst × List Py)
  | [], new, elems => .ok (new, elems)
  | (a, .list ns) :: rest, new, elems => do
    let l ← unextElems vals ns
    unextLists vals rest (new.set a (.list l)) (elems ++ ns)
  | _ :: rest, new, elems => unextLists vals rest new elems

/-- The second loop (preprocessor.py:963-969). -/
def unextRest (vals : Dict Py (Res Py)) (elems : List Py) : List (Py × Py) → PyInst → Res PyInst
  | [], new => .ok new
  | (a, v) :: rest, new =>
    if v.isList || elems.contains a then unextRest vals elems rest new
    else if v.isDict then
      match Dict.get? vals a with
      | none => .error .keyErr
      | some r => do
        let o ← r
        unextRest vals elems rest (new.set a o)
    else unextRest vals elems rest (new.set a v)

mutual
/-- `_undo_extract` (preprocessor.py:942-972).  The recursive calls are made first, but their exceptions only
count where the code makes the call. -/
def unextV : Py → Res Py
  | .dict l => do
    let vals := unextVals l
    let r ← unextLists vals l [] []
    let d ← unextRest vals r.2 l r.1
    pure (.dict d)
  | _ => .error .typeErr
def unextVals : List (Py × Py) → List (Py × Res Py)
  | [] => []
  | (a, v) :: l => (a, unextV v) :: unextVals l
end

/-- The dict of a value. -/
def asInst : Py → Res PyInst
  | .dict l => .ok l
  | _ => .error .typeErr

/-- `ExtractListElements` (preprocessor.py:874-1006). -/
def listExtractor (cfg : ListCfg) {τ : Type} : Preproc ℕ τ where
  transform i := fun s =>
    let r := extractE cfg i [] s.1
    (r.1, (r.2, s.2))
  undo i := SM.lift (do
    let v ← unextV (.dict i)
    asInst v)

/-! ### `ListsToRelations` -/

/-- `("ordered-list", lname, e1, e2)`. -/
def orderRel (lname e1 e2 : Py) : Py := .tup [.str c!"ordered-list", lname, e1, e2]
/-- `("has-element", lname, e)`. -/
def elemRel (lname e : Py) : Py := .tup [.str c!"has-element", lname, e]

/-- The relations of a list (preprocessor.py:1183-1195), added to `top_level`.  A list with an element that
is not hashable raises `TypeError`. -/
def addListRels (cfg : ListCfg) (lname : Py) : List Py → PyInst → Res PyInst
  | [], top => .ok top
  | [e], top => if (elemRel lname e).hashable then .ok (top.set (elemRel lname e) (.bool true)) else .error .typeErr
  | e :: e' :: es, top =>
    let r := orderRel lname (.str (cfg.str e)) (.str (cfg.str e'))
    let r' := elemRel lname e
    if r'.hashable then addListRels cfg lname (e' :: es) ((top.set r (.bool true)).set r' (.bool true))
    else .error .typeErr

mutual
/-- The value that `_lists_to_relations` stores for a value in the component `lname` names, and `top_level`
afterwards (preprocessor.py:1180-1201). -/
def relV (cfg : ListCfg) (lname : Py) : Py → PyInst → Res (Py × PyInst)
  | .list l, top => do
    let top ← addListRels cfg lname l top
    pure (.dict [], top)
  | .dict l, top => do
    let r ← relD cfg lname l [] top
    pure (.dict r.1, r.2)
  | v, top => .ok (v, top)
/-- `_lists_to_relations` (preprocessor.py:1169-1202) of a component, the name of an attribute being
`(attr, current)`; the accumulators are `new_instance` and
`top_level`. -/
def relD (cfg : ListCfg) (current : Py) : List (Py × Py) → PyInst → PyInst → Res (PyInst × PyInst)
  | [], new, top => .ok (new, top)
  | (a, v) :: rest, new, top => do
    let r ← relV cfg (.tup [a, current]) v top
    relD cfg current rest (new.set a r.1) r.2
end

/-- `_lists_to_relations` of the instance itself, whose `new_instance` is `top_level`
(preprocessor.py:1169-1202).  A list is replaced by `{}` before its relations are added, a component after
those of its lists. -/
def relTop (cfg : ListCfg) : List (Py × Py) → PyInst → Res PyInst
  | [], top => .ok top
  | (a, .list l) :: rest, top => do
    let top ← addListRels cfg a l (top.set a (.dict []))
    relTop cfg rest top
  | (a, v) :: rest, top => do
    let r ← relV cfg a v top
    relTop cfg rest (r.2.set a r.1)

/-- `elements`, `order` and `new_instance` (preprocessor.py:1084-1115); and the keys of `originals`, which
are those of the first two. -/
structure ListRels where
  elements : Dict Py (List Py)
  order : Dict Py (List (Py × Py))
  new : PyInst
  originals : List Py

/-- `d[k].append(x)`, with `d[k] = []` first if needed. -/
def pushAt {α : Type} (d : Dict Py (List α)) (k : Py) (x : α) : Dict Py (List α) :=
  d.set k ((d.get? k).getD [] ++ [x])

/-- A new key of `originals`, unless it is there. -/
def pushNew (l : List Py) (k : Py) : List Py := if k ∈ l then l else l ++ [k]

/-- The first loop of `_relations_to_lists` (preprocessor.py:1090-1115).  Unpacking a relation of the wrong
length raises `ValueError`. -/
def readRels : List (Py × Py) → ListRels → Res ListRels
  | [], r => .ok r
  | (a, v) :: rest, r =>
    match a with
    | .tup [] => .error .indexErr
    | .tup (x :: xs) =>
      if x = .str c!"has-element" then
        match xs with
        | [lname, e] => readRels rest
            { r with elements := pushAt r.elements lname e, originals := pushNew r.originals lname }
        | _ => .error .valueErr
      else if x = .str c!"ordered-list" then
        match xs with
        | [lname, e1, e2] => readRels rest
            { r with order := pushAt r.order lname (e1, e2), originals := pushNew r.originals lname }
        | _ => .error .valueErr
      else readRels rest { r with new := r.new.set a v }
    | _ => readRels rest { r with new := r.new.set a v }

/-- The state while a list is put together: what is left of `elements[ele]` and `order[ele]`, `new_list`, and
`change`. -/
structure Chain where
  elems : List Py
  order : List (Py × Py)
  out : List Py
  change : Bool

/-- Chaining to the front (preprocessor.py:1125-1137).  The fuel is the number of pairs left plus one. -/
def chainFront : ℕ → Chain → Res Chain
  | 0, _ => .error .outOfFuel
  | n + 1, c =>
    match c.out with
    | [] => .error .indexErr
    | x :: out =>
      match c.order.find? fun p => p.2 = x with
      | none => .ok c
      | some p =>
        if p.1 ∈ c.elems then
          chainFront n ⟨c.elems.erase p.1, c.order.erase p, p.1 :: x :: out, true⟩
        else .error .valueErr

/-- Chaining to the end (preprocessor.py:1139-1151). -/
def chainBack : ℕ → Chain → Res Chain
  | 0, _ => .error .outOfFuel
  | n + 1, c =>
    match c.out.getLast? with
    | none => .error .indexErr
    | some x =>
      match c.order.find? fun p => p.1 = x with
      | none => .ok c
      | some p =>
        if p.2 ∈ c.elems then
          chainBack n ⟨c.elems.erase p.2, c.order.erase p, c.out ++ [p.2], true⟩
        else .error .valueErr

/-- `while len(elements[ele]) > 0 and change` (preprocessor.py:1121-1151). -/
def chainLoop : ℕ → Chain → Res Chain
  | 0, _ => .error .outOfFuel
  | n + 1, c =>
    if c.elems ≠ [] ∧ c.change then do
      let c ← chainFront (c.order.length + 1) { c with change := false }
      let c ← chainBack (c.order.length + 1) c
      chainLoop n c
    else .ok c

/-- The list made of the elements and the order found, with the elements that do not fit
(preprocessor.py:1118-1151).  `order[ele]` raises `KeyError` when there are several elements and no order. -/
def chainList (elems : List Py) (order : Option (List (Py × Py))) : Res (List Py × List Py) :=
  match elems with
  | [] => .error .indexErr
  | [x] => .ok ([x], [])
  | x :: xs =>
    match order with
    | none => .error .keyErr
    | some o => do
      let c ← chainLoop (o.length + 2) ⟨xs, o, [x], true⟩
      pure (c.out, c.elems)

/-- `_get_path` (preprocessor.py:1163-1167), from the inside out. -/
def listPathRev : Py → List Py
  | .tup [a, b] => a :: listPathRev b
  | x => [x]

/-- `current[path.pop(0)]` until one attribute is left, then the assignment (preprocessor.py:1154-1158). -/
def assignPath (d : PyInst) (v : Py) : List Py → Res PyInst
  | [] => .error .indexErr
  | [k] => .ok (d.set k v)
  | k :: k' :: ks =>
    match d.get? k with
    | none => .error .keyErr
    | some (.dict e) => do
      let e ← assignPath e v (k' :: ks)
      pure (d.set k (.dict e))
    | some _ => .error .typeErr

/-- `for attr, val in originals: new_instance[attr] = val` (preprocessor.py:1159-1160): the loop runs over
the names of the lists, and unpacks them. -/
def setOriginals : List Py → PyInst → Res PyInst
  | [], new => .ok new
  | .tup [a, v] :: rest, new => setOriginals rest (new.set a v)
  | .str [c, d] :: rest, new => setOriginals rest (new.set (.str [c]) (.str [d]))
  | .tup _ :: _, _ | .str _ :: _, _ => .error .valueErr
  | _, _ => .error .typeErr

/-- The second loop (preprocessor.py:1117-1160). -/
def buildLists (r : ListRels) : List (Py × List Py) → PyInst → Res PyInst
  | [], new => .ok new
  | (lname, elems) :: rest, new => do
    let c ← chainList elems (r.order.get? lname)
    if c.2 = [] then do
      let new ← assignPath new (.list c.1) (listPathRev lname).reverse
      buildLists r rest new
    else do
      let new ← setOriginals r.originals new
      buildLists r rest new

/-- `_relations_to_lists` (preprocessor.py:1083-1161). -/
def relationsToLists (i : PyInst) : Res PyInst := do
  let r ← readRels i ⟨[], [], [], []⟩
  buildLists r r.elements r.new

/-- `ListsToRelations` (preprocessor.py:1009-1202). -/
def listsToRelations (cfg : ListCfg) {γ τ : Type} : Preproc γ τ :=
  stateless (fun i => relTop cfg i []) relationsToLists

/-- `ListProcessor` (preprocessor.py:723-871). -/
def listProcessor (cfg : ListCfg) {τ : Type} : Preproc ℕ (ℕ → τ) :=
  pipeline [⟨0, listExtractor cfg⟩, ⟨1, listsToRelations cfg⟩]

end CF
