/-
The Cobweb algorithm on mutable node objects.

Model/Cobweb.lean describes `cobweb` as a function that rebuilds the path to the root.  The code
mutates node objects through references instead: `parent`, `children`, `tree` and the `root` of the
tree.  This file transliterates the code statement by statement over a store of node objects,
including the temporary nodes that the scoring methods construct.  Proofs/Heap*.lean shows that the
objects reachable from the root always form the tree that Model/Cobweb.lean computes.

A node's probability table (`count`, `av_counts`) is kept as a value in the node's record: `av_counts`
and its inner dictionaries are created in `__init__`, `increment_counts` and `update_counts_from_node`
only, and those store only dictionaries (and, in Cobweb/3, `ContinuousValue` objects) that they have
just created, never one of another node (cobweb.py:301, 356, 374; cobweb3.py:162-181, 196-209).
-/
import Verif.Model.Cobweb

namespace CF

/-- A node object (cobweb.py:297-304).  Object references are addresses.  `tree` says whether the
attribute `tree` is the tree (`true`) or `None` (`false`). -/
structure Rec (S : Type) where
  cid : ℕ
  stats : S
  children : List ℕ
  parent : Option ℕ
  tree : Bool

/-- The store: the node objects, the first unused address, the attribute `root` of the tree, and the
global state (random numbers and `_counter`). -/
structure Heap (S : Type) where
  objs : ℕ → Option (Rec S)
  next : ℕ
  root : ℕ
  w : World

/-- Python code that works on the store: it returns or raises, and the store stays changed in both
cases. -/
def HM (S α : Type) : Type := Heap S → Res α × Heap S

namespace HM
variable {S α β : Type}

def ret (a : α) : HM S α := fun h => (.ok a, h)
def andThen (m : HM S α) (f : α → HM S β) : HM S β := fun h =>
  match m h with
  | (.ok a, h') => f a h'
  | (.error e, h') => (.error e, h')
/-- `raise e`. -/
def raise (e : PyErr) : HM S α := fun h => (.error e, h)
/-- A computation that does not touch the store. -/
def lift (r : Res α) : HM S α := fun h => (r, h)

instance : Monad (HM S) where
  pure := ret
  bind := andThen

/-- Reading the attributes of the object at an address.  A reference in Python always refers to an
object; the other case is reported as `exc`. -/
def get (a : ℕ) : HM S (Rec S) := fun h =>
  match h.objs a with
  | some r => (.ok r, h)
  | none => (.error .exc, h)

/-- Assigning attributes of the object at an address. -/
def mod (a : ℕ) (f : Rec S → Rec S) : HM S Unit := fun h =>
  match h.objs a with
  | some r => (.ok (), { h with objs := Function.update h.objs a (some (f r)) })
  | none => (.error .exc, h)

/-- `self.root` of the tree. -/
def getRoot : HM S ℕ := fun h => (.ok h.root, h)
/-- `self.root = a`. -/
def setRoot (a : ℕ) : HM S Unit := fun h => (.ok (), { h with root := a })
/-- `random()`. -/
def random : HM S ℚ := fun h => (.ok (h.w.draw 0), { h with w := h.w.skip 1 })

/-- `a.parent = p`. -/
def setParent (a : ℕ) (p : Option ℕ) : HM S Unit := mod a fun r => { r with parent := p }
/-- `a.tree = b`. -/
def setTree (a : ℕ) (b : Bool) : HM S Unit := mod a fun r => { r with tree := b }
/-- `a.children.append(c)`. -/
def append (a c : ℕ) : HM S Unit := mod a fun r => { r with children := r.children ++ [c] }

/-- `a.children.remove(c)`: nodes have no `__eq__`, so objects are compared by identity. -/
def remove (a c : ℕ) : HM S Unit := do
  let r ← get a
  if c ∈ r.children then mod a fun r => { r with children := r.children.erase c }
  else raise .valueErr

end HM

section
variable {I S K : Type} [Field K] [LinearOrder K]
variable (C : NodeClass I S) (ecg : Bool → S → Res K)
open HM

/-- `CobwebNode()` (cobweb.py:297-304) with `gensym` (lines 945-955). -/
def newNode : HM S ℕ := fun h =>
  (.ok h.next,
    { h with
      objs := Function.update h.objs h.next (some ⟨h.w.ctr + 1, C.fresh, [], none, false⟩)
      next := h.next + 1
      w := h.w.bump 1 })

/-- `a.increment_counts(instance)`. -/
def incrH (a : ℕ) (i : I) : HM S Unit := mod a fun r => { r with stats := C.incr r.stats i }

/-- `a.update_counts_from_node(b)`. -/
def addFromH (a b : ℕ) : HM S Unit := do
  let rb ← get b
  mod a fun r => { r with stats := C.addFrom r.stats rb.stats }

/-- `a.expected_correct_guesses()`.  In Cobweb/3 it also reads `a.tree` (cobweb3.py:266-272). -/
def ecgH (a : ℕ) : HM S K := do
  let r ← get a
  lift (ecg r.tree r.stats)

/-- `shallow_copy` (cobweb.py:314-327). -/
def shallowCopyH (a : ℕ) : HM S ℕ := do
  let temp ← newNode C
  let r ← get a
  setTree temp r.tree
  setParent temp r.parent
  addFromH C temp a
  pure temp

/-- The loop of the copy constructor (cobweb.py:311-312); `copy` is the constructor. -/
def copyKidsH (copy : ℕ → HM S ℕ) (new : ℕ) : List ℕ → HM S Unit
  | [] => pure ()
  | c :: cs => do
    let c' ← copy c
    append new c'
    copyKidsH copy new cs

/-- The copy constructor `CobwebNode(otherNode)` (cobweb.py:297-312).  One unit of fuel per level of the
copied tree. -/
def copyNodeH : ℕ → ℕ → HM S ℕ
  | 0, _ => raise .outOfFuel
  | fuel + 1, a => do
    let new ← newNode C
    let r ← get a
    setTree new r.tree
    setParent new r.parent
    addFromH C new a
    copyKidsH (copyNodeH fuel) new r.children
    pure new

/-- The loop of `category_utility` (cobweb.py:439-442). -/
def cuSumH (a : ℕ) : List ℕ → K → HM S K
  | [], acc => pure acc
  | c :: cs, acc => do
    let rc ← get c
    let r ← get a
    let p ← lift (pyDiv (C.count rc.stats : K) (C.count r.stats : K))
    let e ← ecgH ecg c
    cuSumH a cs (acc + p * e)

/-- `category_utility` (cobweb.py:404-445). -/
def categoryUtilityH (a : ℕ) : HM S K := do
  let r ← get a
  if r.children.length = 0 then pure 0 else do
  let g ← cuSumH C ecg a r.children 0
  let e ← ecgH ecg a
  lift (pyDiv (g - e) (r.children.length : K))

/-- `create_new_child` (cobweb.py:700-718). -/
def createNewChildH (a : ℕ) (i : I) : HM S ℕ := do
  let new ← newNode C
  setParent new (some a)
  let r ← get a
  setTree new r.tree
  incrH C new i
  append a new
  pure new

/-- Lines 692-697 of `cu_for_insert`. -/
def insertKidsH (temp child : ℕ) (i : I) : List ℕ → HM S Unit
  | [] => pure ()
  | c :: cs => do
    let tc ← shallowCopyH C c
    append temp tc
    setParent tc (some temp)
    if c = child then incrH C tc i else pure ()
    insertKidsH temp child i cs

/-- `cu_for_insert` (cobweb.py:667-698). -/
def cuForInsertH (a child : ℕ) (i : I) : HM S K := do
  let temp ← shallowCopyH C a
  incrH C temp i
  let r ← get a
  insertKidsH C temp child i r.children
  categoryUtilityH C ecg temp

/-- The loop `for c in …: temp.children.append(c.shallow_copy())` of cobweb.py:755-756, 832-836 and
905-909 over the children that are not skipped. -/
def copyInto (temp : ℕ) : List ℕ → HM S Unit
  | [] => pure ()
  | c :: cs => do
    let tc ← shallowCopyH C c
    append temp tc
    copyInto temp cs

/-- `cu_for_new_child` (cobweb.py:738-762). -/
def cuForNewChildH (a : ℕ) (i : I) : HM S K := do
  let temp ← shallowCopyH C a
  let r ← get a
  copyInto C temp r.children
  incrH C temp i
  let _ ← createNewChildH C temp i
  categoryUtilityH C ecg temp

/-- `cu_for_merge` (cobweb.py:799-838). -/
def cuForMergeH (a b1 b2 : ℕ) (i : I) : HM S K := do
  let temp ← shallowCopyH C a
  incrH C temp i
  let new ← newNode C
  let r ← get a
  setTree new r.tree
  setParent new (some temp)
  addFromH C new b1
  addFromH C new b2
  incrH C new i
  append temp new
  let r ← get a
  copyInto C temp (r.children.filter fun c => ¬ (c = b1 ∨ c = b2))
  categoryUtilityH C ecg temp

/-- `cu_for_split` (cobweb.py:885-911). -/
def cuForSplitH (a b : ℕ) : HM S K := do
  let temp ← shallowCopyH C a
  let r ← get a
  let rb ← get b
  copyInto C temp ((r.children ++ rb.children).filter fun c => ¬ c = b)
  categoryUtilityH C ecg temp

/-- `relative_cu_for_insert(child, instance)` (cobweb.py:613-665). -/
def relativeCuForInsertH (child : ℕ) (i : I) : HM S K := do
  let temp ← shallowCopyH C child
  incrH C temp i
  let r ← get child
  let e1 ← ecgH ecg temp
  let e0 ← ecgH ecg child
  pure (((C.count r.stats : K) + 1) * e1 - (C.count r.stats : K) * e0)

/-- Lines 605-607 of `compute_relative_CU_const`. -/
def constSumH (a : ℕ) : List ℕ → K → HM S K
  | [], acc => pure acc
  | c :: cs, acc => do
    let rc ← get c
    let r ← get a
    let e ← ecgH ecg c
    constSumH a cs (acc + (C.count rc.stats : K) / ((C.count r.stats : K) + 1) * e)

/-- `compute_relative_CU_const` (cobweb.py:576-611). -/
def relativeCuConstH (a : ℕ) (i : I) : HM S K := do
  let temp ← shallowCopyH C a
  incrH C temp i
  let u ← ecgH ecg temp
  let r ← get a
  let c ← constSumH C ecg a r.children 0
  lift (pyDiv (c - u) (r.children.length : K))

/-- The list built in `two_best_children` (cobweb.py:556-558). -/
def mkCandsH (i : I) : List ℕ → HM S (List (Cand K))
  | [] => pure []
  | c :: cs => do
    let rel ← relativeCuForInsertH C ecg c i
    let r ← get c
    let x ← random
    let rest ← mkCandsH i cs
    pure (⟨rel, C.count r.stats, x, c⟩ :: rest)

/-- The end of `two_best_children` (cobweb.py:565-574). -/
def pickBest (n len : ℕ) (const : K) : List (Cand K) → Res (Best K)
  | [] => .error .indexErr
  | c1 :: rest =>
    .ok ⟨c1.rel / ((n : K) + 1) / (len : K) + const, c1.idx, rest.head?.map Cand.idx⟩

/-- `two_best_children` (cobweb.py:540-574); see `twoBest` for the `TypeError`. -/
def twoBestH (a : ℕ) (i : I) : HM S (Best K) := do
  let r ← get a
  if r.children.length = 0 then raise .exc else do
  let cands ← mkCandsH C ecg i r.children
  if ¬ (cands.map Cand.key).Nodup then raise .typeErr else do
  let const ← relativeCuConstH C ecg a i
  let r ← get a
  lift (pickBest (C.count r.stats) r.children.length const (sortCands cands))

/-- `operations.append((cu, random(), name))`: the score is computed before the draw. -/
def addOpH (l : List (OpCand K)) (op : Op) (cu : HM S K) : HM S (List (OpCand K)) := do
  let cu ← cu
  let x ← random
  pure (l ++ [⟨cu, x, op⟩])

/-- cobweb.py:523-524. -/
def opsBestH (ops : List Op) (cu1 : K) (l : List (OpCand K)) : HM S (List (OpCand K)) :=
  if .best ∈ ops then addOpH l .best (pure cu1) else pure l

/-- cobweb.py:525-527. -/
def opsNewH (ops : List Op) (a : ℕ) (i : I) (l : List (OpCand K)) : HM S (List (OpCand K)) :=
  if .new ∈ ops then addOpH l .new (cuForNewChildH C ecg a i) else pure l

/-- cobweb.py:528-530. -/
def opsMergeH (ops : List Op) (a : ℕ) (i : I) (b1 : ℕ) (b2 : Option ℕ) (l : List (OpCand K)) :
    HM S (List (OpCand K)) := do
  let r ← get a
  match b2 with
  | some b2 =>
    if .merge ∈ ops ∧ r.children.length > 2 then
      addOpH l .merge (cuForMergeH C ecg a b1 b2 i)
    else pure l
  | none => pure l

/-- cobweb.py:531-532. -/
def opsSplitH (ops : List Op) (a b1 : ℕ) (l : List (OpCand K)) : HM S (List (OpCand K)) := do
  let r ← get b1
  if .split ∈ ops ∧ r.children.length > 0 then addOpH l .split (cuForSplitH C ecg a b1)
  else pure l

/-- `operations[0]` (cobweb.py:536). -/
def pickOp : List (OpCand K) → Res (K × Op)
  | [] => .error .indexErr
  | c :: _ => .ok (c.cu, c.op)

/-- `get_best_operation` (cobweb.py:447-538) with `best1` given. -/
def bestOpH (ops : List Op) (a : ℕ) (i : I) (b1 : ℕ) (b2 : Option ℕ) (cu1 : K) :
    HM S (K × Op) := do
  let l ← opsBestH ops cu1 []
  let l ← opsNewH C ecg ops a i l
  let l ← opsMergeH C ecg ops a i b1 b2 l
  let l ← opsSplitH C ecg ops a b1 l
  lift (pickOp (sortOps l))

/-- `merge` (cobweb.py:764-797). -/
def mergeH (a b1 b2 : ℕ) : HM S ℕ := do
  let new ← newNode C
  setParent new (some a)
  let r ← get a
  setTree new r.tree
  addFromH C new b1
  addFromH C new b2
  setParent b1 (some new)
  setParent b2 (some new)
  append new b1
  append new b2
  remove a b1
  remove a b2
  append a new
  pure new

/-- Lines 853-856 of `split`. -/
def splitKidsH (a : ℕ) : List ℕ → HM S Unit
  | [] => pure ()
  | c :: cs => do
    setParent c (some a)
    let r ← get a
    setTree c r.tree
    append a c
    splitKidsH a cs

/-- `split` (cobweb.py:840-856). -/
def splitH (a b : ℕ) : HM S Unit := do
  remove a b
  let rb ← get b
  splitKidsH a rb.children

/-- Lines 168-172 of `cobweb`. -/
def relinkH (cur new : ℕ) : HM S Unit := do
  let r ← get new
  match r.parent with
  | some p => do
    remove p cur
    append p new
  | none => setRoot new

/-- The fringe split (cobweb.py:164-175); the copied node has no children. -/
def fringeH (cur : ℕ) (i : I) : HM S ℕ := do
  let new ← copyNodeH C 1 cur
  setParent cur (some new)
  append new cur
  relinkH cur new
  incrH C new i
  createNewChildH C new i

/-- The loop of `cobweb` (cobweb.py:154-202) from the node `current` on.  One unit of fuel per
iteration. -/
def cobwebLoopH (i : I) : ℕ → ℕ → HM S ℕ
  | 0, _ => raise .outOfFuel
  | fuel + 1, cur => do
    let r ← get cur
    if r.children.isEmpty then
      if C.isExact r.stats i || C.count r.stats == 0 then do
        incrH C cur i
        pure cur
      else fringeH C cur i
    else do
      let b ← twoBestH C ecg cur i
      let co ← bestOpH C ecg allOps cur i b.b1 b.b2 b.cu
      match co.2 with
      | .best => do
        incrH C cur i
        cobwebLoopH i fuel b.b1
      | .new => do
        incrH C cur i
        createNewChildH C cur i
      | .merge => do
        incrH C cur i
        match b.b2 with
        | none => raise .attrErr
        | some b2 => do
          let new ← mergeH C cur b.b1 b2
          cobwebLoopH i fuel new
      | .split => do
        splitH cur b.b1
        cobwebLoopH i fuel cur

/-- `cobweb` (cobweb.py:115-202).  The fuel, one unit per allocated object, is shown to suffice. -/
def cobwebH (i : I) : HM S ℕ := fun h => cobwebLoopH C ecg i h.next h.root h

/-- The loop of `_cobweb_categorize` (cobweb.py:212-217). -/
def categorizeLoopH (i : I) : ℕ → ℕ → HM S ℕ
  | 0, _ => raise .outOfFuel
  | fuel + 1, cur => do
    let r ← get cur
    if r.children.isEmpty then pure cur else do
    let b ← twoBestH C ecg cur i
    categorizeLoopH i fuel b.b1

/-- `_cobweb_categorize` (cobweb.py:204-217). -/
def categorizeH (i : I) : HM S ℕ := fun h => categorizeLoopH C ecg i h.next h.root h

/-- `CobwebTree()` / `clear()` (cobweb.py:24-36). -/
def clearH : HM S Unit := do
  let r ← newNode C
  setRoot r
  setTree r true

/-- `depth` (cobweb.py:986-996), one unit of fuel per call. -/
def depthH : ℕ → ℕ → HM S ℕ
  | 0, _ => raise .outOfFuel
  | fuel + 1, a => do
    let r ← get a
    match r.parent with
    | some p => do
      let d ← depthH fuel p
      pure (1 + d)
    | none => pure 0

/-- The loop of `is_parent` (cobweb.py:1006-1015), one unit of fuel per iteration; `temp` is `none` for
`None`. -/
def isParentH (a : ℕ) : ℕ → Option ℕ → HM S Bool
  | _, none => pure false
  | 0, some _ => raise .outOfFuel
  | fuel + 1, some t =>
    if t = a then pure true else do
    let r ← get t
    isParentH a fuel r.parent

end
end CF
