/-
The Cobweb algorithm of /repo/concept_formation/cobweb.py, generic over the node class.

`CobwebTree.cobweb`, `_cobweb_categorize` and the `CobwebNode` methods that the subclasses do not
override are written once, over a record of the overridden methods (`NodeClass`) plus the
scoring method `ecg` (`expected_correct_guesses`).  Cobweb/3 and Trestle reuse them.
-/
import Verif.Py.Dict
import Mathlib.Data.List.Sort
import Mathlib.Data.Prod.Lex
import Mathlib.Algebra.Order.Field.Basic
import Mathlib.Algebra.Order.Ring.Rat
import Mathlib.Algebra.Field.Rat

namespace CF

/-- The methods of `CobwebNode` that `Cobweb3Node` overrides and that the shared algorithm calls
on a node's probability table.
* `fresh`: `CobwebNode()` (cobweb.py:297-312)
* `count`: the field `count`
* `incr`: `increment_counts` (cobweb.py:345-359, cobweb3.py:147-181)
* `addFrom`: `update_counts_from_node` (cobweb.py:361-378, cobweb3.py:183-209)
* `isExact`: `is_exact_match` (cobweb.py:913-936, cobweb3.py:522-559)
`expected_correct_guesses` is passed separately (`ecg`), because in Cobweb/3 it also reads the
tree's `attr_scales`. -/
structure NodeClass (I S : Type) where
  fresh : S
  count : S → ℕ
  incr : S → I → S
  addFrom : S → S → S
  isExact : S → I → Bool

/-- A concept node with the subtree below it (cobweb.py:275-312): `concept_id`, the probability
table (`count` and `av_counts`) and `children`.  The `parent` and `tree` references are modelled in
the heap layer only. -/
inductive Tree (S : Type) where
  | node (id : ℕ) (stats : S) (children : List (Tree S)) : Tree S

namespace Tree
variable {S : Type}
def id : Tree S → ℕ | .node i _ _ => i
def stats : Tree S → S | .node _ s _ => s
def children : Tree S → List (Tree S) | .node _ _ cs => cs

@[simp] theorem id_node (i : ℕ) (s : S) (cs) : (Tree.node i s cs).id = i := rfl
@[simp] theorem stats_node (i : ℕ) (s : S) (cs) : (Tree.node i s cs).stats = s := rfl
@[simp] theorem children_node (i : ℕ) (s : S) (cs) : (Tree.node i s cs).children = cs := rfl

mutual
/-- `num_concepts` (cobweb.py:1017-1031). -/
def numConcepts : Tree S → ℕ
  | .node _ _ cs => 1 + numConceptsL cs
/-- The loop of `num_concepts`. -/
def numConceptsL : List (Tree S) → ℕ
  | [] => 0
  | c :: cs => numConcepts c + numConceptsL cs
end

mutual
/-- All nodes of a tree (as the subtrees rooted at them), parents before children. -/
def nodes : Tree S → List (Tree S)
  | .node i s cs => .node i s cs :: nodesL cs
def nodesL : List (Tree S) → List (Tree S)
  | [] => []
  | c :: cs => nodes c ++ nodesL cs
end

mutual
/-- The leaves of a tree, left to right. -/
def leaves : Tree S → List (Tree S)
  | .node i s cs => if cs.isEmpty then [.node i s []] else leavesL cs
def leavesL : List (Tree S) → List (Tree S)
  | [] => []
  | c :: cs => leaves c ++ leavesL cs
end

/-- The concept ids of all nodes. -/
def ids (t : Tree S) : List ℕ := t.nodes.map Tree.id
end Tree

/-- The global state the algorithm reads: the stream of results of `random.random()` with the
number of draws consumed so far, and the class counter `_counter` of `gensym` (cobweb.py:295,
945-955).  Temporary nodes burn ids too. -/
structure World where
  rnd : ℕ → ℚ
  pos : ℕ
  ctr : ℕ

/-- The value of the `n`-th next draw. -/
def World.draw (w : World) (n : ℕ) : ℚ := w.rnd (w.pos + n)
/-- `n` draws were consumed. -/
def World.skip (w : World) (n : ℕ) : World := { w with pos := w.pos + n }
/-- `n` nodes were constructed. -/
def World.bump (w : World) (n : ℕ) : World := { w with ctr := w.ctr + n }

section
variable {I S K : Type} [Field K] [LinearOrder K]

/-- Python's `/`: division by zero raises. -/
def pyDiv (a b : K) : Res K := if b = 0 then .error .zeroDiv else .ok (a / b)

variable (C : NodeClass I S) (ecg : S → Res K)

/-- `shallow_copy` (cobweb.py:314-327): a fresh node updated from this one. -/
def shallowCopy (s : S) : S := C.addFrom C.fresh s

/-- The loop of `category_utility` (cobweb.py:437-442). -/
def cuSum (n : ℕ) : List S → K → Res K
  | [], acc => .ok acc
  | c :: cs, acc => do
    let p ← pyDiv (C.count c : K) (n : K)
    let e ← ecg c
    cuSum n cs (acc + p * e)

/-- `category_utility` (cobweb.py:404-445) of a node with table `s` and children tables `cs`. -/
def categoryUtility (s : S) (cs : List S) : Res K :=
  match cs with
  | [] => .ok 0
  | _ :: _ => do
    let g ← cuSum C ecg (C.count s) cs 0
    let e ← ecg s
    pyDiv (g - e) (cs.length : K)

/-- `cu_for_insert` (cobweb.py:667-698); the child is given by its position. -/
def cuForInsert (s : S) (cs : List S) (i : ℕ) (inst : I) : Res K :=
  categoryUtility C ecg (C.incr (shallowCopy C s) inst)
    (cs.mapIdx fun j c => if j = i then C.incr (shallowCopy C c) inst else shallowCopy C c)

/-- `cu_for_new_child` (cobweb.py:738-762). -/
def cuForNewChild (s : S) (cs : List S) (inst : I) : Res K :=
  categoryUtility C ecg (C.incr (shallowCopy C s) inst)
    (cs.map (shallowCopy C) ++ [C.incr C.fresh inst])

/-- The tables of the children at positions other than `i` and `j`. -/
def dropTwo {α : Type} (cs : List α) (i j : ℕ) : List α :=
  ((cs.zipIdx).filter fun p => p.2 ≠ i ∧ p.2 ≠ j).map Prod.fst

/-- `cu_for_merge` (cobweb.py:799-838). `b1`, `b2` are the tables of the children at positions
`i`, `j`. -/
def cuForMerge (s : S) (cs : List S) (i j : ℕ) (b1 b2 : S) (inst : I) : Res K :=
  categoryUtility C ecg (C.incr (shallowCopy C s) inst)
    (C.incr (C.addFrom (C.addFrom C.fresh b1) b2) inst :: (dropTwo cs i j).map (shallowCopy C))

/-- `cu_for_split` (cobweb.py:885-911): `bcs` are the tables of the children of the child at
position `i`. -/
def cuForSplit (s : S) (cs : List S) (i : ℕ) (bcs : List S) : Res K :=
  categoryUtility C ecg (shallowCopy C s) ((cs.eraseIdx i ++ bcs).map (shallowCopy C))

/-- `cu_for_fringe_split` (cobweb.py:858-883), including `create_child_with_current_counts`
(cobweb.py:720-736) on the childless temporary. -/
def cuForFringeSplit (s : S) (inst : I) : Res K :=
  let temp := shallowCopy C s
  let old : List S := if C.count temp > 0 then [shallowCopy C temp] else []
  categoryUtility C ecg (C.incr temp inst) (old ++ [C.incr C.fresh inst])

/-- `relative_cu_for_insert` (cobweb.py:613-665). -/
def relativeCuForInsert (c : S) (inst : I) : Res K := do
  let e1 ← ecg (C.incr (shallowCopy C c) inst)
  let e0 ← ecg c
  pure (((C.count c : K) + 1) * e1 - (C.count c : K) * e0)

/-- The loop of `compute_relative_CU_const` (cobweb.py:604-607). -/
def constSum (n : ℕ) : List S → K → Res K
  | [], acc => .ok acc
  | c :: cs, acc => do
    let e ← ecg c
    constSum n cs (acc + (C.count c : K) / ((n : K) + 1) * e)

/-- `compute_relative_CU_const` (cobweb.py:576-611). -/
def relativeCuConst (s : S) (cs : List S) (inst : I) : Res K := do
  let u ← ecg (C.incr (shallowCopy C s) inst)
  let c ← constSum C ecg (C.count s) cs 0
  pyDiv (c - u) (cs.length : K)

/-- An entry of the list sorted in `two_best_children` (cobweb.py:556-558); `idx` stands for the
child object. -/
structure Cand (K : Type) where
  rel : K
  size : ℕ
  rnd : ℚ
  idx : ℕ

/-- The part of the tuple that can be compared: relative CU, then size, then the random number. -/
def Cand.key (c : Cand K) : K ×ₗ ℕ ×ₗ ℚ := toLex (c.rel, toLex (c.size, c.rnd))

/-- `list.sort(reverse=True)` on the comparable part. -/
def sortCands (l : List (Cand K)) : List (Cand K) :=
  l.insertionSort fun a b => b.key ≤ a.key

/-- The list built at cobweb.py:556-558, from position `k` on. -/
def mkCands (inst : I) (w : World) : List S → ℕ → Res (List (Cand K))
  | [], _ => .ok []
  | c :: cs, k => do
    let r ← relativeCuForInsert C ecg c inst
    let rest ← mkCands inst w cs (k + 1)
    pure (⟨r, C.count c, w.draw k, k⟩ :: rest)

/-- The result of `two_best_children`: the CU of inserting in the best child, and the positions of
the best and second best children. -/
structure Best (K : Type) where
  cu : K
  b1 : ℕ
  b2 : Option ℕ

/-- `two_best_children` (cobweb.py:540-574).

Comparing two tuples that agree on the first three components compares two node objects, which
raises `TypeError`; a comparison sort must compare such a pair whenever one exists. -/
def twoBest (s : S) (cs : List S) (inst : I) (w : World) : Res (Best K) :=
  if cs.length = 0 then .error .exc else do
    let cands ← mkCands C ecg inst w cs 0
    if ¬ (cands.map Cand.key).Nodup then .error .typeErr else do
    let sorted := sortCands cands
    let const ← relativeCuConst C ecg s cs inst
    match sorted with
    | [] => .error .indexErr
    | c1 :: rest =>
      pure ⟨c1.rel / ((C.count s : K) + 1) / (cs.length : K) + const, c1.idx,
        rest.head?.map Cand.idx⟩

/-- The four operations (cobweb.py:448). -/
inductive Op | best | new | merge | split
  deriving DecidableEq, Repr

/-- Python's order on the operation names: 'best' < 'merge' < 'new' < 'split'. -/
def Op.rank : Op → ℕ
  | .best => 0 | .merge => 1 | .new => 2 | .split => 3

/-- An entry `(cu, random(), name)` of the list sorted in `get_best_operation`. -/
structure OpCand (K : Type) where
  cu : K
  rnd : ℚ
  op : Op

def OpCand.key (c : OpCand K) : K ×ₗ ℚ ×ₗ ℕ := toLex (c.cu, toLex (c.rnd, c.op.rank))

/-- `operations.sort(reverse=True)`: names break the remaining ties, nothing can raise. -/
def sortOps (l : List (OpCand K)) : List (OpCand K) :=
  l.insertionSort fun a b => b.key ≤ a.key

/-- `operations` after cobweb.py:523-524.  Draws are consumed from position `off` of the stream. -/
def opsBest (ops : List Op) (cu1 : K) (w : World) (off : ℕ) : List (OpCand K) :=
  if .best ∈ ops then [⟨cu1, w.draw off, .best⟩] else []

/-- `operations.append((cu, random(), name))`. -/
def addOp (w : World) (off : ℕ) (l : List (OpCand K)) (op : Op) (cu : Res K) :
    Res (List (OpCand K)) :=
  cu.map fun cu => l ++ [⟨cu, w.draw (off + l.length), op⟩]

/-- `operations` after cobweb.py:525-527. -/
def opsNew (ops : List Op) (s : S) (css : List S) (inst : I) (w : World) (off : ℕ)
    (l : List (OpCand K)) : Res (List (OpCand K)) :=
  if .new ∈ ops then addOp w off l .new (cuForNewChild C ecg s css inst) else .ok l

/-- `operations` after cobweb.py:528-530. -/
def opsMerge (ops : List Op) (s : S) (cs : List (Tree S)) (inst : I) (i : ℕ) (t1 : Tree S)
    (b2 : Option ℕ) (w : World) (off : ℕ) (l : List (OpCand K)) : Res (List (OpCand K)) :=
  match b2.bind fun j => cs[j]?.map fun t => (j, t) with
  | some (j, t2) =>
    if .merge ∈ ops ∧ cs.length > 2 then
      addOp w off l .merge (cuForMerge C ecg s (cs.map Tree.stats) i j t1.stats t2.stats inst)
    else .ok l
  | none => .ok l

/-- `operations` after cobweb.py:531-532. -/
def opsSplit (ops : List Op) (s : S) (css : List S) (i : ℕ) (t1 : Tree S) (w : World) (off : ℕ)
    (l : List (OpCand K)) : Res (List (OpCand K)) :=
  if .split ∈ ops ∧ t1.children.length > 0 then
    addOp w off l .split (cuForSplit C ecg s css i (t1.children.map Tree.stats))
  else .ok l

/-- `get_best_operation` (cobweb.py:447-538).  The third component of the result is the number of
draws consumed.  A `best1` that is `None` raises `ValueError`; a position that is not a child's
(impossible in the code, where the argument is a child object) is reported as `indexErr`, and so
is an empty list of operations (`operations[0]`). -/
def bestOp (ops : List Op) (s : S) (cs : List (Tree S)) (inst : I) (cu1 : K) (b1 b2 : Option ℕ)
    (w : World) (off : ℕ) : Res (K × Op × ℕ) :=
  match b1 with
  | none => .error .valueErr
  | some i =>
  match cs[i]? with
  | none => .error .indexErr
  | some t1 => do
    let l1 ← opsNew C ecg ops s (cs.map Tree.stats) inst w off (opsBest ops cu1 w off)
    let l2 ← opsMerge C ecg ops s cs inst i t1 b2 w off l1
    let l3 ← opsSplit C ecg ops s (cs.map Tree.stats) i t1 w off l2
    match sortOps l3 with
    | [] => .error .indexErr
    | c :: _ => pure (c.cu, c.op, l3.length)

/-- The default value of `possible_ops` (cobweb.py:448). -/
def allOps : List Op := [.best, .new, .merge, .split]

/-- Number of temporary nodes constructed by `two_best_children` and `get_best_operation` on a node
with `n` children, when the best child has `m` children and there is a second best child or not. -/
def tempIds (n m : ℕ) (two : Bool) : ℕ :=
  (n + 1) + (n + 2) + (if n > 2 ∧ two then 2 + (n - 2) else 0)
    + (if m > 0 then 1 + (n - 1 + m) else 0)

/-- The choice made at an internal node of `cobweb`: lines 179-181. -/
def chooseOp (s : S) (cs : List (Tree S)) (inst : I) (w : World) :
    Res (Best K × Op × World) := do
  let b ← twoBest C ecg s (cs.map Tree.stats) inst w
  let (_, op, n) ← bestOp C ecg allOps s cs inst b.cu (some b.b1) b.b2 w cs.length
  let m := match cs[b.b1]? with | some t => t.children.length | none => 0
  pure (b, op, (w.skip (cs.length + n)).bump (tempIds cs.length m b.b2.isSome))

/-- Result of the loop of `cobweb` started at a node: the subtree that replaces the node, the id of
the returned concept, and whether the node was replaced by a new node on a fringe split (in that
case the code removes the old node from its parent's children and appends the new one). -/
structure Out (S : Type) where
  tree : Tree S
  leaf : ℕ
  moved : Bool
  w : World

/-- Updating the children list after the loop finished in the child at position `i`. -/
def putChild (cs : List (Tree S)) (i : ℕ) (o : Out S) : List (Tree S) :=
  if o.moved then cs.eraseIdx i ++ [o.tree] else cs.set i o.tree

/-- The children at positions `i` and `j` are removed (cobweb.py:793-794). -/
def removeTwo (cs : List (Tree S)) (i j : ℕ) : List (Tree S) := dropTwo cs i j

/-- The loop of `cobweb` (cobweb.py:154-202) from the node `t` on, as a recursive function that
rebuilds the path.  One unit of fuel per iteration.

* leaf match, lines 156-160; fringe split, lines 162-176 (the new node is a copy of the leaf with
  the leaf and a new child below it);
* 'best', 'new', 'merge' (`merge`, lines 764-797), 'split' (`split`, lines 840-856). -/
def cobwebLoop (inst : I) : ℕ → Tree S → World → Res (Out S)
  | 0, _, _ => .error .outOfFuel
  | _ + 1, .node id s [], w =>
    if C.isExact s inst || C.count s == 0 then
      .ok ⟨.node id (C.incr s inst) [], id, false, w⟩
    else
      .ok ⟨.node (w.ctr + 1) (C.incr (shallowCopy C s) inst)
            [.node id s [], .node (w.ctr + 2) (C.incr C.fresh inst) []],
          w.ctr + 2, true, w.bump 2⟩
  | fuel + 1, .node id s (c :: cs'), w => do
    let cs := c :: cs'
    let (b, op, w) ← chooseOp C ecg s cs inst w
    match op with
    | .best =>
      match cs[b.b1]? with
      | none => .error .indexErr
      | some t => do
        let o ← cobwebLoop inst fuel t w
        pure ⟨.node id (C.incr s inst) (putChild cs b.b1 o), o.leaf, false, o.w⟩
    | .new =>
      pure ⟨.node id (C.incr s inst) (cs ++ [.node (w.ctr + 1) (C.incr C.fresh inst) []]),
        w.ctr + 1, false, w.bump 1⟩
    | .merge =>
      match b.b2 with
      | none => .error .indexErr
      | some j =>
      match cs[b.b1]?, cs[j]? with
      | some t1, some t2 => do
        let o ← cobwebLoop inst fuel
          (.node (w.ctr + 1) (C.addFrom (C.addFrom C.fresh t1.stats) t2.stats) [t1, t2]) (w.bump 1)
        pure ⟨.node id (C.incr s inst) (removeTwo cs b.b1 j ++ [o.tree]), o.leaf, false, o.w⟩
      | _, _ => .error .indexErr
    | .split =>
      match cs[b.b1]? with
      | none => .error .indexErr
      | some t => cobwebLoop inst fuel (.node id s (cs.eraseIdx b.b1 ++ t.children)) w

/-- `cobweb(instance)` (cobweb.py:115-202) on a tree with root `t`. -/
def cobweb (t : Tree S) (inst : I) (w : World) : Res (Out S) :=
  cobwebLoop C ecg inst t.numConcepts t w

/-- The loop of `_cobweb_categorize` (cobweb.py:204-217), one unit of fuel per iteration.  Returns
the node reached and the world. -/
def categorizeLoop (inst : I) : ℕ → Tree S → World → Res (Tree S × World)
  | 0, _, _ => .error .outOfFuel
  | _ + 1, .node id s [], w => .ok (.node id s [], w)
  | fuel + 1, .node _ s (c :: cs'), w => do
    let cs := c :: cs'
    let b ← twoBest C ecg s (cs.map Tree.stats) inst w
    match cs[b.b1]? with
    | none => .error .indexErr
    | some t => categorizeLoop inst fuel t ((w.skip cs.length).bump (cs.length + 1))

/-- `_cobweb_categorize` (cobweb.py:204-217). -/
def categorize (t : Tree S) (inst : I) (w : World) : Res (Tree S × World) :=
  categorizeLoop C ecg inst t.numConcepts t w

/-- The empty tree (`CobwebTree.__init__` / `clear`, cobweb.py:24-36): a fresh root with a new
id. -/
def emptyTree (w : World) : Tree S := .node (w.ctr + 1) C.fresh []

end
end CF
