/-
The structural operations of `CobwebNode` as functions on whole subtrees.
-/
import Verif.Model.Cobweb

namespace CF
section
variable {I S K : Type} [Field K] [LinearOrder K]
variable (C : NodeClass I S) (ecg : S → Res K)

/-- `node.category_utility()` (cobweb.py:404-445) on a node with its real children. -/
def Tree.cu (t : Tree S) : Res K := categoryUtility C ecg t.stats (t.children.map Tree.stats)

/-- `node.increment_counts(instance)` (cobweb.py:345-359). -/
def Tree.incr (t : Tree S) (i : I) : Tree S := .node t.id (C.incr t.stats i) t.children

/-- `node.children[k].increment_counts(instance)`. -/
def Tree.incrChild (t : Tree S) (k : ℕ) (i : I) : Tree S :=
  .node t.id t.stats (t.children.modify k fun c => c.incr C i)

/-- `node.create_new_child(instance)` (cobweb.py:700-718); the new node gets id `n`. -/
def Tree.createNewChild (t : Tree S) (n : ℕ) (i : I) : Tree S :=
  .node t.id t.stats (t.children ++ [.node n (C.incr C.fresh i) []])

/-- `node.create_child_with_current_counts()` (cobweb.py:720-736) on a node without children. -/
def Tree.createChildWithCurrentCounts (t : Tree S) (n : ℕ) : Tree S :=
  if C.count t.stats > 0 then
    .node t.id t.stats (t.children ++ [.node n (shallowCopy C t.stats) []])
  else t

/-- `node.merge(best1, best2)` (cobweb.py:764-797) for the children at positions `i` and `j`; the new
node gets id `n` and is the last child. -/
def Tree.merge (t : Tree S) (n i j : ℕ) : Tree S :=
  match t.children[i]?, t.children[j]? with
  | some t1, some t2 =>
    .node t.id t.stats (dropTwo t.children i j ++
      [.node n (C.addFrom (C.addFrom C.fresh t1.stats) t2.stats) [t1, t2]])
  | _, _ => t

/-- `node.split(best)` (cobweb.py:840-856) for the child at position `i`. -/
def Tree.split (t : Tree S) (i : ℕ) : Tree S :=
  match t.children[i]? with
  | some t1 => .node t.id t.stats (t.children.eraseIdx i ++ t1.children)
  | none => t

end
end CF
