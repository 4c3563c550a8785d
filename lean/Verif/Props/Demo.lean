/-
Concrete data used by the examples that accompany the property theorems.  Attributes and values are
natural numbers; attributes from 100 on play the role of hidden ones.
-/
import Verif.Model.History

namespace CF.Demo

def hid (a : ℕ) : Bool := decide (100 ≤ a)

/-- A world with pairwise distinct random numbers. -/
def w0 : World := ⟨fun n => (n : ℚ), 0, 0⟩

/-- Five instances, one repeated, one with a hidden attribute. -/
def insts : List (Inst ℕ ℕ) :=
  [[(1, 1), (2, 1)], [(1, 1), (2, 2)], [(1, 2), (2, 3), (100, 7)], [(1, 1), (2, 1)],
    [(1, 3), (2, 3)]]

/-- The result of fitting a list of instances to an empty tree. -/
def run (l : List (Inst ℕ ℕ)) : Res (Tree (Stats ℕ ℕ) × World) :=
  fitList (cobwebClass hid) (Stats.ecg (K := ℚ) hid) l (emptyTree (cobwebClass hid) w0) (w0.bump 1)

/-- The tree of a result (a dummy tree if it raised). -/
def treeOf {α : Type} (r : Res (Tree (Stats ℕ ℕ) × α)) : Tree (Stats ℕ ℕ) :=
  match r with
  | .ok (t, _) => t
  | .error _ => .node 0 Stats.fresh []

def demoTree : Tree (Stats ℕ ℕ) := treeOf (run insts)

end CF.Demo
