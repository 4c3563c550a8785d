/-
What is shown of a tree.
-/
import Verif.Model.Visualize

namespace CF
variable {S P : Type}

mutual
/-- All objects with what is written on the way to them: the name and the other entries of their ancestors,
the nearest first; parents before children, children in order.  This list determines the object. -/
def JOb.paths : List (String × P) → JOb P → List (List (String × P) × JOb P)
  | anc, .mk n r cs => (anc, .mk n r cs) :: JOb.pathsL ((n, r) :: anc) cs
def JOb.pathsL : List (String × P) → List (JOb P) → List (List (String × P) × JOb P)
  | _, [] => []
  | anc, c :: cs => c.paths anc ++ JOb.pathsL anc cs
end

mutual
/-- The number of edges on the longest way down. -/
def JOb.height : JOb P → ℕ
  | .mk _ _ cs => JOb.heightL cs
def JOb.heightL : List (JOb P) → ℕ
  | [] => 0
  | c :: cs => max (c.height + 1) (JOb.heightL cs)
end

/-- What is written on an object and its ancestors. -/
def shown (j : List (String × P) × JOb P) : List (String × P) × String × P := (j.1, j.2.name, j.2.rest)

mutual
/-- All concepts with the ids and tables of their ancestors, the nearest first. -/
def Tree.ancestry : List (ℕ × S) → Tree S → List (List (ℕ × S) × Tree S)
  | anc, .node id s cs => (anc, .node id s cs) :: Tree.ancestryL ((id, s) :: anc) cs
def Tree.ancestryL : List (ℕ × S) → List (Tree S) → List (List (ℕ × S) × Tree S)
  | _, [] => []
  | anc, c :: cs => c.ancestry anc ++ Tree.ancestryL anc cs
end

mutual
/-- The number of edges on the longest way down to a leaf. -/
def Tree.heightOf : Tree S → ℕ
  | .node _ _ cs => Tree.heightOfL cs
def Tree.heightOfL : List (Tree S) → ℕ
  | [] => 0
  | c :: cs => max (c.heightOf + 1) (Tree.heightOfL cs)
end

/-- What is written on a concept. -/
def writtenNode (entries : S → P) (x : ℕ × S) : String × P := (s!"Concept{x.1}", entries x.2)

/-- What is written on a concept and its ancestors. -/
def writtenPath (entries : S → P) (x : List (ℕ × S) × Tree S) : List (String × P) × String × P :=
  (x.1.map (writtenNode entries), writtenNode entries (x.2.id, x.2.stats))

/-- The object shows exactly the concepts of the tree that satisfy `keep`, which may depend on the ancestors:
all of them, in order, each below the same ancestors. -/
def Shows (entries : S → P) (t : Tree S) (keep : List (ℕ × S) → Tree S → Prop) [∀ a x, Decidable (keep a x)]
    (j : JOb P) : Prop :=
  (j.paths []).map shown = ((t.ancestry []).filter fun x => keep x.1 x.2).map (writtenPath entries)

end CF
