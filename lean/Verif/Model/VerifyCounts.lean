/-
`verify_counts`, the check that the project's own tests run on finished trees:
/repo/concept_formation/tests/test_cobweb.py:11-55 and tests/test_cobweb3.py:11-58.

Simplifications: the counts are integers; printing has no effect; the values of an instance have no
attribute `concept_name` (they are strings, numbers, ...), so that `print(val.concept_name)`
(test_cobweb.py:35, test_cobweb3.py:38) raises `AttributeError`.
-/
import Verif.Model.Cobweb3

namespace CF

/-- What `verify_counts` can raise. -/
inductive VerifyErr
  | assertion | attribute
  deriving DecidableEq

section
variable {A W : Type} [DecidableEq A] [DecidableEq W]

/-- A node as `verify_counts` sees it: `count`, and `av_counts` with a number for every entry. -/
structure CountTab (A W : Type) where
  count : ℕ
  av : Dict A (Dict W ℕ)

/-- The inner loop over a child's values (test_cobweb.py:33-39, test_cobweb3.py:36-46). -/
def subValues : Dict W ℤ → Dict W ℕ → Except VerifyErr (Dict W ℤ)
  | t, [] => .ok t
  | t, (v, n) :: rest =>
    match t.get? v with
    | none => .error .attribute
    | some z => subValues (t.set v (z - n)) rest

/-- The loop over a child's attributes (test_cobweb.py:31-39, test_cobweb3.py:33-46). -/
def subAttrs : Dict A (Dict W ℤ) → Dict A (Dict W ℕ) → Except VerifyErr (Dict A (Dict W ℤ))
  | t, [] => .ok t
  | t, (a, tab) :: rest =>
    match t.get? a with
    | none => .error .assertion
    | some d => do
      let d' ← subValues d tab
      subAttrs (t.set a d') rest

/-- The loop over the children (test_cobweb.py:29-39, test_cobweb3.py:31-46). -/
def subNodes : ℤ → Dict A (Dict W ℤ) → List (CountTab A W) → Except VerifyErr (ℤ × Dict A (Dict W ℤ))
  | k, t, [] => .ok (k, t)
  | k, t, c :: cs => do
    let t' ← subAttrs t c.av
    subNodes (k - c.count) t' cs

/-- One call on a node with children, up to the recursive calls (test_cobweb.py:21-52,
test_cobweb3.py:20-55). -/
def verifyNode (x : CountTab A W) (cs : List (CountTab A W)) : Except VerifyErr Unit := do
  let (k, t) ← subNodes x.count (x.av.mapVal (Dict.mapVal fun n : ℕ => (n : ℤ))) cs
  if k ≠ 0 then throw .assertion
  if t.all fun p => p.2.all fun q => q.2 = 0 then pure () else throw .assertion

mutual
/-- `verify_counts(node)` (test_cobweb.py:11-55, test_cobweb3.py:11-58); `f` is how the tables of the
nodes are read. -/
def verifyTree {S : Type} (f : S → CountTab A W) : Tree S → Except VerifyErr Unit
  | .node _ s cs =>
    if cs.isEmpty then .ok ()
    else do
      verifyNode (f s) (cs.map fun c => f c.stats)
      verifyTrees f cs
/-- The recursive calls (test_cobweb.py:54-55, test_cobweb3.py:57-58). -/
def verifyTrees {S : Type} (f : S → CountTab A W) : List (Tree S) → Except VerifyErr Unit
  | [] => .ok ()
  | c :: cs => do
    verifyTree f c
    verifyTrees f cs
end

/-- The table of a `CobwebNode` as test_cobweb.py reads it (21-27). -/
def Stats.countTab (s : Stats A W) : CountTab A W := ⟨s.count, s.av⟩

/-- The table of a `Cobweb3Node` as test_cobweb3.py reads it (20-29, 43-46): of the accumulator under
`cv_key` (here `none`) it takes the field `num`.  The position of that key among the others does not
matter for whether the check passes; it is put first. -/
def Stats3.countTab (s : Stats3 A W) : CountTab A (Option W) :=
  ⟨s.count, s.av.mapVal fun t =>
    (match t.cv with | none => [] | some c => [(none, c.num)]) ++ t.noms.map fun p => (some p.1, p.2)⟩

/-- `verify_counts` of test_cobweb.py (11-55). -/
def verifyCounts (t : Tree (Stats A W)) : Except VerifyErr Unit := verifyTree Stats.countTab t

/-- `verify_counts` of test_cobweb3.py (11-58). -/
def verifyCounts3 (t : Tree (Stats3 A W)) : Except VerifyErr Unit := verifyTree Stats3.countTab t

end
end CF
