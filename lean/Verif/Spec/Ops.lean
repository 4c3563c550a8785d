/-
Which operations are applicable at a node, and with which scores: the documentation of
`get_best_operation` as a relation.
-/
import Verif.Model.Cobweb

namespace CF
section
variable {I S K : Type} [Field K] [LinearOrder K]
variable (C : NodeClass I S) (ecg : S → Res K)

/-- The applicable operations of `get_best_operation`, with their scores: `best` always, with the
given score; `new` always; `merge` only when there is a second best child and there are more than two
children; `split` only when the best child has children. -/
inductive OpScore (s : S) (cs : List (Tree S)) (inst : I) (cu1 : K) (i : ℕ) (b2 : Option ℕ) :
    Op → K → Prop
  | best : OpScore s cs inst cu1 i b2 .best cu1
  | new {cu} : cuForNewChild C ecg s (cs.map Tree.stats) inst = .ok cu →
      OpScore s cs inst cu1 i b2 .new cu
  | merge {j t1 t2 cu} : b2 = some j → cs[i]? = some t1 → cs[j]? = some t2 → cs.length > 2 →
      cuForMerge C ecg s (cs.map Tree.stats) i j t1.stats t2.stats inst = .ok cu →
      OpScore s cs inst cu1 i b2 .merge cu
  | split {t1 cu} : cs[i]? = some t1 → t1.children ≠ [] →
      cuForSplit C ecg s (cs.map Tree.stats) i (t1.children.map Tree.stats) = .ok cu →
      OpScore s cs inst cu1 i b2 .split cu

/-- Candidate `(u, n, r)` does not beat `(u', n', r')`: smaller score, or equal score and smaller
size, or equal both and not larger random number. -/
def NotBetter (u : K) (n : ℕ) (r : ℚ) (u' : K) (n' : ℕ) (r' : ℚ) : Prop :=
  u < u' ∨ u = u' ∧ (n < n' ∨ n = n' ∧ r ≤ r')

end
end CF
