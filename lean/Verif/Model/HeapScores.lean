/-
The remaining scoring methods on the store of node objects.
-/
import Verif.Model.Heap

namespace CF
section
variable {I S K : Type} [Field K] [LinearOrder K]
variable (C : NodeClass I S) (ecg : Bool → S → Res K)
open HM

/-- `create_child_with_current_counts` (cobweb.py:720-736) of a node without children, as it is in
`cu_for_fringe_split`: one unit of fuel suffices for the copy.  The result is `None` if the node has
counted nothing. -/
def createChildWithCurrentCountsH (a : ℕ) : HM S (Option ℕ) := do
  let r ← get a
  if C.count r.stats > 0 then do
    let new ← copyNodeH C 1 a
    setParent new (some a)
    let r ← get a
    setTree new r.tree
    append a new
    pure (some new)
  else pure none

/-- `cu_for_fringe_split` (cobweb.py:858-883). -/
def cuForFringeSplitH (a : ℕ) (i : I) : HM S K := do
  let temp ← shallowCopyH C a
  let _ ← createChildWithCurrentCountsH C temp
  incrH C temp i
  let _ ← createNewChildH C temp i
  categoryUtilityH C ecg temp

end
end CF
