/-
Specifications for the evaluation.
-/
import Verif.Model.Evaluation
import Verif.Spec.Dummy

namespace CF
variable {σ R : Type}

/-- The tree was cleared and then fitted with exactly the instances `hist`, in this order; in between
concepts were looked up and asked, and random numbers drawn. -/
inductive Fitted (T : PyTree σ) : σ → List PyInst → Prop
  | clear (s : σ) : Fitted T (T.clear s) []
  | ifit {s s' : σ} {hist : List PyInst} {i : PyInst} {c : ℕ} : Fitted T s hist → Py.wf (.dict i) →
      T.ifit i s = (.ok c, s') → Fitted T s' (hist ++ [i])
  | categorize {s : σ} {hist : List PyInst} {i : PyInst} : Fitted T s hist → Py.wf (.dict i) →
      Fitted T (T.categorize i s).2 hist
  | probability {s : σ} {hist : List PyInst} {c : ℕ} {a v : Py} : Fitted T s hist →
      Fitted T (T.probability c a v s).2 hist
  | predict {s : σ} {hist : List PyInst} {c : ℕ} {a : Py} : Fitted T s hist →
      Fitted T (T.predict c a s).2 hist
  | draw {s : σ} {hist : List PyInst} {w : World} : Fitted T s hist → w.ctr = (T.world s).ctr →
      Fitted T (T.setWorld w s) hist

/-- A scoring function leaves the tree fitted with what it was fitted with. -/
def KeepsFitted (T : PyTree σ) (score : PyInst → Py → Py → SM σ R) : Prop :=
  ∀ i a v s hist, Fitted T s hist → Py.wf (.dict i) → Fitted T (score i a v s).2 hist

/-- The value of the attribute, or `None`. -/
def targetOf (i : PyInst) (a : Py) : Py :=
  match Dict.get? i a with
  | some v => v
  | none => .none

/-- There is an entry per instance, and the `j`-th is what the scoring function returned for the `j`-th
instance and a tree fitted with exactly the ones before it. -/
def ScoredRow (T : PyTree σ) (score : PyInst → Py → Py → SM σ R) (a : Py) (is : List PyInst) (row : List R) :
    Prop :=
  row.length = is.length ∧ ∀ j i, is[j]? = some i → ∃ s s' r, row[j]? = some r ∧
    Fitted T s (is.take j) ∧ score i a (targetOf i a) s = (.ok r, s')

/-- Shuffling permutes the list and makes no nodes. -/
structure ShuffleLaws (shuffle : List PyInst → World → List PyInst × World) : Prop where
  perm : ∀ l w, (shuffle l w).1.Perm l
  ctr : ∀ l w, (shuffle l w).2.ctr = w.ctr

end CF
