/-
`list.sort` on the tuples of `two_best_children` (/repo/concept_formation/cobweb.py:556-559), for scores that may be
`nan`.

These definitions model the Python language.  A sorting algorithm is a program that compares elements of the list and
goes on according to the answers; which one Python uses is left open.  A `nan` is equal to itself only if it is the
same object, which `same` decides.
-/
import Verif.Model.Ext3

namespace CF

/-- A program that compares two elements, goes on with one of two programs, and ends with a list. -/
inductive SortProg (α : Type)
  | done (l : List α)
  | ask (a b : α) (yes no : SortProg α)

/-- Running it; an exception of a comparison ends the run. -/
def SortProg.run {α : Type} (lt : α → α → Res Bool) : SortProg α → Res (List α)
  | .done l => .ok l
  | .ask a b yes no => do
    let r ← lt a b
    if r then yes.run lt else no.run lt

/-- `x == y` of floats. -/
def XF.eqv : XF → XF → Prop
  | .fin x, .fin y => x = y
  | .inf s, .inf t => s = t
  | _, _ => False

/-- `x < y` of floats. -/
def XF.lt : XF → XF → Prop
  | .fin x, .fin y => x < y
  | .inf true, .fin _ => True
  | .fin _, .inf false => True
  | .inf true, .inf false => True
  | _, _ => False

open Classical in
/-- `a < b` of tuples: the first elements that are neither identical nor equal are compared.  Concepts cannot be
compared (`CobwebNode` defines no `__lt__`, and `==` is identity). -/
noncomputable def candLt (same : Cand XF → Cand XF → Bool) (a b : Cand XF) : Res Bool :=
  if same a b = true ∨ XF.eqv a.rel b.rel then
    if a.size = b.size then
      if a.rnd = b.rnd then .error .typeErr else .ok (decide (a.rnd < b.rnd))
    else .ok (decide (a.size < b.size))
  else .ok (decide (XF.lt a.rel b.rel))

/-- Insertion sort as such a program: `x` is put into the second list, the first one being in front of it. -/
def insertProg {α : Type} (x : α) : List α → List α → (List α → SortProg α) → SortProg α
  | front, [], k => k (front ++ [x])
  | front, y :: ys, k => .ask x y (k (front ++ x :: y :: ys)) (insertProg x (front ++ [y]) ys k)

/-- Insertion sort. -/
def insertionProg {α : Type} : List α → List α → SortProg α
  | sorted, [] => .done sorted
  | sorted, x :: xs => insertProg x [] sorted fun s => insertionProg s xs

end CF
