/-
Comparing two executions of the Cobweb algorithm, possibly of different node classes.
-/
import Verif.Model.History
import Mathlib.Data.List.Forall2

namespace CF

/-- Two calls behave alike: both raise the same exception, or both return related results. -/
inductive RRel {α β : Type} (P : α → β → Prop) : Res α → Res β → Prop
  | ok {a b} : P a b → RRel P (.ok a) (.ok b)
  | error (e) : RRel P (.error e) (.error e)

section
variable {S S' : Type}

mutual
/-- Same shape and ids, related tables. -/
inductive TRel (R : S → S' → Prop) : Tree S → Tree S' → Prop
  | node {id s s' cs cs'} : R s s' → TRelL R cs cs' → TRel R (.node id s cs) (.node id s' cs')
inductive TRelL (R : S → S' → Prop) : List (Tree S) → List (Tree S') → Prop
  | nil : TRelL R [] []
  | cons {c c' cs cs'} : TRel R c c' → TRelL R cs cs' → TRelL R (c :: cs) (c' :: cs')
end

end
end CF
