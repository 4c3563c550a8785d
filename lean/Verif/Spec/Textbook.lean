/-
COBWEB as in the literature (Fisher 1987), on hierarchies of groups of instances: no tables, no counts, no
identifiers, no order among the concepts below a concept, no random numbers.  Where several choices are equally good
any of them may be made.
-/
import Verif.Model.Cobweb
import Mathlib.Data.Multiset.AddSub
import Mathlib.Algebra.BigOperators.Group.Multiset.Defs

namespace CF

/-- A hierarchy of concepts: the instances of the concept, and the concepts below it. -/
inductive Hier (I : Type) where
  | node (group : Multiset I) (subs : List (Hier I))

variable {I S K : Type}

def Hier.group : Hier I → Multiset I | .node m _ => m
def Hier.subs : Hier I → List (Hier I) | .node _ hs => hs

/-- The instances of the concepts of a list. -/
def groups (hs : List (Hier I)) : List (Multiset I) := hs.map Hier.group

section
variable [Field K] [LinearOrder K]

/-- The utility of dividing `m` into `ms`, when `E` is the value of a group: what is gained on average, for each of the
parts. -/
def gain (E : Multiset I → K) (m : Multiset I) (ms : List (Multiset I)) : K :=
  ((ms.map fun x => (Multiset.card x : K) / (Multiset.card m : K) * E x).sum - E m) / (ms.length : K)

/-- The utility when `x` hosts the new instance, beside the concepts `others`. -/
def hosting (E : Multiset I → K) (m : Multiset I) (i : I) (x : Hier I) (others : List (Hier I)) : K :=
  gain E (i ::ₘ m) ((i ::ₘ x.group) :: groups others)

/-- A host of utility `u` with `n` instances is no better than one of utility `u'` with `n'` instances: among equally
good hosts the larger one is preferred. -/
def NotAhead (u : K) (n : ℕ) (u' : K) (n' : ℕ) : Prop := u < u' ∨ u = u' ∧ n ≤ n'

/-- `x` is a best host among the concepts `hs`, and `y` is a best host among the others. -/
structure Hosts (E : Multiset I → K) (m : Multiset I) (i : I) (hs : List (Hier I)) (x y : Hier I)
    (rest : List (Hier I)) : Prop where
  all : hs.Perm (x :: y :: rest)
  first : ∀ z zs, hs.Perm (z :: zs) →
    NotAhead (hosting E m i z zs) (Multiset.card z.group) (hosting E m i x (y :: rest)) (Multiset.card x.group)
  second : ∀ z zs, hs.Perm (x :: z :: zs) →
    NotAhead (hosting E m i z (x :: zs)) (Multiset.card z.group) (hosting E m i y (x :: rest)) (Multiset.card y.group)

/-- What can be done with the new instance, and its utility: put it into the best host, into a new concept, into the
union of the two best hosts (if there is a third concept), or first replace the best host by the concepts below it. -/
inductive Offer (E : Multiset I → K) (m : Multiset I) (i : I) (x y : Hier I) (rest : List (Hier I)) : Op → K → Prop
  | best : Offer E m i x y rest .best (hosting E m i x (y :: rest))
  | new : Offer E m i x y rest .new (gain E (i ::ₘ m) ({i} :: groups (x :: y :: rest)))
  | merge : rest ≠ [] →
      Offer E m i x y rest .merge (gain E (i ::ₘ m) ((i ::ₘ (x.group + y.group)) :: groups rest))
  | split : x.subs ≠ [] → Offer E m i x y rest .split (gain E m (groups (x.subs ++ y :: rest)))

/-- No offer is better. -/
def Wins (E : Multiset I → K) (m : Multiset I) (i : I) (x y : Hier I) (rest : List (Hier I)) (op : Op) : Prop :=
  ∃ u, Offer E m i x y rest op u ∧ ∀ op' u', Offer E m i x y rest op' u' → u' ≤ u

/-- `Sorts E Same i T T'`: sorting `i` into the hierarchy `T` can give `T'`. -/
inductive Sorts (E : Multiset I → K) (Same : I → I → Prop) (i : I) : Hier I → Hier I → Prop
  | join {m} : (∀ j ∈ m, Same i j) → Sorts E Same i (.node m []) (.node (i ::ₘ m) [])
  | divide {m} : (¬ ∀ j ∈ m, Same i j) →
      Sorts E Same i (.node m []) (.node (i ::ₘ m) [.node m [], .node {i} []])
  | best {m hs x y rest x'} : Hosts E m i hs x y rest → Wins E m i x y rest .best → Sorts E Same i x x' →
      Sorts E Same i (.node m hs) (.node (i ::ₘ m) (x' :: y :: rest))
  | new {m hs x y rest} : Hosts E m i hs x y rest → Wins E m i x y rest .new →
      Sorts E Same i (.node m hs) (.node (i ::ₘ m) (.node {i} [] :: hs))
  | merge {m hs x y rest z} : Hosts E m i hs x y rest → Wins E m i x y rest .merge →
      Sorts E Same i (.node (x.group + y.group) [x, y]) z →
      Sorts E Same i (.node m hs) (.node (i ::ₘ m) (z :: rest))
  | split {m hs x y rest z} : Hosts E m i hs x y rest → Wins E m i x y rest .split →
      Sorts E Same i (.node m (x.subs ++ y :: rest)) z → Sorts E Same i (.node m hs) z

/-- The hierarchies that can be learnt from a sequence of instances. The value of a group may depend on the
instances seen so far (it does for numbers, which are scaled). -/
inductive Learns (E : List I → Multiset I → K) (Same : I → I → Prop) : List I → Hier I → Prop
  | empty : Learns E Same [] (.node 0 [])
  | sort {h T i T'} : Learns E Same h T → Sorts (E (h ++ [i])) Same i T T' → Learns E Same (h ++ [i]) T'

end

mutual
/-- The tree shows the hierarchy: the table of each concept is that of its instances (`Sum`), the concepts below are the
same, in some order. -/
inductive Depicts (Sum : S → Multiset I → Prop) : Tree S → Hier I → Prop
  | node {id s cs m hs hs'} : Sum s m → DepictsL Sum cs hs' → hs'.Perm hs → Depicts Sum (.node id s cs) (.node m hs)
inductive DepictsL (Sum : S → Multiset I → Prop) : List (Tree S) → List (Hier I) → Prop
  | nil : DepictsL Sum [] []
  | cons {t T ts Ts} : Depicts Sum t T → DepictsL Sum ts Ts → DepictsL Sum (t :: ts) (T :: Ts)
end

/-- The next random numbers. -/
def Draws (w : World) (l : List ℚ) : Prop := ∀ k q, l[k]? = some q → w.draw k = q

end CF
