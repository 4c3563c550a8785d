/-
What `expected_correct_guesses` and `category_utility` should be, in terms of the instances stored.
-/
import Verif.Spec.Nominal
import Mathlib.Algebra.BigOperators.Group.Finset.Basic
import Mathlib.Data.Finset.Union
import Mathlib.Data.Finset.Option
import Mathlib.Data.Multiset.Dedup
import Mathlib.Data.Finset.Dedup

namespace CF
open Finset
variable {A V : Type} [DecidableEq A] [DecidableEq V]

/-- The attributes occurring in some instance of `m`. -/
def attrsOf (m : Multiset (Inst A V)) : Finset A :=
  m.toFinset.biUnion fun i => (Dict.keys i).toFinset

/-- The attributes that are not hidden and occur in some instance of `m`. -/
def visAttrs (hid : A → Bool) (m : Multiset (Inst A V)) : Finset A :=
  (attrsOf m).filter fun a => hid a = false

/-- The values that `a` takes in the instances of `m`. -/
def valsOf (m : Multiset (Inst A V)) (a : A) : Finset V :=
  m.toFinset.biUnion fun i => (Dict.get? i a).toFinset

/-- `P(a = v)` in `m`. -/
def prob (K : Type) [Field K] (m : Multiset (Inst A V)) (a : A) (v : V) : K :=
  (occ m a v : K) / (Multiset.card m : K)

/-- The expected number of correct guesses per visible attribute: the average over the visible
attributes of the sum over the values of the squared probabilities. -/
def ecgSpec (K : Type) [Field K] (hid : A → Bool) (m : Multiset (Inst A V)) : K :=
  (∑ a ∈ visAttrs hid m, ∑ v ∈ valsOf m a, prob K m a v ^ 2) / ((visAttrs hid m).card : K)

/-- The category utility of a partition of `ms.sum` into `ms`. -/
def cuSpec (K : Type) [Field K] (hid : A → Bool) (ms : List (Multiset (Inst A V))) : K :=
  ((ms.map fun m => ((Multiset.card m : K) / (Multiset.card ms.sum : K)) * ecgSpec K hid m).sum
    - ecgSpec K hid ms.sum) / (ms.length : K)

end CF
