/-
Specification vocabulary for nominal concept tables, independent of how the tables are computed.
-/
import Verif.Model.Nominal
import Mathlib.Data.Multiset.Count
import Mathlib.Data.Multiset.Filter

namespace CF
variable {A V : Type} [DecidableEq A] [DecidableEq V]

/-- Number of instances of `m` with `a = v`. -/
def occ (m : Multiset (Inst A V)) (a : A) (v : V) : ℕ :=
  m.countP fun i => Dict.get? i a = some v

/-- The table `s` is exactly the summary of the multiset of instances `m`: `count` is their number,
`av_counts[a][v]` is the number of them with `a = v` and is absent when there is none, an attribute
is listed exactly when some instance has it. -/
structure Summarizes (s : Stats A V) (m : Multiset (Inst A V)) : Prop where
  count : s.count = Multiset.card m
  lookup : ∀ a v, s.lookup a v = if occ m a v = 0 then none else some (occ m a v)
  attrs : ∀ a, a ∈ s.av.keys ↔ ∃ i ∈ m, a ∈ Dict.keys i
  nodup : s.av.Nodup ∧ ∀ p ∈ s.av, Dict.Nodup p.2

/-- Two instances agree on every attribute that is not hidden. -/
def SameVisible (hid : A → Bool) (i j : Inst A V) : Prop :=
  ∀ a, hid a = false → Dict.get? i a = Dict.get? j a

end CF
