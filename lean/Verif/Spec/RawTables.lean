/-
How a table of `Verif.Model.Cobweb3` stands for the dict of the code.
-/
import Verif.Model.RawTables
import Verif.Spec.Runs

namespace CF
variable {A V : Type} [DecidableEq A] [DecidableEq V]

/-- The dict `r` is the table `t`: its entries under other keys than `key` are the counts of the nominal
values, in the same order; its entry under `key`, if any, is the accumulator. -/
structure Encodes (key : V) (r : RawTab V) (t : Tab V) : Prop where
  noms : r.filter (fun p => p.1 ≠ key) = t.noms.map fun p => (p.1, .inl p.2)
  cv : r.filter (fun p => p.1 = key) = t.cv.toList.map fun c => (key, .inr c)

/-- The same number of instances, and the same attributes in the same order, with tables that correspond. -/
structure EncodesAll (key : V) (r : RawStats A V) (s : Stats3 A V) : Prop where
  count : r.count = s.count
  av : List.Forall₂ (fun p q => p.1 = q.1 ∧ Encodes key p.2 q.2) r.av s.av

/-- The instance does not have the string `key` as a value. -/
def Avoids (key : V) (i : Inst3 A V) : Prop := ∀ p ∈ i, p.2 ≠ .nom key

/-- `ord s i` lists the set `set(instance).union(set(self.attrs()))` in some order. -/
def UnionOrder (hid : A → Bool) (ord : RawStats A V → Inst3 A V → List A) : Prop :=
  ∀ s i a, a ∈ ord s i ↔ a ∈ Dict.keys i ∨ (a ∈ s.av.keys ∧ hid a = false)

/-- Some attribute's table has a plain count under the accumulator's key. -/
def Poisoned (key : V) (r : RawStats A V) : Prop :=
  ∃ a t k, (a, t) ∈ r.av ∧ (key, Sum.inl k) ∈ t

end CF
