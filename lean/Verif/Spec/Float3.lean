/-
Specification vocabulary for `Cobweb3Tree` in floating point.
-/
import Verif.Model.Float3
import Verif.Spec.Cobweb3
import Verif.Spec.AnyArith
import Verif.Proofs.Float

namespace CF
variable {A B V : Type} [DecidableEq A] [DecidableEq B] [DecidableEq V]

/-- An instance as Python has it: the attributes are different and the numbers are floats. -/
structure FloatInst (i : Inst3 A V) : Prop where
  nodup : Dict.Nodup i
  nums : ∀ a x, Dict.get? i a = some (.num x) → IsFloat x

/-- The table `s` counts the instances `m`: like `Summarizes3`, but of the accumulators only the counts
are exact, the rest is `Sound`. -/
structure Counts3 (s : Stats3 A V) (m : Multiset (Inst3 A V)) : Prop where
  count : s.count = Multiset.card m
  noms : ∀ a v, s.nomLookup a v = if occ m a (.nom v) = 0 then none else some (occ m a (.nom v))
  cv : ∀ a, (nums m a = 0 ∧ s.cvOf a = none) ∨
    (nums m a ≠ 0 ∧ ∃ c, s.cvOf a = some c ∧ c.num = Multiset.card (nums m a) ∧ c.Sound)
  attrs : ∀ a, a ∈ s.av.keys ↔ ∃ i ∈ m, a ∈ Dict.keys i
  nodup : s.av.Nodup ∧ ∀ p ∈ s.av, Dict.Nodup p.2.noms

/-- The states of a `Cobweb3Tree` after a history of successful `ifit` calls; see `Reach3`.  The position
of the accumulators may be another one at each call. -/
inductive Reach3F (R : Rounding) (hid : A → Bool) (cfg : Cfg3 A B) :
    State3 A B V → List (Inst3 A V) → ℕ → Prop
  | init (w : World) : Reach3F R hid cfg ⟨emptyTree (cobweb3ClassF R.fl hid) w, []⟩ [] (w.ctr + 1)
  | step {st h n i w o pos} : Reach3F R hid cfg st h n → FloatInst i → n ≤ w.ctr →
      ifit3F R.fl pos hid cfg st i w = .ok o → Reach3F R hid cfg o.state (h ++ [i]) o.w.ctr

end CF
