/-
Trees fitted with an arbitrary arithmetic.
-/
import Verif.Model.Arith

namespace CF
section
variable {I S K : Type}

/-- All that is assumed of the arithmetic: sorting only rearranges. -/
structure Arith.Sorts (ar : Arith K) : Prop where
  cands : ∀ {l l'}, ar.sortCands l = .ok l' → l'.Perm l
  ops : ∀ l, (ar.sortOps l).Perm l

/-- The arithmetic raises only where it must: on division by zero, and when the children to sort are tied
(random numbers included). -/
structure Arith.Total (ar : Arith K) : Prop where
  ratio : ∀ a b, b ≠ 0 → ∃ r, ar.ratio a b = .ok r
  div : ∀ x n, n ≠ 0 → ∃ r, ar.div x (ar.ofNat n) = .ok r
  sort : ∀ l : List (Cand K), (l.map Cand.rnd).Nodup → ∃ l', ar.sortCands l = .ok l'

/-- `ReachAny C Ok t h n`: `t` is the root after successful `ifit` calls with the instances `h` (oldest
first) on a tree that started empty; see `Reach`.  Each call may use its own number type, its own
arithmetic and its own `expected_correct_guesses`. -/
inductive ReachAny (C : NodeClass I S) (Ok : I → Prop) : Tree S → List I → ℕ → Prop
  | init (w : World) : ReachAny C Ok (emptyTree C w) [] (w.ctr + 1)
  | step {L : Type} {ar : Arith L} {ecg : S → Res L} {t h n i w o} : ReachAny C Ok t h n → ar.Sorts →
      Ok i → n ≤ w.ctr → cobwebBy C (chooseOpA ar C ecg) t i w = .ok o →
      ReachAny C Ok o.tree (h ++ [i]) o.w.ctr

end
end CF
