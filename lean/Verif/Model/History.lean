/-
Histories of calls on a tree, and `CobwebTree.fit`.
-/
import Verif.Model.Nominal

namespace CF
section
variable {I S K : Type} [Field K] [LinearOrder K]

/-- `Reach C Ok E t h n`: `t` is the root after a history of successful `ifit` calls with the
instances `h` (oldest first) on a tree that started empty, and `n` is the value of the gensym counter
after the last call.  Between the calls anything that does not touch the tree may happen
(`categorize`, work on other trees, other random draws): each call starts in an arbitrary world whose
counter is not smaller.  `E` says which scoring functions a call may use: a single one for Cobweb, one
per value of `attr_scales` for Cobweb/3. -/
inductive Reach (C : NodeClass I S) (Ok : I → Prop) (E : (S → Res K) → Prop) :
    Tree S → List I → ℕ → Prop
  | init (w : World) : Reach C Ok E (emptyTree C w) [] (w.ctr + 1)
  | step {t h n ecg i w o} : Reach C Ok E t h n → E ecg → Ok i → n ≤ w.ctr →
      cobweb C ecg t i w = .ok o → Reach C Ok E o.tree (h ++ [i]) o.w.ctr

variable (C : NodeClass I S) (ecg : S → Res K)

/-- `for i in instances: self.ifit(i)` (cobweb.py:111-112). -/
def fitList : List I → Tree S → World → Res (Tree S × World)
  | [], t, w => .ok (t, w)
  | i :: is, t, w => do
    let o ← cobweb C ecg t i w
    fitList is o.tree o.w

/-- A sequence of `ifit` calls, each in a given world (so anything may happen between the calls).  The
result has the final tree and, for each call, the id of the returned concept and the world after it. -/
def runs : Tree S → List (I × World) → Res (Tree S × List (ℕ × World))
  | t, [] => .ok (t, [])
  | t, (i, w) :: l => do
    let o ← cobweb C ecg t i w
    let r ← runs o.tree l
    pure (r.1, (o.leaf, o.w) :: r.2)

/-- `shuffle(instances)`: some rearrangement of the list, together with the new state of the random
generator.  Theorems assume that it permutes and leaves the gensym counter alone. -/
abbrev Shuffle (I : Type) := List I → World → List I × World

/-- The outer loop of `fit` (cobweb.py:108-113), `x` is the loop variable and `todo` the number of
iterations left. -/
def fitIter (sh : Shuffle I) (randomizeFirst : Bool) : ℕ → ℕ → List I → Tree S → World →
    Res (Tree S × World)
  | _, 0, _, t, w => .ok (t, w)
  | x, todo + 1, l, t, w => do
    let (l, w) := if x = 0 ∧ randomizeFirst then sh l w else (l, w)
    let (t, w) ← fitList C ecg l t w
    let (l, w) := sh l w
    fitIter sh randomizeFirst (x + 1) todo l t w

/-- `CobwebTree.fit` (cobweb.py:86-113).  The second component of the result is the caller's list
after the call: the code works on a copy (line 106). -/
def fit (sh : Shuffle I) (instances : List I) (iterations : ℕ) (randomizeFirst : Bool) (t : Tree S)
    (w : World) : Res (Tree S × List I × World) := do
  let copy := instances
  let (t, w) ← fitIter C ecg sh randomizeFirst 0 iterations copy t w
  pure (t, instances, w)

end

/-- Reachable `CobwebTree`s. Scores are rational numbers; instances are dicts (no repeated key). -/
abbrev CobwebReach {A V : Type} [DecidableEq A] [DecidableEq V] (hid : A → Bool) :
    Tree (Stats A V) → List (Inst A V) → ℕ → Prop :=
  Reach (K := ℚ) (cobwebClass hid) Dict.Nodup (· = Stats.ecg hid)

/-- `CobwebTree.ifit` (cobweb.py:66-84) after its sanity check, with rational scores. -/
abbrev ifit {A V : Type} [DecidableEq A] [DecidableEq V] (hid : A → Bool) (t : Tree (Stats A V))
    (i : Inst A V) (w : World) : Res (Out (Stats A V)) :=
  cobweb (cobwebClass hid) (Stats.ecg (K := ℚ) hid) t i w

end CF
