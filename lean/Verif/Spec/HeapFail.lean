/-
Stores of trees on which some calls raised, and what the tables of such a tree hold.
-/
import Verif.Spec.Heap

namespace CF
variable {I S K : Type} [Field K] [LinearOrder K]

/-- `HReach` with calls that raise: `hist` are the instances of the calls that returned, `bad` those of the calls that
raised.  The caller catches the exception and goes on with what the call left. -/
inductive HReachE (C : NodeClass I S) (Ok : I → Prop) (E : (Bool → S → Res K) → Prop) :
    Heap S → List I → List I → Prop
  | init {h h' : Heap S} : clearH C h = (.ok (), h') → HReachE C Ok E h' [] []
  | other {h h' : Heap S} {hist bad : List I} : HReachE C Ok E h hist bad → Undisturbed h h' →
      HReachE C Ok E h' hist bad
  | step {h h' : Heap S} {hist bad : List I} {ecg : Bool → S → Res K} {i : I} {a : ℕ} :
      HReachE C Ok E h hist bad → E ecg → Ok i → cobwebH C ecg i h = (.ok a, h') →
      HReachE C Ok E h' (hist ++ [i]) bad
  | fail {h h' : Heap S} {hist bad : List I} {ecg : Bool → S → Res K} {i : I} {e : PyErr} :
      HReachE C Ok E h hist bad → E ecg → Ok i → cobwebH C ecg i h = (.error e, h') →
      HReachE C Ok E h' hist (bad ++ [i])

/-- Stores of a `CobwebTree` on which some calls of `ifit` raised. -/
abbrev CobwebHeapE {A V : Type} [DecidableEq A] [DecidableEq V] (hid : A → Bool) :
    Heap (Stats A V) → List (Inst A V) → List (Inst A V) → Prop :=
  HReachE (K := ℚ) (cobwebClass hid) Dict.Nodup (· = fun _ => Stats.ecg hid)

section
variable {A B V : Type} [DecidableEq A] [DecidableEq B] [DecidableEq V]

/-- `HReach3` with calls that raise; such a call has updated `attr_scales`. -/
inductive HReach3E (hid : A → Bool) (cfg : Cfg3 A B) :
    Heap (Stats3 A V) → Scales B → List (Inst3 A V) → List (Inst3 A V) → Prop
  | init {h h' : Heap (Stats3 A V)} : clearH (cobweb3Class hid) h = (.ok (), h') → HReach3E hid cfg h' [] [] []
  | other {h h' : Heap (Stats3 A V)} {sc : Scales B} {hist bad : List (Inst3 A V)} :
      HReach3E hid cfg h sc hist bad → Undisturbed h h' → HReach3E hid cfg h' sc hist bad
  | step {h h' : Heap (Stats3 A V)} {sc sc' : Scales B} {hist bad : List (Inst3 A V)} {i : Inst3 A V} {a : ℕ} :
      HReach3E hid cfg h sc hist bad → Dict.Nodup i → cobweb3H hid cfg i (h, sc) = (.ok a, h', sc') →
      HReach3E hid cfg h' sc' (hist ++ [i]) bad
  | fail {h h' : Heap (Stats3 A V)} {sc sc' : Scales B} {hist bad : List (Inst3 A V)} {i : Inst3 A V} {e : PyErr} :
      HReach3E hid cfg h sc hist bad → Dict.Nodup i → cobweb3H hid cfg i (h, sc) = (.error e, h', sc') →
      HReach3E hid cfg h' sc' hist (bad ++ [i])

end

variable (Sum : S → Multiset I → Prop) (Same : I → I → Prop)

mutual
/-- `Retains t m x`: the leaves of the subtree `t` hold the instances `m` and nothing else, each leaf a non-empty group of
indistinguishable ones; every internal node has at least two children; the table of a node summarises the instances
held by the leaves below it and some instances that no leaf holds, `x` for the root of `t`.  Of those the children of a
node together have no more than the node. -/
inductive Retains : Tree S → Multiset I → Multiset I → Prop
  | leaf {id s m} : Sum s m → m ≠ 0 → (∀ i ∈ m, ∀ j ∈ m, Same i j) → Retains (.node id s []) m 0
  | node {id s cs m x y} : 2 ≤ cs.length → RetainsL cs m y → y ≤ x → Sum s (m + x) → Retains (.node id s cs) m x
/-- The same for a list of subtrees. -/
inductive RetainsL : List (Tree S) → Multiset I → Multiset I → Prop
  | nil : RetainsL [] 0 0
  | cons {c cs m x m' x'} : Retains c m x → RetainsL cs m' x' → RetainsL (c :: cs) (m + m') (x + x')
end

/-- `Retains` for the whole tree, which is a new node as long as nothing has been fitted. -/
def TreeRetains (C : NodeClass I S) (t : Tree S) (m x : Multiset I) : Prop :=
  (m = 0 ∧ x = 0 ∧ ∃ id, t = .node id C.fresh []) ∨ Retains Sum Same t m x

end CF
