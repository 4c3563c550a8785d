/-
Specifications on the store of node objects.
-/
import Verif.Model.Heap3
import Verif.Model.Cobweb3
import Verif.Model.History

namespace CF
variable {I S K : Type} [Field K] [LinearOrder K]

/-- `b` is reached from `a` by `d` steps to a listed child. -/
inductive Below (h : Heap S) : ℕ → ℕ → ℕ → Prop
  | refl (a : ℕ) : Below h a 0 a
  | step {a d b c : ℕ} {r : Rec S} : Below h a d b → h.objs b = some r → c ∈ r.children →
      Below h a (d + 1) c

/-- The objects that existed before and the root of the tree are what they were; only new objects may
have been made. -/
structure Undisturbed (h h' : Heap S) : Prop where
  objs : ∀ a < h.next, h'.objs a = h.objs a
  next : h.next ≤ h'.next
  root : h'.root = h.root
  ctr : h.w.ctr ≤ h'.w.ctr

/-- The stores that a program can produce: the tree is constructed (or cleared) in any store, fitted
with the instances `hist` by calls that return, and between the calls anything may happen that does not
disturb existing objects (`categorize`, work on other trees, copies). -/
inductive HReach (C : NodeClass I S) (Ok : I → Prop) (E : (Bool → S → Res K) → Prop) :
    Heap S → List I → Prop
  | init {h h' : Heap S} : clearH C h = (.ok (), h') → HReach C Ok E h' []
  | other {h h' : Heap S} {hist : List I} : HReach C Ok E h hist → Undisturbed h h' →
      HReach C Ok E h' hist
  | step {h h' : Heap S} {hist : List I} {ecg : Bool → S → Res K} {i : I} {a : ℕ} :
      HReach C Ok E h hist → E ecg → Ok i → cobwebH C ecg i h = (.ok a, h') →
      HReach C Ok E h' (hist ++ [i])

/-- The object at `a` and the objects listed below it are the tree: concept ids, tables and order of the
children. -/
inductive IsTree (h : Heap S) : ℕ → Tree S → Prop
  | mk {a : ℕ} {r : Rec S} {cs : List (Tree S)} : h.objs a = some r →
      List.Forall₂ (IsTree h) r.children cs → IsTree h a (.node r.cid r.stats cs)

/-- The object at `b` in the store `g` and the objects below it are copies of those at `a` in `h`: new
objects at addresses from `lo` to `hi`, with the tables of copies and the same `parent` and `tree`. -/
inductive CopyOf (C : NodeClass I S) (h g : Heap S) (lo hi : ℕ) : ℕ → ℕ → Prop
  | mk {a b : ℕ} {r r' : Rec S} : h.objs a = some r → g.objs b = some r' → lo ≤ b → b < hi →
      r'.stats = shallowCopy C r.stats → r'.parent = r.parent → r'.tree = r.tree →
      List.Forall₂ (CopyOf C h g lo hi) r.children r'.children → CopyOf C h g lo hi a b

/-- The links of the objects below the root are those of a tree. -/
structure LinksOk (h : Heap S) : Prop where
  /-- `root.parent` is `None`. -/
  root_parent : ∃ r, h.objs h.root = some r ∧ r.parent = none
  /-- The parent of every listed child is the object that lists it; every object knows its tree. -/
  child_parent : ∀ {d a}, Below h h.root d a → ∃ r, h.objs a = some r ∧ r.tree = true ∧
    ∀ c ∈ r.children, ∃ rc, h.objs c = some rc ∧ rc.parent = some a
  /-- Every object but the root occurs exactly once in exactly one list of children. -/
  one_list : ∀ {d c}, Below h h.root d c → c ≠ h.root →
    ∃ a r, (∃ k, Below h h.root k a) ∧ h.objs a = some r ∧ r.children.count c = 1 ∧
      ∀ b rb, (∃ k, Below h h.root k b) → h.objs b = some rb → c ∈ rb.children → b = a
  /-- The root occurs in none. -/
  root_no_list : ∀ {d a r}, Below h h.root d a → h.objs a = some r → h.root ∉ r.children
  /-- `depth()` is the number of edges to the root; the calls end within one unit of fuel per object. -/
  depth : ∀ {d a}, Below h h.root d a → ∀ fuel ≥ h.next, depthH fuel a h = (.ok d, h)
  /-- `a.is_parent(b)` holds exactly when `b` is `a` or below it. -/
  is_parent : ∀ {d d' a b}, Below h h.root d a → Below h h.root d' b → ∀ fuel ≥ h.next,
    ∃ v, isParentH a fuel (some b) h = (.ok v, h) ∧ (v = true ↔ ∃ k, Below h a k b)

/-- Reachable stores of a `CobwebTree`. -/
abbrev CobwebHeap {A V : Type} [DecidableEq A] [DecidableEq V] (hid : A → Bool) :
    Heap (Stats A V) → List (Inst A V) → Prop :=
  HReach (K := ℚ) (cobwebClass hid) Dict.Nodup (· = fun _ => Stats.ecg hid)

section
variable {A B V : Type} [DecidableEq A] [DecidableEq B] [DecidableEq V]

/-- Reachable stores of a `Cobweb3Tree`, with its `attr_scales`; see `HReach`. -/
inductive HReach3 (hid : A → Bool) (cfg : Cfg3 A B) :
    Heap (Stats3 A V) → Scales B → List (Inst3 A V) → Prop
  | init {h h' : Heap (Stats3 A V)} : clearH (cobweb3Class hid) h = (.ok (), h') → HReach3 hid cfg h' [] []
  | other {h h' : Heap (Stats3 A V)} {sc : Scales B} {hist : List (Inst3 A V)} :
      HReach3 hid cfg h sc hist → Undisturbed h h' → HReach3 hid cfg h' sc hist
  | step {h h' : Heap (Stats3 A V)} {sc sc' : Scales B} {hist : List (Inst3 A V)} {i : Inst3 A V} {a : ℕ} :
      HReach3 hid cfg h sc hist → Dict.Nodup i → cobweb3H hid cfg i (h, sc) = (.ok a, h', sc') →
      HReach3 hid cfg h' sc' (hist ++ [i])

end
end CF
