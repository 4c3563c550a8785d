/-
Specification vocabulary for flat clusterings.
-/
import Verif.Model.Cluster
import Verif.Spec.Heap
import Mathlib.Algebra.BigOperators.Group.Multiset.Basic

namespace CF
variable {I S K H : Type}

/-- The object at `a` is a leaf of the tree in the store `h`. -/
structure LeafOf (h : Heap S) (a : ℕ) : Prop where
  below : ∃ d, Below h h.root d a
  childless : ∃ r, h.objs a = some r ∧ r.children = []

/-- `c` is the cluster of the leaf `a` in the clustering into the children of the root: a child of the
root, or the root itself when it has no children, and `a` is `c` or below it. -/
def ClusterOf (h : Heap S) (a c : ℕ) : Prop :=
  (∃ d, Below h c d a) ∧
    ∃ r, h.objs h.root = some r ∧ (c ∈ r.children ∨ c = h.root ∧ r.children = [])

/-- Different concepts of the tree have different names. -/
def NamesDiffer (h : Heap S) : Prop :=
  ∀ {a b d d' : ℕ}, Below h h.root d a → Below h h.root d' b → nameOf h a = nameOf h b → a = b

/-- What `cluster_iter` yields for the instances that ended in the leaves `leaves`. -/
structure YieldOk (heur : Heuristic S H) (labels : Bool) (leaves : List ℕ) (y : Yield S H) : Prop where
  /-- The tree is still a tree. -/
  links : LinksOk y.store
  names : NamesDiffer y.store
  leaf : ∀ a ∈ leaves, LeafOf y.store a
  /-- One cluster per instance, which contains its leaf. -/
  clusters : List.Forall₂ (ClusterOf y.store) leaves y.clusters
  /-- The labels are the names of the clusters, or the clusters themselves. -/
  labels : y.labels = y.clusters.map fun c => if labels then nameOf y.store c else .obj c
  /-- The value is that of the heuristic. -/
  value : (heur y.clusters leaves y.store).1 = .ok y.value

/-- The clustering `y'` comes from `y` by replacing the cluster `t`, which has children, by its
children. -/
def SplitOf (t : ℕ) (y y' : Yield S H) : Prop :=
  ∃ rt r r', t ∈ y.clusters ∧ y.store.objs t = some rt ∧ rt.children ≠ [] ∧
    List.Forall₂ (fun c c' => (c = t → c' ∈ rt.children) ∧ (c ≠ t → c' = c)) y.clusters y'.clusters ∧
    y'.store.root = y.store.root ∧ y.store.objs y.store.root = some r ∧ t ∈ r.children ∧
    y'.store.objs y'.store.root = some r' ∧ r'.children = r.children.erase t ++ rt.children

/-- `cl` is the clustering `clusters` of the leaves in which `u` is replaced by its child on the way to
the leaf. -/
def Replaced (h : Heap S) (u : ℕ) (leaves clusters cl : List ℕ) : Prop :=
  leaves.length = clusters.length ∧
  List.Forall₂ (fun p d => (p.2 ≠ u → d = p.2) ∧
    (p.2 = u → (∃ r, h.objs u = some r ∧ d ∈ r.children) ∧ ∃ k, Below h d k p.1)) (leaves.zip clusters) cl

/-- The heuristic gives `v` to the clustering in which `u` is replaced by its children. -/
def Tried (heur : Heuristic S H) (leaves : List ℕ) (y : Yield S H) (u : ℕ) (v : H) : Prop :=
  ∃ cl h', Undisturbed y.store h' ∧ Replaced y.store u leaves y.clusters cl ∧ (heur cl leaves h').1 = .ok v

/-- No cluster with children has a smaller value of the heuristic when it is split than `t`. -/
def BestSplit [LE H] (heur : Heuristic S H) (leaves : List ℕ) (y : Yield S H) (t : ℕ) : Prop :=
  ∃ v, Tried heur leaves y t v ∧ ∀ u ∈ y.clusters, ∀ ru, y.store.objs u = some ru → ru.children ≠ [] →
    ∃ v', Tried heur leaves y u v' ∧ v ≤ v'

/-- The clustering `y'` comes from `y` by splitting one of the clusters that are best to split. -/
def Refined [LE H] (heur : Heuristic S H) (leaves : List ℕ) (y y' : Yield S H) : Prop :=
  ∃ t, SplitOf t y y' ∧ BestSplit heur leaves y t

/-- The stores that arise from `h` when children of the root are split. -/
inductive SplitFrom (h : Heap S) : Heap S → Prop
  | refl : SplitFrom h h
  | other {h1 h2 : Heap S} : SplitFrom h h1 → Undisturbed h1 h2 → SplitFrom h h2
  | split {h1 h2 : Heap S} {r : Rec S} {c : ℕ} : SplitFrom h h1 → h1.objs h1.root = some r →
      c ∈ r.children → splitH h1.root c h1 = (.ok (), h2) → SplitFrom h h2

/-- No cluster can be split further. -/
def Finest (y : Yield S H) : Prop :=
  ∀ c ∈ y.clusters, ∃ r, y.store.objs c = some r ∧ r.children = []

/-- What `cluster_iter` yields: nothing, or a sequence of clusterings of the leaves where the instances
ended in the copied tree (the state `s'`), from the children of its root on, each by splitting the best
cluster of the one before. -/
structure IterOk {σ : Type} [LE H] (store : σ → Heap S) (fit : I → σ → Res ℕ × σ) (heur : σ → Heuristic S H)
    (labels : Bool) (minsplit maxsplit : ℤ) (insts : List I) (s : σ)
    (r : List (Yield S H) × Option PyErr) : Prop where
  length : (r.1.length : ℤ) ≤ maxsplit - minsplit + 1
  run : r.1 ≠ [] → ∃ leaves s', fitAll fit insts s = (.ok leaves, s') ∧ leaves.length = insts.length ∧
    (∀ y ∈ r.1, YieldOk (heur s') labels leaves y ∧ SplitFrom (store s') y.store) ∧
    (∀ y, r.1.head? = some y → y.store = store s') ∧ r.1.IsChain (Refined (heur s') leaves)
  stop : minsplit = 1 → r.2 = none →
    (r.1.length : ℤ) = maxsplit ∨ ∃ y, r.1.getLast? = some y ∧ Finest y

/-- A heuristic that leaves existing objects alone, whatever it is called with. -/
def Quiet (heur : Heuristic S H) : Prop :=
  ∀ cl leaves h, Undisturbed h (heur cl leaves h).2

/-- The category utility of a partition `ms`, when `e` is the expected number of correct guesses in a
group: the average gain of the groups over the whole, weighted by their share, per group. -/
def utility {K : Type} [Field K] (e : Multiset I → K) (ms : List (Multiset I)) : K :=
  ((ms.map fun m => ((Multiset.card m : K) / (Multiset.card ms.sum : K)) * e m).sum - e ms.sum) /
    (ms.length : K)

/-! ### Depth cuts -/

/-- The concept that stands for `a` in the cut of the tree at depth `n`: the one at depth `n` on the way
from the root to `a`, or `a` itself if `a` is not that deep. -/
def CutAt (h : Heap S) (n a c : ℕ) : Prop :=
  ∃ d, Below h h.root d a ∧ Below h h.root (min n d) c ∧ Below h c (d - min n d) a

/-- A table with a row for every depth of the tree down to the deepest of the leaves. -/
structure DepthTable (h : Heap S) (leaves : List ℕ) (rows : List (List Label)) : Prop where
  height : ∃ ds, List.Forall₂ (fun a d => Below h h.root d a) leaves ds ∧ rows.length = ds.foldr max 0 + 1
  entry : ∀ (n : ℕ) row, rows[n]? = some row →
    List.Forall₂ (fun a l => ∃ c, CutAt h n a c ∧ l = nameOf h c) leaves row

/-- What `depth_labels` returns for `n` instances that ended in the leaves `leaves` of the tree. -/
structure TableOk (h : Heap S) (n : ℕ) (leaves : List ℕ) (rows : List (List Label)) : Prop where
  links : LinksOk h
  names : NamesDiffer h
  length : leaves.length = n
  leaf : ∀ a ∈ leaves, LeafOf h a
  table : DepthTable h leaves rows

/-! ### Criteria -/

/-- The tables of the objects `as` summarise (`Sum`) the instances `M`. -/
def Known (Sum : S → Multiset I → Prop) (h : Heap S) (M : ℕ → Multiset I) (as : List ℕ) : Prop :=
  ∀ a ∈ as, ∃ r, h.objs a = some r ∧ Sum r.stats (M a)

/-- `cl` is a clustering of `leaves`: its `n`-th entry is a concept of the tree, at or above the `n`-th
leaf. -/
structure ClusteringOf (h : Heap S) (leaves cl : List ℕ) : Prop where
  concept : ∀ c ∈ cl, ∃ d, Below h h.root d c
  above : List.Forall₂ (fun l c => ∃ d, Below h c d l) leaves cl

open Classical in
/-- The instances of the leaves at or below `c`; the instances of a leaf come as often as the leaf is
listed. -/
noncomputable def group (h : Heap S) (M : ℕ → Multiset I) (leaves : List ℕ) (c : ℕ) : Multiset I :=
  ((leaves.filter fun l => ∃ d, Below h c d l).map M).sum

end CF
