/-
Flat clusterings from a tree: /repo/concept_formation/cluster.py.

The code walks over node objects, so the model works on the store of Model/Heap.lean.
-/
import Verif.Model.Heap3
import Verif.Model.Predict
import Verif.Model.Predict3
import Mathlib.Analysis.SpecialFunctions.Log.Basic
import Mathlib.Order.WithBot

namespace CF

/-- The order in which Python enumerates `set(l)` of node objects.  It depends on the hashes of the
concept names (cobweb.py:938-943), which differ from process to process, so nothing is assumed but that
every element comes exactly once. -/
structure SetOrder (ord : List ℕ → List ℕ) : Prop where
  nodup : ∀ l, (ord l).Nodup
  mem : ∀ l a, a ∈ ord l ↔ a ∈ l

/-- An entry of a clustering: the string `"Concept" + str(c.concept_id)`, or the node object. -/
inductive Label | name (s : String) | obj (a : ℕ)
  deriving DecidableEq

/-- `"Concept" + str(i)`. -/
def conceptName (i : ℕ) : String := "Concept" ++ toString i

section
variable {I S K H σ : Type}
open HM

/-! ### `cluster_iter` -/

/-- The loop `while (c.parent and c.parent.parent)` (cluster.py:437-439), one unit of fuel per
iteration.  Node objects are always true. -/
def climbLoopH : ℕ → ℕ → Option ℕ → HM S (ℕ × Option ℕ)
  | 0, _, _ => raise .outOfFuel
  | fuel + 1, c, child => do
    let r ← get c
    match r.parent with
    | none => pure (c, child)
    | some p => do
      let rp ← get p
      match rp.parent with
      | none => pure (c, child)
      | some _ => climbLoopH fuel p (some c)

/-- Lines 436-439 for one instance: the cluster and the child of the cluster on the way to the leaf
(`None` when the leaf is the cluster).  The fuel, one unit per object, is shown to suffice. -/
def climbH (c : ℕ) : HM S (ℕ × Option ℕ) := fun h => climbLoopH h.next c none h

/-- The loop over the leaves (cluster.py:435-445): `cluster_assign` paired with
`child_cluster_assign`. -/
def assignH : List ℕ → HM S (List (ℕ × Option ℕ))
  | [] => pure []
  | c :: cs => do
    let p ← climbH c
    let rest ← assignH cs
    pure (p :: rest)

/-- Lines 440-443. -/
def labelsH (labels : Bool) : List ℕ → HM S (List Label)
  | [] => pure []
  | c :: cs => do
    let r ← get c
    let rest ← labelsH labels cs
    pure ((if labels then .name (conceptName r.cid) else .obj c) :: rest)

/-- `c_labels` (cluster.py:453-454): the clustering in which `target` is replaced by its children.  A
`None` in the list makes every built-in heuristic raise `AttributeError`; this is reported here. -/
def relabel (target : ℕ) : List (ℕ × Option ℕ) → Res (List ℕ)
  | [] => .ok []
  | (c, child) :: rest => do
    let d ← if c ≠ target then .ok c else match child with
      | some d => .ok d
      | none => .error .attrErr
    let ds ← relabel target rest
    pure (d :: ds)

/-- A heuristic: a function of the clustering and the leaves of the instances. -/
abbrev Heuristic (S H : Type) := List ℕ → List ℕ → HM S H

/-- The loop of lines 450-455 over `enumerate(set(cluster_assign))`, from index `i` on. -/
def splitCusH (heur : Heuristic S H) (as : List (ℕ × Option ℕ)) (temp : List ℕ) :
    ℕ → List ℕ → HM S (List (H × ℕ × ℕ))
  | _, [] => pure []
  | i, t :: ts => do
    let r ← get t
    if r.children.length = 0 then splitCusH heur as temp (i + 1) ts else do
    let cl ← lift (relabel t as)
    let v ← heur cl temp
    let rest ← splitCusH heur as temp (i + 1) ts
    pure ((v, i, t) :: rest)

/-- `sorted(split_cus)` (line 457).  The second components differ, so node objects are never
compared. -/
def sortSplits [LinearOrder H] (l : List (H × ℕ × ℕ)) : List (H × ℕ × ℕ) :=
  l.insertionSort fun a b => toLex (a.1, a.2.1) ≤ toLex (b.1, b.2.1)

/-- Lines 448-465: splits the best target; `false` when there is none (`break`). -/
def splitStageH [LinearOrder H] (ord : List ℕ → List ℕ) (heur : Heuristic S H)
    (as : List (ℕ × Option ℕ)) (temp : List ℕ) : HM S Bool := do
  let l ← splitCusH heur as temp 0 (ord (as.map Prod.fst))
  match sortSplits l with
  | [] => pure false
  | t :: _ => do
    let root ← getRoot
    splitH root t.2.2
    pure true

/-- What is yielded (line 446), together with the nodes of the clusters and the store at that moment,
which the theorems speak about. -/
structure Yield (S H : Type) where
  labels : List Label
  value : H
  clusters : List ℕ
  store : Heap S

/-- Lines 434-446: the assignment and what is yielded. -/
def yieldStageH (heur : Heuristic S H) (labels : Bool) (temp : List ℕ) :
    HM S (List (ℕ × Option ℕ) × Yield S H) := fun h =>
  (do
    let as ← assignH temp
    let ls ← labelsH labels (as.map Prod.fst)
    let v ← heur (as.map Prod.fst) temp
    pure (as, ⟨ls, v, as.map Prod.fst, h⟩) : HM S (List (ℕ × Option ℕ) × Yield S H)) h

/-- The loop of `cluster_iter` (cluster.py:429-467): `k` rounds are left and the next one is number
`nth`.  A generator is modelled by the list of what it yields and the exception that ends it, if any. -/
def clusterLoopH [LinearOrder H] (ord : List ℕ → List ℕ) (heur : Heuristic S H) (labels : Bool)
    (minsplit : ℤ) (temp : List ℕ) : ℕ → ℕ → Heap S → List (Yield S H) × Option PyErr
  | 0, _, _ => ([], none)
  | k + 1, nth, h =>
    if (nth : ℤ) ≥ minsplit then
      match yieldStageH heur labels temp h with
      | (.error e, _) => ([], some e)
      | (.ok (as, y), h1) =>
        match splitStageH ord heur as temp h1 with
        | (.error e, _) => ([y], some e)
        | (.ok false, _) => ([y], none)
        | (.ok true, h2) =>
          let r := clusterLoopH ord heur labels minsplit temp k (nth + 1) h2
          (y :: r.1, r.2)
    else
      match splitStageH ord heur [] temp h with
      | (.error e, _) => ([], some e)
      | (.ok false, _) => ([], none)
      | (.ok true, h2) => clusterLoopH ord heur labels minsplit temp k (nth + 1) h2

/-- `[tree.ifit(instance) for instance in instances]` (cluster.py:424-427), or with `categorize`. -/
def fitAll (fit : I → σ → Res ℕ × σ) : List I → σ → Res (List ℕ) × σ
  | [], s => (.ok [], s)
  | i :: is, s =>
    match fit i s with
    | (.error e, s') => (.error e, s')
    | (.ok a, s') =>
      match fitAll fit is s' with
      | (.error e, s'') => (.error e, s'')
      | (.ok as, s'') => (.ok (a :: as), s'')

/-- The argument `heuristic`: a function, or a string. -/
inductive HeurArg (σ S H : Type) where
  | fn (f : σ → Heuristic S H)
  | str (name : String)

/-- Lines 410-420.  `up` is `str.upper`. -/
def resolveHeur (up : String → String) (cu aic bic aicc : σ → Heuristic S H) :
    HeurArg σ S H → Res (σ → Heuristic S H)
  | .fn f => .ok f
  | .str n =>
    if up n = "CU" then .ok cu
    else if up n = "AIC" then .ok aic
    else if up n = "BIC" then .ok bic
    else if up n = "AICC" then .ok aicc
    else .error .valueErr

/-- `cluster_iter` (cluster.py:398-467), once the heuristic is a function or an error.  The state `s` of
the tree is copied (`copy.deepcopy`, line 422), so the caller's one is not changed; a deep copy of the
store is the store.  `store s` are its node objects. -/
def clusterIter [LinearOrder H] (ord : List ℕ → List ℕ) (store : σ → Heap S)
    (fit : I → σ → Res ℕ × σ) (heur : Res (σ → Heuristic S H)) (labels : Bool)
    (minsplit maxsplit : ℤ) (insts : List I) (s : σ) : List (Yield S H) × Option PyErr :=
  if minsplit < 1 then ([], some .valueErr)
  else if minsplit > maxsplit then ([], some .valueErr)
  else if insts.length = 0 then ([], some .valueErr)
  else match heur with
    | .error e => ([], some e)
    | .ok heur =>
      match fitAll fit insts s with
      | (.error e, _) => ([], some e)
      | (.ok temp, s') =>
        clusterLoopH ord (heur s') labels minsplit temp maxsplit.toNat 1 (store s')

/-- `cluster` (cluster.py:16-45). -/
def cluster [LinearOrder H] (ord : List ℕ → List ℕ) (store : σ → Heap S)
    (fit : I → σ → Res ℕ × σ) (cu : σ → Heuristic S H) (minsplit maxsplit : ℤ) (insts : List I) (s : σ) :
    List (List Label) × Option PyErr :=
  let r := clusterIter ord store fit (.ok cu) true minsplit maxsplit insts s
  (r.1.map Yield.labels, r.2)

/-- `set(c)` (cluster.py:84) of what `cluster_iter` yields, a tuple of a list and a number: hashing the
list raises `TypeError`. -/
def setOfYield (_ : Yield S H) : Res ℕ := .error .typeErr

/-- The loop of `k_cluster` (cluster.py:83-86). -/
def kClusterLoop (k : ℤ) : List (Yield S H) → Option PyErr → List Label → Res (List Label)
  | [], none, clustering => .ok clustering
  | [], some e, _ => .error e
  | y :: ys, e, _ => do
    let n ← setOfYield y
    if (n : ℤ) > k then pure y.labels else kClusterLoop k ys e y.labels

/-- `"Concept" + str(c.concept_id)` of the object at `c`. -/
def nameOf (h : Heap S) (c : ℕ) : Label :=
  match h.objs c with
  | some r => .name (conceptName r.cid)
  | none => .obj c

/-- `k_cluster` (cluster.py:48-88); `cluster_iter` is called with its defaults `minsplit=1`,
`maxsplit=100000` and `labels=True`. -/
def kCluster [LinearOrder H] (ord : List ℕ → List ℕ) (store : σ → Heap S)
    (fit : I → σ → Res ℕ × σ) (cu : σ → Heuristic S H) (k : ℤ) (insts : List I)
    (s : σ) : Res (List Label) :=
  if k < 2 then .error .valueErr
  else
    let r := clusterIter ord store fit (.ok cu) true 1 100000 insts s
    kClusterLoop k r.1 r.2 (insts.map fun _ => nameOf (store s) (store s).root)

/-- The comparison `h < min_h[1]` and the update (cluster.py:391-393). -/
def searchStep [LinearOrder H] (labels : Bool) (best : H × List Label) (y : Yield S H) :
    H × List Label :=
  if y.value < best.1 then
    (y.value, if labels then y.clusters.map (nameOf y.store) else y.labels)
  else best

/-- `cluster_split_search` (cluster.py:343-395), without the printing; `⊤` is `float('inf')`. -/
def clusterSplitSearch [LinearOrder H] [OrderTop H] (ord : List ℕ → List ℕ) (store : σ → Heap S)
    (fit : I → σ → Res ℕ × σ) (heur : Res (σ → Heuristic S H)) (minsplit maxsplit : ℤ)
    (labels : Bool) (insts : List I) (s : σ) : Res (List Label) :=
  let r := clusterIter ord store fit heur false minsplit maxsplit insts s
  match r.2 with
  | some e => .error e
  | none => .ok (r.1.foldl (searchStep labels)
      (⊤, insts.map fun _ => nameOf (store s) (store s).root)).2

/-! ### `depth_labels` -/

/-- The loop `while label.parent` (cluster.py:126-131): the labels from the concept up to the root. -/
def pathUpH : ℕ → ℕ → HM S (List Label)
  | 0, _ => raise .outOfFuel
  | fuel + 1, a => do
    let r ← get a
    match r.parent with
    | some p => do
      let rest ← pathUpH fuel p
      pure (.name (conceptName r.cid) :: rest)
    | none => pure [.name (conceptName r.cid)]

/-- The loop of lines 122-132; the fuel, one unit per object, is shown to suffice. -/
def pathsH : List ℕ → Heap S → Res (List (List Label))
  | [], _ => .ok []
  | a :: as, h => do
    let labs ← (pathUpH h.next a h).1
    let rest ← pathsH as h
    pure (labs :: rest)

/-- `max_depth` (lines 121, 133-134). -/
def maxDepth (l : List (List Label)) : ℕ := l.foldl (fun m labs => if labs.length > m then labs.length else m) 0

/-- Lines 137-140: reversed and padded with the last label. -/
def padTo (n : ℕ) (labs : List Label) : List Label :=
  let f := labs.reverse
  match f.getLast? with
  | some l => f ++ List.replicate (n - f.length) l
  | none => f

/-- Lines 142-147: the row for the depth `d`; an index out of range raises `IndexError`. -/
def rowAt (d : ℕ) : List (List Label) → Res (List Label)
  | [] => .ok []
  | f :: fs =>
    match f[d]? with
    | none => .error .indexErr
    | some l => do
      let rest ← rowAt d fs
      pure (l :: rest)

/-- The rows `ds` of the transposed labels. -/
def rowsAt (fs : List (List Label)) : List ℕ → Res (List (List Label))
  | [] => .ok []
  | d :: ds => do
    let row ← rowAt d fs
    let rest ← rowsAt fs ds
    pure (row :: rest)

/-- `depth_labels` (cluster.py:91-149).  The tree itself is fitted, so its state is returned too. -/
def depthLabels (store : σ → Heap S) (fit : I → σ → Res ℕ × σ) (insts : List I) (s : σ) :
    Res (List (List Label)) × σ :=
  match fitAll fit insts s with
  | (.error e, s') => (.error e, s')
  | (.ok temp, s') =>
    (do
      let labs ← pathsH temp (store s')
      let fs := labs.map (padTo (maxDepth labs))
      match fs with
      | [] => .error .indexErr
      | f :: _ => rowsAt fs (List.range f.length), s')

end

/-! ### The criteria -/

section
variable {I S K : Type} [Field K] [LinearOrder K]
variable (C : NodeClass I S) (ecg : Bool → S → Res K) (ord : List ℕ → List ℕ)
open HM

/-- `c.is_parent(leaf)` with one unit of fuel per object. -/
def isParentOfH (c leaf : ℕ) : HM S Bool := fun h => isParentH c h.next (some leaf) h

/-- Lines 183-184. -/
def addIfH (temp c leaf : ℕ) : HM S Unit := do
  let b ← isParentOfH c leaf
  if b then addFromH C temp leaf else pure ()

/-- The loop of lines 182-184. -/
def cuLeavesH (temp c : ℕ) : List ℕ → HM S Unit
  | [] => pure ()
  | l :: ls => do
    addIfH C temp c l
    cuLeavesH temp c ls

/-- The loop of lines 179-186. -/
def cuChildrenH (root : ℕ) (leaves : List ℕ) : List ℕ → HM S Unit
  | [] => pure ()
  | c :: cs => do
    let child ← newNode C
    let r ← get c
    setTree child r.tree
    cuLeavesH C child c leaves
    addFromH C root child
    append root child
    cuChildrenH root leaves cs

/-- `CU` (cluster.py:152-187). -/
def cuHeur : Heuristic S K := fun cluster leaves =>
  match cluster with
  | [] => raise .indexErr
  | c0 :: _ => do
    let root ← newNode C
    let r0 ← get c0
    setTree root r0.tree
    cuChildrenH C root leaves (ord cluster)
    let v ← categoryUtilityH C ecg root
    pure (-v)

end

section
variable {S : Type} (ll : S → S → Res ℝ) (params : S → ℕ) (ord : List ℕ → List ℕ)
open HM

/-- The sum of the log-likelihoods (cluster.py:229-230, 280-281, 330-331). -/
noncomputable def llSumH : List ℕ → List ℕ → ℝ → HM S ℝ
  | [], _, acc => pure acc
  | _ :: _, [], _ => raise .indexErr
  | c :: cs, l :: ls, acc => do
    let rc ← get c
    let rl ← get l
    let x ← lift (ll rc.stats rl.stats)
    llSumH cs ls (acc + x)

/-- The number of parameters (cluster.py:232-238, 283-289, 333-339); `params` counts one concept. -/
def paramsH : List ℕ → ℕ → HM S ℕ
  | [], k => pure k
  | c :: cs, k => do
    let r ← get c
    paramsH cs (k + params r.stats)

/-- `AICc` (cluster.py:190-242); `⊤` is `float('inf')`. -/
noncomputable def aiccHeur : Heuristic S (WithTop ℝ) := fun clusters leaves => do
  let l ← llSumH ll clusters leaves 0
  let k ← paramsH params (ord clusters) 0
  if (leaves.length : ℤ) - k ≤ 1 then pure ⊤
  else do
    let x ← lift (pyDiv (2 * (k : ℝ) * (k + 1)) ((leaves.length : ℝ) - k - 1))
    pure ((2 * (k : ℝ) - 2 * l + x : ℝ) : WithTop ℝ)

/-- `AIC` (cluster.py:245-290). -/
noncomputable def aicHeur : Heuristic S ℝ := fun clusters leaves => do
  let l ← llSumH ll clusters leaves 0
  let k ← paramsH params (ord clusters) 0
  pure (2 * (k : ℝ) - 2 * l)

/-- `math.log(n)` of a number of instances. -/
noncomputable def logLen (n : ℕ) : Res ℝ := if n = 0 then .error .valueErr else .ok (Real.log n)

/-- `BIC` (cluster.py:293-340). -/
noncomputable def bicHeur : Heuristic S ℝ := fun clusters leaves => do
  let l ← llSumH ll clusters leaves 0
  let k ← paramsH params (ord clusters) 0
  let g ← lift (logLen leaves.length)
  pure (-2 * l + (k : ℝ) * g)

end

section
variable {A V : Type} [DecidableEq A] [DecidableEq V]

/-- The parameters of one `CobwebNode` (cluster.py:233-238): a value counts two if it is the string
`cv_key`. -/
def Stats.params (hid : A → Bool) (isKey : V → Bool) (s : Stats A V) : ℕ :=
  ((s.visible hid).map fun p => (p.2.map fun q => if isKey q.1 then 2 else 1).sum).sum

/-- The parameters of one `Cobweb3Node` (cluster.py:233-238). -/
def Stats3.params (hid : A → Bool) (s : Stats3 A V) : ℕ :=
  ((s.visible hid).map fun p => p.2.noms.length + if p.2.cv.isSome then 2 else 0).sum

/-- `tree.ifit` or `tree.categorize` of a `CobwebTree` (cluster.py:424-427). -/
def fitC (hid : A → Bool) (mod : Bool) (i : Inst A V) (h : Heap (Stats A V)) :
    Res ℕ × Heap (Stats A V) :=
  if mod then cobwebH (cobwebClass hid) (fun _ => Stats.ecg (K := ℚ) hid) i h
  else categorizeH (cobwebClass hid) (fun _ => Stats.ecg (K := ℚ) hid) i h

/-- `tree.ifit` or `tree.categorize` of a `Cobweb3Tree`. -/
noncomputable def fitC3 {B : Type} [DecidableEq B] (hid : A → Bool) (cfg : Cfg3 A B) (mod : Bool)
    (i : Inst3 A V) (s : Heap (Stats3 A V) × Scales B) : Res ℕ × Heap (Stats3 A V) × Scales B :=
  if mod then cobweb3H hid cfg i s
  else
    let r := categorizeH (cobweb3Class hid) (ecg3H hid cfg s.2) i s.1
    (r.1, r.2, s.2)

/-- A criterion whose values are finite, as a criterion with values in the numbers and `float('inf')`. -/
noncomputable def toTop {S : Type} (f : Heuristic S ℝ) : Heuristic S (WithTop ℝ) := fun cl leaves => do
  let v ← f cl leaves
  pure (v : WithTop ℝ)

/-- `CU` on a `CobwebTree`. -/
noncomputable def cuC (hid : A → Bool) (ord : List ℕ → List ℕ) : Heuristic (Stats A V) ℝ :=
  cuHeur (cobwebClass hid) (fun _ => Stats.ecg (K := ℝ) hid) ord

noncomputable def aicC (hid : A → Bool) (isKey : V → Bool) (ord : List ℕ → List ℕ) :
    Heuristic (Stats A V) ℝ :=
  aicHeur (fun c l => c.logLikelihood Real.log hid l) (Stats.params hid isKey) ord

noncomputable def bicC (hid : A → Bool) (isKey : V → Bool) (ord : List ℕ → List ℕ) :
    Heuristic (Stats A V) ℝ :=
  bicHeur (fun c l => c.logLikelihood Real.log hid l) (Stats.params hid isKey) ord

noncomputable def aiccC (hid : A → Bool) (isKey : V → Bool) (ord : List ℕ → List ℕ) :
    Heuristic (Stats A V) (WithTop ℝ) :=
  aiccHeur (fun c l => c.logLikelihood Real.log hid l) (Stats.params hid isKey) ord

/-- The heuristic that the argument `heuristic` selects on a `CobwebTree` (cluster.py:410-420). -/
noncomputable def heurC {σ : Type} (up : String → String) (hid : A → Bool) (isKey : V → Bool)
    (ord : List ℕ → List ℕ) (arg : HeurArg σ (Stats A V) (WithTop ℝ)) :
    Res (σ → Heuristic (Stats A V) (WithTop ℝ)) :=
  resolveHeur up (fun _ => toTop (cuC hid ord)) (fun _ => toTop (aicC hid isKey ord))
    (fun _ => toTop (bicC hid isKey ord)) (fun _ => aiccC hid isKey ord) arg

/-- `CU` on a `Cobweb3Tree` with the scales `sc`. -/
noncomputable def cuC3 {B : Type} [DecidableEq B] (hid : A → Bool) (cfg : Cfg3 A B) (ord : List ℕ → List ℕ)
    (sc : Scales B) : Heuristic (Stats3 A V) ℝ :=
  cuHeur (cobweb3Class hid) (ecg3H hid cfg sc) ord

noncomputable def aicC3 {B : Type} [DecidableEq B] (hid : A → Bool) (cfg : Cfg3 A B)
    (ord : List ℕ → List ℕ) (sc : Scales B) : Heuristic (Stats3 A V) ℝ :=
  aicHeur (fun c l => c.logLikelihood hid cfg sc l) (Stats3.params hid) ord

noncomputable def bicC3 {B : Type} [DecidableEq B] (hid : A → Bool) (cfg : Cfg3 A B)
    (ord : List ℕ → List ℕ) (sc : Scales B) : Heuristic (Stats3 A V) ℝ :=
  bicHeur (fun c l => c.logLikelihood hid cfg sc l) (Stats3.params hid) ord

noncomputable def aiccC3 {B : Type} [DecidableEq B] (hid : A → Bool) (cfg : Cfg3 A B)
    (ord : List ℕ → List ℕ) (sc : Scales B) : Heuristic (Stats3 A V) (WithTop ℝ) :=
  aiccHeur (fun c l => c.logLikelihood hid cfg sc l) (Stats3.params hid) ord

/-- The heuristic that the argument `heuristic` selects on a `Cobweb3Tree`. -/
noncomputable def heurC3 {B : Type} [DecidableEq B] (up : String → String) (hid : A → Bool) (cfg : Cfg3 A B)
    (ord : List ℕ → List ℕ) (arg : HeurArg (Heap (Stats3 A V) × Scales B) (Stats3 A V) (WithTop ℝ)) :
    Res (Heap (Stats3 A V) × Scales B → Heuristic (Stats3 A V) (WithTop ℝ)) :=
  resolveHeur up (fun s => toTop (cuC3 hid cfg ord s.2)) (fun s => toTop (aicC3 hid cfg ord s.2))
    (fun s => toTop (bicC3 hid cfg ord s.2)) (fun s => aiccC3 hid cfg ord s.2) arg

end
end CF
