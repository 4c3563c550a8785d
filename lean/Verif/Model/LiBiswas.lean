/-
The experiment of Li and Biswas: /repo/concept_formation/examples/li_biswas_experiment.py.

Simplification: the labels of the clusters are strings in the code, so that pairs of a number and a label
can be sorted; here they are any linearly ordered type.
-/
import Verif.Model.Utils
import Verif.Model.Nominal
import Verif.Model.Cluster
import Mathlib.Data.Prod.Lex
import Mathlib.Data.List.Sort
import Mathlib.Data.String.Basic

namespace CF

section
variable {C L : Type} [LinearOrder C] [DecidableEq L]

/-- The loop that builds `confusion` (li_biswas_experiment.py:117-123, 145-151): a dict per cluster with
the number of instances of each group.  `labels` are the values `data[i]['_label']`. -/
def confusionLoop (conf : Dict C (Dict L ℕ)) : List C → List L → Res (Dict C (Dict L ℕ))
  | [], _ => .ok conf
  | _ :: _, [] => .error .indexErr
  | c :: cs, l :: ls =>
    let t := (conf.get? c).getD []
    confusionLoop (conf.set c (bump t l 1)) cs ls

/-- `sum([confusion[c][g] for g in confusion[c]])` (li_biswas_experiment.py:126, 154). -/
def tabSum (t : Dict L ℕ) : ℕ := (t.map Prod.snd).sum

/-- `totals` (li_biswas_experiment.py:126-127, 154-155). -/
def totals (conf : Dict C (Dict L ℕ)) : List (ℕ ×ₗ C) :=
  (conf.map fun p => toLex (tabSum p.2, p.1)).insertionSort fun a b => b ≤ a

/-- `top` (li_biswas_experiment.py:128, 156). -/
def topThree (conf : Dict C (Dict L ℕ)) : List C := ((totals conf).take 3).map fun p => (ofLex p).2

/-- The loop that adds up `miss` (li_biswas_experiment.py:129-137, 157-165). -/
def missLoop (top : List C) : Dict C (Dict L ℕ) → ℕ → Res ℕ
  | [], miss => .ok miss
  | (c, t) :: rest, miss =>
    let v := (t.map Prod.snd).insertionSort fun a b => b ≤ a
    if c ∉ top then
      match v with
      | [] => .error .indexErr
      | m :: ms => missLoop top rest (miss + m + (ms.map fun x => 2 * x).sum)
    else missLoop top rest (miss + (v.tail.map fun x => 2 * x).sum)

/-- The number of misclassified instances of a clustering (li_biswas_experiment.py:117-137, 145-165). -/
def missCount (clustering : List C) (labels : List L) : Res ℕ := do
  let conf ← confusionLoop [] clustering labels
  missLoop (topThree conf) conf 0

end

/-! ### The data -/

/-- The attributes of the instances (li_biswas_experiment.py:19-40): `'_label'`, `'f1'` to `'f4'`. -/
inductive LBAttr | label | f1 | f2 | f3 | f4
  deriving DecidableEq

/-- The strings among the values: `"G1"` is `lab 1`, `"G1f1"` is `v1 1`, `"G1f2a"` is `v2 1 false`, `"G1f2b"`
is `v2 1 true`; likewise for the groups 2 and 3. -/
inductive LBVal | lab (g : ℕ) | v1 (g : ℕ) | v2 (g : ℕ) (b : Bool)
  deriving DecidableEq

/-- Hidden attributes start with an underscore. -/
def lbHid (a : LBAttr) : Bool := a = .label

abbrev LBInst := Inst3 LBAttr LBVal

/-- `random.choice` of a list, `k` being the index drawn: `IndexError` for an empty list. -/
def pickAt {α : Type} (l : List α) (k : ℕ) : Res α :=
  match l[k % l.length]? with
  | some a => .ok a
  | none => .error .indexErr

/-- What is drawn for one instance: the numbers of the four calls of `random()`, the indices of the calls of
`choice`, and for each of the two numeric attributes the draws of the normal distributions (the first is
the one of the group, the other two are the arguments of `choice`). -/
structure LBDraws where
  r1 : ℝ
  r2 : ℝ
  r3 : ℝ
  r4 : ℝ
  k1 : ℕ
  k2 : ℕ
  k3 : ℕ
  k4 : ℕ
  n3 : ℝ × ℝ × ℝ
  n4 : ℝ × ℝ × ℝ

/-- The values of one numeric attribute (li_biswas_experiment.py:31-35, 37-41 and the same in the other two
loops). -/
noncomputable def lbNumeric (noise r : ℝ) (k : ℕ) (n : ℝ × ℝ × ℝ) : Res ℝ :=
  if r ≥ noise then .ok n.1 else pickAt [n.2.1, n.2.2] k

/-- The value of `f1` (li_biswas_experiment.py:21-24, 49-52, 77-80). -/
noncomputable def lbF1 (noise r : ℝ) (own : LBVal) (other : List LBVal) (k : ℕ) : Res LBVal :=
  if r ≥ noise then .ok own else pickAt other k

/-- The value of `f2` (li_biswas_experiment.py:26-29, 54-57, 82-85). -/
noncomputable def lbF2 (noise r : ℝ) (own other : List LBVal) (k : ℕ) : Res LBVal :=
  if r ≥ noise then pickAt own k else pickAt other k

/-- The body shared by the three loops: `own1` and `own2` are the values of group `g`, `other1` and `other2`
the ones chosen from under noise. -/
noncomputable def lbInstance (nominalNoise numericNoise : ℝ) (g : ℕ) (own1 : LBVal) (other1 own2 other2 : List LBVal)
    (d : LBDraws) : Res LBInst := do
  let f1 ← lbF1 nominalNoise d.r1 own1 other1 d.k1
  let f2 ← lbF2 nominalNoise d.r2 own2 other2 d.k2
  let f3 ← lbNumeric numericNoise d.r3 d.k3 d.n3
  let f4 ← lbNumeric numericNoise d.r4 d.k4 d.n4
  pure [(.label, .nom (.lab g)), (.f1, .nom f1), (.f2, .nom f2), (.f3, .num f3), (.f4, .num f4)]

/-- The first loop (li_biswas_experiment.py:17-43). -/
noncomputable def lbG1 (nominalNoise numericNoise : ℝ) : LBDraws → Res LBInst :=
  lbInstance nominalNoise numericNoise 1 (.v1 1) [.v1 2, .v1 3] [.v2 1 false, .v2 1 true]
    [.v2 2 false, .v2 2 true, .v2 3 false, .v2 3 true]

/-- The second loop (li_biswas_experiment.py:45-71).  Under noise `f1` is chosen from the group's own value
and that of the third group (line 52). -/
noncomputable def lbG2 (nominalNoise numericNoise : ℝ) : LBDraws → Res LBInst :=
  lbInstance nominalNoise numericNoise 2 (.v1 2) [.v1 2, .v1 3] [.v2 2 false, .v2 2 true]
    [.v2 1 false, .v2 1 true, .v2 3 false, .v2 3 true]

/-- The third loop (li_biswas_experiment.py:73-99). -/
noncomputable def lbG3 (nominalNoise numericNoise : ℝ) : LBDraws → Res LBInst :=
  lbInstance nominalNoise numericNoise 3 (.v1 3) [.v1 1, .v1 2] [.v2 3 false, .v2 3 true]
    [.v2 1 false, .v2 1 true, .v2 2 false, .v2 2 true]

/-- `data` before it is shuffled (li_biswas_experiment.py:15-99); `draws g i` is what is drawn in round `i`
of the loop for group `g`. -/
noncomputable def lbData (nominalNoise numericNoise : ℝ) (draws : ℕ → ℕ → LBDraws) : Res (List LBInst) := do
  let d1 ← (List.range 60).mapM fun i => lbG1 nominalNoise numericNoise (draws 1 i)
  let d2 ← (List.range 60).mapM fun i => lbG2 nominalNoise numericNoise (draws 2 i)
  let d3 ← (List.range 60).mapM fun i => lbG3 nominalNoise numericNoise (draws 3 i)
  pure (d1 ++ d2 ++ d3)

/-- `next` of a generator: what it yields first, its exception, or `StopIteration` (reported as
`valueErr`). -/
def nextOf {α : Type} : List α × Option PyErr → Res α
  | (a :: _, _) => .ok a
  | ([], some e) => .error e
  | ([], none) => .error .valueErr

/-- `run_clust_exp` (li_biswas_experiment.py:14-104).  `shuffle` is `random.shuffle`, `h` the store after
`Cobweb3Tree(scaling=scaling)`, `ord` the order of Python's sets. -/
noncomputable def runClustExp (ord : List ℕ → List ℕ) (shuffle : List LBInst → List LBInst) (scaling : ℝ)
    (nominalNoise numericNoise : ℝ) (draws : ℕ → ℕ → LBDraws) (h : Heap (Stats3 LBAttr LBVal)) :
    Res (List LBInst × List Label) := do
  let data ← lbData nominalNoise numericNoise draws
  let data := shuffle data
  let cfg : Cfg3 LBAttr LBAttr := ⟨scaling, id⟩
  let clustering ← nextOf (cluster ord Prod.fst (fitC3 lbHid cfg true)
    (fun s => toTop (cuC3 lbHid cfg ord s.2)) 1 1 data (h, []))
  pure (data, clustering)

/-- The string of a label (`cluster` calls `cluster_iter` with `labels=True`). -/
def Label.text : Label → String
  | .name s => s
  | .obj _ => ""

/-- `data[i]['_label']`. -/
def lbLabel (i : LBInst) : Res (Val LBVal) :=
  match i.get? .label with
  | some v => .ok v
  | none => .error .keyErr

/-- One round of `run_noise_exp` (li_biswas_experiment.py:115-141, 143-169); the code looks up the label of
an instance only when it counts it, here all labels are looked up first. -/
noncomputable def noiseRound (ord : List ℕ → List ℕ) (shuffle : List LBInst → List LBInst) (scaling : ℝ)
    (nominalNoise numericNoise : ℝ) (draws : ℕ → ℕ → LBDraws) (h : Heap (Stats3 LBAttr LBVal)) : Res ℕ := do
  let (data, clustering) ← runClustExp ord shuffle scaling nominalNoise numericNoise draws h
  let labels ← data.mapM lbLabel
  missCount (clustering.map Label.text) labels

end CF
