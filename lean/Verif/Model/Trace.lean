/-
The algorithm of `Model/Cobweb.lean` once more, with a record of the tables whose `expected_correct_guesses` are computed, in
order: the cost of the algorithm.  `Proofs/Trace.lean` shows that apart from the record these are the same functions.
-/
import Verif.Model.Cobweb

namespace CF

/-- A result, or an exception, and the tables evaluated until then. -/
def Traced (S α : Type) : Type := Res α × List S

section
variable {I S K α β : Type}

def Traced.res (x : Traced S α) : Res α := x.1
def Traced.seen (x : Traced S α) : List S := x.2

/-- A computation that evaluates nothing. -/
def Traced.lift (x : Res α) : Traced S α := (x, [])

/-- One computation after another. -/
def Traced.andThen (x : Traced S α) (f : α → Traced S β) : Traced S β :=
  match x.1 with
  | .error e => (.error e, x.2)
  | .ok a => ((f a).1, x.2 ++ (f a).2)

instance : Monad (Traced S) where
  pure a := Traced.lift (.ok a)
  bind := Traced.andThen

variable [Field K] [LinearOrder K] (C : NodeClass I S) (ecg : S → Res K)

/-- A call of `expected_correct_guesses`. -/
def evaluate (s : S) : Traced S K := (ecg s, [s])

/-- The loop of `category_utility` (cobweb.py:437-442). -/
def cuSumT (n : ℕ) : List S → K → Traced S K
  | [], acc => pure acc
  | c :: cs, acc => do
    let p ← Traced.lift (pyDiv (C.count c : K) (n : K))
    let e ← evaluate ecg c
    cuSumT n cs (acc + p * e)

/-- `category_utility` (cobweb.py:404-445). -/
def categoryUtilityT (s : S) (cs : List S) : Traced S K :=
  match cs with
  | [] => pure 0
  | _ :: _ => do
    let g ← cuSumT C ecg (C.count s) cs 0
    let e ← evaluate ecg s
    Traced.lift (pyDiv (g - e) (cs.length : K))

/-- `cu_for_insert` (cobweb.py:667-698). -/
def cuForInsertT (s : S) (cs : List S) (i : ℕ) (inst : I) : Traced S K :=
  categoryUtilityT C ecg (C.incr (shallowCopy C s) inst)
    (cs.mapIdx fun j c => if j = i then C.incr (shallowCopy C c) inst else shallowCopy C c)

/-- `cu_for_new_child` (cobweb.py:738-762). -/
def cuForNewChildT (s : S) (cs : List S) (inst : I) : Traced S K :=
  categoryUtilityT C ecg (C.incr (shallowCopy C s) inst) (cs.map (shallowCopy C) ++ [C.incr C.fresh inst])

/-- `cu_for_merge` (cobweb.py:799-838). -/
def cuForMergeT (s : S) (cs : List S) (i j : ℕ) (b1 b2 : S) (inst : I) : Traced S K :=
  categoryUtilityT C ecg (C.incr (shallowCopy C s) inst)
    (C.incr (C.addFrom (C.addFrom C.fresh b1) b2) inst :: (dropTwo cs i j).map (shallowCopy C))

/-- `cu_for_split` (cobweb.py:885-911). -/
def cuForSplitT (s : S) (cs : List S) (i : ℕ) (bcs : List S) : Traced S K :=
  categoryUtilityT C ecg (shallowCopy C s) ((cs.eraseIdx i ++ bcs).map (shallowCopy C))

/-- `relative_cu_for_insert` (cobweb.py:613-665). -/
def relativeCuForInsertT (c : S) (inst : I) : Traced S K := do
  let e1 ← evaluate ecg (C.incr (shallowCopy C c) inst)
  let e0 ← evaluate ecg c
  pure (((C.count c : K) + 1) * e1 - (C.count c : K) * e0)

/-- The loop of `compute_relative_CU_const` (cobweb.py:604-607). -/
def constSumT (n : ℕ) : List S → K → Traced S K
  | [], acc => pure acc
  | c :: cs, acc => do
    let e ← evaluate ecg c
    constSumT n cs (acc + (C.count c : K) / ((n : K) + 1) * e)

/-- `compute_relative_CU_const` (cobweb.py:576-611). -/
def relativeCuConstT (s : S) (cs : List S) (inst : I) : Traced S K := do
  let u ← evaluate ecg (C.incr (shallowCopy C s) inst)
  let c ← constSumT C ecg (C.count s) cs 0
  Traced.lift (pyDiv (c - u) (cs.length : K))

/-- The list built at cobweb.py:556-558. -/
def mkCandsT (inst : I) (w : World) : List S → ℕ → Traced S (List (Cand K))
  | [], _ => pure []
  | c :: cs, k => do
    let r ← relativeCuForInsertT C ecg c inst
    let rest ← mkCandsT inst w cs (k + 1)
    pure (⟨r, C.count c, w.draw k, k⟩ :: rest)

/-- `two_best_children` (cobweb.py:540-574). -/
def twoBestT (s : S) (cs : List S) (inst : I) (w : World) : Traced S (Best K) :=
  if cs.length = 0 then Traced.lift (.error .exc) else do
    let cands ← mkCandsT C ecg inst w cs 0
    if ¬ (cands.map Cand.key).Nodup then Traced.lift (.error .typeErr) else do
    let sorted := sortCands cands
    let const ← relativeCuConstT C ecg s cs inst
    match sorted with
    | [] => Traced.lift (.error .indexErr)
    | c1 :: rest =>
      pure ⟨c1.rel / ((C.count s : K) + 1) / (cs.length : K) + const, c1.idx, rest.head?.map Cand.idx⟩

/-- `operations.append((cu, random(), name))`. -/
def addOpT (w : World) (off : ℕ) (l : List (OpCand K)) (op : Op) (cu : Traced S K) : Traced S (List (OpCand K)) := do
  let cu ← cu
  pure (l ++ [⟨cu, w.draw (off + l.length), op⟩])

/-- `operations` after cobweb.py:525-527. -/
def opsNewT (ops : List Op) (s : S) (css : List S) (inst : I) (w : World) (off : ℕ) (l : List (OpCand K)) :
    Traced S (List (OpCand K)) :=
  if .new ∈ ops then addOpT w off l .new (cuForNewChildT C ecg s css inst) else pure l

/-- `operations` after cobweb.py:528-530. -/
def opsMergeT (ops : List Op) (s : S) (cs : List (Tree S)) (inst : I) (i : ℕ) (t1 : Tree S) (b2 : Option ℕ) (w : World)
    (off : ℕ) (l : List (OpCand K)) : Traced S (List (OpCand K)) :=
  match b2.bind fun j => cs[j]?.map fun t => (j, t) with
  | some (j, t2) =>
    if .merge ∈ ops ∧ cs.length > 2 then
      addOpT w off l .merge (cuForMergeT C ecg s (cs.map Tree.stats) i j t1.stats t2.stats inst)
    else pure l
  | none => pure l

/-- `operations` after cobweb.py:531-532. -/
def opsSplitT (ops : List Op) (s : S) (css : List S) (i : ℕ) (t1 : Tree S) (w : World) (off : ℕ) (l : List (OpCand K)) :
    Traced S (List (OpCand K)) :=
  if .split ∈ ops ∧ t1.children.length > 0 then
    addOpT w off l .split (cuForSplitT C ecg s css i (t1.children.map Tree.stats))
  else pure l

/-- `get_best_operation` (cobweb.py:447-538). -/
def bestOpT (ops : List Op) (s : S) (cs : List (Tree S)) (inst : I) (cu1 : K) (b1 b2 : Option ℕ) (w : World) (off : ℕ) :
    Traced S (K × Op × ℕ) :=
  match b1 with
  | none => Traced.lift (.error .valueErr)
  | some i =>
  match cs[i]? with
  | none => Traced.lift (.error .indexErr)
  | some t1 => do
    let l1 ← opsNewT C ecg ops s (cs.map Tree.stats) inst w off (opsBest ops cu1 w off)
    let l2 ← opsMergeT C ecg ops s cs inst i t1 b2 w off l1
    let l3 ← opsSplitT C ecg ops s (cs.map Tree.stats) i t1 w off l2
    match sortOps l3 with
    | [] => Traced.lift (.error .indexErr)
    | c :: _ => pure (c.cu, c.op, l3.length)

/-- Lines 179-181 of `cobweb`. -/
def chooseOpT (s : S) (cs : List (Tree S)) (inst : I) (w : World) : Traced S (Best K × Op × World) := do
  let b ← twoBestT C ecg s (cs.map Tree.stats) inst w
  let (_, op, n) ← bestOpT C ecg allOps s cs inst b.cu (some b.b1) b.b2 w cs.length
  let m := match cs[b.b1]? with | some t => t.children.length | none => 0
  pure (b, op, (w.skip (cs.length + n)).bump (tempIds cs.length m b.b2.isSome))

/-- The loop of `cobweb` (cobweb.py:154-202). -/
def cobwebLoopT (inst : I) : ℕ → Tree S → World → Traced S (Out S)
  | 0, _, _ => Traced.lift (.error .outOfFuel)
  | _ + 1, .node id s [], w =>
    if C.isExact s inst || C.count s == 0 then
      pure ⟨.node id (C.incr s inst) [], id, false, w⟩
    else
      pure ⟨.node (w.ctr + 1) (C.incr (shallowCopy C s) inst)
            [.node id s [], .node (w.ctr + 2) (C.incr C.fresh inst) []],
          w.ctr + 2, true, w.bump 2⟩
  | fuel + 1, .node id s (c :: cs'), w => do
    let cs := c :: cs'
    let (b, op, w) ← chooseOpT C ecg s cs inst w
    match op with
    | .best =>
      match cs[b.b1]? with
      | none => Traced.lift (.error .indexErr)
      | some t => do
        let o ← cobwebLoopT inst fuel t w
        pure ⟨.node id (C.incr s inst) (putChild cs b.b1 o), o.leaf, false, o.w⟩
    | .new =>
      pure ⟨.node id (C.incr s inst) (cs ++ [.node (w.ctr + 1) (C.incr C.fresh inst) []]),
        w.ctr + 1, false, w.bump 1⟩
    | .merge =>
      match b.b2 with
      | none => Traced.lift (.error .indexErr)
      | some j =>
      match cs[b.b1]?, cs[j]? with
      | some t1, some t2 => do
        let o ← cobwebLoopT inst fuel
          (.node (w.ctr + 1) (C.addFrom (C.addFrom C.fresh t1.stats) t2.stats) [t1, t2]) (w.bump 1)
        pure ⟨.node id (C.incr s inst) (removeTwo cs b.b1 j ++ [o.tree]), o.leaf, false, o.w⟩
      | _, _ => Traced.lift (.error .indexErr)
    | .split =>
      match cs[b.b1]? with
      | none => Traced.lift (.error .indexErr)
      | some t => cobwebLoopT inst fuel (.node id s (cs.eraseIdx b.b1 ++ t.children)) w

/-- `cobweb(instance)` (cobweb.py:115-202). -/
def cobwebT (t : Tree S) (inst : I) (w : World) : Traced S (Out S) :=
  cobwebLoopT C ecg inst t.numConcepts t w

/-- The loop of `_cobweb_categorize` (cobweb.py:204-217). -/
def categorizeLoopT (inst : I) : ℕ → Tree S → World → Traced S (Tree S × World)
  | 0, _, _ => Traced.lift (.error .outOfFuel)
  | _ + 1, .node id s [], w => pure (.node id s [], w)
  | fuel + 1, .node _ s (c :: cs'), w => do
    let cs := c :: cs'
    let b ← twoBestT C ecg s (cs.map Tree.stats) inst w
    match cs[b.b1]? with
    | none => Traced.lift (.error .indexErr)
    | some t => categorizeLoopT inst fuel t ((w.skip cs.length).bump (cs.length + 1))

/-- `_cobweb_categorize` (cobweb.py:204-217). -/
def categorizeT (t : Tree S) (inst : I) (w : World) : Traced S (Tree S × World) :=
  categorizeLoopT C ecg inst t.numConcepts t w

/-- `for i in instances: self.ifit(i)` (cobweb.py:111-112). -/
def fitListT : List I → Tree S → World → Traced S (Tree S × World)
  | [], t, w => pure (t, w)
  | i :: is, t, w => do
    let o ← cobwebT C ecg t i w
    fitListT is o.tree o.w

end
end CF
