/-
The algorithm of /repo/concept_formation/cobweb.py once more, with the arithmetic of the scores left
open.

`Verif.Model.Cobweb` computes the scores in an ordered field.  Python computes them in floating point,
where sums and products are rounded, may overflow to `inf`, and `nan` makes comparisons fail.  Here the
number type has no laws at all; an `Arith` says what the operations return.  With the operations of a
field these definitions are those of `Verif.Model.Cobweb` (`C94_exact`).
-/
import Verif.Model.Cobweb
import Verif.Model.Nominal

namespace CF

/-- The arithmetic the scores are computed with.
* `ratio a b`: the quotient of two counts (floats in the code that only take whole values, cobweb.py:300);
* `div`: `/` on scores, which may raise;
* `sortCands`: `children_relative_cu.sort(reverse=True)` (cobweb.py:559), which raises `TypeError` when it
  compares two nodes;
* `sortOps`: `operations.sort(reverse=True)` (cobweb.py:534). -/
structure Arith (K : Type) where
  ofNat : ℕ → K
  add : K → K → K
  sub : K → K → K
  mul : K → K → K
  div : K → K → Res K
  ratio : ℕ → ℕ → Res K
  sortCands : List (Cand K) → Res (List (Cand K))
  sortOps : List (OpCand K) → List (OpCand K)

section
variable {I S K : Type} (ar : Arith K) (C : NodeClass I S) (ecg : S → Res K)

/-- The loop of `category_utility` (cobweb.py:437-442). -/
def cuSumA (n : ℕ) : List S → K → Res K
  | [], acc => .ok acc
  | c :: cs, acc => do
    let p ← ar.ratio (C.count c) n
    let e ← ecg c
    cuSumA n cs (ar.add acc (ar.mul p e))

/-- `category_utility` (cobweb.py:404-445). -/
def categoryUtilityA (s : S) (cs : List S) : Res K :=
  match cs with
  | [] => .ok (ar.ofNat 0)
  | _ :: _ => do
    let g ← cuSumA ar C ecg (C.count s) cs (ar.ofNat 0)
    let e ← ecg s
    ar.div (ar.sub g e) (ar.ofNat cs.length)

/-- `cu_for_new_child` (cobweb.py:738-762). -/
def cuForNewChildA (s : S) (cs : List S) (inst : I) : Res K :=
  categoryUtilityA ar C ecg (C.incr (shallowCopy C s) inst)
    (cs.map (shallowCopy C) ++ [C.incr C.fresh inst])

/-- `cu_for_merge` (cobweb.py:799-838). -/
def cuForMergeA (s : S) (cs : List S) (i j : ℕ) (b1 b2 : S) (inst : I) : Res K :=
  categoryUtilityA ar C ecg (C.incr (shallowCopy C s) inst)
    (C.incr (C.addFrom (C.addFrom C.fresh b1) b2) inst :: (dropTwo cs i j).map (shallowCopy C))

/-- `cu_for_split` (cobweb.py:885-911). -/
def cuForSplitA (s : S) (cs : List S) (i : ℕ) (bcs : List S) : Res K :=
  categoryUtilityA ar C ecg (shallowCopy C s) ((cs.eraseIdx i ++ bcs).map (shallowCopy C))

/-- `relative_cu_for_insert` (cobweb.py:613-665).  `child.count + 1` is a whole number. -/
def relativeCuForInsertA (c : S) (inst : I) : Res K := do
  let e1 ← ecg (C.incr (shallowCopy C c) inst)
  let e0 ← ecg c
  pure (ar.sub (ar.mul (ar.ofNat (C.count c + 1)) e1) (ar.mul (ar.ofNat (C.count c)) e0))

/-- The loop of `compute_relative_CU_const` (cobweb.py:604-607). -/
def constSumA (n : ℕ) : List S → K → Res K
  | [], acc => .ok acc
  | c :: cs, acc => do
    let q ← ar.ratio (C.count c) (n + 1)
    let e ← ecg c
    constSumA n cs (ar.add acc (ar.mul q e))

/-- `compute_relative_CU_const` (cobweb.py:576-611). -/
def relativeCuConstA (s : S) (cs : List S) (inst : I) : Res K := do
  let u ← ecg (C.incr (shallowCopy C s) inst)
  let c ← constSumA ar C ecg (C.count s) cs (ar.ofNat 0)
  ar.div (ar.sub c u) (ar.ofNat cs.length)

/-- The list built at cobweb.py:556-558, from position `k` on. -/
def mkCandsA (inst : I) (w : World) : List S → ℕ → Res (List (Cand K))
  | [], _ => .ok []
  | c :: cs, k => do
    let r ← relativeCuForInsertA ar C ecg c inst
    let rest ← mkCandsA inst w cs (k + 1)
    pure (⟨r, C.count c, w.draw k, k⟩ :: rest)

/-- `two_best_children` (cobweb.py:540-574). -/
def twoBestA (s : S) (cs : List S) (inst : I) (w : World) : Res (Best K) :=
  if cs.length = 0 then .error .exc else do
    let cands ← mkCandsA ar C ecg inst w cs 0
    let sorted ← ar.sortCands cands
    let const ← relativeCuConstA ar C ecg s cs inst
    match sorted with
    | [] => .error .indexErr
    | c1 :: rest => do
      let q ← ar.div c1.rel (ar.ofNat (C.count s + 1))
      let q ← ar.div q (ar.ofNat cs.length)
      pure ⟨ar.add q const, c1.idx, rest.head?.map Cand.idx⟩

/-- `operations` after cobweb.py:525-527. -/
def opsNewA (ops : List Op) (s : S) (css : List S) (inst : I) (w : World) (off : ℕ)
    (l : List (OpCand K)) : Res (List (OpCand K)) :=
  if .new ∈ ops then addOp w off l .new (cuForNewChildA ar C ecg s css inst) else .ok l

/-- `operations` after cobweb.py:528-530. -/
def opsMergeA (ops : List Op) (s : S) (cs : List (Tree S)) (inst : I) (i : ℕ) (t1 : Tree S)
    (b2 : Option ℕ) (w : World) (off : ℕ) (l : List (OpCand K)) : Res (List (OpCand K)) :=
  match b2.bind fun j => cs[j]?.map fun t => (j, t) with
  | some (j, t2) =>
    if .merge ∈ ops ∧ cs.length > 2 then
      addOp w off l .merge (cuForMergeA ar C ecg s (cs.map Tree.stats) i j t1.stats t2.stats inst)
    else .ok l
  | none => .ok l

/-- `operations` after cobweb.py:531-532. -/
def opsSplitA (ops : List Op) (s : S) (css : List S) (i : ℕ) (t1 : Tree S) (w : World) (off : ℕ)
    (l : List (OpCand K)) : Res (List (OpCand K)) :=
  if .split ∈ ops ∧ t1.children.length > 0 then
    addOp w off l .split (cuForSplitA ar C ecg s css i (t1.children.map Tree.stats))
  else .ok l

/-- `get_best_operation` (cobweb.py:447-538); see `bestOp`. -/
def bestOpA (ops : List Op) (s : S) (cs : List (Tree S)) (inst : I) (cu1 : K) (b1 b2 : Option ℕ)
    (w : World) (off : ℕ) : Res (K × Op × ℕ) :=
  match b1 with
  | none => .error .valueErr
  | some i =>
  match cs[i]? with
  | none => .error .indexErr
  | some t1 => do
    let l1 ← opsNewA ar C ecg ops s (cs.map Tree.stats) inst w off (opsBest ops cu1 w off)
    let l2 ← opsMergeA ar C ecg ops s cs inst i t1 b2 w off l1
    let l3 ← opsSplitA ar C ecg ops s (cs.map Tree.stats) i t1 w off l2
    match ar.sortOps l3 with
    | [] => .error .indexErr
    | c :: _ => pure (c.cu, c.op, l3.length)

/-- How `cobweb` decides what to do at an internal node. -/
abbrev Chooser (I S K : Type) := S → List (Tree S) → I → World → Res (Best K × Op × World)

/-- The choice made at an internal node of `cobweb` (cobweb.py:179-181). -/
def chooseOpA : Chooser I S K := fun s cs inst w => do
  let b ← twoBestA ar C ecg s (cs.map Tree.stats) inst w
  let (_, op, n) ← bestOpA ar C ecg allOps s cs inst b.cu (some b.b1) b.b2 w cs.length
  let m := match cs[b.b1]? with | some t => t.children.length | none => 0
  pure (b, op, (w.skip (cs.length + n)).bump (tempIds cs.length m b.b2.isSome))

/-- The loop of `cobweb` (cobweb.py:154-202) with any way of choosing; see `cobwebLoop`. -/
def cobwebLoopBy (ch : Chooser I S K) (inst : I) : ℕ → Tree S → World → Res (Out S)
  | 0, _, _ => .error .outOfFuel
  | _ + 1, .node id s [], w =>
    if C.isExact s inst || C.count s == 0 then
      .ok ⟨.node id (C.incr s inst) [], id, false, w⟩
    else
      .ok ⟨.node (w.ctr + 1) (C.incr (shallowCopy C s) inst)
            [.node id s [], .node (w.ctr + 2) (C.incr C.fresh inst) []],
          w.ctr + 2, true, w.bump 2⟩
  | fuel + 1, .node id s (c :: cs'), w => do
    let cs := c :: cs'
    let (b, op, w) ← ch s cs inst w
    match op with
    | .best =>
      match cs[b.b1]? with
      | none => .error .indexErr
      | some t => do
        let o ← cobwebLoopBy ch inst fuel t w
        pure ⟨.node id (C.incr s inst) (putChild cs b.b1 o), o.leaf, false, o.w⟩
    | .new =>
      pure ⟨.node id (C.incr s inst) (cs ++ [.node (w.ctr + 1) (C.incr C.fresh inst) []]),
        w.ctr + 1, false, w.bump 1⟩
    | .merge =>
      match b.b2 with
      | none => .error .indexErr
      | some j =>
      match cs[b.b1]?, cs[j]? with
      | some t1, some t2 => do
        let o ← cobwebLoopBy ch inst fuel
          (.node (w.ctr + 1) (C.addFrom (C.addFrom C.fresh t1.stats) t2.stats) [t1, t2]) (w.bump 1)
        pure ⟨.node id (C.incr s inst) (removeTwo cs b.b1 j ++ [o.tree]), o.leaf, false, o.w⟩
      | _, _ => .error .indexErr
    | .split =>
      match cs[b.b1]? with
      | none => .error .indexErr
      | some t => cobwebLoopBy ch inst fuel (.node id s (cs.eraseIdx b.b1 ++ t.children)) w

/-- `cobweb(instance)` (cobweb.py:115-202) with any way of choosing. -/
def cobwebBy (ch : Chooser I S K) (t : Tree S) (inst : I) (w : World) : Res (Out S) :=
  cobwebLoopBy C ch inst t.numConcepts t w

/-- The loop of `_cobweb_categorize` (cobweb.py:204-217). -/
def categorizeLoopA (inst : I) : ℕ → Tree S → World → Res (Tree S × World)
  | 0, _, _ => .error .outOfFuel
  | _ + 1, .node id s [], w => .ok (.node id s [], w)
  | fuel + 1, .node _ s (c :: cs'), w => do
    let cs := c :: cs'
    let b ← twoBestA ar C ecg s (cs.map Tree.stats) inst w
    match cs[b.b1]? with
    | none => .error .indexErr
    | some t => categorizeLoopA inst fuel t ((w.skip cs.length).bump (cs.length + 1))

/-- `_cobweb_categorize` (cobweb.py:204-217). -/
def categorizeA (t : Tree S) (inst : I) (w : World) : Res (Tree S × World) :=
  categorizeLoopA ar C ecg inst t.numConcepts t w

end

section
variable {A V K : Type} (ar : Arith K)

/-- Inner loop of `expected_correct_guesses` (cobweb.py:398-400). -/
def sqLoopA (n : ℕ) : List ℕ → K → Res K
  | [], acc => .ok acc
  | c :: cs, acc => do
    let p ← ar.ratio c n
    sqLoopA n cs (ar.add acc (ar.mul p p))

/-- Outer loop of `expected_correct_guesses` (cobweb.py:395-400). -/
def ecgLoopA (n : ℕ) : List (Dict V ℕ) → K → Res K
  | [], acc => .ok acc
  | t :: ts, acc => do
    let acc ← sqLoopA ar n (t.map Prod.snd) acc
    ecgLoopA n ts acc

/-- `expected_correct_guesses` (cobweb.py:380-402). -/
def Stats.ecgA (hid : A → Bool) (s : Stats A V) : Res K := do
  let ts := (s.visible hid).map Prod.snd
  let g ← ecgLoopA ar s.count ts (ar.ofNat 0)
  ar.div g (ar.ofNat ts.length)

end

/-- The arithmetic of an ordered field. -/
def exactArith (K : Type) [Field K] [LinearOrder K] : Arith K where
  ofNat n := (n : K)
  add a b := a + b
  sub a b := a - b
  mul a b := a * b
  div := pyDiv
  ratio a b := pyDiv (a : K) (b : K)
  sortCands l := if (l.map Cand.key).Nodup then .ok (sortCands l) else .error .typeErr
  sortOps := sortOps

end CF
