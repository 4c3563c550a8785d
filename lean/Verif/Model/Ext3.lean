/-
`Cobweb3Node` and `Cobweb3Tree` (/repo/concept_formation/cobweb3.py) with all Python floats: infinities, `nan` and
overflow; see `Verif.Model.ExtFloat`.

Simplifications: as in `Verif.Model.Float3` and `Verif.Model.ExtFloat`.  `list.sort` compares tuples, and with `nan`
the order it leaves is no longer determined by the comparison; it is a parameter here (`srt`, `srtOps`), and of it
only the laws `Arith.Sorts` and `Arith.Total` are used.  A test in `is_exact_match` that raises counts as failed;
`C99_match_defined` says that it never raises where the algorithm asks.
-/
import Verif.Model.Arith
import Verif.Model.Cobweb3
import Verif.Model.ExtFloat

namespace CF

/-- A value of an instance: nominal, or a number (`isNumber`, utils.py:63-68).  For `isNumber` a `nan` is no number: it
is a nominal value, and in a dict a `nan` is found by identity.  So each `nan` object is an element of `V`, and
instances contain no `num nan` (`XInstOk`); `nan` arises in the accumulators and scores. -/
inductive XVal (V : Type) where
  | nom (v : V)
  | num (x : XF)

noncomputable instance {V : Type} : DecidableEq (XVal V) := Classical.decEq _

/-- `av_counts[attr]` of a `Cobweb3Node`. -/
structure XTab (V : Type) where
  noms : Dict V ℕ
  cv : Option (CV XF)

/-- `{}`, the empty table. -/
def XTab.empty {V : Type} : XTab V := ⟨[], none⟩

/-- The fields `count` and `av_counts` of a `Cobweb3Node`. -/
structure XStats (A V : Type) where
  count : ℕ
  av : Dict A (XTab V)

/-- Instances with nominal and numeric values. -/
abbrev XInst (A V : Type) := Inst A (XVal V)

/-- Python's floats as the arithmetic of the scores; `srt` and `srtOps` are the two calls of `sort`
(cobweb.py:534, 559). -/
noncomputable def extArith (fl : ℝ → ℝ) (srt : List (Cand XF) → Res (List (Cand XF)))
    (srtOps : List (OpCand XF) → List (OpCand XF)) : Arith XF where
  ofNat := XF.ofNat fl
  add := XF.add fl
  sub := XF.sub fl
  mul := XF.mul fl
  div := XF.div fl
  ratio a b := XF.div fl (XF.ofNat fl a) (XF.ofNat fl b)
  sortCands := srt
  sortOps := srtOps

section
variable {A B V : Type} [DecidableEq A] [DecidableEq B] [DecidableEq V] (fl : ℝ → ℝ)

/-- The fields of a new `Cobweb3Node()` (cobweb.py:297-312). -/
def XStats.fresh : XStats A V := ⟨0, []⟩

/-- The update of one attribute's table in `increment_counts` (cobweb3.py:175-181). -/
noncomputable def XTab.add (t : XTab V) : XVal V → XTab V
  | .num x => { t with cv := some (CV.updateX fl (t.cv.getD CV.freshX) x) }
  | .nom v => { t with noms := t.noms.set v ((t.noms.get? v).getD 0 + 1) }

/-- `increment_counts` (cobweb3.py:147-181). -/
noncomputable def XStats.incr (s : XStats A V) (i : XInst A V) : XStats A V :=
  ⟨s.count + 1, s.av.updAll (fun t v => XTab.add fl (t.getD XTab.empty) v) i⟩

/-- The update of one attribute's table in `update_counts_from_node` (cobweb3.py:200-209).  `combine` raises on two
empty accumulators; `joinX` is its value otherwise (`C99_combine`). -/
noncomputable def XTab.merge (t n : XTab V) : XTab V where
  noms := t.noms.updAll (fun o c => o.getD 0 + c) n.noms
  cv := match n.cv with
    | none => t.cv
    | some d => some (CV.joinX fl (t.cv.getD CV.freshX) d)

/-- `update_counts_from_node` (cobweb3.py:183-209). -/
noncomputable def XStats.addFrom (s n : XStats A V) : XStats A V :=
  ⟨s.count + n.count, s.av.updAll (fun t tn => XTab.merge fl (t.getD XTab.empty) tn) n.av⟩

/-- The number of keys of the dict `av_counts[attr]`. -/
def XTab.size (t : XTab V) : ℕ := t.noms.length + (if t.cv.isSome then 1 else 0)

open Classical in
/-- The test on one attribute in `is_exact_match` (cobweb3.py:541-558). -/
noncomputable def XTab.matches (count : ℕ) (t : XTab V) : XVal V → Res Bool
  | .num x =>
    match t.cv with
    | none => .ok false
    | some c =>
      if t.size ≠ 1 ∨ c.num ≠ count then .ok false
      else do
        let s ← CV.unbiasedStdX fl c
        if ¬ s.same (.fin 0) then pure false
        else if ¬ c.mean.same x then pure false
        else pure true
  | .nom v =>
    match t.noms.get? v with
    | none => .ok false
    | some k => .ok (k == count)

open Classical in
/-- `is_exact_match` (cobweb3.py:522-559). -/
noncomputable def XStats.isExact (hid : A → Bool) (s : XStats A V) (i : XInst A V) : Bool :=
  i.all (fun p => hid p.1 || match s.av.get? p.1 with
    | none => false
    | some t => XTab.matches fl s.count t p.2 = .ok true)
  && s.av.all (fun p => hid p.1 || i.has p.1)

/-- `Cobweb3Node` as a node class. -/
noncomputable def extClass (hid : A → Bool) : NodeClass (XInst A V) (XStats A V) where
  fresh := XStats.fresh
  count := XStats.count
  incr := XStats.incr fl
  addFrom := XStats.addFrom fl
  isExact := XStats.isExact fl hid

/-- `attr_scales` (cobweb3.py:68). -/
abbrev XScales (B : Type) := Dict B (CV XF)

/-- `update_scales` (cobweb3.py:95-105). -/
noncomputable def updateScalesX (inner : A → B) : XScales B → XInst A V → XScales B
  | sc, [] => sc
  | sc, (_, .nom _) :: i => updateScalesX inner sc i
  | sc, (a, .num x) :: i =>
    updateScalesX inner (sc.set (inner a) (CV.updateX fl ((sc.get? (inner a)).getD CV.freshX) x)) i

/-- The scale of an attribute in `expected_correct_guesses` (cobweb3.py:265-271).  The parameter `scaling` of the
tree is a finite float. -/
noncomputable def ecgScaleX (cfg : Cfg3 A B) (sc : XScales B) (a : A) : Res XF :=
  if cfg.scaling = 0 then .ok (.fin 1)
  else match sc.get? (cfg.inner a) with
    | none => .ok (.fin 1)
    | some c => do
      let q ← XF.div fl (.fin 1) (.fin cfg.scaling)
      let s ← CV.unbiasedStdX fl c
      pure (XF.mul fl q s)

/-- The contribution of an accumulator to `expected_correct_guesses` (cobweb3.py:276-282). -/
noncomputable def cvTermX (n : ℕ) (scale : XF) (c : CV XF) : Res XF := do
  let s ← CV.scaledUnbiasedStdX fl c scale
  let noise ← XF.div fl (.fin 1) (XF.mul fl (.fin 4) (XF.pi fl))
  let std ← XF.sqrt fl (XF.add fl (XF.mul fl s s) noise)
  let p ← XF.div fl (XF.ofNat fl c.num) (XF.ofNat fl n)
  let root ← XF.sqrt fl (XF.pi fl)
  let q ← XF.div fl (.fin 1) (XF.mul fl (XF.mul fl (.fin 2) root) std)
  pure (XF.mul fl (XF.mul fl p p) q)

/-- The values of the dict `av_counts[attr]` in the order of its keys; the accumulator's key comes after the first
`pos` nominal values. -/
def XTab.cells (t : XTab V) (pos : ℕ) : List (ℕ ⊕ CV XF) :=
  let l := t.noms.map fun p => Sum.inl p.2
  match t.cv with
  | none => l
  | some c => l.take pos ++ Sum.inr c :: l.drop pos

/-- The inner loop of `expected_correct_guesses` (cobweb3.py:263-285). -/
noncomputable def cellLoopX (cfg : Cfg3 A B) (sc : XScales B) (n : ℕ) (a : A) : List (ℕ ⊕ CV XF) → XF → Res XF
  | [], acc => .ok acc
  | .inl k :: l, acc => do
    let p ← XF.div fl (XF.ofNat fl k) (XF.ofNat fl n)
    cellLoopX cfg sc n a l (XF.add fl acc (XF.mul fl p p))
  | .inr c :: l, acc => do
    let scale ← ecgScaleX fl cfg sc a
    let x ← cvTermX fl n scale c
    cellLoopX cfg sc n a l (XF.add fl acc x)

/-- The loops of `expected_correct_guesses` (cobweb3.py:260-285). -/
noncomputable def ecgLoopX (pos : XTab V → ℕ) (cfg : Cfg3 A B) (sc : XScales B) (n : ℕ) :
    Dict A (XTab V) → XF → Res XF
  | [], acc => .ok acc
  | (a, t) :: ts, acc => do
    let acc ← cellLoopX fl cfg sc n a (t.cells (pos t)) acc
    ecgLoopX pos cfg sc n ts acc

/-- `attrs()` (cobweb.py:329-343) with the tables. -/
def XStats.visible (hid : A → Bool) (s : XStats A V) : Dict A (XTab V) :=
  s.av.filter fun p => !hid p.1

/-- `expected_correct_guesses` (cobweb3.py:211-287). -/
noncomputable def XStats.ecg (pos : XTab V → ℕ) (hid : A → Bool) (cfg : Cfg3 A B) (sc : XScales B)
    (s : XStats A V) : Res XF := do
  let g ← ecgLoopX fl pos cfg sc s.count (s.visible hid) (.fin 0)
  XF.div fl g (XF.ofNat fl (s.visible hid).length)

/-- A `Cobweb3Tree`: the root and `attr_scales`. -/
structure XState (A B V : Type) where
  root : Tree (XStats A V)
  scales : XScales B

/-- Result of `ifit`: the new tree, the id of the returned concept, the world. -/
structure XOut (A B V : Type) where
  state : XState A B V
  leaf : ℕ
  w : World

/-- What Python leaves open: where the accumulators are in their dicts, and how `sort` orders. -/
structure XEnv (V : Type) where
  pos : XTab V → ℕ
  srt : List (Cand XF) → Res (List (Cand XF))
  srtOps : List (OpCand XF) → List (OpCand XF)

/-- The arithmetic of the scores. -/
noncomputable abbrev XEnv.ar (e : XEnv V) : Arith XF := extArith fl e.srt e.srtOps

/-- `Cobweb3Tree.ifit` (cobweb3.py:107-113, 115-131) after its sanity check. -/
noncomputable def ifitX (e : XEnv V) (hid : A → Bool) (cfg : Cfg3 A B) (st : XState A B V)
    (i : XInst A V) (w : World) : Res (XOut A B V) := do
  let sc := updateScalesX fl cfg.inner st.scales i
  let o ← cobwebBy (extClass fl hid)
    (chooseOpA (e.ar fl) (extClass fl hid) (XStats.ecg fl e.pos hid cfg sc)) st.root i w
  pure ⟨⟨o.tree, sc⟩, o.leaf, o.w⟩

/-- `Cobweb3Tree.categorize` after its sanity check: `_cobweb_categorize` (cobweb.py:204-217). -/
noncomputable def categorizeX (e : XEnv V) (hid : A → Bool) (cfg : Cfg3 A B) (st : XState A B V)
    (i : XInst A V) (w : World) : Res (Tree (XStats A V) × World) :=
  categorizeA (e.ar fl) (extClass fl hid) (XStats.ecg fl e.pos hid cfg st.scales) st.root i w

end
end CF
