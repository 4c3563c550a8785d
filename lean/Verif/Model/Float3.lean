/-
`Cobweb3Node` and `Cobweb3Tree` once more, in floating point: /repo/concept_formation/cobweb3.py with every
arithmetic operation rounded by `fl` (see `Verif.Model.FloatCV`).

Simplifications: as in `Verif.Model.Cobweb3`, except that the arithmetic is rounded and that the position
of an accumulator among the values of its attribute is not fixed (`pos`): in floating point the order of a
sum matters, and everything is proved for every position.  Counts are natural numbers, rounded when they
enter an operation.  Overflow, infinities and `nan` are outside the model.
With `fl = id` the definitions are those of `Verif.Model.Cobweb3` (`C95_unrounded`).
-/
import Verif.Model.Arith
import Verif.Model.Cobweb3
import Verif.Model.FloatCV

namespace CF
variable (fl : ℝ → ℝ)

/-- The accumulator that `combine` (continuous_value.py:177-196) leaves when it does not raise; see
`CV.combineF`. -/
noncomputable def CV.joinF (c d : CV ℝ) : CV ℝ :=
  let delta := fl (d.mean - c.mean)
  let total := fl (natF fl c.num + natF fl d.num)
  ⟨c.num + d.num,
    fl (fl (fl (natF fl c.num * c.mean) + fl (natF fl d.num * d.mean)) / total),
    fl (fl (c.meanSq + d.meanSq) + fl (fl (delta * delta) * fl (fl (natF fl c.num * natF fl d.num) / total)))⟩

/-- Python floats: every operation rounded.  Tuples of floats are compared as in `exactArith`. -/
noncomputable def floatArith : Arith ℝ where
  ofNat n := natF fl n
  add a b := fl (a + b)
  sub a b := fl (a - b)
  mul a b := fl (a * b)
  div := divF fl
  ratio a b := divF fl (natF fl a) (natF fl b)
  sortCands l := if (l.map Cand.key).Nodup then .ok (sortCands l) else .error .typeErr
  sortOps := sortOps

section
variable {A B V : Type} [DecidableEq A] [DecidableEq B] [DecidableEq V]

/-- The update of one attribute's table in `increment_counts` (cobweb3.py:175-181). -/
noncomputable def Tab.addF (t : Tab V) : Val V → Tab V
  | .num x => { t with cv := some (CV.updateF fl (t.cv.getD CV.fresh) x) }
  | .nom v => { t with noms := t.noms.set v ((t.noms.get? v).getD 0 + 1) }

/-- `increment_counts` (cobweb3.py:147-181). -/
noncomputable def Stats3.incrF (s : Stats3 A V) (i : Inst3 A V) : Stats3 A V :=
  ⟨s.count + 1, s.av.updAll (fun t v => Tab.addF fl (t.getD Tab.empty) v) i⟩

/-- The update of one attribute's table in `update_counts_from_node` (cobweb3.py:200-209). -/
noncomputable def Tab.mergeF (t n : Tab V) : Tab V where
  noms := t.noms.updAll (fun o c => o.getD 0 + c) n.noms
  cv := match n.cv with
    | none => t.cv
    | some d => some (CV.joinF fl (t.cv.getD CV.fresh) d)

/-- `update_counts_from_node` (cobweb3.py:183-209). -/
noncomputable def Stats3.addFromF (s n : Stats3 A V) : Stats3 A V :=
  ⟨s.count + n.count, s.av.updAll (fun t tn => Tab.mergeF fl (t.getD Tab.empty) tn) n.av⟩

open Classical in
/-- The test on one attribute in `is_exact_match` (cobweb3.py:541-558). -/
noncomputable def Tab.matchesF (count : ℕ) (t : Tab V) : Val V → Bool
  | .num x =>
    match t.cv with
    | none => false
    | some c =>
      if t.size ≠ 1 ∨ c.num ≠ count then false
      else if ¬ CV.unbiasedStdF fl c = .ok 0 then false
      else if ¬ c.unbiasedMean = x then false
      else true
  | .nom v =>
    match t.noms.get? v with
    | none => false
    | some k => k == count

/-- `is_exact_match` (cobweb3.py:522-559). -/
noncomputable def Stats3.isExactF (hid : A → Bool) (s : Stats3 A V) (i : Inst3 A V) : Bool :=
  i.all (fun p => hid p.1 || match s.av.get? p.1 with
    | none => false
    | some t => Tab.matchesF fl s.count t p.2)
  && s.av.all (fun p => hid p.1 || i.has p.1)

/-- `Cobweb3Node` as a node class. -/
noncomputable def cobweb3ClassF (hid : A → Bool) : NodeClass (Inst3 A V) (Stats3 A V) where
  fresh := Stats3.fresh
  count := Stats3.count
  incr := Stats3.incrF fl
  addFrom := Stats3.addFromF fl
  isExact := Stats3.isExactF fl hid

/-- `update_scales` (cobweb3.py:95-105). -/
noncomputable def updateScalesF (inner : A → B) : Scales B → Inst3 A V → Scales B
  | sc, [] => sc
  | sc, (_, .nom _) :: i => updateScalesF inner sc i
  | sc, (a, .num x) :: i =>
    updateScalesF inner (sc.set (inner a) (CV.updateF fl ((sc.get? (inner a)).getD CV.fresh) x)) i

/-- The scale of an attribute in `expected_correct_guesses` (cobweb3.py:265-271). -/
noncomputable def ecgScaleF (cfg : Cfg3 A B) (sc : Scales B) (a : A) : Res ℝ :=
  if cfg.scaling = 0 then .ok 1
  else match sc.get? (cfg.inner a) with
    | none => .ok 1
    | some c => do
      let q ← divF fl 1 cfg.scaling
      let s ← CV.unbiasedStdF fl c
      pure (fl (q * s))

/-- The contribution of an accumulator to `expected_correct_guesses` (cobweb3.py:276-282). -/
noncomputable def cvTermF (n : ℕ) (scale : ℝ) (c : CV ℝ) : Res ℝ := do
  let s ← CV.scaledUnbiasedStdF fl c scale
  let noise ← divF fl 1 (fl (4 * piF fl))
  let std ← sqrtF fl (fl (fl (s * s) + noise))
  let p ← divF fl (natF fl c.num) (natF fl n)
  let root ← sqrtF fl (piF fl)
  let q ← divF fl 1 (fl (fl (2 * root) * std))
  pure (fl (fl (p * p) * q))

/-- An entry of the dict `av_counts[attr]`: the count of a nominal value, or the accumulator. -/
abbrev Cell := ℕ ⊕ CV ℝ

/-- The values of the dict `av_counts[attr]` in the order of its keys; the accumulator's key comes after
the first `pos` nominal values. -/
def Tab.cells (t : Tab V) (pos : ℕ) : List Cell :=
  let l := t.noms.map fun p => Sum.inl p.2
  match t.cv with
  | none => l
  | some c => l.take pos ++ Sum.inr c :: l.drop pos

/-- The inner loop of `expected_correct_guesses` (cobweb3.py:263-285). -/
noncomputable def cellLoopF (cfg : Cfg3 A B) (sc : Scales B) (n : ℕ) (a : A) : List Cell → ℝ → Res ℝ
  | [], acc => .ok acc
  | .inl k :: l, acc => do
    let p ← divF fl (natF fl k) (natF fl n)
    cellLoopF cfg sc n a l (fl (acc + fl (p * p)))
  | .inr c :: l, acc => do
    let scale ← ecgScaleF fl cfg sc a
    let x ← cvTermF fl n scale c
    cellLoopF cfg sc n a l (fl (acc + x))

/-- The loops of `expected_correct_guesses` (cobweb3.py:260-285). -/
noncomputable def ecgLoop3F (pos : Tab V → ℕ) (cfg : Cfg3 A B) (sc : Scales B) (n : ℕ) :
    Dict A (Tab V) → ℝ → Res ℝ
  | [], acc => .ok acc
  | (a, t) :: ts, acc => do
    let acc ← cellLoopF fl cfg sc n a (t.cells (pos t)) acc
    ecgLoop3F pos cfg sc n ts acc

/-- `expected_correct_guesses` (cobweb3.py:211-287). -/
noncomputable def Stats3.ecgF (pos : Tab V → ℕ) (hid : A → Bool) (cfg : Cfg3 A B) (sc : Scales B)
    (s : Stats3 A V) : Res ℝ := do
  let g ← ecgLoop3F fl pos cfg sc s.count (s.visible hid) 0
  divF fl g (natF fl (s.visible hid).length)

/-- `Cobweb3Tree.ifit` (cobweb3.py:107-113, 115-131) after its sanity check. -/
noncomputable def ifit3F (pos : Tab V → ℕ) (hid : A → Bool) (cfg : Cfg3 A B) (st : State3 A B V)
    (i : Inst3 A V) (w : World) : Res (Out3 A B V) := do
  let sc := updateScalesF fl cfg.inner st.scales i
  let o ← cobwebBy (cobweb3ClassF fl hid)
    (chooseOpA (floatArith fl) (cobweb3ClassF fl hid) (Stats3.ecgF fl pos hid cfg sc)) st.root i w
  pure ⟨⟨o.tree, sc⟩, o.leaf, o.w⟩

/-- `Cobweb3Tree.categorize` after its sanity check: `_cobweb_categorize` (cobweb.py:204-217). -/
noncomputable def categorize3F (pos : Tab V → ℕ) (hid : A → Bool) (cfg : Cfg3 A B) (st : State3 A B V)
    (i : Inst3 A V) (w : World) : Res (Tree (Stats3 A V) × World) :=
  categorizeA (floatArith fl) (cobweb3ClassF fl hid) (Stats3.ecgF fl pos hid cfg st.scales) st.root i w

end
end CF
