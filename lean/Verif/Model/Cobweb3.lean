/-
`Cobweb3Node` and `Cobweb3Tree`: /repo/concept_formation/cobweb3.py.

Simplifications, for the whole file:
* numbers are real numbers (no rounding, no `nan`, no infinities);
* in the code an attribute's table is one dict whose keys are the nominal values plus, for the numbers,
  the string `"#ContinuousValue#"`; here it is the dict of the nominal values plus an optional
  accumulator.  So an instance may not have that very string as a value; `Verif.Model.RawTables` has the dict
  of the code, and `C98` shows that the two agree otherwise;
* `isNumber` is the constructor of `Val`.
-/
import Verif.Model.Continuous
import Verif.Model.History
import Verif.Model.Predict

namespace CF

/-- A value of an instance: nominal, or a number (`isNumber`, utils.py:63-68). -/
inductive Val (V : Type) where
  | nom (v : V)
  | num (x : ℝ)

noncomputable instance {V : Type} : DecidableEq (Val V) := Classical.decEq _

/-- `av_counts[attr]` of a `Cobweb3Node`. -/
structure Tab (V : Type) where
  noms : Dict V ℕ
  cv : Option (CV ℝ)

/-- `{}`, the empty table. -/
def Tab.empty {V : Type} : Tab V := ⟨[], none⟩

/-- The fields `count` and `av_counts` of a `Cobweb3Node`. -/
structure Stats3 (A V : Type) where
  count : ℕ
  av : Dict A (Tab V)

/-- Instances with nominal and numeric values. -/
abbrev Inst3 (A V : Type) := Inst A (Val V)

section
variable {A B V : Type} [DecidableEq A] [DecidableEq B] [DecidableEq V]

/-- The fields of a new `Cobweb3Node()` (cobweb.py:297-312). -/
def Stats3.fresh : Stats3 A V := ⟨0, []⟩

/-- The update of one attribute's table in `increment_counts` (cobweb3.py:175-181). -/
noncomputable def Tab.add (t : Tab V) : Val V → Tab V
  | .num x => { t with cv := some ((t.cv.getD CV.fresh).update x) }
  | .nom v => { t with noms := t.noms.set v ((t.noms.get? v).getD 0 + 1) }

/-- `increment_counts` (cobweb3.py:147-181). -/
noncomputable def Stats3.incr (s : Stats3 A V) (i : Inst3 A V) : Stats3 A V :=
  ⟨s.count + 1, s.av.updAll (fun t v => (t.getD Tab.empty).add v) i⟩

/-- The update of one attribute's table in `update_counts_from_node` (cobweb3.py:200-209).
`combine` raises on two empty accumulators; `join` is its value otherwise (see
`C29_combine_never_raises`). -/
noncomputable def Tab.merge (t n : Tab V) : Tab V where
  noms := t.noms.updAll (fun o c => o.getD 0 + c) n.noms
  cv := match n.cv with
    | none => t.cv
    | some d => some ((t.cv.getD CV.fresh).join d)

/-- `update_counts_from_node` (cobweb3.py:183-209). -/
noncomputable def Stats3.addFrom (s n : Stats3 A V) : Stats3 A V :=
  ⟨s.count + n.count, s.av.updAll (fun t tn => (t.getD Tab.empty).merge tn) n.av⟩

/-- The number of keys of the dict `av_counts[attr]`. -/
def Tab.size (t : Tab V) : ℕ := t.noms.length + (if t.cv.isSome then 1 else 0)

open Classical in
/-- The test on one attribute that both the node and the instance have (cobweb3.py:541-558), for a node
with the given count. -/
noncomputable def Tab.matches (count : ℕ) (t : Tab V) : Val V → Bool
  | .num x =>
    match t.cv with
    | none => false
    | some c =>
      if t.size ≠ 1 ∨ c.num ≠ count then false
      else if ¬ c.unbiasedStd = .ok 0 then false
      else if ¬ c.unbiasedMean = x then false
      else true
  | .nom v =>
    match t.noms.get? v with
    | none => false
    | some k => k == count

/-- `is_exact_match` (cobweb3.py:522-559).  `hid a` is `a[0] == '_'`. -/
noncomputable def Stats3.isExact (hid : A → Bool) (s : Stats3 A V) (i : Inst3 A V) : Bool :=
  i.all (fun p => hid p.1 || match s.av.get? p.1 with
    | none => false
    | some t => t.matches s.count p.2)
  && s.av.all (fun p => hid p.1 || i.has p.1)

/-- `Cobweb3Node` as a node class. -/
noncomputable def cobweb3Class (hid : A → Bool) : NodeClass (Inst3 A V) (Stats3 A V) where
  fresh := Stats3.fresh
  count := Stats3.count
  incr := Stats3.incr
  addFrom := Stats3.addFrom
  isExact := Stats3.isExact hid

/-- The parameters of a `Cobweb3Tree` (cobweb3.py:60-67).
* `scaling`: 0 stands for `False` (the code only tests its truth value);
* `inner`: `get_inner_attr` (cobweb3.py:78-93): the first component of a tuple when
  `inner_attr_scaling` is on, otherwise the attribute itself. -/
structure Cfg3 (A B : Type) where
  scaling : ℝ
  inner : A → B

/-- `attr_scales` (cobweb3.py:68). -/
abbrev Scales (B : Type) := Dict B (CV ℝ)

/-- `update_scales` (cobweb3.py:95-105). -/
noncomputable def updateScales (inner : A → B) : Scales B → Inst3 A V → Scales B
  | sc, [] => sc
  | sc, (_, .nom _) :: i => updateScales inner sc i
  | sc, (a, .num x) :: i =>
    updateScales inner (sc.set (inner a) (((sc.get? (inner a)).getD CV.fresh).update x)) i

/-- The scale of an attribute in `expected_correct_guesses` (cobweb3.py:265-271). -/
noncomputable def ecgScale (cfg : Cfg3 A B) (sc : Scales B) (a : A) : Res ℝ :=
  if cfg.scaling = 0 then .ok 1
  else match sc.get? (cfg.inner a) with
    | none => .ok 1
    | some c => do
      let q ← pyDiv 1 cfg.scaling
      let s ← c.unbiasedStd
      pure (q * s)

/-- The contribution of an accumulator to `expected_correct_guesses` (cobweb3.py:276-282). -/
noncomputable def cvTerm (n : ℕ) (scale : ℝ) (c : CV ℝ) : Res ℝ := do
  let s ← c.scaledUnbiasedStd scale
  let std ← pySqrt (s * s + 1 / (4 * Real.pi))
  let p ← pyDiv (c.num : ℝ) (n : ℝ)
  let q ← pyDiv 1 (2 * Real.sqrt Real.pi * std)
  pure ((p * p) * q)

/-- The accumulator's part of the inner loop. -/
noncomputable def cvPart (cfg : Cfg3 A B) (sc : Scales B) (n : ℕ) (a : A) :
    Option (CV ℝ) → ℝ → Res ℝ
  | none, acc => .ok acc
  | some c, acc => do
    let scale ← ecgScale cfg sc a
    let x ← cvTerm n scale c
    pure (acc + x)

/-- The loops of `expected_correct_guesses` (cobweb3.py:260-285). The position of the accumulator among
the values is immaterial in exact arithmetic. -/
noncomputable def ecgLoop3 (cfg : Cfg3 A B) (sc : Scales B) (n : ℕ) :
    Dict A (Tab V) → ℝ → Res ℝ
  | [], acc => .ok acc
  | (a, t) :: ts, acc => do
    let acc ← sqLoop n (t.noms.map Prod.snd) acc
    let acc ← cvPart cfg sc n a t.cv acc
    ecgLoop3 cfg sc n ts acc

/-- `attrs()` (cobweb.py:329-343) with the tables. -/
def Stats3.visible (hid : A → Bool) (s : Stats3 A V) : Dict A (Tab V) :=
  s.av.filter fun p => !hid p.1

/-- `expected_correct_guesses` (cobweb3.py:211-287). -/
noncomputable def Stats3.ecg (hid : A → Bool) (cfg : Cfg3 A B) (sc : Scales B) (s : Stats3 A V) :
    Res ℝ := do
  let g ← ecgLoop3 cfg sc s.count (s.visible hid) 0
  pyDiv g ((s.visible hid).length : ℝ)

/-- A `Cobweb3Tree`: the root and `attr_scales`. -/
structure State3 (A B V : Type) where
  root : Tree (Stats3 A V)
  scales : Scales B

/-- Result of `ifit`: the new tree, the id of the returned concept, the world. -/
structure Out3 (A B V : Type) where
  state : State3 A B V
  leaf : ℕ
  w : World

/-- `Cobweb3Tree.ifit` (cobweb3.py:107-113, 115-131) after its sanity check. -/
noncomputable def ifit3 (hid : A → Bool) (cfg : Cfg3 A B) (st : State3 A B V) (i : Inst3 A V)
    (w : World) : Res (Out3 A B V) := do
  let sc := updateScales cfg.inner st.scales i
  let o ← cobweb (cobweb3Class hid) (Stats3.ecg hid cfg sc) st.root i w
  pure ⟨⟨o.tree, sc⟩, o.leaf, o.w⟩

/-- A new or cleared `Cobweb3Tree` (cobweb3.py:60-76). -/
noncomputable def emptyState3 (hid : A → Bool) (w : World) : State3 A B V :=
  ⟨emptyTree (cobweb3Class hid) w, []⟩

/-- `Cobweb3Tree.clear` (cobweb3.py:70-76): `gensym` names the new root. -/
noncomputable def clear3 (hid : A → Bool) (_ : State3 A B V) (w : World) : State3 A B V :=
  emptyState3 hid w

/-- The states of a `Cobweb3Tree` after a history of successful `ifit` calls; see `Reach`. -/
inductive Reach3 (hid : A → Bool) (cfg : Cfg3 A B) :
    State3 A B V → List (Inst3 A V) → ℕ → Prop
  | init (w : World) : Reach3 hid cfg (emptyState3 hid w) [] (w.ctr + 1)
  | step {st h n i w o} : Reach3 hid cfg st h n → Dict.Nodup i → n ≤ w.ctr →
      ifit3 hid cfg st i w = .ok o → Reach3 hid cfg o.state (h ++ [i]) o.w.ctr

/-- `Cobweb3Tree.categorize` after its sanity check: `_cobweb_categorize` (cobweb.py:204-217) with the
current scales. -/
noncomputable def categorize3 (hid : A → Bool) (cfg : Cfg3 A B) (st : State3 A B V) (i : Inst3 A V)
    (w : World) : Res (Tree (Stats3 A V) × World) :=
  categorize (cobweb3Class hid) (Stats3.ecg hid cfg st.scales) st.root i w

/-- A sequence of `ifit` calls on a `Cobweb3Tree`, each in a given world; see `runs`. -/
noncomputable def runs3 (hid : A → Bool) (cfg : Cfg3 A B) : State3 A B V →
    List (Inst3 A V × World) → Res (State3 A B V × List (ℕ × World))
  | st, [] => .ok (st, [])
  | st, (i, w) :: l => do
    let o ← ifit3 hid cfg st i w
    let r ← runs3 hid cfg o.state l
    pure (r.1, (o.leaf, o.w) :: r.2)

/-- The count of a value's key in `get_weighted_values` (cobweb3.py:349-355): the nominal values, then
the accumulator (`none` in the result type `Option V` of keys below is the accumulator's key). -/
def Tab.entries (t : Tab V) : List (Option V × ℕ) :=
  t.noms.map (fun p => (some p.1, p.2)) ++ match t.cv with
    | none => []
    | some c => [(none, c.num)]

/-- The sum of the counts of an attribute's table. -/
def Tab.total (t : Tab V) : ℕ := (t.entries.map Prod.snd).sum

/-- `probability(attr, None)` (cobweb3.py:442-448). -/
noncomputable def Stats3.probNone (s : Stats3 A V) (a : A) : Res ℝ :=
  let c : ℕ := match s.av.get? a with
    | none => 0
    | some t => t.total
  pyDiv ((s.count : ℝ) - (c : ℝ)) (s.count : ℝ)

/-- Shift and scale used by `probability` on a number (cobweb3.py:455-466).  A missing scale raises
`KeyError`. -/
noncomputable def probScale (cfg : Cfg3 A B) (sc : Scales B) (a : A) : Res (ℝ × ℝ) :=
  if cfg.scaling = 0 then .ok (0, 1)
  else match sc.get? (cfg.inner a) with
    | none => .error .keyErr
    | some c => do
      let q ← pyDiv 1 cfg.scaling
      let s ← c.unbiasedStd
      let scale := q * s
      pure (c.mean, if scale = 0 then 1 else scale)

/-- The density part of `probability` on a number (cobweb3.py:463, 468-474). -/
noncomputable def gaussDensity (c : CV ℝ) (x shift scale : ℝ) : Res ℝ := do
  let v ← pyDiv (x - shift) scale
  let mean ← pyDiv (c.mean - shift) scale
  let ostd ← c.scaledUnbiasedStd scale
  let std ← pySqrt (ostd * ostd + 1 / (2 * Real.pi))
  let q ← pyDiv 1 (Real.sqrt (2 * Real.pi) * std)
  let e ← pyDiv (-((v - mean) * (v - mean))) (2 * std * std)
  pure (q * Real.exp e)

/-- `probability(attr, x)` of a number (cobweb3.py:450-474, 479). -/
noncomputable def Stats3.probNum (cfg : Cfg3 A B) (sc : Scales B) (s : Stats3 A V) (a : A) (x : ℝ) :
    Res ℝ :=
  match (s.av.get? a).bind Tab.cv with
  | none => .ok 0
  | some c => do
    let p ← pyDiv (c.num : ℝ) (s.count : ℝ)
    let ss ← probScale cfg sc a
    let d ← gaussDensity c x ss.1 ss.2
    pure (p * d)

/-- `probability(attr, v)` of a nominal value (cobweb3.py:476-479). -/
noncomputable def Stats3.probNom (s : Stats3 A V) (a : A) (v : V) : Res ℝ :=
  match (s.av.get? a).bind fun t => t.noms.get? v with
  | none => .ok 0
  | some c => pyDiv (c : ℝ) (s.count : ℝ)

/-- `probability` (cobweb3.py:409-479). -/
noncomputable def Stats3.probability (cfg : Cfg3 A B) (sc : Scales B) (s : Stats3 A V) (a : A) :
    Option (Val V) → Res ℝ
  | none => s.probNone a
  | some (.num x) => s.probNum cfg sc a x
  | some (.nom v) => s.probNom a v

end
end CF
