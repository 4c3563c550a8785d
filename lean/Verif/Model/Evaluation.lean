/-
/repo/concept_formation/evaluation.py.

Simplifications:
* the functions are given a tree by what they use of it (`PyTree`); the trees of the package follow below;
* the numbers of an error are exact;
* `shuffle` (random.shuffle) is any function of the list and the state of the generator; the list as it is
  after an exception is not recorded.
-/
import Verif.Model.Fit
import Verif.Model.Dummy
import Verif.Model.Sanity

namespace CF

/-- A tree as the evaluation uses it.  Concepts are addresses.  `world` is the state of the random number
generator and of the counter of nodes, which belong to the modules. -/
structure PyTree (σ : Type) where
  clear : σ → σ
  ifit : PyInst → SM σ ℕ
  categorize : PyInst → SM σ ℕ
  /-- `concept.probability(attr, val)`. -/
  probability : ℕ → Py → Py → SM σ ℝ
  /-- `concept.predict(attr)`. -/
  predict : ℕ → Py → SM σ Py
  world : σ → World
  setWorld : World → σ → σ

section
variable {σ R : Type}

/-- `if attr in instance: instance = {a: instance[a] for a in instance if not a == attr}`
(evaluation.py:45-46, 94-95). -/
def without (i : PyInst) (a : Py) : PyInst := if i.has a then i.filter fun p => ¬ p.1 = a else i

/-- `probability` (evaluation.py:18-65).  An attribute that cannot be hashed raises at `attr in instance`. -/
def evalProbability (T : PyTree σ) (i : PyInst) (a v : Py) : SM σ ℝ :=
  if ¬ a.hashable then SM.raise .typeErr else do
  let concept ← T.categorize (without i a)
  match v with
  | .dict _ => SM.raise .exc
  | v => T.probability concept a v

/-- `val - prediction` for a number (evaluation.py:107): `bool` is a subclass of `int`. -/
def pySub (q : ℚ) : Py → Res ℚ
  | .num r => .ok (q - r)
  | .bool b => .ok (q - if b then 1 else 0)
  | _ => .error .typeErr

/-- `isNumber` (utils.py:63-68). -/
def isNum : Py → Bool
  | .num _ => true
  | _ => false

/-- `error` (evaluation.py:68-120). -/
def evalError (T : PyTree σ) (i : PyInst) (a v : Py) : SM σ ℚ :=
  if ¬ a.hashable then SM.raise .typeErr else do
  let concept ← T.categorize (without i a)
  match v with
  | .dict _ => SM.raise .exc
  | .num q => do
    let p ← T.predict concept a
    if p = .none then SM.raise .exc else SM.lift (pySub q p)
  | v => do
    let p ← T.predict concept a
    if v = .none ∧ isNum p = true then SM.raise .exc
    else if v = p then SM.ret 0 else SM.ret 1

/-- `absolute_error` (evaluation.py:123-143). -/
def evalAbsolute (T : PyTree σ) (i : PyInst) (a v : Py) : SM σ ℚ := do
  let e ← evalError T i a v
  SM.ret |e|

/-- `squared_error` (evaluation.py:146-167). -/
def evalSquared (T : PyTree σ) (i : PyInst) (a v : Py) : SM σ ℚ := do
  let e ← evalError T i a v
  SM.ret (e * e)

/-- The inner loop of `incremental_evaluation` (evaluation.py:239-245). -/
def evalRow (T : PyTree σ) (score : PyInst → Py → Py → SM σ R) (a : Py) : List PyInst → SM σ (List R)
  | [] => SM.ret []
  | i :: is =>
    if ¬ a.hashable then SM.raise .typeErr else do
    let r ← score i a ((i.get? a).getD .none)
    let _ ← T.ifit i
    let rs ← evalRow T score a is
    SM.ret (r :: rs)

/-- `l[:k]`. -/
def prefixTo {α : Type} (l : List α) (k : ℤ) : List α :=
  if 0 ≤ k then l.take k.toNat else l.take (l.length + k).toNat

/-- `shuffle(instances)`. -/
def shuffleAt (T : PyTree σ) (shuffle : List PyInst → World → List PyInst × World) (is : List PyInst) :
    SM σ (List PyInst) := fun s =>
  (.ok (shuffle is (T.world s)).1, T.setWorld (shuffle is (T.world s)).2 s)

/-- `if randomize_first or r > 0: shuffle(instances)` (evaluation.py:234-235). -/
def shuffleRun (T : PyTree σ) (first : Bool) (r : ℕ) (shuffle : List PyInst → World → List PyInst × World)
    (is : List PyInst) : SM σ (List PyInst) :=
  if first || decide (r > 0) then shuffleAt T shuffle is else SM.ret is

/-- The outer loop of `incremental_evaluation` (evaluation.py:230-246), from run `r` on; the result has the
table and the list of instances, which is shuffled in place. -/
def evalRuns (T : PyTree σ) (score : PyInst → Py → Py → SM σ R) (a : Py) (len : ℤ) (first : Bool)
    (shuffle : List PyInst → World → List PyInst × World) :
    (n r : ℕ) → List PyInst → SM σ (List (List R) × List PyInst)
  | 0, _, is => SM.ret ([], is)
  | n + 1, r, is => do
    SM.put (T.clear (← SM.get))
    let is ← shuffleRun T first r shuffle is
    let row ← evalRow T score a (prefixTo is (len + 2))
    let (rows, is) ← evalRuns T score a len first shuffle n (r + 1) is
    SM.ret (row :: rows, is)

/-- `incremental_evaluation` (evaluation.py:187-247). -/
def incrementalEvaluation (T : PyTree σ) (score : PyInst → Py → Py → SM σ R) (a : Py) (len runs : ℤ)
    (first : Bool) (shuffle : List PyInst → World → List PyInst × World) (is : List PyInst) :
    SM σ (List (List R) × List PyInst) :=
  evalRuns T score a len first shuffle runs.toNat 0 is

end

/-! ### The trees -/

section
variable {S : Type}

/-- The table of the concept at an address. -/
def tableAt (a : ℕ) (h : Heap S) : Res S :=
  match h.objs a with
  | some r => .ok r.stats
  | none => .error .attrErr

end

/-- `CobwebNode.probability` (cobweb.py:1128-1155) on any Python value: one that cannot be hashed raises when
it is looked up in a table. -/
noncomputable def probabilityPy (s : Stats Py Py) (a v : Py) : Res ℝ :=
  if v = .none then s.probability a none
  else if v.hashable then s.probability a (some v)
  else if s.av.has a then .error .typeErr else .ok 0

/-- `CobwebTree`. -/
noncomputable def cobwebTree (tie : TieBreak (Option Py) ℚ) : PyTree (Heap (Stats Py Py)) where
  clear h := (clearH (cobwebClass hid3) h).2
  ifit i := do
    SM.lift (sanityCheck i)
    cobwebH (cobwebClass hid3) (fun _ => Stats.ecg (K := ℚ) hid3) i
  categorize i := do
    SM.lift (sanityCheck i)
    categorizeH (cobwebClass hid3) (fun _ => Stats.ecg (K := ℚ) hid3) i
  probability c a v h := ((tableAt c h).bind fun s => probabilityPy s a v, h)
  predict c a h :=
    match (tableAt c h).bind fun s => s.predict tie a .mostLikely true h.w with
    | .ok (v, w) => (.ok (v.getD .none), { h with w := w })
    | .error e => (.error e, h)
  world h := h.w
  setWorld w h := { h with w := w }

/-- `Cobweb3Node.probability` (cobweb3.py:409-479) on any Python value. -/
noncomputable def probabilityPy3 (cfg : Cfg3 Py Py) (sc : Scales Py) (s : Stats3 Py Py) (a v : Py) : Res ℝ :=
  if v = .none then s.probability cfg sc a none
  else if v.hashable then s.probability cfg sc a (some (val3 v))
  else if s.av.has a then .error .typeErr else .ok 0

/-- `concept.predict(attr)` of a `Cobweb3Node`, with the defaults 'most likely' and `allow_none`
(cobweb3.py:362). -/
noncomputable def predictPy3 (N : Numbers) (c : ℕ) (a : Py) (h : Heap (Stats3 Py Py)) :
    Res Py × Heap (Stats3 Py Py) :=
  match (tableAt c h).bind fun s => s.predict N.tie N.gauss a .mostLikely true h.w with
  | .ok (v, w) => (.ok ((v.map N.toPy).getD .none), { h with w := w })
  | .error e => (.error e, h)

/-- `Cobweb3Tree`: the store and `attr_scales`. -/
noncomputable def cobweb3Tree (cfg : Cfg3 Py Py) (N : Numbers) :
    PyTree (Heap (Stats3 Py Py) × Scales Py) where
  clear st := ((clearH (cobweb3Class hid3) st.1).2, [])
  ifit i := do
    SM.lift (sanityCheck i)
    cobweb3H hid3 cfg (inst3 i)
  categorize i := do
    SM.lift (sanityCheck i)
    fun st => let (r, h) := categorizeH (cobweb3Class hid3) (ecg3H hid3 cfg st.2) (inst3 i) st.1
      (r, h, st.2)
  probability c a v st := ((tableAt c st.1).bind fun s => probabilityPy3 cfg st.2 s a v, st)
  predict c a st := let (r, h) := predictPy3 N c a st.1
    (r, h, st.2)
  world st := st.1.w
  setWorld w st := ({ st.1 with w := w }, st.2)

/-- `Cobweb3Tree.fit` (cobweb.py:86-113 with cobweb.py:115-131 and cobweb3.py:95-113), with the check. -/
noncomputable def cobweb3Fit (cfg : Cfg3 Py Py) (N : Numbers) (sh : Shuffle PyInst) (instances : List PyInst)
    (iterations : ℕ) (rf : Bool) (s : Heap (Stats3 Py Py) × Scales Py) :
    Res Unit × List PyInst × Heap (Stats3 Py Py) × Scales Py :=
  fitWith (cobweb3Tree cfg N).ifit (fun l s => ((sh l s.1.w).1, { s.1 with w := (sh l s.1.w).2 }, s.2))
    instances iterations rf s

/-- `TrestleTree`; the search of the structure mapper may depend on everything. -/
noncomputable def trestleTree (c : TrestleCfg) (S : PyInst → TState → Search) (N : Numbers) : PyTree TState where
  clear := trestleClear
  ifit i st := trestleIfit c (S i st) i st
  categorize i st := trestleCategorize c (S i st) i st
  probability x a v st := ((tableAt x st.h).bind fun s => probabilityPy3 c.cobweb3 st.sc s a v, st)
  predict x a st := let (r, h) := predictPy3 N x a st.h
    (r, { st with h := h })
  world st := st.h.w
  setWorld w st := { st with h := { st.h with w := w } }

/-- `DummyTree`, without structure mapping as `incremental_evaluation` calls it.  `probability` of a number
that was seen raises `AttributeError`, because a `DummyTree` has no attribute `scaling` (dummy.py:29-33,
cobweb3.py:455). -/
noncomputable def dummyTree (c : TrestleCfg) (S : Search) (N : Numbers) : PyTree TState where
  clear := trestleClear
  ifit := dummyIfit c S false
  categorize := dummyCategorize
  probability x a v st := ((tableAt x st.h).bind fun s =>
    if isNum v ∧ ((s.av.get? a).bind Tab.cv).isSome then .error .attrErr
    else probabilityPy3 c.cobweb3 st.sc s a v, st)
  predict x a st := let (r, h) := predictPy3 N x a st.h
    (r, { st with h := h })
  world st := st.h.w
  setWorld w st := { st with h := { st.h with w := w } }

end CF
