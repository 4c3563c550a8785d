/-
Predictions of Cobweb/3 with all Python floats: `get_weighted_values` and `predict` of
/repo/concept_formation/cobweb3.py and `infer_missing` of /repo/concept_formation/cobweb.py.

Simplifications: as in `Verif.Model.Ext3` and `Verif.Model.FloatPredict`.  The weights are ratios of counts, which are
finite numbers, so they are computed as there; only what is predicted can be infinite or `nan`.
-/
import Verif.Model.Ext3
import Verif.Model.FloatPredict

namespace CF
variable {A B V : Type} [DecidableEq A] [DecidableEq B] [DecidableEq V] (fl : ℝ → ℝ)

/-- The keys and counts of the dict `av_counts[attr]` in its order; see `Tab.entriesAt`. -/
def XTab.entriesAt (t : XTab V) (pos : ℕ) : List (Option V × ℕ) :=
  let l := t.noms.map fun p => (some p.1, p.2)
  match t.cv with
  | none => l
  | some c => l.take pos ++ (none, c.num) :: l.drop pos

/-- `val_count` at the end of the loop of `get_weighted_values` (cobweb3.py:348-355). -/
def XTab.total (t : XTab V) : ℕ := ((t.entriesAt 0).map Prod.snd).sum

/-- `get_weighted_values` (cobweb3.py:323-360).  The outer `none` is Python's `None`, the inner one `cv_key`. -/
noncomputable def XStats.weightedValuesX (pos : XTab V → ℕ) (s : XStats A V) (a : A) (allowNone : Bool) :
    Res (List (Option (Option V) × ℝ)) :=
  match s.av.get? a with
  | none => .ok [(none, 1)]
  | some t => do
    let choices ← weightLoopF fl s.count (t.entriesAt (pos t))
    if allowNone then do
      let p ← divF fl (fl (natF fl s.count - natF fl t.total)) (natF fl s.count)
      pure (choices ++ [(none, p)])
    else pure choices

/-- `normalvariate(mean, deviation)` in a state of the generator; it accepts infinities and `nan`. -/
abbrev GaussX := XF → XF → World → XF × World

/-- The translation of the chosen key into a value (cobweb3.py:398-407). -/
noncomputable def finishPredictX (gauss : GaussX) (t : XTab V) (fn : ChoiceFn) :
    Option (Option V) × World → Res (Option (XVal V) × World)
  | (none, w) => .ok (none, w)
  | (some (some v), w) => .ok (some (.nom v), w)
  | (some none, w) =>
    match t.cv with
    | none => .error .keyErr
    | some c =>
      if fn = .mostLikely then .ok (some (.num c.mean), w)
      else do
        let s ← CV.unbiasedStdX fl c
        let r := gauss c.mean s w
        pure (some (.num r.1), r.2)

/-- `predict` (cobweb3.py:362-407). -/
noncomputable def XStats.predictX (pos : XTab V → ℕ) (add : List ℝ → ℝ) (tie : TieBreak (Option (Option V)) ℝ)
    (gauss : GaussX) (s : XStats A V) (a : A) (fn : ChoiceFn) (allowNone : Bool) (w : World) :
    Res (Option (XVal V) × World) :=
  if fn = .other then .error .exc
  else match s.av.get? a with
    | none => .ok (none, w)
    | some t => do
      let choices ← XStats.weightedValuesX fl pos s a allowNone
      let r ← chooseF fl add tie (fn = .sampled) choices w
      finishPredictX fl gauss t fn r

/-- The loop of `infer_missing` (cobweb.py:244-249). -/
noncomputable def inferLoopX (pos : XTab V → ℕ) (add : List ℝ → ℝ) (tie : TieBreak (Option (Option V)) ℝ)
    (gauss : GaussX) (s : XStats A V) (fn : ChoiceFn) (allowNone : Bool) :
    List A → XInst A V → World → Res (XInst A V × World)
  | [], temp, w => .ok (temp, w)
  | a :: as, temp, w =>
    if temp.has a then inferLoopX pos add tie gauss s fn allowNone as temp w
    else do
      let (v, w) ← XStats.predictX fl pos add tie gauss s a fn allowNone w
      match v with
      | none => inferLoopX pos add tie gauss s fn allowNone as temp w
      | some v => inferLoopX pos add tie gauss s fn allowNone as (temp.set a v) w

/-- `infer_missing` (cobweb.py:219-251) of a `Cobweb3Tree`, after its sanity check. -/
noncomputable def inferMissingX (e : XEnv V) (add : List ℝ → ℝ) (hid : A → Bool) (cfg : Cfg3 A B)
    (tie : TieBreak (Option (Option V)) ℝ) (gauss : GaussX) (st : XState A B V) (instance_ : XInst A V)
    (fn : ChoiceFn) (allowNone : Bool) (w : World) : Res (XInst A V × World) := do
  let (concept, w) ← categorizeX fl e hid cfg st instance_ w
  inferLoopX fl e.pos add tie gauss concept.stats fn allowNone concept.stats.av.keys instance_ w

end CF
