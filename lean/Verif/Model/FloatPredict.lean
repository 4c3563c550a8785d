/-
Choices, predictions and probabilities of Cobweb/3 in floating point: `weighted_choice` of
/repo/concept_formation/utils.py and `get_weighted_values`, `predict`, `probability` of
/repo/concept_formation/cobweb3.py, and `infer_missing` of /repo/concept_formation/cobweb.py.

Simplifications: as in `Verif.Model.Float3`.  How `sum` adds floats depends on the version of Python (one rounding
per addition before 3.12, compensated summation since), so it is an argument `add`.  `random()` returns a multiple of
2^-53 below 1.  `normalvariate` is some function of mean, deviation and the state of the generator.  `math.exp` is
correctly rounded.  With `fl = id` the definitions are those of `Verif.Model.Utils`, `Verif.Model.Predict3` and
`Verif.Model.Cobweb3` (`C100_unrounded`).
-/
import Verif.Model.FloatLikelihood

namespace CF
variable (fl : ℝ → ℝ)

/-- `sum` of floats before Python 3.12: from the left, each addition rounded. -/
noncomputable def sumF (ws : List ℝ) : ℝ := ws.foldl (fun acc w => fl (acc + w)) 0

/-- The loop of `weighted_choice` (utils.py:143-150): `r` is the number drawn, the accumulator is `upto`. -/
noncomputable def weightedLoopF {α : Type} (r : ℝ) : List (α × ℝ) → ℝ → Res α
  | [], _ => .error .valueErr
  | (c, w) :: cs, upto =>
    if w < 0 then .error .valueErr
    else if fl (upto + w) > r then .ok c
    else weightedLoopF r cs (fl (upto + w))

/-- `weighted_choice` (utils.py:116-150).  `u` is the result of `random()`; `uniform(0, total)` is
`0 + (total - 0) * u`. -/
noncomputable def weightedChoiceF {α : Type} (add : List ℝ → ℝ) (choices : List (α × ℝ)) (u : ℝ) : Res α :=
  weightedLoopF fl (fl (add (choices.map Prod.snd) * u)) choices 0

/-- `choose(choices)` at cobweb3.py:396.  `most_likely_choice` does no arithmetic. -/
noncomputable def chooseF {α : Type} (add : List ℝ → ℝ) (tie : TieBreak α ℝ) (sampled : Bool)
    (choices : List (α × ℝ)) (w : World) : Res (α × World) :=
  if sampled then (weightedChoiceF fl add choices ((w.draw 0 : ℚ) : ℝ)).map fun v => (v, w.skip 1)
  else (mostLikelyChoice tie choices w.draw).map fun v => (v, w.skip choices.length)

section
variable {A B V : Type} [DecidableEq A] [DecidableEq B] [DecidableEq V]

/-- The keys and counts of the dict `av_counts[attr]` in its order; the accumulator's key comes after the first
`pos` nominal values. -/
def Tab.entriesAt (t : Tab V) (pos : ℕ) : List (Option V × ℕ) :=
  let l := t.noms.map fun p => (some p.1, p.2)
  match t.cv with
  | none => l
  | some c => l.take pos ++ (none, c.num) :: l.drop pos

/-- The loop of `get_weighted_values` (cobweb3.py:349-355), without the running `val_count`. -/
noncomputable def weightLoopF (n : ℕ) : List (Option V × ℕ) → Res (List (Option (Option V) × ℝ))
  | [] => .ok []
  | (v, c) :: t => do
    let p ← divF fl (natF fl c) (natF fl n)
    let rest ← weightLoopF n t
    pure ((some v, p) :: rest)

/-- `get_weighted_values` (cobweb3.py:323-360). The outer `none` is Python's `None`. -/
noncomputable def Stats3.weightedValuesF (pos : Tab V → ℕ) (s : Stats3 A V) (a : A) (allowNone : Bool) :
    Res (List (Option (Option V) × ℝ)) :=
  match s.av.get? a with
  | none => .ok [(none, 1)]
  | some t => do
    let choices ← weightLoopF fl s.count (t.entriesAt (pos t))
    if allowNone then do
      let p ← divF fl (fl (natF fl s.count - natF fl t.total)) (natF fl s.count)
      pure (choices ++ [(none, p)])
    else pure choices

/-- The translation of the chosen key into a value (cobweb3.py:398-407). -/
noncomputable def finishPredictF (gauss : Gauss) (t : Tab V) (fn : ChoiceFn) :
    Option (Option V) × World → Res (Option (Val V) × World)
  | (none, w) => .ok (none, w)
  | (some (some v), w) => .ok (some (.nom v), w)
  | (some none, w) =>
    match t.cv with
    | none => .error .keyErr
    | some c =>
      if fn = .mostLikely then .ok (some (.num c.mean), w)
      else do
        let s ← CV.unbiasedStdF fl c
        let r := gauss c.unbiasedMean s w
        pure (some (.num r.1), r.2)

/-- `predict` (cobweb3.py:362-407). -/
noncomputable def Stats3.predictF (pos : Tab V → ℕ) (add : List ℝ → ℝ) (tie : TieBreak (Option (Option V)) ℝ)
    (gauss : Gauss) (s : Stats3 A V) (a : A) (fn : ChoiceFn) (allowNone : Bool) (w : World) :
    Res (Option (Val V) × World) :=
  if fn = .other then .error .exc
  else match s.av.get? a with
    | none => .ok (none, w)
    | some t => do
      let choices ← Stats3.weightedValuesF fl pos s a allowNone
      let r ← chooseF fl add tie (fn = .sampled) choices w
      finishPredictF fl gauss t fn r

/-- The loop of `infer_missing` (cobweb.py:244-249). -/
noncomputable def inferLoop3F (pos : Tab V → ℕ) (add : List ℝ → ℝ) (tie : TieBreak (Option (Option V)) ℝ)
    (gauss : Gauss) (s : Stats3 A V) (fn : ChoiceFn) (allowNone : Bool) :
    List A → Inst3 A V → World → Res (Inst3 A V × World)
  | [], temp, w => .ok (temp, w)
  | a :: as, temp, w =>
    if temp.has a then inferLoop3F pos add tie gauss s fn allowNone as temp w
    else do
      let (v, w) ← Stats3.predictF fl pos add tie gauss s a fn allowNone w
      match v with
      | none => inferLoop3F pos add tie gauss s fn allowNone as temp w
      | some v => inferLoop3F pos add tie gauss s fn allowNone as (temp.set a v) w

/-- `infer_missing` (cobweb.py:219-251) of a `Cobweb3Tree`. -/
noncomputable def inferMissing3F (pos : Tab V → ℕ) (add : List ℝ → ℝ) (hid : A → Bool) (cfg : Cfg3 A B)
    (tie : TieBreak (Option (Option V)) ℝ) (gauss : Gauss) (st : State3 A B V) (instance_ : Inst3 A V)
    (fn : ChoiceFn) (allowNone : Bool) (w : World) : Res (Inst3 A V × Inst3 A V × World) := do
  let temp := instance_
  let (concept, w) ← categorize3F fl pos hid cfg st temp w
  let (temp, w) ← inferLoop3F fl pos add tie gauss concept.stats fn allowNone concept.stats.av.keys temp w
  pure (temp, instance_, w)

/-- Shift and scale used by `probability` on a number (cobweb3.py:455-466).  A missing scale raises
`KeyError`. -/
noncomputable def probScaleF (cfg : Cfg3 A B) (sc : Scales B) (a : A) : Res (ℝ × ℝ) :=
  if cfg.scaling = 0 then .ok (0, 1)
  else match sc.get? (cfg.inner a) with
    | none => .error .keyErr
    | some c => do
      let q ← divF fl 1 cfg.scaling
      let s ← CV.unbiasedStdF fl c
      let scale := fl (q * s)
      pure (c.mean, if scale = 0 then 1 else scale)

/-- The computation of `p` in `probability` on a number (cobweb3.py:463, 468-474), given `prob_attr`.  Without
scaling the code does not touch `val`; here it is shifted by zero and divided by one, which are exact. -/
noncomputable def gaussDensityF (c : CV ℝ) (prob x shift scale : ℝ) : Res ℝ := do
  let v ← divF fl (fl (x - shift)) scale
  let mean ← divF fl (fl (c.mean - shift)) scale
  let ostd ← CV.scaledUnbiasedStdF fl c scale
  let noise ← divF fl 1 (fl (2 * piF fl))
  let std ← sqrtF fl (fl (fl (ostd * ostd) + noise))
  let root ← sqrtF fl (fl (2 * piF fl))
  let q ← divF fl 1 (fl (root * std))
  let e ← divF fl (-(fl (fl (v - mean) * fl (v - mean)))) (fl (fl (2 * std) * std))
  pure (fl (fl (prob * q) * expF fl e))

/-- `probability(attr, x)` of a number (cobweb3.py:450-474, 479). -/
noncomputable def Stats3.probNumF (cfg : Cfg3 A B) (sc : Scales B) (s : Stats3 A V) (a : A) (x : ℝ) : Res ℝ :=
  match (s.av.get? a).bind Tab.cv with
  | none => .ok 0
  | some c => do
    let p ← divF fl (natF fl c.num) (natF fl s.count)
    let ss ← probScaleF fl cfg sc a
    gaussDensityF fl c p x ss.1 ss.2

/-- `probability` (cobweb3.py:409-479). -/
noncomputable def Stats3.probabilityF (cfg : Cfg3 A B) (sc : Scales B) (s : Stats3 A V) (a : A) :
    Option (Val V) → Res ℝ
  | none => Stats3.probNoneF fl s a
  | some (.num x) => Stats3.probNumF fl cfg sc s a x
  | some (.nom v) => Stats3.probNomF fl s a v

end
end CF
