/-
Prediction with Cobweb/3 concepts: `get_weighted_values`, `predict`, `log_likelihood`, `output_json` of
/repo/concept_formation/cobweb3.py, and `infer_missing` (inherited from cobweb.py).

The keys of an attribute's table are `Option V`: `some v` for a nominal value, `none` for the string
`"#ContinuousValue#"`.  Simplification: the accumulator is listed after the nominal values, whereas in
the code it stands where the first number was met (this decides only which random number is attached to
which option; theorems hold for all random numbers).
-/
import Verif.Model.Cobweb3

namespace CF
section
variable {A B V : Type} [DecidableEq A] [DecidableEq B] [DecidableEq V]

/-- `get_weighted_values` (cobweb3.py:323-360). The outer `none` is Python's `None`. -/
noncomputable def Stats3.weightedValues (s : Stats3 A V) (a : A) (allowNone : Bool) :
    Res (List (Option (Option V) × ℝ)) :=
  match s.av.get? a with
  | none => .ok [(none, 1)]
  | some t => do
    let choices ← weightLoop s.count t.entries
    if allowNone then do
      let p ← pyDiv ((s.count : ℝ) - (t.total : ℝ)) (s.count : ℝ)
      pure (choices ++ [(none, p)])
    else pure choices

/-- `normalvariate(mu, sigma)`: some number, and the new state of the random generator. -/
abbrev Gauss := ℝ → ℝ → World → ℝ × World

/-- The translation of the chosen key into a value (cobweb3.py:398-407). -/
noncomputable def finishPredict (gauss : Gauss) (t : Tab V) (fn : ChoiceFn) :
    Option (Option V) × World → Res (Option (Val V) × World)
  | (none, w) => .ok (none, w)
  | (some (some v), w) => .ok (some (.nom v), w)
  | (some none, w) =>
    match t.cv with
    | none => .error .keyErr
    | some c =>
      if fn = .mostLikely then .ok (some (.num c.mean), w)
      else do
        let s ← c.unbiasedStd
        let r := gauss c.unbiasedMean s w
        pure (some (.num r.1), r.2)

/-- `predict` (cobweb3.py:362-407). -/
noncomputable def Stats3.predict (tie : TieBreak (Option (Option V)) ℝ) (gauss : Gauss)
    (s : Stats3 A V) (a : A) (fn : ChoiceFn) (allowNone : Bool) (w : World) :
    Res (Option (Val V) × World) :=
  if fn = .other then .error .exc
  else match s.av.get? a with
    | none => .ok (none, w)
    | some t => do
      let choices ← s.weightedValues a allowNone
      let r ← choose tie (fn = .sampled) choices w
      finishPredict gauss t fn r

/-- The loop of `infer_missing` (cobweb.py:244-249). -/
noncomputable def inferLoop3 (tie : TieBreak (Option (Option V)) ℝ) (gauss : Gauss) (s : Stats3 A V)
    (fn : ChoiceFn) (allowNone : Bool) : List A → Inst3 A V → World → Res (Inst3 A V × World)
  | [], temp, w => .ok (temp, w)
  | a :: as, temp, w =>
    if temp.has a then inferLoop3 tie gauss s fn allowNone as temp w
    else do
      let (v, w) ← s.predict tie gauss a fn allowNone w
      match v with
      | none => inferLoop3 tie gauss s fn allowNone as temp w
      | some v => inferLoop3 tie gauss s fn allowNone as (temp.set a v) w

/-- `infer_missing` (cobweb.py:219-251) of a `Cobweb3Tree`. -/
noncomputable def inferMissing3 (hid : A → Bool) (cfg : Cfg3 A B)
    (tie : TieBreak (Option (Option V)) ℝ) (gauss : Gauss) (st : State3 A B V) (instance_ : Inst3 A V)
    (fn : ChoiceFn) (allowNone : Bool) (w : World) : Res (Inst3 A V × Inst3 A V × World) := do
  let temp := instance_
  let (concept, w) ← categorize3 hid cfg st temp w
  let (temp, w) ← inferLoop3 tie gauss concept.stats fn allowNone concept.stats.av.keys temp w
  pure (temp, instance_, w)

/-- The keys of the table of an attribute. -/
def Stats3.keysOf (s : Stats3 A V) (a : A) : List (Option V) :=
  match s.av.get? a with
  | none => []
  | some t => t.entries.map Prod.fst

/-- The keys examined by `log_likelihood` for one attribute (cobweb3.py:490-494). -/
def llVals3 (s leaf : Stats3 A V) (a : A) : List (Option (Option V)) :=
  none :: (s.keysOf a ++ (leaf.keysOf a).filter fun v => v ∉ s.keysOf a).map some

/-- The attributes examined by `log_likelihood` (cobweb3.py:489). -/
def llAttrs3 (hid : A → Bool) (s leaf : Stats3 A V) : List A :=
  let as := (s.visible hid).keys
  let al := (leaf.visible hid).keys
  as ++ al.filter fun a => a ∉ as

/-- The case `val == cv_key` of `log_likelihood` (cobweb3.py:498-511): the summand. -/
noncomputable def llNum (s leaf : Stats3 A V) (a : A) : Res ℝ :=
  match (s.av.get? a).bind Tab.cv, (leaf.av.get? a).bind Tab.cv with
  | some n1, some n2 => do
    let pn1 ← pyDiv (n1.num : ℝ) (s.count : ℝ)
    let pn2 ← pyDiv (n2.num : ℝ) (leaf.count : ℝ)
    let g ← n1.gaussOverlap n2
    let p := pn1 * pn2 * g
    if p > 0 then pure (Real.log p) else .error .exc
  | _, _ => .ok 0

/-- The other case (cobweb3.py:513-519); `o = none` is the value `None`. -/
noncomputable def llNom (cfg : Cfg3 A B) (sc : Scales B) (s leaf : Stats3 A V) (a : A)
    (o : Option (Val V)) : Res ℝ := do
  let op ← leaf.probability cfg sc a o
  if op > 0 then do
    let q ← s.probability cfg sc a o
    let p := q * op
    if p > 0 then pure (Real.log p) else .error .exc
  else pure 0

/-- The summand of one key. -/
noncomputable def llKey (cfg : Cfg3 A B) (sc : Scales B) (s leaf : Stats3 A V) (a : A) :
    Option (Option V) → Res ℝ
  | none => llNom cfg sc s leaf a none
  | some (some v) => llNom cfg sc s leaf a (some (.nom v))
  | some none => llNum s leaf a

/-- The inner loop of `log_likelihood` (cobweb3.py:496-519). -/
noncomputable def llInner3 (cfg : Cfg3 A B) (sc : Scales B) (s leaf : Stats3 A V) (a : A) :
    List (Option (Option V)) → ℝ → Res ℝ
  | [], ll => .ok ll
  | k :: ks, ll => do
    let x ← llKey cfg sc s leaf a k
    llInner3 cfg sc s leaf a ks (ll + x)

/-- The outer loop. -/
noncomputable def llOuter3 (cfg : Cfg3 A B) (sc : Scales B) (s leaf : Stats3 A V) : List A → ℝ → Res ℝ
  | [], ll => .ok ll
  | a :: as, ll => do
    let ll ← llInner3 cfg sc s leaf a (llVals3 s leaf a) ll
    llOuter3 cfg sc s leaf as ll

/-- `log_likelihood` (cobweb3.py:481-520). -/
noncomputable def Stats3.logLikelihood (hid : A → Bool) (cfg : Cfg3 A B) (sc : Scales B)
    (s leaf : Stats3 A V) : Res ℝ :=
  llOuter3 cfg sc s leaf (llAttrs3 hid s leaf) 0

end
end CF
