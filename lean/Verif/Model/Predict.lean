/-
Prediction with nominal concepts: `get_weighted_values`, `predict`, `infer_missing`,
`log_likelihood` of /repo/concept_formation/cobweb.py.
-/
import Verif.Model.Nominal
import Verif.Model.Utils

namespace CF

/-- The argument `choice_fn` of `predict` (cobweb.py:1114-1119): "most likely"/"m", "sampled"/"s" or
anything else. -/
inductive ChoiceFn | mostLikely | sampled | other
  deriving DecidableEq

section
variable {A V : Type} [DecidableEq A] [DecidableEq V]
variable {K : Type} [Field K] [LinearOrder K]

/-- The loop of `get_weighted_values` (cobweb.py:1086-1089), without the running `val_count`. -/
def weightLoop (n : ℕ) : Dict V ℕ → Res (List (Option V × K))
  | [] => .ok []
  | (v, c) :: t => do
    let p ← pyDiv (c : K) (n : K)
    let rest ← weightLoop n t
    pure ((some v, p) :: rest)

/-- `get_weighted_values` (cobweb.py:1060-1094). `none` is Python's `None`. -/
def Stats.weightedValues (s : Stats A V) (a : A) (allowNone : Bool) : Res (List (Option V × K)) :=
  match s.av.get? a with
  | none => .ok [(none, 1)]
  | some t => do
    let choices ← weightLoop s.count t
    let valCount := (t.map Prod.snd).sum
    if allowNone then do
      let p ← pyDiv ((s.count : K) - (valCount : K)) (s.count : K)
      pure (choices ++ [(none, p)])
    else pure choices

/-- `choose(choices)` at cobweb.py:1125. -/
def choose {α : Type} (tie : TieBreak α K) (sampled : Bool) (choices : List (α × K)) (w : World) :
    Res (α × World) :=
  if sampled then (weightedChoice choices ((w.draw 0 : ℚ) : K)).map fun v => (v, w.skip 1)
  else (mostLikelyChoice tie choices w.draw).map fun v => (v, w.skip choices.length)

/-- `predict` (cobweb.py:1096-1126). -/
def Stats.predict (tie : TieBreak (Option V) K) (s : Stats A V) (a : A) (fn : ChoiceFn)
    (allowNone : Bool) (w : World) : Res (Option V × World) :=
  if fn = .other then .error .exc
  else match s.av.get? a with
    | none => .ok (none, w)
    | some _ => do
      let choices ← s.weightedValues a allowNone
      choose tie (fn = .sampled) choices w

/-- The loop of `infer_missing` (cobweb.py:244-249) over the attributes of the concept `s`; the
accumulator is `temp_instance`. -/
def inferLoop (tie : TieBreak (Option V) K) (s : Stats A V) (fn : ChoiceFn) (allowNone : Bool) :
    List A → Inst A V → World → Res (Inst A V × World)
  | [], temp, w => .ok (temp, w)
  | a :: as, temp, w =>
    if temp.has a then inferLoop tie s fn allowNone as temp w
    else do
      let (v, w) ← s.predict tie a fn allowNone w
      match v with
      | none => inferLoop tie s fn allowNone as temp w
      | some v => inferLoop tie s fn allowNone as (temp.set a v) w

/-- `infer_missing` (cobweb.py:219-251) after its sanity check.  The result has the completed
instance, the caller's instance after the call (the code works on a copy, line 241), and the world. -/
def inferMissing (hid : A → Bool) (tie : TieBreak (Option V) K) (t : Tree (Stats A V))
    (instance_ : Inst A V) (fn : ChoiceFn) (allowNone : Bool) (w : World) :
    Res (Inst A V × Inst A V × World) := do
  let temp := instance_
  let (concept, w) ← categorize (cobwebClass hid) (Stats.ecg (K := K) hid) t temp w
  let (temp, w) ← inferLoop tie concept.stats fn allowNone concept.stats.av.keys temp w
  pure (temp, instance_, w)

/-- The values examined by `log_likelihood` for one attribute (cobweb.py:1167-1171). -/
def llVals (s leaf : Stats A V) (a : A) : List (Option V) :=
  let vs := match s.av.get? a with | none => [] | some t => t.keys
  let vl := match leaf.av.get? a with | none => [] | some t => t.keys
  none :: (vs ++ vl.filter fun v => v ∉ vs).map some

/-- The attributes examined by `log_likelihood` (cobweb.py:1166). -/
def llAttrs (hid : A → Bool) (s leaf : Stats A V) : List A :=
  let as := (s.visible hid).keys
  let al := (leaf.visible hid).keys
  as ++ al.filter fun a => a ∉ as

/-- The inner loop of `log_likelihood` (cobweb.py:1173-1180). `lg` is `math.log` on positive numbers;
`math.log(0)` raises `ValueError`. -/
def llInner (lg : K → K) (s leaf : Stats A V) (a : A) : List (Option V) → K → Res K
  | [], ll => .ok ll
  | v :: vs, ll => do
    let op ← leaf.probability a v
    if op > 0 then do
      let q ← s.probability a v
      let p := q * op
      if p ≥ 0 then
        if p = 0 then .error .valueErr else llInner lg s leaf a vs (ll + lg p)
      else .error .exc
    else llInner lg s leaf a vs ll

/-- The outer loop of `log_likelihood`. -/
def llOuter (lg : K → K) (s leaf : Stats A V) : List A → K → Res K
  | [], ll => .ok ll
  | a :: as, ll => do
    let ll ← llInner lg s leaf a (llVals s leaf a) ll
    llOuter lg s leaf as ll

/-- `log_likelihood` (cobweb.py:1157-1182). Sets are enumerated in some order; the result does not
depend on it over exact numbers. -/
def Stats.logLikelihood (lg : K → K) (hid : A → Bool) (s leaf : Stats A V) : Res K :=
  llOuter lg s leaf (llAttrs hid s leaf) 0

end
end CF

namespace CF

/-- The object returned by `output_json` (cobweb.py:1033-1058), as a record of its four entries. -/
inductive NodeJson where
  | mk (name : String) (size : ℕ) (counts : Dict String (Dict String ℕ)) (children : List NodeJson)

namespace NodeJson
def name : NodeJson → String | .mk n _ _ _ => n
def size : NodeJson → ℕ | .mk _ s _ _ => s
def counts : NodeJson → Dict String (Dict String ℕ) | .mk _ _ c _ => c
def children : NodeJson → List NodeJson | .mk _ _ _ cs => cs
end NodeJson

section
variable {A V : Type} [DecidableEq A] [DecidableEq V]

/-- `temp` (cobweb.py:1045-1050): an attribute without values leaves no entry; for the others the
entry is written once per value, always with the same dict. `strA`, `strV` are `str` on attributes
and values. -/
def jsonCounts (strA : A → String) (strV : V → String) (s : Stats A V) : Dict String (Dict String ℕ) :=
  s.av.foldl (fun temp p =>
    p.2.foldl (fun temp _ =>
      temp.set (strA p.1) (Dict.ofPairs (p.2.map fun q => (strV q.1, q.2)))) temp) []

mutual
/-- `output_json` (cobweb.py:1033-1058). -/
def outputJson (strA : A → String) (strV : V → String) : Tree (Stats A V) → NodeJson
  | .node id s cs =>
    .mk ("Concept" ++ toString id) s.count (jsonCounts strA strV s) (outputJsonL strA strV cs)
/-- The loop over the children (cobweb.py:1053-1054). -/
def outputJsonL (strA : A → String) (strV : V → String) : List (Tree (Stats A V)) → List NodeJson
  | [] => []
  | c :: cs => outputJson strA strV c :: outputJsonL strA strV cs
end

end
end CF
