/-
What is read from the dicts of a `Cobweb3Node`: `predict`, `infer_missing`, `log_likelihood`, `pretty_print` and
`output_json` of /repo/concept_formation/cobweb3.py on the tables of `Verif.Model.RawTables`.

In contrast to `Verif.Model.Predict3`, `Json3` and `Print` the entries of an attribute are run through in the order
of the dict, the accumulator where the first number was met.  Sets are enumerated in an order given by parameters.
Simplification: numbers are real numbers.
-/
import Verif.Model.RawTables
import Verif.Model.Predict3
import Verif.Model.Print
import Verif.Model.Json3

namespace CF
section
variable {A B V : Type} [DecidableEq A] [DecidableEq B] [DecidableEq V] (key : V)

/-- The translation of the chosen key into a value (cobweb3.py:398-407).  An `int` has neither `mean` nor
`unbiased_mean`. -/
noncomputable def rawFinish (gauss : Gauss) (t : RawTab V) (fn : ChoiceFn) :
    Option V × World → Res (Option (Val V) × World)
  | (none, w) => .ok (none, w)
  | (some v, w) =>
    if v = key then
      match Dict.get? t v with
      | none => .error .keyErr
      | some (.inl _) => .error .attrErr
      | some (.inr c) =>
        if fn = .mostLikely then .ok (some (.num c.mean), w)
        else do
          let s ← c.unbiasedStd
          let r := gauss c.unbiasedMean s w
          pure (some (.num r.1), r.2)
    else .ok (some (.nom v), w)

/-- `predict` (cobweb3.py:362-407). -/
noncomputable def RawStats.predict (tie : TieBreak (Option V) ℝ) (gauss : Gauss) (s : RawStats A V) (a : A)
    (fn : ChoiceFn) (allowNone : Bool) (w : World) : Res (Option (Val V) × World) :=
  if fn = .other then .error .exc
  else match s.av.get? a with
    | none => .ok (none, w)
    | some t => do
      let choices ← s.weightedValues key a allowNone
      let r ← choose tie (fn = .sampled) choices w
      rawFinish key gauss t fn r

/-- `categorize` (cobweb.py:204-217) after its sanity check: the concept found and the world.  As in `rawIfit`, an
exception raised by a table of the concept comes out at the end. -/
noncomputable def rawCategorize (hid : A → Bool) (ord : RawStats A V → Inst3 A V → List A) (cfg : Cfg3 A B)
    (st : RawState A B V) (i : Inst3 A V) (w : World) : Res (Tree (RawStats A V) × World) := do
  let (t, w) ← categorize (rawClass key hid ord) (fun r => r >>= fun s => s.ecg key hid cfg st.scales)
    (unsettle st.root) i w
  let t ← settle t
  pure (t, w)

/-- The loop of `infer_missing` (cobweb.py:244-249). -/
noncomputable def rawInferLoop (tie : TieBreak (Option V) ℝ) (gauss : Gauss) (s : RawStats A V) (fn : ChoiceFn)
    (allowNone : Bool) : List A → Inst3 A V → World → Res (Inst3 A V × World)
  | [], temp, w => .ok (temp, w)
  | a :: as, temp, w =>
    if temp.has a then rawInferLoop tie gauss s fn allowNone as temp w
    else do
      let (v, w) ← s.predict key tie gauss a fn allowNone w
      match v with
      | none => rawInferLoop tie gauss s fn allowNone as temp w
      | some v => rawInferLoop tie gauss s fn allowNone as (temp.set a v) w

/-- `infer_missing` (cobweb.py:219-251): the completed copy, the argument, the world. -/
noncomputable def rawInferMissing (hid : A → Bool) (ord : RawStats A V → Inst3 A V → List A) (cfg : Cfg3 A B)
    (tie : TieBreak (Option V) ℝ) (gauss : Gauss) (st : RawState A B V) (instance_ : Inst3 A V) (fn : ChoiceFn)
    (allowNone : Bool) (w : World) : Res (Inst3 A V × Inst3 A V × World) := do
  let temp := instance_
  let (concept, w) ← rawCategorize key hid ord cfg st temp w
  let (temp, w) ← rawInferLoop key tie gauss concept.stats fn allowNone concept.stats.av.keys temp w
  pure (temp, instance_, w)

/-- The keys of the table of an attribute. -/
def RawStats.keysOf (s : RawStats A V) (a : A) : List V :=
  match s.av.get? a with
  | none => []
  | some t => Dict.keys t

/-- The set `vals` of `log_likelihood` (cobweb3.py:490-494), as a list without repetitions. -/
def rawVals (s leaf : RawStats A V) (a : A) : List (Option V) :=
  none :: (s.keysOf a ++ (leaf.keysOf a).filter fun v => v ∉ s.keysOf a).map some

/-- The set of attributes of `log_likelihood` (cobweb3.py:489), as a list without repetitions. -/
def rawAttrs (hid : A → Bool) (s leaf : RawStats A V) : List A :=
  let as := s.av.keys.filter fun a => !hid a
  let al := leaf.av.keys.filter fun a => !hid a
  as ++ al.filter fun a => a ∉ as

/-- The case `val == cv_key` of `log_likelihood` (cobweb3.py:497-511): the summand.  An `int` has no `num`. -/
noncomputable def rawLlNum (s leaf : RawStats A V) (a : A) : Res ℝ :=
  match (s.av.get? a).bind (Dict.get? · key), (leaf.av.get? a).bind (Dict.get? · key) with
  | some (.inr n1), some (.inr n2) => do
    let pn1 ← pyDiv (n1.num : ℝ) (s.count : ℝ)
    let pn2 ← pyDiv (n2.num : ℝ) (leaf.count : ℝ)
    let g ← n1.gaussOverlap n2
    let p := pn1 * pn2 * g
    if p > 0 then pure (Real.log p) else .error .exc
  | some _, some _ => .error .attrErr
  | _, _ => .ok 0

/-- The other case (cobweb3.py:513-519). -/
noncomputable def rawLlNom (cfg : Cfg3 A B) (sc : Scales B) (s leaf : RawStats A V) (a : A) (o : Option (Val V)) :
    Res ℝ := do
  let op ← leaf.probability key cfg sc a o
  if op > 0 then do
    let q ← s.probability key cfg sc a o
    let p := q * op
    if p > 0 then pure (Real.log p) else .error .exc
  else pure 0

/-- The summand of one element of `vals` (cobweb3.py:496-519). -/
noncomputable def rawLlKey (cfg : Cfg3 A B) (sc : Scales B) (s leaf : RawStats A V) (a : A) : Option V → Res ℝ
  | none => rawLlNom key cfg sc s leaf a none
  | some v => if v = key then rawLlNum key s leaf a else rawLlNom key cfg sc s leaf a (some (.nom v))

/-- The inner loop of `log_likelihood` (cobweb3.py:496-519). -/
noncomputable def rawLlInner (cfg : Cfg3 A B) (sc : Scales B) (s leaf : RawStats A V) (a : A) :
    List (Option V) → ℝ → Res ℝ
  | [], ll => .ok ll
  | k :: ks, ll => do
    let x ← rawLlKey key cfg sc s leaf a k
    rawLlInner cfg sc s leaf a ks (ll + x)

/-- The outer loop of `log_likelihood` (cobweb3.py:489-519); `ordV` is the order of the set `vals`. -/
noncomputable def rawLlOuter (ordV : List (Option V) → List (Option V)) (cfg : Cfg3 A B) (sc : Scales B)
    (s leaf : RawStats A V) : List A → ℝ → Res ℝ
  | [], ll => .ok ll
  | a :: as, ll => do
    let ll ← rawLlInner key cfg sc s leaf a (ordV (rawVals s leaf a)) ll
    rawLlOuter ordV cfg sc s leaf as ll

/-- `log_likelihood` (cobweb3.py:481-520); `ordA` and `ordV` are the orders in which Python enumerates the sets. -/
noncomputable def RawStats.logLikelihood (ordA : List A → List A) (ordV : List (Option V) → List (Option V))
    (hid : A → Bool) (cfg : Cfg3 A B) (sc : Scales B) (s leaf : RawStats A V) : Res ℝ :=
  rawLlOuter key ordV cfg sc s leaf (ordA (rawAttrs hid s leaf)) 0

/-- `str(self.av_counts[attr][val])` (cobweb3.py:311). -/
noncomputable def cellText (fmt : ℝ → PStr) : Cell → Res PStr
  | .inl n => .ok (natStr n)
  | .inr c => c.repr fmt

/-- The texts of the values of an attribute (cobweb3.py:309-311). -/
noncomputable def rawTexts (fmt : ℝ → PStr) (strV : V → PStr) : RawTab V → Res (List PStr)
  | [] => .ok []
  | (v, x) :: t => do
    let c ← cellText fmt x
    let r ← rawTexts fmt strV t
    pure ((c!"'" ++ strV v ++ c!"': " ++ c) :: r)

/-- `attributes` (cobweb3.py:305-314). -/
noncomputable def rawAttrTexts (fmt : ℝ → PStr) (strA : A → PStr) (strV : V → PStr) :
    Dict A (RawTab V) → Res (List PStr)
  | [] => .ok []
  | (a, t) :: av => do
    let values ← rawTexts fmt strV t
    let rest ← rawAttrTexts fmt strA strV av
    pure ((c!"'" ++ strA a ++ c!"': {" ++ c!", ".intercalate values ++ c!"}") :: rest)

/-- The text of a node (cobweb3.py:305-316). -/
noncomputable def RawStats.row (fmt : ℝ → PStr) (strA : A → PStr) (strV : V → PStr) (s : RawStats A V) : Res PStr := do
  let attributes ← rawAttrTexts fmt strA strV s.av
  pure (c!"{" ++ c!", ".intercalate attributes ++ c!"}: " ++ countStr s.count)

/-- A value of `counts[attr]` in the output: a number of occurrences, the three numbers of a `ContinuousValue`
(continuous_value.py:219-224), or a `ContinuousValue` itself. -/
inductive JsonCell where
  | count (k : ℕ)
  | dist (mean std : ℝ) (n : ℕ)
  | obj (c : CV ℝ)

/-- The inner loop of `output_json` (cobweb3.py:585-590).  An `int` has no `output_json`. -/
noncomputable def rawJsonTab (strV : V → String) : RawTab V → Dict String JsonCell → Res (Dict String JsonCell)
  | [], d => .ok d
  | (v, x) :: t, d =>
    if v = key then
      match x with
      | .inl _ => .error .attrErr
      | .inr c => do
        let (m, s, n) ← c.outputJson
        rawJsonTab strV t (d.set "#ContinuousValue#" (.dist m s n))
    else
      match x with
      | .inl k => rawJsonTab strV t (d.set (strV v) (.count k))
      | .inr c => rawJsonTab strV t (d.set (strV v) (.obj c))

/-- The loop over the attributes (cobweb3.py:581-590). -/
noncomputable def rawJsonCounts (strA : A → String) (strV : V → String) :
    Dict A (RawTab V) → Dict String (Dict String JsonCell) → Res (Dict String (Dict String JsonCell))
  | [], temp => .ok temp
  | (a, t) :: av, temp => do
    let d ← rawJsonTab key strV t []
    rawJsonCounts strA strV av (temp.set (strA a) d)

/-- The entry `guid` (cobweb3.py:574-576): the last key of the dict `av_counts['_guid']`. -/
def rawGuid (g : A) (s : RawStats A V) : Option V := (s.keysOf g).getLast?

/-- The object returned by `Cobweb3Node.output_json` (cobweb3.py:561-597), as a record of its five entries. -/
inductive RawJson (V : Type) where
  | mk (guid : Option V) (name : String) (size : ℕ) (counts : Dict String (Dict String JsonCell))
      (children : List (RawJson V))

mutual
/-- `Cobweb3Node.output_json` (cobweb3.py:561-597); `g` is the attribute `_guid`. -/
noncomputable def rawOutputJson (strA : A → String) (strV : V → String) (g : A) :
    Tree (RawStats A V) → Res (RawJson V)
  | .node id s cs => do
    let temp ← rawJsonCounts key strA strV s.av []
    let children ← rawOutputJsonL strA strV g cs
    pure (.mk (rawGuid g s) ("Concept" ++ toString id) s.count temp children)
/-- The loop over the children (cobweb3.py:592-593). -/
noncomputable def rawOutputJsonL (strA : A → String) (strV : V → String) (g : A) :
    List (Tree (RawStats A V)) → Res (List (RawJson V))
  | [] => .ok []
  | c :: cs => do
    let j ← rawOutputJson strA strV g c
    let js ← rawOutputJsonL strA strV g cs
    pure (j :: js)
end

end
end CF
