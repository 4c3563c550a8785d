/-
The probability tables of a `Cobweb3Node` as they are in the code: /repo/concept_formation/cobweb3.py.

`av_counts[attr]` is one dict.  Its keys are the nominal values and, for the numbers, the string
`cv_key = "#ContinuousValue#"` (cobweb3.py:24); its values are counts or `ContinuousValue`s.
`Verif.Model.Cobweb3` uses a pair instead (`Tab`: the nominal values, and an optional accumulator); here
nothing keeps a nominal value apart from the key, and every operation that an unexpected entry breaks
raises what Python raises.  `C98` relates the two.

Simplifications:
* numbers are real numbers, as in `Verif.Model.Cobweb3`;
* a method that raises halfway leaves its node half changed; here the result is only the exception;
* `key` is any value of the type of nominal values; only equality with it is used.
-/
import Verif.Model.Float3

namespace CF

/-- `av_counts[attr]` of a `Cobweb3Node`, the dict itself. -/
abbrev RawTab (V : Type) := Dict V Cell

/-- The fields `count` and `av_counts` of a `Cobweb3Node`. -/
structure RawStats (A V : Type) where
  count : ℕ
  av : Dict A (RawTab V)

section
variable {A B V : Type} [DecidableEq A] [DecidableEq B] [DecidableEq V]

/-- The fields of a new `Cobweb3Node()` (cobweb.py:297-312). -/
def RawStats.fresh : RawStats A V := ⟨0, []⟩

variable (key : V)

/-- The update of one attribute's table in `increment_counts` (cobweb3.py:175-181).  An `int` has no
`update`; a `ContinuousValue` cannot be added to 1. -/
noncomputable def RawTab.add (t : RawTab V) : Val V → Res (RawTab V)
  | .num x =>
    match Dict.get? t key with
    | none => .ok (Dict.set t key (.inr (CV.fresh.update x)))
    | some (.inr c) => .ok (Dict.set t key (.inr (c.update x)))
    | some (.inl _) => .error .attrErr
  | .nom v =>
    match Dict.get? t v with
    | none => .ok (Dict.set t v (.inl (0 + 1)))
    | some (.inl n) => .ok (Dict.set t v (.inl (n + 1)))
    | some (.inr _) => .error .typeErr

/-- The loop of `increment_counts` (cobweb3.py:172-181). -/
noncomputable def rawIncrLoop (av : Dict A (RawTab V)) : Inst3 A V → Res (Dict A (RawTab V))
  | [] => .ok av
  | (a, v) :: i => do
    let t ← RawTab.add key ((av.get? a).getD []) v
    rawIncrLoop (av.set a t) i

/-- `increment_counts` (cobweb3.py:147-181). -/
noncomputable def RawStats.incr (s : RawStats A V) (i : Inst3 A V) : Res (RawStats A V) := do
  let av ← rawIncrLoop key s.av i
  pure ⟨s.count + 1, av⟩

/-- One pass of the inner loop of `update_counts_from_node` (cobweb3.py:202-209).  `combine` exists only
for a `ContinuousValue` and raises `ValueError` unless its argument is one (continuous_value.py:189-190);
a `ContinuousValue` cannot be added to anything. -/
noncomputable def RawTab.mergeOne (t : RawTab V) (v : V) (x : Cell) : Res (RawTab V) :=
  if v = key then
    match (Dict.get? t v).getD (.inr CV.fresh), x with
    | .inl _, _ => .error .attrErr
    | .inr _, .inl _ => .error .valueErr
    | .inr c, .inr d => do
      let e ← c.combine d
      pure (Dict.set t v (.inr e))
  else
    match (Dict.get? t v).getD (.inl 0), x with
    | .inl m, .inl n => .ok (Dict.set t v (.inl (m + n)))
    | _, _ => .error .typeErr

/-- The inner loop of `update_counts_from_node` (cobweb3.py:202-209). -/
noncomputable def RawTab.merge (t : RawTab V) : RawTab V → Res (RawTab V)
  | [] => .ok t
  | (v, x) :: l => do
    let t' ← RawTab.mergeOne key t v x
    RawTab.merge t' l

/-- The outer loop of `update_counts_from_node` (cobweb3.py:200-209). -/
noncomputable def rawMergeLoop (av : Dict A (RawTab V)) : Dict A (RawTab V) → Res (Dict A (RawTab V))
  | [] => .ok av
  | (a, tn) :: l => do
    let t ← RawTab.merge key ((av.get? a).getD []) tn
    rawMergeLoop (av.set a t) l

/-- `update_counts_from_node` (cobweb3.py:183-209). -/
noncomputable def RawStats.addFrom (s n : RawStats A V) : Res (RawStats A V) := do
  let av ← rawMergeLoop key s.av n.av
  pure ⟨s.count + n.count, av⟩

open Classical in
/-- The test on one attribute that both the node and the instance have (cobweb3.py:541-558).  An `int` has
no `num`; a `ContinuousValue` equals no number. -/
noncomputable def RawTab.matches (count : ℕ) (t : RawTab V) : Val V → Res Bool
  | .num x =>
    match Dict.get? t key with
    | none => .ok false
    | some (.inl _) => if t.length ≠ 1 then .ok false else .error .attrErr
    | some (.inr c) =>
      if t.length ≠ 1 ∨ c.num ≠ count then .ok false
      else do
        let s ← c.unbiasedStd
        if ¬ s = 0 then pure false
        else if ¬ c.unbiasedMean = x then pure false
        else pure true
  | .nom v =>
    match Dict.get? t v with
    | none => .ok false
    | some (.inl k) => .ok (k == count)
    | some (.inr _) => .ok false

/-- The body of the loop of `is_exact_match` for one attribute (cobweb3.py:533-558). -/
noncomputable def RawStats.matchesAttr (hid : A → Bool) (s : RawStats A V) (i : Inst3 A V) (a : A) :
    Res Bool :=
  if hid a then .ok true
  else match Dict.get? i a, s.av.get? a with
    | some v, some t => RawTab.matches key s.count t v
    | some _, none => .ok false
    | none, some _ => .ok false
    | none, none => .ok true

/-- The loop of `is_exact_match` (cobweb3.py:532-559) over the attributes in some order. -/
noncomputable def RawStats.isExact (hid : A → Bool) (s : RawStats A V) (i : Inst3 A V) :
    List A → Res Bool
  | [] => .ok true
  | a :: as => do
    let b ← s.matchesAttr key hid i a
    if b then RawStats.isExact hid s i as else pure false

/-- The contribution of one entry to `expected_correct_guesses` (cobweb3.py:263-285). -/
noncomputable def rawCell (cfg : Cfg3 A B) (sc : Scales B) (n : ℕ) (a : A) (v : V) (x : Cell) : Res ℝ :=
  if v = key then do
    let scale ← ecgScale cfg sc a
    match x with
    | .inl _ => .error .attrErr
    | .inr c => cvTerm n scale c
  else
    match x with
    | .inl c => do
      let p ← pyDiv (c : ℝ) (n : ℝ)
      pure (p * p)
    | .inr _ => .error .typeErr

/-- The inner loop of `expected_correct_guesses` (cobweb3.py:263-285). -/
noncomputable def rawCellLoop (cfg : Cfg3 A B) (sc : Scales B) (n : ℕ) (a : A) : RawTab V → ℝ → Res ℝ
  | [], acc => .ok acc
  | (v, x) :: t, acc => do
    let q ← rawCell key cfg sc n a v x
    rawCellLoop cfg sc n a t (acc + q)

/-- The outer loop of `expected_correct_guesses` (cobweb3.py:260-285). -/
noncomputable def rawEcgLoop (cfg : Cfg3 A B) (sc : Scales B) (n : ℕ) : Dict A (RawTab V) → ℝ → Res ℝ
  | [], acc => .ok acc
  | (a, t) :: ts, acc => do
    let acc ← rawCellLoop key cfg sc n a t acc
    rawEcgLoop cfg sc n ts acc

/-- `expected_correct_guesses` (cobweb3.py:211-287). -/
noncomputable def RawStats.ecg (hid : A → Bool) (cfg : Cfg3 A B) (sc : Scales B) (s : RawStats A V) :
    Res ℝ := do
  let g ← rawEcgLoop key cfg sc s.count (s.av.filter fun p => !hid p.1) 0
  pyDiv g ((s.av.filter fun p => !hid p.1).length : ℝ)

/-- `Cobweb3Node` with the tables above as a node class.  A table is the table or the exception that
computing it raised; the exception is raised by `expected_correct_guesses` and at the end of `ifit`
(`settle`), whereas the code raises it at once.  `ord s i` is the order in which the set
`set(instance).union(set(self.attrs()))` is run through (cobweb3.py:532); a test that raises counts as
failed. -/
noncomputable def rawClass (hid : A → Bool) (ord : RawStats A V → Inst3 A V → List A) :
    NodeClass (Inst3 A V) (Res (RawStats A V)) where
  fresh := .ok RawStats.fresh
  count r := match r with
    | .ok s => s.count
    | .error _ => 0
  incr r i := r >>= fun s => s.incr key i
  addFrom r q := r >>= fun s => q >>= fun n => s.addFrom key n
  isExact r i := match r >>= fun s => s.isExact key hid i (ord s i) with
    | .ok b => b
    | .error _ => false

mutual
/-- The tree, if no table of it is an exception; otherwise the first one. -/
def settle {S : Type} : Tree (Res S) → Res (Tree S)
  | .node id s cs => do
    let s ← s
    let cs ← settleL cs
    pure (.node id s cs)
def settleL {S : Type} : List (Tree (Res S)) → Res (List (Tree S))
  | [] => .ok []
  | c :: cs => do
    let c ← settle c
    let cs ← settleL cs
    pure (c :: cs)
end

mutual
/-- The tree with its tables. -/
def unsettle {S : Type} : Tree S → Tree (Res S)
  | .node id s cs => .node id (.ok s) (unsettleL cs)
def unsettleL {S : Type} : List (Tree S) → List (Tree (Res S))
  | [] => []
  | c :: cs => unsettle c :: unsettleL cs
end

/-- A `Cobweb3Tree`: the root and `attr_scales`. -/
structure RawState (A B V : Type) where
  root : Tree (RawStats A V)
  scales : Scales B

/-- A new `Cobweb3Tree` (cobweb3.py:60-76). -/
def emptyRaw (w : World) : RawState A B V := ⟨.node (w.ctr + 1) RawStats.fresh [], []⟩

/-- `Cobweb3Tree.ifit` (cobweb3.py:107-113, 115-131) after its sanity check: the new tree, the id of the returned
concept, the world. -/
noncomputable def rawIfit (hid : A → Bool) (ord : RawStats A V → Inst3 A V → List A) (cfg : Cfg3 A B)
    (st : RawState A B V) (i : Inst3 A V) (w : World) : Res (RawState A B V × ℕ × World) := do
  let sc := updateScales cfg.inner st.scales i
  let o ← cobweb (rawClass key hid ord) (fun r => r >>= fun s => s.ecg key hid cfg sc)
    (unsettle st.root) i w
  let t ← settle o.tree
  pure (⟨t, sc⟩, o.leaf, o.w)

/-- A sequence of `ifit` calls, each in a given world. -/
noncomputable def rawRuns (hid : A → Bool) (ord : RawStats A V → Inst3 A V → List A) (cfg : Cfg3 A B) :
    RawState A B V → List (Inst3 A V × World) → Res (RawState A B V × List (ℕ × World))
  | st, [] => .ok (st, [])
  | st, (i, w) :: l => do
    let o ← rawIfit key hid ord cfg st i w
    let r ← rawRuns hid ord cfg o.1 l
    pure (r.1, (o.2.1, o.2.2) :: r.2)

/-- The count of an entry in `get_weighted_values` (cobweb3.py:350-353). -/
def rawCount (v : V) : Cell → Res ℕ
  | .inl n => if v = key then .error .attrErr else .ok n
  | .inr c => if v = key then .ok c.num else .error .typeErr

/-- The loop of `get_weighted_values` (cobweb3.py:348-355): the choices and `val_count`. -/
noncomputable def rawWeightLoop (count : ℕ) : RawTab V → Res (List (V × ℝ) × ℕ)
  | [] => .ok ([], 0)
  | (v, x) :: t => do
    let c ← rawCount key v x
    let p ← pyDiv (c : ℝ) (count : ℝ)
    let r ← rawWeightLoop count t
    pure ((v, p) :: r.1, c + r.2)

/-- `get_weighted_values` (cobweb3.py:323-360).  `none` is Python's `None`. -/
noncomputable def RawStats.weightedValues (s : RawStats A V) (a : A) (allowNone : Bool) :
    Res (List (Option V × ℝ)) :=
  match s.av.get? a with
  | none => .ok [(none, 1)]
  | some t => do
    let r ← rawWeightLoop key s.count t
    let choices := r.1.map fun p => (some p.1, p.2)
    if allowNone then do
      let p ← pyDiv ((s.count : ℝ) - (r.2 : ℝ)) (s.count : ℝ)
      pure (choices ++ [(none, p)])
    else pure choices

/-- The sum in `probability(attr, None)` (cobweb3.py:444-446). -/
def rawTotal : RawTab V → Res ℕ
  | [] => .ok 0
  | (v, x) :: t => do
    let c ← rawCount key v x
    let r ← rawTotal t
    pure (c + r)

/-- `probability` (cobweb3.py:409-479). -/
noncomputable def RawStats.probability (cfg : Cfg3 A B) (sc : Scales B) (s : RawStats A V) (a : A) :
    Option (Val V) → Res ℝ
  | none =>
    match s.av.get? a with
    | none => pyDiv ((s.count : ℝ) - 0) (s.count : ℝ)
    | some t => do
      let c ← rawTotal key t
      pyDiv ((s.count : ℝ) - (c : ℝ)) (s.count : ℝ)
  | some (.num x) =>
    match (s.av.get? a).bind fun t => Dict.get? t key with
    | none => .ok 0
    | some (.inl _) => .error .attrErr
    | some (.inr c) => do
      let p ← pyDiv (c.num : ℝ) (s.count : ℝ)
      let ss ← probScale cfg sc a
      let d ← gaussDensity c x ss.1 ss.2
      pure (p * d)
  | some (.nom v) =>
    match (s.av.get? a).bind fun t => Dict.get? t v with
    | none => .ok 0
    | some (.inl c) => pyDiv (c : ℝ) (s.count : ℝ)
    | some (.inr _) => .error .typeErr

end
end CF
