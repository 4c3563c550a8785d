/-
/repo/concept_formation/trestle.py: `TrestleTree`.

Simplifications:
* an instance reaches the tree as a Python dict (`PyInst`); its preprocessed form is read as an instance of
  Cobweb/3 by `inst3`: numbers are numeric values, everything else is nominal (cobweb3.py:101, 175 and
  utils.py:63-68: a `bool` is not a number, there is no `nan`);
* the predictions of `infer_missing` are real numbers, which `Numbers` turns into Python numbers again;
* in `infer_missing`, which does not check the instance, an attribute or value that the check would reject
  raises as soon as it is categorized below the root; the nodes made until then are left out;
* the search of the structure mapper uses up concept names (`mapping_cost` makes nodes) and random numbers; a
  call here starts with the store as it is after that search.  The sequences of calls that theorems speak of
  allow the store to change in this way before every call.
-/
import Verif.Model.Heap3
import Verif.Model.Predict3
import Verif.Model.StructureMapper
import Verif.Model.Convert

namespace CF

/-- A Python value as a value of an instance of Cobweb/3 (utils.py:63-68). -/
noncomputable def val3 : Py → Val Py
  | .num q => .num (q : ℝ)
  | v => .nom v

/-- An instance of Cobweb/3. -/
noncomputable def inst3 (i : PyInst) : Inst3 Py Py := i.map fun p => (p.1, val3 p.2)

/-- `attr[0] == '_'` (cobweb.py:339, 925). -/
def hid3 (a : Py) : Bool :=
  match a.index0 with
  | .ok x => decide (x = .str c!"_")
  | .error _ => false

/-- `get_inner_attr` (cobweb3.py:78-93), for the attributes that pass the sanity check: their `[0]` does
not raise. -/
def innerAttr (inner : Bool) : Py → Py
  | .tup (x :: xs) => if inner then x else .tup (x :: xs)
  | a => a

/-- The parameters of a `TrestleTree` (trestle.py:55-64) and what it takes from Python: `str(attr)`, the
order of sets, and the recursion limit (see `renameEmb`). -/
structure TrestleCfg where
  scaling : ℝ
  inner : Bool
  strOf : Py → PStr
  setOrder : List Py → List Py
  fuel : ℕ

namespace TrestleCfg

/-- The configuration of the underlying `Cobweb3Tree`. -/
noncomputable def cobweb3 (c : TrestleCfg) : Cfg3 Py Py := ⟨c.scaling, innerAttr c.inner⟩

/-- `NameStandardizer(self.gensym)`, with `gensym` (trestle.py:75-83). -/
def std (c : TrestleCfg) : StdCfg := ⟨c.strOf, c.setOrder, defaultGensym⟩

end TrestleCfg

/-- A `TrestleTree`: the store with its nodes, `attr_scales` and `gensym_counter`. -/
structure TState where
  h : Heap (Stats3 Py Py)
  sc : Scales Py
  ctr : ℕ

/-- The attributes of the table of `self.root`. -/
def TState.rootAttrs (st : TState) : List Py :=
  match st.h.objs st.h.root with
  | some r => r.stats.av.keys
  | none => []

/-- The root has no children, so that it is the result of categorizing anything. -/
def TState.rootIsLeaf (st : TState) : Bool :=
  match st.h.objs st.h.root with
  | some r => r.children.isEmpty
  | none => true

/-- `Pipeline(NameStandardizer(self.gensym), Flattener(), SubComponentProcessor(),
StructureMapper(self.root))` (trestle.py:164-166, 192-194, 251-253). -/
def trestlePipe (c : TrestleCfg) (S : Search) (base : List Py) :
    Preproc ℕ (ℕ → Option (Dict Py Py)) :=
  pipeline [⟨0, nameStandardizer c.std⟩, ⟨1, flattener⟩, ⟨2, subComponent c.fuel⟩,
    ⟨3, structureMapper S base none⟩]

/-- `preprocessing.transform(instance)` with new preprocessor objects; the counter keeps the names that
were generated before an exception. -/
def trestlePrep (c : TrestleCfg) (S : Search) (st : TState) (i : PyInst) :
    Res PyInst × ℕ × (ℕ → Option (Dict Py Py)) :=
  (trestlePipe c S st.rootAttrs).transform i (st.ctr, fun _ => none)

/-- `clear` (trestle.py:66-73), and the constructor (trestle.py:55-64). -/
noncomputable def trestleClear (st : TState) : TState :=
  ⟨(clearH (cobweb3Class hid3) st.h).2, [], 0⟩

/-- `trestle`, called by `ifit` (trestle.py:132-152, 235-256). -/
noncomputable def trestleIfit (c : TrestleCfg) (S : Search) (i : PyInst) (st : TState) : Res ℕ × TState :=
  let (r, s) := trestlePrep c S st i
  match r with
  | .error e => (.error e, { st with ctr := s.1 })
  | .ok temp =>
    match trestleCheck temp with
    | .error e => (.error e, { st with ctr := s.1 })
    | .ok _ =>
      let (r, h, sc) := cobweb3H hid3 c.cobweb3 (inst3 temp) (st.h, st.sc)
      (r, ⟨h, sc, s.1⟩)

/-- `_trestle_categorize`, called by `categorize` (trestle.py:154-169, 209-233). -/
noncomputable def trestleCategorize (c : TrestleCfg) (S : Search) (i : PyInst) (st : TState) :
    Res ℕ × TState :=
  let (r, s) := trestlePrep c S st i
  match r with
  | .error e => (.error e, { st with ctr := s.1 })
  | .ok temp =>
    match trestleCheck temp with
    | .error e => (.error e, { st with ctr := s.1 })
    | .ok _ =>
      let (r, h) := categorizeH (cobweb3Class hid3) (ecg3H hid3 c.cobweb3 st.sc) (inst3 temp) st.h
      (r, ⟨h, st.sc, s.1⟩)

/-- How predictions are made and become Python values: the choice among values of maximal weight, the
normal distribution, and the float for a real number. -/
structure Numbers where
  tie : TieBreak (Option (Option Py)) ℝ
  gauss : Gauss
  round : ℝ → ℚ

/-- A predicted value as a Python value. -/
noncomputable def Numbers.toPy (N : Numbers) : Val Py → Py
  | .nom v => v
  | .num x => .num (N.round x)

/-- The loop of `infer_missing` (trestle.py:199-204). -/
noncomputable def trestleInferLoop (N : Numbers) (s : Stats3 Py Py) (fn : ChoiceFn) (allowNone : Bool) :
    List Py → PyInst → World → Res (PyInst × World)
  | [], temp, w => .ok (temp, w)
  | a :: as, temp, w =>
    if temp.has a then trestleInferLoop N s fn allowNone as temp w
    else do
      let (v, w) ← s.predict N.tie N.gauss a fn allowNone w
      match v with
      | none => trestleInferLoop N s fn allowNone as temp w
      | some v => trestleInferLoop N s fn allowNone as (if N.toPy v = .none then temp else temp.set a (N.toPy v)) w

/-- `infer_missing` (trestle.py:171-207). -/
noncomputable def trestleInfer (c : TrestleCfg) (S : Search) (N : Numbers) (fn : ChoiceFn) (allowNone : Bool)
    (i : PyInst) (st : TState) : Res PyInst × TState :=
  let (r, s) := trestlePrep c S st i
  match r with
  | .error e => (.error e, { st with ctr := s.1 })
  | .ok temp =>
    if st.rootIsLeaf || temp.all fun p => p.1.index0.isOk && p.2.hashable then
      match categorizeH (cobweb3Class hid3) (ecg3H hid3 c.cobweb3 st.sc) (inst3 temp) st.h with
      | (.error e, h) => (.error e, ⟨h, st.sc, s.1⟩)
      | (.ok a, h) =>
        match h.objs a with
        | none => (.error .attrErr, ⟨h, st.sc, s.1⟩)
        | some r =>
          match trestleInferLoop N r.stats fn allowNone r.stats.av.keys temp h.w with
          | .error e => (.error e, ⟨h, st.sc, s.1⟩)
          | .ok (temp, w) =>
            let (r, s) := (trestlePipe c S st.rootAttrs).undo temp s
            (r, ⟨{ h with w := w }, st.sc, s.1⟩)
    else (.error (if temp.all fun p => p.2.hashable then .indexErr else .typeErr), { st with ctr := s.1 })

end CF
