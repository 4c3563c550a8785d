/-
`TrestleTree` (/repo/concept_formation/trestle.py) with all Python floats: the preprocessing of `Verif.Model.Trestle`
and the tree of `Verif.Model.Ext3`.

Simplifications: as in these two.  An infinity is an object of another class for the preprocessing, which does not
look at values; `sp` says which ones they are.  So is a `nan`, a nominal value for `isNumber`.  What an exception of `Cobweb3Tree.ifit` leaves in the
tree is not modelled: the tree stays as it was.  `infer_missing` is not modelled here: it preprocesses and categorizes
(trestle.py:192-206) and changes neither the tree nor the scales.
-/
import Verif.Model.Trestle
import Verif.Model.Ext3

namespace CF

/-- A Python value as a value of an instance of Cobweb/3 (utils.py:63-68); `sp n` says whether the `n`-th object of
another class is an infinity, and which.  Floats are hashable and have no `[0]`. -/
noncomputable def valX (sp : ℕ → Option Bool) : Py → XVal Py
  | .num q => .num (.fin q)
  | .other n true false => match sp n with
    | some s => .num (.inf s)
    | none => .nom (.other n true false)
  | v => .nom v

/-- An instance of Cobweb/3. -/
noncomputable def instX (sp : ℕ → Option Bool) (i : PyInst) : XInst Py Py := i.map fun p => (p.1, valX sp p.2)

/-- A `TrestleTree`: the root with `attr_scales`, `gensym_counter`, and the global state of Python. -/
structure TStateX where
  tree : XState Py Py Py
  ctr : ℕ
  w : World

/-- The attributes of the table of `self.root`. -/
def TStateX.rootAttrs (st : TStateX) : List Py := st.tree.root.stats.av.keys

/-- `preprocessing.transform(instance)` with new preprocessor objects (trestle.py:164-167, 251-254). -/
def trestlePrepX (c : TrestleCfg) (S : Search) (st : TStateX) (i : PyInst) :
    Res PyInst × ℕ × (ℕ → Option (Dict Py Py)) :=
  (trestlePipe c S st.rootAttrs).transform i (st.ctr, fun _ => none)

section
variable (fl : ℝ → ℝ) (c : TrestleCfg) (sp : ℕ → Option Bool) (S : Search) (e : XEnv Py) (i : PyInst)

/-- The constructor and `clear` (trestle.py:55-73). -/
noncomputable def trestleClearX (w : World) : TStateX := ⟨⟨emptyTree (extClass fl hid3) w, []⟩, 0, w.bump 1⟩

/-- `trestle`, called by `ifit` (trestle.py:132-152, 235-256). -/
noncomputable def trestleIfitX (st : TStateX) : Res ℕ × TStateX :=
  let (r, s) := trestlePrepX c S st i
  match r with
  | .error x => (.error x, { st with ctr := s.1 })
  | .ok temp =>
    match trestleCheck temp with
    | .error x => (.error x, { st with ctr := s.1 })
    | .ok _ =>
      match ifitX fl e hid3 c.cobweb3 st.tree (instX sp temp) st.w with
      | .error x => (.error x, { st with ctr := s.1 })
      | .ok o => (.ok o.leaf, ⟨o.state, s.1, o.w⟩)

/-- `_trestle_categorize`, called by `categorize` (trestle.py:154-169, 209-233). -/
noncomputable def trestleCategorizeX (st : TStateX) : Res (Tree (XStats Py Py)) × TStateX :=
  let (r, s) := trestlePrepX c S st i
  match r with
  | .error x => (.error x, { st with ctr := s.1 })
  | .ok temp =>
    match trestleCheck temp with
    | .error x => (.error x, { st with ctr := s.1 })
    | .ok _ =>
      match categorizeX fl e hid3 c.cobweb3 st.tree (instX sp temp) st.w with
      | .error x => (.error x, { st with ctr := s.1 })
      | .ok (t, w) => (.ok t, { st with ctr := s.1, w := w })

end
end CF
