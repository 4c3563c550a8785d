/-
/repo/concept_formation/dummy.py: `DummyTree`.

The state is that of a `TrestleTree`; `DummyTree.__init__` (dummy.py:29-33) does not set `scaling` and
`attr_scales`, which its methods never read.
-/
import Verif.Model.Trestle

namespace CF

/-- The loop of `Cobweb3Node.increment_counts` (cobweb3.py:172-181) on a dict that was not checked: a value
that cannot be hashed raises `TypeError` when it is looked up, after `setdefault` made the table. -/
noncomputable def incrLoop : Dict Py (Tab Py) → PyInst → Res Unit × Dict Py (Tab Py)
  | av, [] => (.ok (), av)
  | av, (a, v) :: l =>
    let t := (av.get? a).getD Tab.empty
    if v.hashable then incrLoop ((av.set a t).set a (t.add (val3 v))) l
    else (.error .typeErr, av.set a t)

/-- `self.root.increment_counts(temp_instance)` (cobweb3.py:170-181). -/
noncomputable def incrRoot (temp : PyInst) : HM (Stats3 Py Py) Unit := fun h =>
  match h.objs h.root with
  | none => (.error .exc, h)
  | some r =>
    let (res, av) := incrLoop r.stats.av temp
    (res, { h with objs := Function.update h.objs h.root (some { r with stats := ⟨r.stats.count + 1, av⟩ }) })

/-- `pipeline.transform(instance)` (dummy.py:63-69). -/
def dummyPrep (c : TrestleCfg) (S : Search) (mapping : Bool) (st : TState) (i : PyInst) :
    Res PyInst × ℕ × (ℕ → Option (Dict Py Py)) :=
  if mapping then trestlePrep c S st i
  else (pipeline [⟨0, subComponent c.fuel⟩, ⟨1, flattener⟩]).transform i (st.ctr, fun _ => none)

/-- `ifit` (dummy.py:45-71). -/
noncomputable def dummyIfit (c : TrestleCfg) (S : Search) (mapping : Bool) (i : PyInst) (st : TState) :
    Res ℕ × TState :=
  let (r, s) := dummyPrep c S mapping st i
  match r with
  | .error e => (.error e, { st with ctr := s.1 })
  | .ok temp =>
    match incrRoot temp st.h with
    | (.error e, h) => (.error e, ⟨h, st.sc, s.1⟩)
    | (.ok _, h) => (.ok h.root, ⟨h, st.sc, s.1⟩)

/-- `categorize` (dummy.py:73-87). -/
def dummyCategorize (_ : PyInst) (st : TState) : Res ℕ × TState := (.ok st.h.root, st)

end CF
