/-
The checks of raw instances, and the public methods of `CobwebTree` on raw instances.
-/
import Verif.Py.Obj
import Verif.Model.Heap
import Verif.Model.Predict

namespace CF

/-- `_sanity_check_instance` (cobweb.py:41-64).  An instance is the list of its entries.  The messages
are dropped. -/
def sanityCheck : Dict Py Py → Res Unit
  | [] => .ok ()
  | (a, v) :: rest =>
    match a.hashable, a.index0 with
    | true, .ok _ =>
      if ¬ v.hashable then .error .valueErr
      else if v = .none then .error .valueErr
      else sanityCheck rest
    | _, _ => .error .valueErr

/-- An attribute that passes the check. -/
def okAttr (a : Py) : Bool := a.hashable && a.index0.isOk
/-- A value that passes the check. -/
def okVal (v : Py) : Bool := v.hashable && decide (v ≠ .none)

abbrev PyAttr := {a : Py // okAttr a = true}
abbrev PyVal := {v : Py // okVal v = true}

/-- `attr[0] == '_'` (cobweb.py:339, 925) for an attribute that passed the check. -/
def hidPy (a : PyAttr) : Bool :=
  match a.1.index0 with
  | .ok x => decide (x = .str c!"_")
  | .error _ => false

/-- A checked instance as an instance of the model. -/
def checked : Dict Py Py → Inst PyAttr PyVal
  | [] => []
  | (a, v) :: rest =>
    if h : okAttr a = true ∧ okVal v = true then (⟨a, h.1⟩, ⟨v, h.2⟩) :: checked rest
    else checked rest

section
variable {K : Type} [Field K] [LinearOrder K] {A V : Type} [DecidableEq A] [DecidableEq V]
open HM

/-- The loop of `infer_missing` (cobweb.py:244-251), which draws random numbers of the store. -/
def inferLoopH (tie : TieBreak (Option V) K) (s : Stats A V) (i : Inst A V) (fn : ChoiceFn)
    (allowNone : Bool) : HM (Stats A V) (Inst A V × Inst A V) := fun h =>
  match inferLoop tie s fn allowNone s.av.keys i h.w with
  | .ok (temp, w) => (.ok (temp, i), { h with w := w })
  | .error e => (.error e, h)

/-- `infer_missing` (cobweb.py:241-251) on the store.  The result has the completed instance and the
caller's instance after the call. -/
def inferMissingH (hid : A → Bool) (tie : TieBreak (Option V) K) (i : Inst A V) (fn : ChoiceFn)
    (allowNone : Bool) : HM (Stats A V) (Inst A V × Inst A V) := do
  let c ← categorizeH (cobwebClass hid) (fun _ => Stats.ecg (K := K) hid) i
  let r ← get c
  inferLoopH tie r.stats i fn allowNone

/-- `CobwebTree.ifit` (cobweb.py:66-84). -/
def ifitPy (raw : Dict Py Py) : HM (Stats PyAttr PyVal) ℕ := do
  lift (sanityCheck raw)
  cobwebH (cobwebClass hidPy) (fun _ => Stats.ecg (K := ℚ) hidPy) (checked raw)

/-- `CobwebTree.categorize` (cobweb.py:253-272). -/
def categorizePy (raw : Dict Py Py) : HM (Stats PyAttr PyVal) ℕ := do
  lift (sanityCheck raw)
  categorizeH (cobwebClass hidPy) (fun _ => Stats.ecg (K := ℚ) hidPy) (checked raw)

/-- `CobwebTree.infer_missing` (cobweb.py:219-251). -/
def inferPy (tie : TieBreak (Option PyVal) ℚ) (raw : Dict Py Py) (fn : ChoiceFn) (allowNone : Bool) :
    HM (Stats PyAttr PyVal) (Inst PyAttr PyVal × Inst PyAttr PyVal) := do
  lift (sanityCheck raw)
  inferMissingH hidPy tie (checked raw) fn allowNone

end
end CF
