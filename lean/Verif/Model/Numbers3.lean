/-
`Cobweb3Tree` (/repo/concept_formation/cobweb3.py) with the other numbers of Python: integers and fractions of any
size, `Decimal` and `complex`.  `isNumber` (utils.py:63-68) asks for `numbers.Number`, so all of these are
"numbers" to the tree; what happens to them afterwards is a matter of the arithmetic with floats.

Simplifications: as in `Verif.Model.Ext3`.  A `Decimal` or `complex` is represented without its value, which is never
looked at.  (A `Decimal` that is a `nan` is a nominal value, see `XVal`.)  The instances of the node class are those
that have passed `update_scales`; `C102_update_scales` says which these are.  What an exception raised after
`update_scales` leaves behind is not modelled (`NOut.failed`).
-/
import Verif.Model.Ext3

namespace CF

/-- A value that Cobweb/3 can compute with: nominal, a float, or an integer or fraction. -/
inductive UVal (V : Type) where
  | nom (v : V)
  | flt (x : XF)
  | rat (q : ℚ)

/-- A value of an instance. -/
inductive NVal (V : Type) where
  | use (u : UVal V)
  | dec
  | cpx

/-- The exceptions: `OverflowError` and `TypeError`. -/
inductive NErr where
  | overflow
  | type
  deriving DecidableEq

/-- Instances of values that Cobweb/3 can compute with. -/
abbrev UInst (A V : Type) := Inst A (UVal V)

/-- Instances of any values. -/
abbrev NInst (A V : Type) := Inst A (NVal V)

section
variable {A B V : Type} [DecidableEq A] [DecidableEq B] [DecidableEq V] (fl : ℝ → ℝ)

/-- The value after the conversion to a float that `x - self.mean` makes (continuous_value.py:173, 175). -/
noncomputable def UVal.float : UVal V → XVal V
  | .nom v => .nom v
  | .flt x => .num x
  | .rat q => .num (XF.round fl (q : ℝ))

/-- The value in the comparison `unbiased_mean() == instance[attr]` (cobweb3.py:552-554): Python compares a float with
an integer or a fraction exactly, without converting the latter. -/
noncomputable def UVal.exact : UVal V → XVal V
  | .nom v => .nom v
  | .flt x => .num x
  | .rat q => .num (.fin (q : ℝ))

/-- The instance with its values converted to floats. -/
noncomputable def floatInst (i : UInst A V) : XInst A V := i.map fun p => (p.1, p.2.float fl)

/-- The instance with its values as they are compared. -/
noncomputable def exactInst (i : UInst A V) : XInst A V := i.map fun p => (p.1, p.2.exact)

/-- `isNumber` (utils.py:63-68): `isnan` converts its argument to a float, which raises for an integer or a fraction
that is too large, and for a complex number. -/
noncomputable def NVal.isNumber : NVal V → Except NErr Bool
  | .use (.nom _) => .ok false
  | .use (.flt x) => .ok (decide (x ≠ .nan))
  | .use (.rat q) =>
    match XF.round fl (q : ℝ) with
    | .fin _ => .ok true
    | _ => .error .overflow
  | .dec => .ok true
  | .cpx => .error .type

/-- `update` (continuous_value.py:161-175): the exception, if there is one, and what the accumulator becomes.  The
number is counted (line 172) before the first subtraction (line 173) can raise. -/
noncomputable def CV.updateN (c : CV XF) : NVal V → Option NErr × CV XF
  | .use (.flt x) => (none, CV.updateX fl c x)
  | .use (.rat q) =>
    match XF.round fl (q : ℝ) with
    | .fin x => (none, CV.updateX fl c (.fin x))
    | _ => (some .overflow, { c with num := c.num + 1 })
  | _ => (some .type, { c with num := c.num + 1 })

/-- `update_scales` (cobweb3.py:95-105): the exception, if there is one, and what `attr_scales` becomes. -/
noncomputable def updateScalesN (inner : A → B) : XScales B → NInst A V → Option NErr × XScales B
  | sc, [] => (none, sc)
  | sc, (a, v) :: i =>
    match v.isNumber fl with
    | .error e => (some e, sc)
    | .ok false => updateScalesN inner sc i
    | .ok true =>
      match CV.updateN fl ((sc.get? (inner a)).getD CV.freshX) v with
      | (none, c) => updateScalesN inner (sc.set (inner a) c) i
      | (some e, c) => (some e, sc.set (inner a) c)

/-- `Cobweb3Node` as a node class: `increment_counts` (cobweb3.py:147-181) converts the numbers to floats,
`is_exact_match` (cobweb3.py:522-559) does not. -/
noncomputable def numClass (hid : A → Bool) : NodeClass (UInst A V) (XStats A V) where
  fresh := XStats.fresh
  count := XStats.count
  incr s i := XStats.incr fl s (floatInst fl i)
  addFrom := XStats.addFrom fl
  isExact s i := XStats.isExact fl hid s (exactInst i)

/-- An instance of values that Cobweb/3 can compute with, as an instance. -/
def UInst.toN (i : UInst A V) : NInst A V := i.map fun p => (p.1, .use p.2)

/-- The values that Cobweb/3 can compute with. -/
def NInst.used (i : NInst A V) : UInst A V := i.filterMap fun p => match p.2 with
  | .use u => some (p.1, u)
  | _ => none

/-- The outcome of `ifit`: a concept and the new tree; an exception of `update_scales`, with the tree it leaves; or an
exception of the algorithm itself. -/
inductive NOut (A B V : Type) where
  | done (o : XOut A B V)
  | rejected (e : NErr) (st : XState A B V)
  | failed (e : PyErr)

/-- `Cobweb3Tree.ifit` (cobweb3.py:115-131, 107-113) after its sanity check. -/
noncomputable def ifitN (e : XEnv V) (hid : A → Bool) (cfg : Cfg3 A B) (st : XState A B V)
    (i : NInst A V) (w : World) : NOut A B V :=
  match updateScalesN fl cfg.inner st.scales i with
  | (some err, sc) => .rejected err ⟨st.root, sc⟩
  | (none, sc) =>
    match cobwebBy (numClass fl hid) (chooseOpA (e.ar fl) (numClass fl hid) (XStats.ecg fl e.pos hid cfg sc))
        st.root i.used w with
    | .ok o => .done ⟨⟨o.tree, sc⟩, o.leaf, o.w⟩
    | .error err => .failed err

/-- The exception of `increment_counts` (cobweb3.py:165-181): that of the first value for which `isNumber` or `update`
raises. -/
noncomputable def incrErr : NInst A V → Option NErr
  | [] => none
  | (_, v) :: i =>
    match v.isNumber fl with
    | .error e => some e
    | .ok false => incrErr i
    | .ok true =>
      match (CV.updateN fl CV.freshX v).1 with
      | some e => some e
      | none => incrErr i

/-- The outcome of `categorize`. -/
inductive NCat (A V : Type) where
  | done (leaf : Tree (XStats A V)) (w : World)
  | rejected (e : NErr)
  | failed (e : PyErr)

/-- `Cobweb3Tree.categorize` after its sanity check: `_cobweb_categorize` (cobweb.py:204-217).  At a root without
children the loop ends before the values are looked at; otherwise the first thing `two_best_children` does with the
instance is to count it in a copy of the first child (cobweb.py:556-558, 661-663). -/
noncomputable def categorizeN (e : XEnv V) (hid : A → Bool) (cfg : Cfg3 A B) (st : XState A B V)
    (i : NInst A V) (w : World) : NCat A V :=
  match st.root.children, incrErr fl i with
  | _ :: _, some err => .rejected err
  | _, _ =>
    match categorizeA (e.ar fl) (numClass fl hid) (XStats.ecg fl e.pos hid cfg st.scales) st.root i.used w with
    | .ok r => .done r.1 r.2
    | .error err => .failed err

end
end CF
