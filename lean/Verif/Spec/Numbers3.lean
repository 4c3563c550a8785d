/-
Specification vocabulary for `Cobweb3Tree` with all Python numbers.
-/
import Verif.Model.Numbers3
import Verif.Spec.Ext3

namespace CF
variable {A B V : Type} [DecidableEq A] [DecidableEq B] [DecidableEq V]

/-- An instance of nominal values, floats with the property `X`, and integers and fractions whose nearest floats are
finite and have the property `X`; the attributes are different. -/
structure UInstOk (R : Rounding) (X : XF → Prop) (i : UInst A V) : Prop where
  nodup : Dict.Nodup i
  flt : ∀ a x, Dict.get? i a = some (.flt x) → x ≠ .nan ∧ X x
  rat : ∀ a q, Dict.get? i a = some (.rat q) → |R.fl (q : ℝ)| < XF.big ∧ X (.fin (R.fl (q : ℝ)))

/-- The value is nominal, a float, or an integer or fraction whose nearest float is finite. -/
def NVal.Fits (R : Rounding) : NVal V → Prop
  | .use (.rat q) => |R.fl (q : ℝ)| < XF.big
  | .use _ => True
  | _ => False

/-- The exception for a value that does not fit: a `Decimal` or `complex` is a type error. -/
def NVal.error : NVal V → NErr
  | .use _ => .overflow
  | _ => .type

/-- What the value that raises leaves in `attr_scales`: a `Decimal` is counted, but nothing else about it. -/
noncomputable def spoil (inner : A → B) (sc : XScales B) (a : A) : NVal V → XScales B
  | .dec => sc.set (inner a) { (sc.get? (inner a)).getD CV.freshX with
      num := ((sc.get? (inner a)).getD CV.freshX).num + 1 }
  | _ => sc

/-- The inner name under which the value that raises is counted. -/
def spoiled (inner : A → B) (a : A) : NVal V → List B
  | .dec => [inner a]
  | _ => []

/-- The instance has a visible integer or fraction that is not a float. -/
def Inexact (hid : A → Bool) (i : UInst A V) : Prop :=
  ∃ a q, hid a = false ∧ Dict.get? i a = some (.rat q) ∧ ¬ IsFloat (q : ℝ)

/-- The states of a `Cobweb3Tree` after calls of `ifit` that succeeded or raised in `update_scales`: with the
instances fitted, the instances or parts of instances whose numbers the scales have seen, and the inner names of the
`Decimal`s. -/
inductive ReachN (R : Rounding) (X : XF → Prop) (hid : A → Bool) (cfg : Cfg3 A B) :
    XState A B V → List (UInst A V) → List (UInst A V) → List B → ℕ → Prop
  | init (w : World) : ReachN R X hid cfg ⟨emptyTree (numClass R.fl hid) w, []⟩ [] [] [] (w.ctr + 1)
  | fit {st h log d n i w o e} : ReachN R X hid cfg st h log d n → (e.ar R.fl).Sorts → UInstOk R X i → n ≤ w.ctr →
      ifitN R.fl e hid cfg st i.toN w = .done o → ReachN R X hid cfg o.state (h ++ [i]) (log ++ [i]) d o.w.ctr
  | reject {st h log d n w e err st' a v} {pre : UInst A V} {post : NInst A V} : ReachN R X hid cfg st h log d n →
      UInstOk R X pre → ¬ v.Fits R → n ≤ w.ctr →
      ifitN R.fl e hid cfg st (pre.toN ++ (a, v) :: post) w = .rejected err st' →
      ReachN R X hid cfg st' h (log ++ [pre]) (d ++ spoiled cfg.inner a v) w.ctr

end CF
