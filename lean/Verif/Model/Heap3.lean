/-
`Cobweb3Tree` on the store of node objects.
-/
import Verif.Model.Heap
import Verif.Model.Cobweb3

namespace CF
variable {A B V : Type} [DecidableEq A] [DecidableEq B] [DecidableEq V]

/-- `expected_correct_guesses` of a `Cobweb3Node` whose attribute `tree` is the tree or `None`
(cobweb3.py:266-272): without a tree there is no scaling. -/
noncomputable def ecg3H (hid : A → Bool) (cfg : Cfg3 A B) (sc : Scales B) :
    Bool → Stats3 A V → Res ℝ := fun tree s =>
  Stats3.ecg hid (if tree then cfg else { cfg with scaling := 0 }) sc s

/-- `Cobweb3Tree.cobweb` (cobweb3.py:107-113) on the store and `attr_scales`; both stay changed when an
exception is raised. -/
noncomputable def cobweb3H (hid : A → Bool) (cfg : Cfg3 A B) (i : Inst3 A V)
    (st : Heap (Stats3 A V) × Scales B) : Res ℕ × Heap (Stats3 A V) × Scales B :=
  let sc := updateScales cfg.inner st.2 i
  let (r, h) := cobwebH (cobweb3Class hid) (ecg3H hid cfg sc) i st.1
  (r, h, sc)

end CF
