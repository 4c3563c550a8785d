/-
Renamings of attributes and values.
-/
import Verif.Model.Nominal
import Mathlib.Logic.Function.Basic

namespace CF
variable {A A' V V' : Type} [DecidableEq A] [DecidableEq A'] [DecidableEq V] [DecidableEq V']

/-- An injective renaming of attributes, and for each attribute an injective renaming of its values.
Only the attributes in `dom` (on the other side: `dom'`) are compared. -/
structure Renaming (A A' V V' : Type) where
  attr : A → A'
  val : A → V → V'
  attr_inj : Function.Injective attr
  val_inj : ∀ a, Function.Injective (val a)
  dom : A → Prop
  dom' : A' → Prop
  dom_iff : ∀ a, dom' (attr a) ↔ dom a

/-- The renaming keeps hidden attributes hidden and covers all visible ones. -/
structure Renaming.Keeps (ρ : Renaming A A' V V') (hid : A → Bool) (hid' : A' → Bool) : Prop where
  hidden : ∀ a, hid' (ρ.attr a) = hid a
  vis : ∀ a, hid a = false → ρ.dom a
  vis' : ∀ b, hid' b = false → ρ.dom' b

/-- `i'` is `i` renamed (its keys may stand in another order). -/
structure Renaming.Inst (ρ : Renaming A A' V V') (i : CF.Inst A V) (i' : CF.Inst A' V') : Prop where
  get : ∀ a, ρ.dom a → Dict.get? i' (ρ.attr a) = (Dict.get? i a).map (ρ.val a)
  image : ∀ b ∈ Dict.keys i', ρ.dom' b → ∃ a, ρ.dom a ∧ ρ.attr a = b

/-- The table `s'` is the table `s` renamed: same count, same attributes, same counts of values, and
nothing else. -/
structure Renaming.Table (ρ : Renaming A A' V V') (s : Stats A V) (s' : Stats A' V') : Prop where
  count : s'.count = s.count
  lookup : ∀ a v, ρ.dom a → s'.lookup (ρ.attr a) (ρ.val a v) = s.lookup a v
  onlyVals : ∀ a v', ρ.dom a → s'.lookup (ρ.attr a) v' ≠ none → ∃ v, ρ.val a v = v'
  onlyAttrs : ∀ b ∈ s'.av.keys, ρ.dom' b → ∃ a ∈ s.av.keys, ρ.attr a = b
  attrs : ∀ a, ρ.dom a → a ∈ s.av.keys → ρ.attr a ∈ s'.av.keys

/-- The tables agree on the visible attributes. -/
structure SameVisibleTable (hid : A → Bool) (s s' : Stats A V) : Prop where
  count : s.count = s'.count
  lookup : ∀ a v, hid a = false → s.lookup a v = s'.lookup a v
  attrs : ∀ a, hid a = false → (a ∈ s.av.keys ↔ a ∈ s'.av.keys)

/-- The table `s'` is the table `s` with the attributes renamed by `f` and the values of `a` renamed by
`g a`; the order of the entries is not compared. -/
structure RenamedTable (f : A → A') (g : A → V → V') (s : Stats A V) (s' : Stats A' V') : Prop where
  count : s'.count = s.count
  lookup : ∀ a v, s'.lookup (f a) (g a v) = s.lookup a v
  onlyVals : ∀ a v', s'.lookup (f a) v' ≠ none → ∃ v, g a v = v'
  attrs : ∀ b, b ∈ s'.av.keys ↔ ∃ a ∈ s.av.keys, f a = b

end CF
