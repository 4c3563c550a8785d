/-
Renamings of attributes and values for Cobweb/3, with a change of units of the numbers.
-/
import Verif.Spec.Renaming
import Verif.Spec.Cobweb3

namespace CF
variable {A A' B B' V V' : Type} [DecidableEq A] [DecidableEq A'] [DecidableEq B] [DecidableEq B']
  [DecidableEq V] [DecidableEq V']

/-- A renaming of attributes, nominal values and inner names; the numbers of the attributes with inner
name `b` are mapped by `x ↦ mul b * x + add b`.  Only the attributes in `dom` are compared. -/
structure Ren3 (cfg : Cfg3 A B) (cfg' : Cfg3 A' B') (V V' : Type) where
  attr : A → A'
  val : A → V → V'
  scale : B → B'
  mul : B → ℝ
  add : B → ℝ
  dom : A → Prop
  dom' : A' → Prop
  attr_inj : Function.Injective attr
  val_inj : ∀ a, Function.Injective (val a)
  scale_inj : Function.Injective scale
  mul_pos : ∀ b, 0 < mul b
  dom_iff : ∀ a, dom' (attr a) ↔ dom a
  inner : ∀ a, cfg'.inner (attr a) = scale (cfg.inner a)

/-- Attributes with the same inner name are compared together. -/
structure Ren3.Closed {cfg : Cfg3 A B} {cfg' : Cfg3 A' B'} (ρ : Ren3 cfg cfg' V V') : Prop where
  left : ∀ a c, cfg.inner a = cfg.inner c → ρ.dom a → ρ.dom c
  right : ∀ a c, cfg'.inner a = cfg'.inner c → ρ.dom' a → ρ.dom' c

/-- The value `v` of the attribute `a`, renamed. -/
noncomputable def mapVal (inner : A → B) (g : A → V → V') (mul add : B → ℝ) (a : A) : Val V → Val V'
  | .nom v => .nom (g a v)
  | .num x => .num (mul (inner a) * x + add (inner a))

/-- The accumulator of the numbers `m * x + b`, from the one of the numbers `x`. -/
def CV.affine (m b : ℝ) (c : CV ℝ) : CV ℝ := ⟨c.num, m * c.mean + b, m ^ 2 * c.meanSq⟩

/-- The table `s'` is the table `s` with the attributes renamed by `f`, the nominal values of `a` by
`g a`, and the numbers of `a` mapped by `x ↦ m a * x + b a`; the order of the entries is not compared. -/
structure RenamedTable3 (f : A → A') (g : A → V → V') (m b : A → ℝ) (s : Stats3 A V)
    (s' : Stats3 A' V') : Prop where
  count : s'.count = s.count
  nomLookup : ∀ a v, s'.nomLookup (f a) (g a v) = s.nomLookup a v
  onlyVals : ∀ a v', s'.nomLookup (f a) v' ≠ none → ∃ v, g a v = v'
  cv : ∀ a, s'.cvOf (f a) = (s.cvOf a).map (CV.affine (m a) (b a))
  attrs : ∀ c, c ∈ s'.av.keys ↔ ∃ a ∈ s.av.keys, f a = c

/-- The tables agree on the visible attributes. -/
structure SameVisibleTable3 (hid : A → Bool) (s s' : Stats3 A V) : Prop where
  count : s.count = s'.count
  nomLookup : ∀ a v, hid a = false → s.nomLookup a v = s'.nomLookup a v
  cv : ∀ a, hid a = false → s.cvOf a = s'.cvOf a
  attrs : ∀ a, hid a = false → (a ∈ s.av.keys ↔ a ∈ s'.av.keys)

/-- A `Cobweb3Node`'s table without numbers, equal to the table of a `CobwebNode`. -/
structure SameTable (s : Stats A V) (s' : Stats3 A V) : Prop where
  count : s.count = s'.count
  lookup : ∀ a v, s'.nomLookup a v = s.lookup a v
  cv : ∀ a, s'.cvOf a = none
  attrs : ∀ a, a ∈ s'.av.keys ↔ a ∈ s.av.keys

end CF
