/-
Specification vocabulary for `Cobweb3Tree` with all Python floats.
-/
import Verif.Model.Ext3
import Verif.Spec.Cobweb3
import Verif.Spec.AnyArith
import Verif.Spec.Float

namespace CF
variable {A B V : Type} [DecidableEq A] [DecidableEq B] [DecidableEq V]

/-- A Python float: infinite, `nan`, or a binary64 number. -/
def XF.Valid : XF → Prop
  | .fin x => IsFloat x ∧ |x| < XF.big
  | _ => True

/-- Infinite, `nan`, or below 2^1023 in magnitude, half of `XF.big`. -/
def XF.Moderate : XF → Prop
  | .fin x => IsFloat x ∧ |x| < XF.big / 2
  | _ => True

/-- Not below `r`: a number that is not, plus infinity, or `nan`. -/
def XF.AtLeast (r : ℝ) : XF → Prop
  | .fin x => r ≤ x
  | .inf s => s = false
  | .nan => True

/-- Whether a float is a number. -/
def XF.IsFin : XF → Prop
  | .fin _ => True
  | _ => False

/-- What `n` equal numbers leave in an accumulator: an infinity spoils the squared error at once, and the mean when
it comes a second time. -/
noncomputable def constX (n : ℕ) : XF → CV XF
  | .fin x => ⟨n, .fin x, .fin 0⟩
  | .inf s => ⟨n, if n = 1 then .inf s else .nan, .nan⟩
  | .nan => ⟨n, .nan, .nan⟩

/-- A leaf of `n` instances with the number `x` matches another `x`: if `x` is finite, or an infinity seen once. -/
def Matchable (n : ℕ) (x : XF) : Prop := x.IsFin ∨ n = 1

/-- The instance's visible numbers can match a leaf of `n` instances. -/
def Repeats (hid : A → Bool) (n : ℕ) (i : XInst A V) : Prop :=
  ∀ a x, hid a = false → Dict.get? i a = some (.num x) → Matchable n x

/-- The number a value is, if it is one. -/
def XVal.num? : XVal V → Option XF
  | .num x => some x
  | .nom _ => none

/-- The numbers stored under the attribute `a` in the instances `m`. -/
def numsX (m : Multiset (XInst A V)) (a : A) : Multiset XF :=
  m.filterMap fun i => (Dict.get? i a).bind XVal.num?

/-- `av_counts[a][v]` of a nominal value. -/
def XStats.nomLookup (s : XStats A V) (a : A) (v : V) : Option ℕ :=
  (s.av.get? a).bind fun t => t.noms.get? v

/-- The accumulator of the attribute `a`. -/
def XStats.cvOf (s : XStats A V) (a : A) : Option (CV XF) := (s.av.get? a).bind XTab.cv

/-- The numbers fitted under attributes whose inner name is `b`. -/
def scaleNumsX (inner : A → B) (h : List (XInst A V)) (b : B) : List XF :=
  h.flatMap fun i => (i.filter fun p => inner p.1 = b).filterMap fun p => p.2.num?

/-- How many numbers a table records under an attribute. -/
def XStats.numCount (s : XStats A V) (a : A) : ℕ := ((s.cvOf a).map CV.num).getD 0

/-- An instance: the attributes are different, and the numbers have the property `X`.  A `nan` is not a number for
`isNumber` (utils.py:68) but a nominal value. -/
structure XInstOk (X : XF → Prop) (i : XInst A V) : Prop where
  nodup : Dict.Nodup i
  nums : ∀ a x, Dict.get? i a = some (.num x) → X x
  number : ∀ a, Dict.get? i a ≠ some (.num .nan)

/-- The table `s` counts the instances `m`, and its accumulators have the property `P`. -/
structure CountsX (P : CV XF → Prop) (s : XStats A V) (m : Multiset (XInst A V)) : Prop where
  count : s.count = Multiset.card m
  noms : ∀ a v, s.nomLookup a v = if occ m a (.nom v) = 0 then none else some (occ m a (.nom v))
  cv : ∀ a, (numsX m a = 0 ∧ s.cvOf a = none) ∨
    (numsX m a ≠ 0 ∧ ∃ c, s.cvOf a = some c ∧ c.num = Multiset.card (numsX m a) ∧ P c)
  attrs : ∀ a, a ∈ s.av.keys ↔ ∃ i ∈ m, a ∈ Dict.keys i
  nodup : s.av.Nodup ∧ ∀ p ∈ s.av, Dict.Nodup p.2.noms

/-- Nothing is asked of the accumulators. -/
def AnyCV (_ : CV XF) : Prop := True

/-- The states of a `Cobweb3Tree` after a history of successful `ifit` calls; see `Reach3`.  The position of the
accumulators and the order in which ties and `nan`s are sorted may be different at each call. -/
inductive ReachX (R : Rounding) (X : XF → Prop) (hid : A → Bool) (cfg : Cfg3 A B) :
    XState A B V → List (XInst A V) → ℕ → Prop
  | init (w : World) : ReachX R X hid cfg ⟨emptyTree (extClass R.fl hid) w, []⟩ [] (w.ctr + 1)
  | step {st h n i w o e} : ReachX R X hid cfg st h n → (e.ar R.fl).Sorts → XInstOk X i → n ≤ w.ctr →
      ifitX R.fl e hid cfg st i w = .ok o → ReachX R X hid cfg o.state (h ++ [i]) o.w.ctr

end CF
