/-
Specification vocabulary for mixed nominal/numeric concept tables.
-/
import Verif.Model.Predict3
import Verif.Spec.Predict
import Verif.Spec.Nominal
import Verif.Spec.Continuous
import Verif.Spec.Score

namespace CF
variable {A B V : Type} [DecidableEq A] [DecidableEq B] [DecidableEq V]

/-- The number a value is, if it is one. -/
def Val.num? : Val V → Option ℝ
  | .num x => some x
  | .nom _ => none

/-- The numbers stored under the attribute `a` in the instances `m`. -/
def nums (m : Multiset (Inst3 A V)) (a : A) : Multiset ℝ :=
  m.filterMap fun i => (Dict.get? i a).bind Val.num?

/-- `av_counts[a][v]` of a nominal value. -/
def Stats3.nomLookup (s : Stats3 A V) (a : A) (v : V) : Option ℕ :=
  (s.av.get? a).bind fun t => t.noms.get? v

/-- The accumulator of the attribute `a`. -/
def Stats3.cvOf (s : Stats3 A V) (a : A) : Option (CV ℝ) := (s.av.get? a).bind Tab.cv

/-- The table `s` is exactly the summary of the instances `m`: number of instances, number of
occurrences of each nominal value, and for each attribute with numbers the count, mean and squared
error of these numbers; nothing else is listed. -/
structure Summarizes3 (s : Stats3 A V) (m : Multiset (Inst3 A V)) : Prop where
  count : s.count = Multiset.card m
  noms : ∀ a v, s.nomLookup a v = if occ m a (.nom v) = 0 then none else some (occ m a (.nom v))
  cv : ∀ a, (nums m a = 0 ∧ s.cvOf a = none) ∨
    (nums m a ≠ 0 ∧ ∃ c, s.cvOf a = some c ∧ c.Obs (nums m a))
  attrs : ∀ a, a ∈ s.av.keys ↔ ∃ i ∈ m, a ∈ Dict.keys i
  nodup : s.av.Nodup ∧ ∀ p ∈ s.av, Dict.Nodup p.2.noms

/-- The numbers fitted under attributes whose inner name is `b`. -/
def scaleNums (inner : A → B) (h : List (Inst3 A V)) (b : B) : List ℝ :=
  h.flatMap fun i => (i.filter fun p => inner p.1 = b).filterMap fun p => p.2.num?

/-- `attr_scales` holds, for each inner name `b`, exactly the summary of the numbers `f b`. -/
def ScalesObs (sc : Scales B) (f : B → Multiset ℝ) : Prop :=
  ∀ b, (f b = 0 ∧ sc.get? b = none) ∨ (f b ≠ 0 ∧ ∃ c, sc.get? b = some c ∧ c.Obs (f b))

/-- The nominal values that `a` takes in the instances of `m`. -/
noncomputable def nomVals (m : Multiset (Inst3 A V)) (a : A) : Finset V :=
  m.toFinset.biUnion fun i => ((Dict.get? i a).bind fun v => match v with
    | .nom v => some v
    | .num _ => none).toFinset

/-- The unit in which the deviations of the attribute `a` are measured, when `f b` are the numbers seen
under the inner name `b`: their standard deviation over `scaling`, and 1 when this is not positive or
when there is no scaling. -/
noncomputable def effScale (cfg : Cfg3 A B) (f : B → Multiset ℝ) (a : A) : ℝ :=
  let r := if cfg.scaling = 0 ∨ f (cfg.inner a) = 0 then 1
    else (1 / cfg.scaling) * sampleStd (f (cfg.inner a))
  if r ≤ 0 then 1 else r

/-- The contribution of a numeric attribute: the squared probability of having a number times the
integral of the squared normal density with the (scaled) standard deviation of the numbers, to whose
square `1 / (4π)` is added. -/
noncomputable def numTerm (u : ℝ) (m : Multiset (Inst3 A V)) (a : A) : ℝ :=
  ((Multiset.card (nums m a) : ℝ) / (Multiset.card m : ℝ)) ^ 2 *
    (1 / (2 * Real.sqrt Real.pi * Real.sqrt ((sampleStd (nums m a) / u) ^ 2 + 1 / (4 * Real.pi))))

/-- The expected number of correct guesses per visible attribute. -/
noncomputable def ecgSpec3 (hid : A → Bool) (cfg : Cfg3 A B) (f : B → Multiset ℝ)
    (m : Multiset (Inst3 A V)) : ℝ :=
  (∑ a ∈ visAttrs hid m, (∑ v ∈ nomVals m a, prob ℝ m a (.nom v) ^ 2 +
    numTerm (effScale cfg f a) m a)) / ((visAttrs hid m).card : ℝ)

/-- Number, sum and sum of squares of the numbers that a table records under an attribute, as read off
the accumulator (`num`, `num * mean`, `meanSq + num * mean²`). -/
def Stats3.numCount (s : Stats3 A V) (a : A) : ℕ := ((s.cvOf a).map CV.num).getD 0
noncomputable def Stats3.numSum (s : Stats3 A V) (a : A) : ℝ :=
  ((s.cvOf a).map fun c => (c.num : ℝ) * c.mean).getD 0
noncomputable def Stats3.numSqSum (s : Stats3 A V) (a : A) : ℝ :=
  ((s.cvOf a).map fun c => c.meanSq + (c.num : ℝ) * c.mean ^ 2).getD 0

/-- The share of the instances of `m` in which `a` is missing (`none`), has a number (`some none`) or has
the nominal value `v` (`some (some v)`). -/
noncomputable def share (m : Multiset (Inst3 A V)) (a : A) : Option (Option V) → ℝ
  | none => freq ℝ m a none
  | some none => (Multiset.card (nums m a) : ℝ) / (Multiset.card m : ℝ)
  | some (some v) => freq ℝ m a (some (.nom v))

/-- The candidates for predicting `a`: the keys of its table, and "missing" when that is allowed. -/
def Stats3.candidates (s : Stats3 A V) (a : A) (allowNone : Bool) : List (Option (Option V)) :=
  (s.keysOf a).map some ++ if allowNone then [none] else []

/-- Shift and unit of `probability` on numbers: the mean of the numbers seen under the inner name, and
their standard deviation over `scaling` (1 if that is 0); no shift and unit 1 without scaling. -/
noncomputable def probUnit (cfg : Cfg3 A B) (f : B → Multiset ℝ) (a : A) : ℝ × ℝ :=
  if cfg.scaling = 0 then (0, 1)
  else
    let u := (1 / cfg.scaling) * sampleStd (f (cfg.inner a))
    (sampleMean (f (cfg.inner a)), if u = 0 then 1 else u)

end CF
