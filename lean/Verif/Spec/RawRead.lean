/-
What the dicts of a `Cobweb3Node` record, and what is to be read from them.
-/
import Verif.Model.RawRead
import Verif.Spec.RawTables
import Verif.Spec.Cobweb3

namespace CF
variable {A B V : Type} [DecidableEq A] [DecidableEq B] [DecidableEq V]

/-- The states of a `Cobweb3Tree` with the dicts of the code after a history of successful `ifit` calls on instances
that do not have the key as a value; see `Reach3`. -/
inductive ReachRaw (key : V) (hid : A → Bool) (ord : RawStats A V → Inst3 A V → List A) (cfg : Cfg3 A B) :
    RawState A B V → List (Inst3 A V) → ℕ → Prop
  | init (w : World) : ReachRaw key hid ord cfg (emptyRaw w) [] (w.ctr + 1)
  | step {st h n i w st' leaf w'} : ReachRaw key hid ord cfg st h n → Dict.Nodup i → Avoids key i → n ≤ w.ctr →
      rawIfit key hid ord cfg st i w = .ok (st', leaf, w') → ReachRaw key hid ord cfg st' (h ++ [i]) w'.ctr

/-- What stands under `av_counts[a][v]`. -/
def RawStats.cell (r : RawStats A V) (a : A) (v : V) : Option Cell := (r.av.get? a).bind fun t => Dict.get? t v

/-- The dicts record exactly the instances `m`: their number; under every other key than `key` the number of
occurrences of the nominal value; under `key` the count, mean and squared error of the numbers; nothing else. -/
structure RawSums (key : V) (r : RawStats A V) (m : Multiset (Inst3 A V)) : Prop where
  count : r.count = Multiset.card m
  noms : ∀ a v, v ≠ key → r.cell a v = if occ m a (.nom v) = 0 then none else some (.inl (occ m a (.nom v)))
  cv : ∀ a, (nums m a = 0 ∧ r.cell a key = none) ∨
    (nums m a ≠ 0 ∧ ∃ c : CV ℝ, r.cell a key = some (.inr c) ∧ c.Obs (nums m a))
  attrs : ∀ a, a ∈ r.av.keys ↔ ∃ i ∈ m, a ∈ Dict.keys i
  nodup : r.av.Nodup ∧ ∀ p ∈ r.av, Dict.Nodup p.2

/-- What a key stands for: `key` for the numbers (`none`), another string for itself. -/
def kind (key v : V) : Option V := if v = key then none else some v

/-- The candidates for predicting `a`, in the order of the dict, and "missing" last when that is allowed. -/
def RawStats.candidates (r : RawStats A V) (a : A) (allowNone : Bool) : List (Option V) :=
  (r.keysOf a).map some ++ if allowNone then [none] else []

/-- The share of the instances in which `a` is missing (`none`), or has a value that the key `v` stands for. -/
noncomputable def keyShare (key : V) (m : Multiset (Inst3 A V)) (a : A) (o : Option V) : ℝ :=
  share m a (o.map (kind key))

end CF
