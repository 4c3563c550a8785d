/-
`fit` as the three classes of trees have it.  `CobwebTree.fit` is inherited by `Cobweb3Tree` and
`TrestleTree` and calls the `ifit` of the class of the tree.
-/
import Verif.Model.Trestle
import Verif.Model.History

namespace CF
variable {I σ α : Type}

/-- `for i in instances: self.ifit(i)` (cobweb.py:111-112).  The state `σ` is everything `ifit` reads and
changes; an exception ends the loop and keeps what was done before. -/
def fitEach (ifit : I → σ → Res α × σ) : List I → σ → Res Unit × σ
  | [], s => (.ok (), s)
  | i :: is, s =>
    match ifit i s with
    | (.error e, s) => (.error e, s)
    | (.ok _, s) => fitEach ifit is s

/-- The outer loop of `fit` (cobweb.py:108-113); `x` is the loop variable, the second number how many
iterations are left. -/
def fitPasses (ifit : I → σ → Res α × σ) (sh : List I → σ → List I × σ) (randomizeFirst : Bool) :
    ℕ → ℕ → List I → σ → Res Unit × σ
  | _, 0, _, s => (.ok (), s)
  | x, todo + 1, l, s =>
    let (l, s) := if x = 0 ∧ randomizeFirst then sh l s else (l, s)
    match fitEach ifit l s with
    | (.error e, s) => (.error e, s)
    | (.ok _, s) =>
      let (l, s) := sh l s
      fitPasses ifit sh randomizeFirst (x + 1) todo l s

/-- `CobwebTree.fit` (cobweb.py:86-113), for any `ifit`.  The second component is the caller's list after
the call: the code works on a copy (line 106). -/
def fitWith (ifit : I → σ → Res α × σ) (sh : List I → σ → List I × σ) (instances : List I) (iterations : ℕ)
    (randomizeFirst : Bool) (s : σ) : Res Unit × List I × σ :=
  let copy := instances
  let (r, s) := fitPasses ifit sh randomizeFirst 0 iterations copy s
  (r, instances, s)

/-- `CobwebTree.fit` (cobweb.py:86-113) on the store of node objects; the instances pass the check of `ifit`. -/
def fitH {A V : Type} [DecidableEq A] [DecidableEq V] (hid : A → Bool) (sh : Shuffle (Inst A V))
    (instances : List (Inst A V)) (iterations : ℕ) (randomizeFirst : Bool) (h : Heap (Stats A V)) :
    Res Unit × List (Inst A V) × Heap (Stats A V) :=
  fitWith (cobwebH (cobwebClass hid) (fun _ => Stats.ecg (K := ℚ) hid))
    (fun l h => ((sh l h.w).1, { h with w := (sh l h.w).2 })) instances iterations randomizeFirst h

/-- `Cobweb3Tree.fit` (cobweb.py:86-113 with cobweb3.py:115-131); the instances pass the check of `ifit`. -/
noncomputable def fit3 {A B V : Type} [DecidableEq A] [DecidableEq B] [DecidableEq V] (hid : A → Bool)
    (cfg : Cfg3 A B) (sh : Shuffle (Inst3 A V)) (instances : List (Inst3 A V)) (iterations : ℕ)
    (randomizeFirst : Bool) (s : Heap (Stats3 A V) × Scales B) :
    Res Unit × List (Inst3 A V) × Heap (Stats3 A V) × Scales B :=
  fitWith (cobweb3H hid cfg) (fun l s => ((sh l s.1.w).1, { s.1 with w := (sh l s.1.w).2 }, s.2))
    instances iterations randomizeFirst s

/-- `TrestleTree.fit` (cobweb.py:86-113 with trestle.py:132-152).  `Ss` are the outcomes of the external
searches in the calls of `ifit`, in their order. -/
noncomputable def trestleFit (c : TrestleCfg) (sh : Shuffle PyInst) (instances : List PyInst) (iterations : ℕ)
    (randomizeFirst : Bool) (s : (ℕ → Search) × TState) : Res Unit × List PyInst × (ℕ → Search) × TState :=
  fitWith (fun i s => ((trestleIfit c (s.1 0) i s.2).1, (fun k => s.1 (k + 1)), (trestleIfit c (s.1 0) i s.2).2))
    (fun l s => ((sh l s.2.h.w).1, s.1, { s.2 with h := { s.2.h with w := (sh l s.2.h.w).2 } }))
    instances iterations randomizeFirst s

end CF
