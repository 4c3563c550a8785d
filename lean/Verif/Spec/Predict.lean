/-
What concept probabilities should be, in terms of the instances stored; and greedy descent.
-/
import Verif.Spec.Score
import Verif.Spec.Ops
import Verif.Model.Predict

namespace CF
variable {A V : Type} [DecidableEq A] [DecidableEq V]

/-- The share of the instances of `m` in which `a` has the value `o`; `none` stands for "missing". -/
def freq (K : Type) [Field K] (m : Multiset (Inst A V)) (a : A) (o : Option V) : K :=
  ((m.countP fun i => Dict.get? i a = o : ℕ) : K) / (Multiset.card m : K)

/-- The values recorded for `a` in a concept table, in the order of the table. -/
def Stats.recorded (s : Stats A V) (a : A) : List V := Dict.keys ((s.av.get? a).getD [])

/-- The candidates for predicting `a`: the recorded values, and "missing" when that is allowed. -/
def Stats.candidates (s : Stats A V) (a : A) (allowNone : Bool) : List (Option V) :=
  (s.recorded a).map some ++ if allowNone then [none] else []

/-- `Descent better t path`: `path` is a sequence of nodes that starts at `t`, ends in a leaf, and in
which each node but the first is a child of the previous one, chosen among its children by `better`. -/
inductive Descent {S : Type} (better : Tree S → ℕ → Prop) : Tree S → List (Tree S) → Prop
  | leaf (id : ℕ) (s : S) : Descent better (.node id s []) [.node id s []]
  | step {t c : Tree S} {k : ℕ} {path : List (Tree S)} : t.children[k]? = some c → better t k →
      Descent better c path → Descent better t (t :: path)

/-- Child `k` of `t` has maximal category utility for inserting `inst`. -/
def BestChild {I S K : Type} [Field K] [LinearOrder K] (C : NodeClass I S) (ecg : S → Res K)
    (inst : I) (t : Tree S) (k : ℕ) : Prop :=
  ∃ u, cuForInsert C ecg t.stats (t.children.map Tree.stats) k inst = .ok u ∧
    ∀ j < t.children.length, ∃ u', cuForInsert C ecg t.stats (t.children.map Tree.stats) j inst = .ok u' ∧
      u' ≤ u

end CF

namespace CF

mutual
/-- All objects of a JSON description, parents before children. -/
def NodeJson.all : NodeJson → List NodeJson
  | .mk n s c cs => .mk n s c cs :: NodeJson.allL cs
def NodeJson.allL : List NodeJson → List NodeJson
  | [] => []
  | c :: cs => c.all ++ NodeJson.allL cs
end

/-- The JSON object `j` describes the concept `t`: name, size, table (readable through the string
forms of attributes and values, and with no other entry) and, recursively, the children in order. -/
inductive Describes {A V : Type} [DecidableEq A] [DecidableEq V] (strA : A → String)
    (strV : V → String) : Tree (Stats A V) → NodeJson → Prop
  | mk {id : ℕ} {s : Stats A V} {cs : List (Tree (Stats A V))} {counts : Dict String (Dict String ℕ)}
      {js : List NodeJson} :
      (∀ a v, v ∈ s.recorded a →
        (counts.get? (strA a)).bind (fun t => t.get? (strV v)) = s.lookup a v) →
      (∀ k, k ∈ counts.keys ↔ ∃ a ∈ s.av.keys, strA a = k) →
      (∀ a t, counts.get? (strA a) = some t → a ∈ s.av.keys →
        ∀ k, k ∈ t.keys ↔ ∃ v ∈ s.recorded a, strV v = k) →
      List.Forall₂ (Describes strA strV) cs js →
      Describes strA strV (.node id s cs) (.mk s!"Concept{id}" s.count counts js)

end CF
