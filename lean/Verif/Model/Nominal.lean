/-
`CobwebNode`'s probability table: /repo/concept_formation/cobweb.py.
-/
import Verif.Model.Cobweb

namespace CF

/-- The fields `count` and `av_counts` of a `CobwebNode` (cobweb.py:300-301).  `count` is stored as
a float in the code; it only ever takes natural values. -/
structure Stats (A V : Type) where
  count : ℕ
  av : Dict A (Dict V ℕ)
  deriving DecidableEq

/-- An instance: a dict from attributes to (nominal) values. -/
abbrev Inst (A V : Type) := Dict A V

section
variable {A V : Type} [DecidableEq A] [DecidableEq V]

/-- The fields of a new `CobwebNode()` (cobweb.py:297-312). -/
def Stats.fresh : Stats A V := ⟨0, []⟩

/-- `t[v] = 0 if v not in t; t[v] += c` (cobweb.py:357-359, 376-378). -/
def bump (t : Dict V ℕ) (v : V) (c : ℕ) : Dict V ℕ := t.set v ((t.get? v).getD 0 + c)

/-- `increment_counts` (cobweb.py:345-359). -/
def Stats.incr (s : Stats A V) (i : Inst A V) : Stats A V :=
  ⟨s.count + 1, s.av.updAll (fun t v => bump (t.getD []) v 1) i⟩

/-- `update_counts_from_node` (cobweb.py:361-378). -/
def Stats.addFrom (s n : Stats A V) : Stats A V :=
  ⟨s.count + n.count,
    s.av.updAll (fun t tn => (t.getD []).updAll (fun o c => o.getD 0 + c) tn) n.av⟩

/-- `av_counts[a][v]`, `none` when there is no such entry. -/
def Stats.lookup (s : Stats A V) (a : A) (v : V) : Option ℕ :=
  (s.av.get? a).bind fun t => t.get? v

/-- `is_exact_match` (cobweb.py:913-936).  `hid a` is `a[0] == '_'`.  The loop runs over the union
of the instance's attributes and the node's visible attributes and returns `False` at the first
failing one; the order is immaterial. -/
def Stats.isExact (hid : A → Bool) (s : Stats A V) (i : Inst A V) : Bool :=
  i.all (fun p => hid p.1 || s.lookup p.1 p.2 == some s.count)
  && s.av.all (fun p => hid p.1 || i.has p.1)

/-- `attrs()` (cobweb.py:329-343) with the default filter: the visible attributes with their
tables. -/
def Stats.visible (hid : A → Bool) (s : Stats A V) : Dict A (Dict V ℕ) :=
  s.av.filter fun p => !hid p.1

/-- Inner loop of `expected_correct_guesses` (cobweb.py:398-400). -/
def sqLoop {K : Type} [Field K] [LinearOrder K] (n : ℕ) : List ℕ → K → Res K
  | [], acc => .ok acc
  | c :: cs, acc => do
    let p ← pyDiv (c : K) (n : K)
    sqLoop n cs (acc + p * p)

/-- Outer loop of `expected_correct_guesses` (cobweb.py:395-400). -/
def ecgLoop {K : Type} [Field K] [LinearOrder K] (n : ℕ) : List (Dict V ℕ) → K → Res K
  | [], acc => .ok acc
  | t :: ts, acc => do
    let acc ← sqLoop n (t.map Prod.snd) acc
    ecgLoop n ts acc

/-- `expected_correct_guesses` (cobweb.py:380-402). -/
def Stats.ecg {K : Type} [Field K] [LinearOrder K] (hid : A → Bool) (s : Stats A V) : Res K := do
  let ts := (s.visible hid).map Prod.snd
  let g ← ecgLoop s.count ts (0 : K)
  pyDiv g (ts.length : K)

/-- `probability` (cobweb.py:1128-1155); the value `none` is Python's `None`. -/
def Stats.probability {K : Type} [Field K] [LinearOrder K] (s : Stats A V) (a : A) :
    Option V → Res K
  | none =>
    let c : ℕ := match s.av.get? a with
      | none => 0
      | some t => (t.map Prod.snd).sum
    pyDiv ((s.count : K) - (c : K)) (s.count : K)
  | some v =>
    match s.lookup a v with
    | none => .ok 0
    | some c => pyDiv (c : K) (s.count : K)

/-- `CobwebNode` as a node class. -/
def cobwebClass (hid : A → Bool) : NodeClass (Inst A V) (Stats A V) where
  fresh := Stats.fresh
  count := Stats.count
  incr := Stats.incr
  addFrom := Stats.addFrom
  isExact := Stats.isExact hid

end
end CF
