/-
Concepts and continuous values as keys of Python dicts and sets (cobweb.py:938-943, continuous_value.py:136-142).
-/
import Verif.Model.Continuous

namespace CF

/-- What Python asks of a key: its hash, in the state `σ` of the objects, and whether it equals another object.
Neither `CobwebNode` (cobweb.py:938-943) nor `ContinuousValue` (continuous_value.py:136-142) defines `__eq__`, so `==` is
`object.__eq__`, the identity of objects.  Objects are numbered. -/
structure KeyProtocol (σ : Type) where
  hash : σ → ℕ → ℤ
  eq : σ → ℕ → ℕ → Bool

/-- An entry of a dict: the hash is computed when the entry is made and kept. -/
structure Slot (V : Type) where
  hash : ℤ
  ref : ℕ
  val : V

namespace KeyProtocol
variable {σ V : Type} (P : KeyProtocol σ)

/-- The test of CPython for an entry: the hash kept is that of the key, and the objects are identical or equal.  (The
order in which entries are probed is left out: at most one of them passes, see `C116_concepts`.) -/
def hit (s : σ) (o : ℕ) (e : Slot V) : Bool := e.hash == P.hash s o && (e.ref == o || P.eq s e.ref o)

/-- `d.get(o)`. -/
def lookup (s : σ) (d : List (Slot V)) (o : ℕ) : Option V := (d.find? (P.hit s o)).map Slot.val

/-- `d[o] = v`: an entry found keeps its key, otherwise one is made. -/
def put (s : σ) (o : ℕ) (v : V) : List (Slot V) → List (Slot V)
  | [] => [⟨P.hash s o, o, v⟩]
  | e :: d => if P.hit s o e then { e with val := v } :: d else e :: put s o v d

end KeyProtocol

/-- What happens to a dict and to the objects used as keys. -/
inductive KeyEvent (C V : Type)
  | put (o : ℕ) (v : V)
  | mutate (o : ℕ) (c : C)

/-- The objects and the dict after some events. -/
def KeyProtocol.run {C V : Type} (P : KeyProtocol (ℕ → C)) :
    List (KeyEvent C V) → (ℕ → C) → List (Slot V) → (ℕ → C) × List (Slot V)
  | [], s, d => (s, d)
  | .put o v :: l, s, d => P.run l s (P.put s o v d)
  | .mutate o c :: l, s, d => P.run l (Function.update s o c) d

/-- `ContinuousValue` as a key (continuous_value.py:136-142): `strHash` is the hash of strings in this process. -/
def cvKeys (strHash : String → ℤ) : KeyProtocol (ℕ → CV ℝ) where
  hash _ _ := strHash "#ContinuousValue#"
  eq _ o p := o == p

/-- A node object as a key (cobweb.py:938-943).  The concept id is given by `__init__` (cobweb.py:299) and assigned nowhere
else; the rest of the object, which changes, has the type `C`. -/
def nodeKeys {C : Type} (conceptId : ℕ → ℕ) (strHash : String → ℤ) : KeyProtocol (ℕ → C) where
  hash _ o := strHash ("CobwebNode" ++ toString (conceptId o))
  eq _ o p := o == p

/-- `set(l)` for a list of objects (cluster.py:179, 232, 283, 333): its elements in the order they came in. -/
def KeyProtocol.setOf {σ : Type} (P : KeyProtocol σ) (s : σ) (l : List ℕ) : List ℕ :=
  (l.foldl (fun d o => P.put s o () d) []).map Slot.ref

end CF
