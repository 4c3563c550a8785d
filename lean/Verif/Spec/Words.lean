/-
Words and parentheses of a string, to say which strings the tuplizer accepts (C46).
-/
import Verif.Spec.Relation

namespace CF

/-- The words of a string: what is between two spaces, possibly nothing. -/
def wordsOf (s : PStr) : List PStr := s.splitOn ' '

/-- A word without an opening parenthesis at its beginning. -/
def wordBody (w : PStr) : PStr := if w.head? = some '(' then w.tail else w

/-- How many words begin with an opening parenthesis. -/
def openings (ws : List PStr) : ℕ := ws.countP fun w => w.head? = some '('

/-- The number of closing parentheses at the end of a word. -/
def closings (w : PStr) : ℕ := ((wordBody w).reverse.takeWhile (· = ')')).length

/-- What a word says: it, without these parentheses. -/
def wordAtom (w : PStr) : PStr := (wordBody w).take ((wordBody w).length - closings w)

/-- Every word says something, and no parenthesis is closed before it is opened. -/
def WellClosed (ws : List PStr) : Prop :=
  (∀ w ∈ ws, wordAtom w ≠ []) ∧ ∀ k, ((ws.take k).map closings).sum ≤ openings (ws.take k)

end CF
