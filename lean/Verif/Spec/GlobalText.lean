import Verif.Model.UMatrix
import Verif.Spec.Global

/-!
# The words of a file of global updates
-/

set_option linter.all false

namespace CTInt

/-- The words of the lines `source destination`. -/
def linesText (l : List (ℕ × ℕ)) : List Tok := l.flatMap fun p => [.int p.1, .int p.2]

/-- The words of a move: for every type in turn the type and its destination. -/
def moveText (d : List ℕ) : List Tok := linesText ((List.range d.length).zip d)

/-- The words of a file: the number of moves and the moves. -/
def movesText (ds : List (List ℕ)) : List Tok := .int ds.length :: ds.flatMap moveText

/-- A destination for each of `n` types. -/
structure MoveOf (n : ℕ) (d : List ℕ) : Prop where
  len : d.length = n
  lt : ∀ x ∈ d, x < n

end CTInt
