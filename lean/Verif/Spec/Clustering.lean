import Mathlib.Logic.Relation
import Mathlib.Data.Nat.Notation

/-!
# Specification: connected components
-/

set_option linter.all false

namespace CTInt

/-- `i` and `j` are linked by a chain of the pairs in `ps`. -/
def Linked (ps : List (ℕ × ℕ)) : ℕ → ℕ → Prop := Relation.EqvGen fun a b => (a, b) ∈ ps

/-- `i` and `j` are linked by a chain of directly connected sites below `N`. -/
def LinkedBy (N : ℕ) (R : ℕ → ℕ → Bool) : ℕ → ℕ → Prop :=
  Relation.EqvGen fun a b => a < N ∧ b < N ∧ R a b = true

end CTInt
