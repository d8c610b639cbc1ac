import Verif.Spec.Fock

/-!
# Specification: hopping between two sublattices
-/

set_option linter.all false

namespace CTInt

/-- The sites carry signs such that real, symmetric hopping connects sites of opposite signs only: a bipartite lattice without fields on the sites. -/
def BipartiteHops (ns : ℕ) (sgn : ℕ → ℝ) (h : ℕ → ℕ → ℕ → ℝ) : Prop :=
  (∀ s, sgn s = 1 ∨ sgn s = -1) ∧ ∀ z < 2, ∀ s < ns, ∀ s' < ns, sgn s = sgn s' → h z s s' = 0

end CTInt
