import Verif.Spec.Fock

/-!
# Specification: self-energy times Green's function of a Hamiltonian
-/

set_option linter.all false

namespace CTInt

open Matrix

variable {K : Type} [RCLike K] {n : Type} [Fintype n] [DecidableEq n]

/-- ⟨[c_A, V](u) c†_b⟩ with the thermal average and the times of H + V: what the equation of motion of the Green's function
    ⟨c_A(u) c†_b⟩ contains besides the hopping. -/
noncomputable def selfG (β : ℝ) (a : ℕ → ℕ → Matrix n n K) (H V : Matrix n n K) (z A b : ℕ) (u : ℝ) : K :=
  thermal β (H + V) (atTime (H + V) u (a z A * V - V * a z A) * (a z b)ᴴ)

end CTInt
