import Verif.Spec.Fock
import Verif.Spec.SelfComplex

/-!
# Specification: the bare Green's function of hopping fermions as a function of the time difference
-/

set_option linter.all false

namespace CTInt

open NormedSpace Matrix

variable {K : Type} [RCLike K] {n : Type} [Fintype n] [DecidableEq n]

/-- G(t) = - <c(t) c†(0)> for times between 0 and β; it changes its sign when β is added.  Nothing is said about multiples of β. -/
def ThermalG (β : ℝ) (nf ns : ℕ) (c : ℕ → ℕ → Matrix n n K) (H : Matrix n n K) (G : ℝ → ℕ → ℕ → ℕ → K) : Prop :=
  ∀ z < nf, ∀ s < ns, ∀ s' < ns, ∀ t ∈ Set.Ioo 0 β, ∀ k : ℤ,
    G (t + k * β) z s s' = (-1) ^ k * - thermal β H (atTime H t (c z s) * (c z s')ᴴ)

end CTInt
