import Verif.Spec.FockSigma
import Verif.Spec.SelfComplex
import Verif.Spec.Matsubara

/-!
# Specification: the Green's function of a Hamiltonian
-/

set_option linter.all false

namespace CTInt

open Matrix

variable {K : Type} [RCLike K] {n : Type} [Fintype n] [DecidableEq n]

/-- - <c_A(u) c†_b> with the thermal average and the times of H. -/
noncomputable def greenOf (β : ℝ) (a : ℕ → ℕ → Matrix n n K) (H : Matrix n n K) (z A b : ℕ) (u : ℝ) : K :=
  - thermal β H (atTime H u (a z A) * (a z b)ᴴ)

/-- What the program writes as the self-energy times Green's function at a frequency, in the limit of a long run: bins, Legendre coefficients by the midpoint rule,
    Fourier transform of their expansion. -/
noncomputable def writtenOmega [DecidableEq K] (c : Ctx K) (G : ℝ → ℕ → ℕ → ℕ → K) (β : ℝ) (M m nl z A b k : ℕ) : ℂ :=
  fourier β (expansion β nl fun l => sigmaSumLegendre c G β M m z A b l / partitionC c β M) k

end CTInt
