import Verif.Spec.Fock
import Verif.Spec.HalfFilled

/-!
# Specification: the repulsion of the Hubbard model
-/

set_option linter.all false

namespace CTInt

open Matrix

variable {n : Type} [Fintype n] [DecidableEq n]

/-- (n↑ - 1/2)(n↓ - 1/2) on site `s`. -/
noncomputable def pairOn (a : ℕ → ℕ → Matrix n n ℝ) (s : ℕ) : Matrix n n ℝ :=
  ((a 0 s)ᴴ * a 0 s - (1 / 2 : ℝ) • 1) * ((a 1 s)ᴴ * a 1 s - (1 / 2 : ℝ) • 1)

/-- The repulsion of the Hubbard model: U times the sum of (n↑ - 1/2)(n↓ - 1/2) over the sites. -/
noncomputable def hubbardV (U : ℝ) (ns : ℕ) (a : ℕ → ℕ → Matrix n n ℝ) : Matrix n n ℝ := U • ∑ s ∈ Finset.range ns, pairOn a s

end CTInt
