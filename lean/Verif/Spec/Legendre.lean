import Mathlib.Algebra.Polynomial.Derivative
import Mathlib.Data.Real.Basic

/-!
# Legendre polynomials, by the formula of Rodrigues
-/

set_option linter.all false

namespace CTInt

open Polynomial in
/-- `P_l = 1 / (2^l l!) (d/dX)^l (X² - 1)^l`. -/
noncomputable def legendreP (l : ℕ) : ℝ[X] :=
  C (1 / (2 ^ l * (l.factorial : ℝ))) * derivative^[l] ((X ^ 2 - 1) ^ l)

end CTInt
