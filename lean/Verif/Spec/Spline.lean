import Mathlib.Analysis.Calculus.ContDiff.Basic
import Mathlib.Analysis.Calculus.IteratedDeriv.Defs
import Mathlib.Algebra.Polynomial.Eval.Defs
import Mathlib.Algebra.Polynomial.Degree.Defs

/-!
# Cubic splines
-/

set_option linter.all false

namespace CTInt

/-- `S` is a cubic spline through the points `(x 0, y 0), …, (x (n-1), y (n-1))`: it passes through them, is a
    polynomial of degree at most three between neighbours, and is twice continuously differentiable on the
    whole interval. -/
structure IsCubicSpline (n : ℕ) (x y : ℕ → ℝ) (S : ℝ → ℝ) : Prop where
  through : ∀ i < n, S (x i) = y i
  cubic : ∀ i, i + 1 < n → ∃ p : Polynomial ℝ, p.natDegree ≤ 3 ∧
    ∀ t ∈ Set.Icc (x i) (x (i + 1)), S t = p.eval t
  smooth : ContDiffOn ℝ 2 S (Set.Icc (x 0) (x (n - 1)))

end CTInt
