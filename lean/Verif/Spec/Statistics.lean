import Mathlib.Data.Real.Basic
import Mathlib.Data.List.GetD

/-!
# What the statistics classes should report
-/

set_option linter.all false

namespace CTInt

open Classical in
/-- The samples whose position lies in bin `b` of `n` equal bins of `[0, mx)`. -/
noncomputable def inBin (n : ℕ) (mx : ℝ) (b : ℕ) (l : List (ℝ × ℝ)) : List (ℝ × ℝ) :=
  l.filter fun s => decide ((b : ℝ) * (mx / n) ≤ s.1 ∧ s.1 < ((b : ℝ) + 1) * (mx / n))

open Classical in
/-- The samples in `[0, mx)`. -/
noncomputable def inRange (mx : ℝ) (l : List (ℝ × ℝ)) : List (ℝ × ℝ) :=
  l.filter fun s => decide (0 ≤ s.1 ∧ s.1 < mx)

end CTInt
