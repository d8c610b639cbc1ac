import Verif.Spec.Statistics
import Mathlib.Algebra.BigOperators.Group.List.Basic
import Mathlib.Data.Real.Basic

/-!
# What the adaptive cutoff should look at
-/

set_option linter.all false

namespace CTInt

open Classical in
/-- The samples in those of the `n` bins of `[0, mx)` whose centre lies in quarter `k` of `[0, cut)`. -/
noncomputable def inQuarter (n : ℕ) (mx cut : ℝ) (k : ℕ) (l : List (ℝ × ℝ)) : List (ℝ × ℝ) :=
  l.filter fun s => decide (∃ b < n, ((b : ℝ) * (mx / n) ≤ s.1 ∧ s.1 < ((b : ℝ) + 1) * (mx / n)) ∧
    ((k : ℝ) * (cut / 4) ≤ ((b : ℝ) + 1 / 2) * (mx / n) ∧ ((b : ℝ) + 1 / 2) * (mx / n) < ((k : ℝ) + 1) * (cut / 4)))

/-- The mean of the values of samples. -/
noncomputable def sampleMean (l : List (ℝ × ℝ)) : ℝ := (l.map (·.2)).sum / l.length

open Classical in
/-- Whether the samples in the quarters suffice to adapt the cutoff: a hundred in each, and not all means negative. -/
noncomputable def enoughData (Q : ℕ → List (ℝ × ℝ)) : Prop :=
  (∀ k < 4, 100 ≤ (Q k).length) ∧ ∃ k < 4, 0 ≤ sampleMean (Q k)

open Classical in
/-- The adapted cutoff: larger if the mean of the last quarter exceeds the given part of the largest of the means, smaller if it
    falls below; unchanged without enough data. -/
noncomputable def adapted (Q : ℕ → List (ℝ × ℝ)) (ratio mag cut : ℝ) : ℝ :=
  let top := max (max (sampleMean (Q 0)) (sampleMean (Q 1))) (max (sampleMean (Q 2)) (sampleMean (Q 3)))
  if enoughData Q then
    if ratio * top < sampleMean (Q 3) then cut * mag
    else if sampleMean (Q 3) < ratio * top then cut / mag
    else cut
  else cut

/-- The samples of one flavour: position and value. -/
def ofFlavor (f : ℕ) (l : List (ℝ × ℝ × ℕ)) : List (ℝ × ℝ) := (l.filter fun s => s.2.2 = f).map fun s => (s.1, s.2.1)

end CTInt
