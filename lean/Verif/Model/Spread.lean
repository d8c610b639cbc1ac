import Verif.Base.Res
import Mathlib.Analysis.SpecialFunctions.Complex.Arg

/-!
# Model of the spread of vertices in imaginary time (src/update_statistics.h 155-191)

`compute_spread`; its only call (update_manager.hpp 402) is commented out.  Real arithmetic stands for `double`, and
`M_PI` for the number pi.
-/

set_option linter.all false

namespace CTInt

open Real

/-- The sums of update_statistics.h 165-170: `x` and `y`. -/
noncomputable def spreadSums (angles : List ℝ) : ℝ × ℝ :=
  angles.foldl (fun s a => (s.1 + cos a, s.2 + sin a)) (0, 0)

/-- `theta_c`, update_statistics.h 171-177.  `atan2(y, x)` is the argument of x + iy. -/
noncomputable def spreadCentre (angles : List ℝ) : ℝ :=
  let s := spreadSums angles
  if √(s.1 * s.1 + s.2 * s.2) = 0 then 0 else Complex.arg ⟨s.1, s.2⟩

/-- One round of the loop update_statistics.h 180-188, with its assert: `max_dist_p` and `max_dist_n`. -/
noncomputable def spreadStep (c : ℝ) (m : ℝ × ℝ) (a : ℝ) : Res (ℝ × ℝ) := do
  let angle := a - c
  let angle := if π ≤ angle then angle - 2 * π else angle
  Res.assert (angle ≤ π ∧ -π ≤ angle)
  pure (if 0 ≤ angle then (max m.1 |angle|, m.2) else (m.1, max m.2 |angle|))

/-- `compute_spread`, update_statistics.h 156-191; a vertex is given by its time. -/
noncomputable def computeSpread (ts : List ℝ) (beta : ℝ) : Res ℝ := do
  let coeff := 2 * π / beta
  let angles := ts.map (· * coeff)
  let c := spreadCentre angles
  let m ← Res.foldl (spreadStep c) (0, 0) angles
  pure ((m.1 + m.2) * beta / (2 * π))

end CTInt
