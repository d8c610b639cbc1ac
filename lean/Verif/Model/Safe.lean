import Verif.Base.DMat
import Mathlib.Analysis.RCLike.Basic
import Mathlib.Analysis.SpecialFunctions.Pow.Real

/-!
# Overflow-safe determinant and inverse

include/alps/fastupdate/detail/util.hpp 53-146 and resizable_matrix.hpp 203-230, 294-301.
Scalars are real or complex numbers (`RCLike`).
-/

set_option linter.all false

namespace CTInt

variable {𝕜 : Type} [RCLike 𝕜]

/-- `mat.cwiseAbs().maxCoeff()` (util.hpp 65, 87, 103, 116, 129, 142). -/
noncomputable def maxAbs (A : DMat 𝕜) : NNReal :=
  (Finset.range A.rows ×ˢ Finset.range A.cols).sup fun p => ‖A.val p.1 p.2‖₊

/-- `mat / c`. -/
noncomputable def scaled (A : DMat 𝕜) (c : 𝕜) : DMat 𝕜 := ⟨A.rows, A.cols, fun i j => A.val i j / c⟩

/-- `safe_determinant`, util.hpp 55-71 (and `safe_determinant_eigen_block` 75-93).
    `std::pow(max_coeff, 1.*N)` is the real power. -/
noncomputable def safeDet (A : DMat 𝕜) : Res 𝕜 := do
  Res.assert (A.rows = A.cols)
  if A.rows = 0 then pure 1
  else
    haveI := Classical.dec (maxAbs A = 0)
    if maxAbs A = 0 then pure 0
    else pure ((scaled A ((maxAbs A : ℝ) : 𝕜)).det * (((maxAbs A : ℝ) ^ ((A.rows : ℝ)) : ℝ) : 𝕜))

/-- `safe_inverse`, util.hpp 111-146 (and `safe_invert_in_place` 97-107).  `maxCoeff` of an empty
    matrix is refused by an assertion of Eigen; for a zero matrix the code divides 0 by 0: no value. -/
noncomputable def safeInv (A : DMat 𝕜) : Res (DMat 𝕜) := do
  Res.assert (A.rows = A.cols ∧ 0 < A.rows)
  haveI := Classical.dec (maxAbs A = 0)
  if maxAbs A = 0 then .ub
  else pure (scaled (scaled A ((maxAbs A : ℝ) : 𝕜)).inv ((maxAbs A : ℝ) : 𝕜))

/-- `ResizableMatrix::determinant`, resizable_matrix.hpp 203-215. -/
noncomputable def rmDet (A : DMat 𝕜) : Res 𝕜 := do
  Res.assert (A.rows = A.cols)
  if A.rows = 0 then pure 1
  else if A.rows = 1 then pure (A.val 0 0)
  else if A.rows = 2 then pure (A.val 0 0 * A.val 1 1 - A.val 0 1 * A.val 1 0)
  else pure A.det

/-- `ResizableMatrix::safe_determinant`, resizable_matrix.hpp 218-230. -/
noncomputable def rmSafeDet (A : DMat 𝕜) : Res 𝕜 := do
  Res.assert (A.rows = A.cols)
  if A.rows = 0 then pure 1
  else if A.rows = 1 then pure (A.val 0 0)
  else if A.rows = 2 then pure (A.val 0 0 * A.val 1 1 - A.val 0 1 * A.val 1 0)
  else safeDet A

/-- `ResizableMatrix::invert`, resizable_matrix.hpp 294-301. -/
noncomputable def rmInvert (A : DMat 𝕜) : Res (DMat 𝕜) := do
  Res.assert (A.rows = A.cols)
  if 0 < A.rows * A.cols then safeInv A else pure A

end CTInt
