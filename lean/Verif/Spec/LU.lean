import Mathlib.LinearAlgebra.Matrix.Determinant.Basic
import Mathlib.GroupTheory.Perm.Sign
import Mathlib.Analysis.RCLike.Basic

/-!
# Specification: what `Eigen::FullPivLU` provides, and lists sorted by modulus
-/

set_option linter.all false

namespace CTInt

variable {K : Type} [Field K]

/-- The factor with ones on the diagonal, stored below the diagonal of `lu`. -/
def luLower {n : ℕ} (lu : Matrix (Fin n) (Fin n) K) : Matrix (Fin n) (Fin n) K :=
  fun i k => if k < i then lu i k else if k = i then 1 else 0

/-- The factor stored on and above the diagonal of `lu`. -/
def luUpper {n : ℕ} (lu : Matrix (Fin n) (Fin n) K) : Matrix (Fin n) (Fin n) K :=
  fun k j => if k ≤ j then lu k j else 0

/-- A decomposition P A Q = L U with row and column permutations (documentation of `Eigen::FullPivLU`). -/
structure FullPivLU (n : ℕ) (A : Matrix (Fin n) (Fin n) K) where
  /-- `permutationP` -/
  p : Equiv.Perm (Fin n)
  /-- `permutationQ` -/
  q : Equiv.Perm (Fin n)
  /-- `matrixLU` -/
  lu : Matrix (Fin n) (Fin n) K
  eq : A.submatrix p q = luLower lu * luUpper lu

/-- What `std::sort` with the comparison of moduli does: the same numbers, moduli not decreasing.  The order of numbers with
    equal modulus is left open. -/
structure SortsByModulus {K : Type} [RCLike K] (srt : List K → List K) : Prop where
  perm : ∀ l, (srt l).Perm l
  sorted : ∀ l, (srt l).Pairwise fun a b => ‖a‖ ≤ ‖b‖

end CTInt
