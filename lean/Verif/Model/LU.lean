import Verif.Spec.LU
import Verif.Model.Partitioned
import Verif.Model.Submatrix

/-!
# Determinants as products and their phases

`lu_product` (include/alps/fastupdate/detail/util.hpp 195-207), `phase_of_determinant` (resizable_matrix.hpp 418-431) and
`compute_determinant_as_product` of both determinant matrices.  `Eigen::FullPivLU` and `std::sort` are parameters.
-/

set_option linter.all false

namespace CTInt

noncomputable section
variable {K : Type} [RCLike K] [DecidableEq K]

/-- `lu_product`, util.hpp 195-207: writing to the first of no results is undefined. -/
def luProduct {n : ℕ} {A : Matrix (Fin n) (Fin n) K} (d : FullPivLU n A) : Res (List K) :=
  match List.ofFn fun i => d.lu i i with
  | [] => .ub
  | x :: l => .ok (x * ((Equiv.Perm.sign d.p : ℤ) * (Equiv.Perm.sign d.q : ℤ) : ℤ) :: l)

/-- `phase_of_determinant`, resizable_matrix.hpp 418-431. -/
def phaseOfDeterminant {n : ℕ} {A : Matrix (Fin n) (Fin n) K} (d : FullPivLU n A) : K :=
  (List.ofFn fun i => d.lu i i).foldl (fun ph x => if x ≠ 0 then ph * (x / ((‖x‖ : ℝ) : K)) else 0) 1 *
    (((Equiv.Perm.sign d.p : ℤ) * (Equiv.Perm.sign d.q : ℤ) : ℤ) : K)

/-- `if (r.size()>0) r[0] *= x`, determinant_matrix.hpp 150-152, determinant_matrix_partitioned.hpp 210-212. -/
def scaleHead (x : K) : List K → List K
  | [] => []
  | y :: l => y * x :: l

variable {Cd Co T : Type}
variable (lu : ∀ (n : ℕ) (A : Matrix (Fin n) (Fin n) K), FullPivLU n A) (srt : List K → List K)

/-- `DeterminantMatrix::compute_determinant_as_product`, determinant_matrix.hpp 137-155.  Dividing by a zero factor gives no
    number. -/
def DM.determinantAsProduct (s : DM K Cd Co T) : Res (List K) :=
  if s.inv.rows = 0 then .ok [1]
  else do
    let vec ← luProduct (lu s.inv.rows (toM s.inv.rows s.inv.rows s.inv.val))
    Res.assert (∀ x ∈ vec, x ≠ 0)
    pure (srt (scaleHead (s.perm : K) (vec.map fun x => 1 / x)))

/-- `DeterminantMatrixPartitioned::compute_determinant_as_product`, determinant_matrix_partitioned.hpp 201-215
    (`singular_` is never set). -/
def PDM.determinantAsProduct (s : PDM K Cd Co T) : Res (List K) := do
  let r ← Res.foldl (fun r m => do
    let vec ← DM.determinantAsProduct lu srt m
    pure (r ++ vec)) [] (s.mats.take s.ns)
  pure (srt (scaleHead (s.perm : K) r))

end
end CTInt
