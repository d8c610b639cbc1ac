import Verif.Base.DMat
import Verif.Base.Res
import Mathlib.Analysis.RCLike.Basic
import Mathlib.Data.List.Range

/-!
# Model of helpers (src/util.h, src/operator.hpp)

Real arithmetic is exact.
-/

set_option linter.all false

namespace CTInt

/-- `permutation`, util.h 49-56: the first factor is computed with 64-bit unsigned numbers.  The debug assert is a precondition.
    Simplification: `N` is not the largest number (for which the loop would not end). -/
def partialFactorial (N k : ℕ) : Res ℕ := do
  Res.assert (0 < k)
  let first := (N + 2 ^ 64 - k % 2 ^ 64 + 1) % 2 ^ 64
  pure ((List.range' first (N + 1 - first)).foldl (fun r i => r * i) 1)

/-- `remove_elements_from_vector`, util.h 81-93, from position `ipos` on: `std::find` compares an `int` with a `size_t`, so that
    a negative number is a number beyond every position. -/
def removeElements {α : Type} (del : List ℤ) : ℕ → List α → List α
  | _, [] => []
  | ipos, x :: l => if (ipos : ℤ) ∈ del then removeElements del (ipos + 1) l else x :: removeElements del (ipos + 1) l

open Classical in
/-- `is_identity`, util.h 191-209: the largest deviation from the identity. -/
noncomputable def isIdentity {K : Type} [RCLike K] (M : DMat K) : Res ℝ := do
  Res.throwIf (M.cols ≠ M.rows) .runtimeError
  pure ((List.range M.cols).foldl (fun d q => (List.range M.cols).foldl (fun d p =>
    if p = q then max d ‖M.val p q - 1‖ else max d ‖M.val p q‖) d) 0)

/-- `operator_time`, operator.hpp 8-23. -/
@[ext] structure OpTime where
  time : ℝ
  small : ℤ

/-- `operator<`, operator.hpp 27-34. -/
def OpTime.before (a b : OpTime) : Prop := if a.time = b.time then a.small < b.small else a.time < b.time

/-- `operator==`, operator.hpp 36-39. -/
def OpTime.same (a b : OpTime) : Prop := a.time = b.time ∧ a.small = b.small

end CTInt
