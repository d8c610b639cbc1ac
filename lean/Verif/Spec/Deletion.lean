import Mathlib.Data.Finset.Basic

/-!
# Specification: deleting rows / columns in place
-/

namespace CTInt

/-- The positions `0, ..., n-1` that are not in `rs`, in ascending order. -/
def kept (n : ℕ) (rs : List ℕ) : List ℕ := (List.range n).filter fun k => k ∉ rs

/-- Position, before the deletion of `rs`, of what is in position `i` afterwards. -/
def keptAt (n : ℕ) (rs : List ℕ) (i : ℕ) : ℕ := (kept n rs).getD i 0

/-- An ascending list of distinct positions below `n`. -/
def Ascending (n : ℕ) (rs : List ℕ) : Prop := rs.Pairwise (· < ·) ∧ ∀ r ∈ rs, r < n

end CTInt
