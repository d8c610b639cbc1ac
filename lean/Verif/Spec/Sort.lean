import Mathlib.Order.Defs.LinearOrder
import Mathlib.GroupTheory.Perm.Sign

/-!
# Specification: inversions, sorting permutations
-/

set_option linter.all false

namespace CTInt

/-- Number of pairs `i < j` with `l[j] < l[i]`. -/
def inversions {α : Type} [LinearOrder α] : List α → ℕ
  | [] => 0
  | a :: l => (l.filter fun b => decide (b < a)).length + inversions l

/-- `w` is `v` on positions `0..N-1` rearranged by `σ`. -/
def RearrangedBy {α : Type} (N : ℕ) (v w : ℕ → α) (σ : Equiv.Perm (Fin N)) : Prop := ∀ i : Fin N, w i = v (σ i)

/-- No later element is smaller than an earlier one. -/
def SortedBy {α : Type} (cmp : α → α → Bool) (N : ℕ) (w : ℕ → α) : Prop :=
  ∀ i j, i < j → j < N → cmp (w j) (w i) = false

/-- Strict weak order, as required of a C++ comparison. -/
structure StrictWeak {α : Type} (cmp : α → α → Bool) : Prop where
  irrefl : ∀ a, cmp a a = false
  trans : ∀ a b c, cmp a b = true → cmp b c = true → cmp a c = true
  incomp : ∀ a b c, cmp a b = false → cmp b a = false → cmp b c = false → cmp c b = false →
    cmp a c = false ∧ cmp c a = false

end CTInt
