import Mathlib.Logic.Equiv.Basic

/-!
# Specification: performing a list of exchanges on an array
-/

namespace CTInt

/-- The contents of an array after `swap(a[p], a[q])` for every listed pair, first pair first. -/
def exchangeAll {α : Type} : List (ℕ × ℕ) → (ℕ → α) → ℕ → α
  | [], a => a
  | (p, q) :: l, a => exchangeAll l fun i => if i = p then a q else if i = q then a p else a i

end CTInt
