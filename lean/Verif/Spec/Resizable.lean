import Verif.Model.Resizable

/-!
# What the calls on a resizable matrix mean, without the buffer

`A`, `B` are plain tables of numbers with a size.
-/

set_option linter.all false

namespace CTInt

variable {K : Type} [Field K]

/-- The number of rows and columns a caller sees (`size1()`, `size2()`, resizable_matrix.hpp 73-80). -/
def RMat.rowsSeen (r : RMat K) : ℤ := if r.Allocated then r.size1 else 0
/-- See `rowsSeen`. -/
def RMat.colsSeen (r : RMat K) : ℤ := if r.Allocated then r.size2 else 0

/-- A caller reading sizes and elements of `r` sees the table `A`. -/
def Shows (r : RMat K) (A : DMat K) : Prop :=
  r.rowsSeen = A.rows ∧ r.colsSeen = A.cols ∧ ∀ i < A.rows, ∀ j < A.cols, r.read i j = .ok (A.val i j)

/-- The logical size does not exceed the buffer. -/
def Fits (r : RMat K) : Prop := r.size1 ≤ r.memR ∧ r.size2 ≤ r.memC

/-- The tables have the same size and agree, after renaming the rows and columns of the second. -/
def SameAfter (ρ γ : ℕ → ℕ) (B A : DMat K) : Prop :=
  B.rows = A.rows ∧ B.cols = A.cols ∧ ∀ i < A.rows, ∀ j < A.cols, B.val i j = A.val (ρ i) (γ j)

/-- Exchange of two indices. -/
def exch (a b : ℤ) (i : ℕ) : ℕ := if (i : ℤ) = a then b.toNat else if (i : ℤ) = b then a.toNat else i

/-- The effect of a call on the table. -/
def LStep (A : DMat K) : RCall K → DMat K → Prop
  | .conservative n m, B => B.rows = n ∧ B.cols = m ∧
      ∀ i j, i < A.rows → i < n → j < A.cols → j < m → B.val i j = A.val i j
  | .destructive n m, B => B.rows = n ∧ B.cols = m
  | .removeRowCol, B => B.rows + 1 = A.rows ∧ B.cols + 1 = A.cols ∧ ∀ i < B.rows, ∀ j < B.cols, B.val i j = A.val i j
  | .removeRow, B => B.rows + 1 = A.rows ∧ B.cols = A.cols ∧ ∀ i < B.rows, ∀ j < B.cols, B.val i j = A.val i j
  | .removeCol, B => B.rows = A.rows ∧ B.cols + 1 = A.cols ∧ ∀ i < B.rows, ∀ j < B.cols, B.val i j = A.val i j
  | .swapRow a b, B => SameAfter (exch a b) id B A
  | .swapCol a b, B => SameAfter id (exch a b) B A
  | .swapRowCol a b, B => SameAfter (exch a b) (exch a b) B A
  | .write p q x, B => B.rows = A.rows ∧ B.cols = A.cols ∧
      ∀ i < A.rows, ∀ j < A.cols, B.val i j = if (i : ℤ) = p ∧ (j : ℤ) = q then x else A.val i j
  | .identity, B => B.rows = A.rows ∧ B.cols = A.cols ∧ A.rows = A.cols ∧
      ∀ i < A.rows, ∀ j < A.cols, B.val i j = if i = j then 1 else 0
  | .clear, B => B.rows = A.rows ∧ B.cols = A.cols ∧ ∀ i < A.rows, ∀ j < A.cols, B.val i j = 0
  | .invert, B => B.rows = A.rows ∧ B.cols = A.cols ∧ A.rows = A.cols ∧
      ((toM A.rows A.rows A.val).det ≠ 0 → toM A.rows A.rows B.val * toM A.rows A.rows A.val = 1)
  | .assign C, B => B.rows = C.rows ∧ B.cols = C.cols ∧ ∀ i < C.rows, ∀ j < C.cols, B.val i j = C.val i j

/-- When a call is allowed. -/
def LPre (A : DMat K) : RCall K → Prop
  | .removeRowCol => 0 < A.rows ∧ 0 < A.cols
  | .removeRow => 0 < A.rows
  | .removeCol => 0 < A.cols
  | .swapRow a b => 0 ≤ a ∧ a < A.rows ∧ 0 ≤ b ∧ b < A.rows
  | .swapCol a b => 0 ≤ a ∧ a < A.cols ∧ 0 ≤ b ∧ b < A.cols
  | .swapRowCol a b => 0 ≤ a ∧ a < A.rows ∧ a < A.cols ∧ 0 ≤ b ∧ b < A.rows ∧ b < A.cols
  | .write i j _ => 0 ≤ i ∧ i < A.rows ∧ 0 ≤ j ∧ j < A.cols
  | .identity => A.rows = A.cols
  | .invert => A.rows = A.cols
  | _ => True

/-- A sequence of calls. -/
inductive LRun : DMat K → List (RCall K) → DMat K → Prop
  | nil (A) : LRun A [] A
  | cons {A B C c l} : LStep A c B → LRun B l C → LRun A (c :: l) C

end CTInt
