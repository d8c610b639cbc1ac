import Verif.Base.DMat

/-!
# Specification: "this stored matrix is the inverse of that matrix"

`g : ℕ → ℕ → K` lists the entries of the matrix the user means; `X` is the stored matrix.
-/

namespace CTInt

variable {K : Type} [Field K]

/-- The determinant of the leading `n × n` part of `g`. -/
def detN (n : ℕ) (g : ℕ → ℕ → K) : K := (toM n n g).det

/-- `X` is an `n × n` matrix and is the inverse of the `n × n` matrix with entries `g`. -/
def IsInvOf (X : DMat K) (n : ℕ) (g : ℕ → ℕ → K) : Prop :=
  X.rows = n ∧ X.cols = n ∧ toM n n X.val * toM n n g = 1

/-- The blocks the caller of an "up" routine passes for a matrix `g` split at `N`. -/
structure UpBlocks (N M : ℕ) (g : ℕ → ℕ → K) (B C D : DMat K) : Prop where
  Br : B.rows = N
  Bc : B.cols = M
  Cr : C.rows = M
  Cc : C.cols = N
  Dr : D.rows = M
  Dc : D.cols = M
  Bv : ∀ i < N, ∀ j < M, B.val i j = g i (N + j)
  Cv : ∀ i < M, ∀ j < N, C.val i j = g (N + i) j
  Dv : ∀ i < M, ∀ j < M, D.val i j = g (N + i) (N + j)


end CTInt
