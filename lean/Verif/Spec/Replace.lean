import Verif.Spec.Inverse

/-!
# Specification: replacing one row, one column, or diagonal elements
-/

namespace CTInt

variable {K : Type} [Field K]

/-- `g` with row `m` replaced by `b`. -/
def withRow (g : ℕ → ℕ → K) (m : ℕ) (b : ℕ → K) : ℕ → ℕ → K :=
  fun i j => if i = m then b j else g i j

/-- `g` with column `m` replaced by `b`. -/
def withCol (g : ℕ → ℕ → K) (m : ℕ) (b : ℕ → K) : ℕ → ℕ → K :=
  fun i j => if j = m then b i else g i j

/-- `g` with `d k` added to the diagonal element number `pos[k]`, for every `k < M`. -/
def withDiag (g : ℕ → ℕ → K) (M : ℕ) (pos : List ℕ) (d : ℕ → K) : ℕ → ℕ → K :=
  fun i j => g i j + if i = j then ∑ k ∈ Finset.range M, (if pos.getD k 0 = i then d k else 0) else 0

end CTInt
