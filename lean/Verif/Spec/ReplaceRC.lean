import Verif.Spec.Replace
import Verif.Spec.Deletion

/-!
# Specification: replacing rows together with columns
-/

namespace CTInt

variable {K : Type} [Field K]

/-- `g` with row `m` replaced by `r` and column `m` replaced by `c` (used with `r m = c m`). -/
def withRowCol (g : ℕ → ℕ → K) (m : ℕ) (r c : ℕ → K) : ℕ → ℕ → K :=
  fun i j => if i = m then r j else if j = m then c i else g i j

/-- The indices without `m`: 0, …, m-1, m+1, … -/
def skipOne (m i : ℕ) : ℕ := if i < m then i else i + 1

/-- The determinant of the `n × n` matrix left when row `m` and column `m` are struck out of an
    `(n+1) × (n+1)` matrix. -/
def minorDet (n : ℕ) (g : ℕ → ℕ → K) (m : ℕ) : K := detN n fun i j => g (skipOne m i) (skipOne m j)

/-- `g` with every row and every column whose number is in `l` taken from `new`. -/
def withRowsCols (g new : ℕ → ℕ → K) (l : List ℕ) : ℕ → ℕ → K :=
  fun i j => if i ∈ l ∨ j ∈ l then new i j else g i j

/-- `Q`, `R`, `S` hold the rows and columns of `new` numbered by `rc`: `Q` the chosen columns without
    the chosen rows, `R` the chosen rows without the chosen columns, `S` where they cross; everything
    in ascending order of the rows and columns. -/
structure NaturalBlocks (N : ℕ) (rc : List ℕ) (new : ℕ → ℕ → K) (Q R S : DMat K) : Prop where
  Qr : Q.rows + rc.length = N
  Qc : Q.cols = rc.length
  Rr : R.rows = rc.length
  Rc : R.cols + rc.length = N
  Sr : S.rows = rc.length
  Sc : S.cols = rc.length
  Qv : ∀ a < (kept N rc).length, ∀ b < rc.length, Q.val a b = new (keptAt N rc a) (rc.getD b 0)
  Rv : ∀ a < rc.length, ∀ b < (kept N rc).length, R.val a b = new (rc.getD a 0) (keptAt N rc b)
  Sv : ∀ a < rc.length, ∀ b < rc.length, S.val a b = new (rc.getD a 0) (rc.getD b 0)

end CTInt
