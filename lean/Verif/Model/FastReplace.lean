import Verif.Model.FastUpdate

/-!
# Fast-update formulas of src/fastupdate_formula.h that replace rows, columns or diagonal elements
-/

set_option linter.all false

namespace CTInt

variable {K : Type} [Field K]

namespace DMat
/-- Eigen assignment `A.block(r,c,h,w) = B`: the sizes must agree and the block must lie inside `A`
    (Eigen asserts both). -/
def assignBlock (A : DMat K) (r c h w : ℕ) (B : DMat K) : Res (DMat K) := do
  Res.assert (B.rows = h ∧ B.cols = w)
  Res.assert (r + h ≤ A.rows ∧ c + w ≤ A.cols)
  pure (A.setBlock r c B)
end DMat

namespace Src

/-- `compute_det_ratio_replace_row`, src/fastupdate_formula.h 263-274. -/
def detRatioReplaceRow (M Dr : DMat K) (m : ℕ) : Res K := do
  Res.assert (Dr.rows = 1)
  let N := M.cols
  Res.assert (M.rows = N ∧ Dr.cols = N ∧ m < N)
  pure (∑ i ∈ Finset.range N, Dr.val 0 i * M.val i m)

/-- What `compute_imverse_matrix_replace_row` writes into `M`, src/fastupdate_formula.h 278-304. -/
def replaceRowNewM (M Dr : DMat K) (m : ℕ) : DMat K :=
  let N := M.cols
  let lam := ∑ i ∈ Finset.range N, Dr.val 0 i * M.val i m
  let invLam := 1 / lam
  let R := fun j => if j = m then -1 else (Dr.mul M).val 0 j * (- invLam)
  let newM := fun i j => M.val i m * R j - M.val i j * R m
  ⟨N, N, fun i j => if j = m then newM i j + M.val i m * invLam else newM i j⟩

/-- `compute_imverse_matrix_replace_row`, src/fastupdate_formula.h 278-305, as called: the function
    is declared to return `T` but has no return statement, so the call has undefined behaviour
    once control reaches its end. -/
def inverseReplaceRow (M Dr : DMat K) (m : ℕ) : Res (K × DMat K) := do
  Res.assert (Dr.rows = 1)
  Res.assert (M.rows = M.cols ∧ Dr.cols = M.cols ∧ m < M.cols)
  .ub

/-- `compute_det_ratio_replace_rows_cols`, src/fastupdate_formula.h 689-747.  Returns the value, `Mmat`
    and `inv_tSp` (unchanged work matrices `w1`, `w2` if `N = 0`). -/
noncomputable def detRatioReplace (X Q R S w1 w2 : DMat K) : Res (K × DMat K × DMat K) := do
  let N := R.cols
  let M := R.rows
  Res.assert (N ≤ X.cols)
  let Mold := X.cols - N
  if N = 0 then pure (S.det * X.det, w1, w2)
  else
    Res.assert (X.cols = X.rows)
    Res.assert (Q.rows = N ∧ Q.cols = M)
    Res.assert (S.rows = M ∧ S.cols = M)
    let tQ := X.block 0 N N Mold
    let tR := X.block N 0 Mold N
    let tS := X.block N N Mold Mold
    let invtS_tR := tS.inv.mul tR
    let Mmat := (X.block 0 0 N N).sub (tQ.mul invtS_tR)
    let MQ := Mmat.mul Q
    let inv_tSp := S.sub (R.mul MQ)
    pure (tS.det * inv_tSp.det, Mmat, inv_tSp)

/-- `compute_inverse_matrix_replace_rows_cols`, src/fastupdate_formula.h 750-809.  The last statement (808)
    assigns the `N × N` upper-left block to the `M × N` lower-left block. -/
noncomputable def inverseReplace (junk : ℕ → ℕ → K) (X Q R S Mmat inv_tSp : DMat K) :
    Res (DMat K) := do
  let N := R.cols
  let M := R.rows
  Res.assert (X.cols = X.rows)
  Res.assert (Q.rows = N ∧ Q.cols = M)
  Res.assert (S.rows = M ∧ S.cols = M)
  if N = 0 then
    let Y ← (DMat.destructiveResize junk M M).assignBlock 0 0 M M (S.block 0 0 M M)
    pure (if 0 < M then Y.inv else Y)
  else
    let Y := DMat.destructiveResize junk (N + M) (N + M)
    let tmp := if 0 < M then (inv_tSp.block 0 0 M M).inv else inv_tSp.block 0 0 M M
    let Y ← Y.assignBlock N N M M tmp
    let Y ← Y.assignBlock 0 N N M ((Mmat.neg).mul (Q.mul (Y.block N N M M)))
    let Y ← Y.assignBlock N 0 M N ((((Y.block N N M M).mul R).neg).mul Mmat)
    Y.assignBlock N 0 M N (Mmat.sub ((Mmat.mul Q).mul (Y.block N 0 M N)))

/-- The matrix of `1 + X[pos,pos] * diag(d)`, src/fastupdate_formula.h 861-869. -/
def diagX (M : ℕ) (pos : List ℕ) (d : ℕ → K) (X : DMat K) : DMat K :=
  ⟨M, M, fun i j => X.val (pos.getD i 0) (pos.getD j 0) * d j + if i = j then 1 else 0⟩

/-- `compute_det_ratio_replace_diaognal_elements`, src/fastupdate_formula.h 851-906.
    `elems_diff` is read as `d`.  Returns the value and the new matrix. -/
noncomputable def diagUpdate (M : ℕ) (pos : List ℕ) (d : ℕ → K) (onlyDet : Bool) (X : DMat K) :
    Res (K × DMat K) := do
  let N := X.cols
  Res.assert (X.rows = N)
  Res.assert (M ≤ pos.length)
  Res.assert (∀ j < M, pos.getD j 0 < N)
  let detRat := (diagX M pos d X).det
  if onlyDet then pure (detRat, X)
  else
    Res.assert (M ≤ N)
    let sl := swapList M N pos
    let Y := applySwaps sl X
    let yx := Y.block 0 (N - M) N M
    let zx := Y.block (N - M) 0 M N
    let B := Y.block (N - M) (N - M) M M
    let C : DMat K := ⟨M, M, fun i j => B.val i j + if i = j then 1 / d i else 0⟩
    let C := if 0 < M then C.inv else C
    let W := C.mul zx
    let Y := Y.sub (yx.mul W)
    pure (detRat, applySwaps sl.reverse Y)

end Src
end CTInt
