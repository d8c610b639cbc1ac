import Mathlib.Data.Real.Basic
import Mathlib.Algebra.Order.Group.Unbundled.Abs
import Verif.Base.DMat
import Verif.Base.Res
import Verif.Model.FastUpdate

/-!
# Model of src/fastupdate_formula.h 339-684, 811-837 : replacing whole rows together with columns

Matrix elements are real numbers (the functions store intermediate results in `double`, lines 379-380
and 541, so they compile for real elements only).  Arithmetic is exact.  Indices are natural numbers: the
code's `int` indices are assumed non-negative.
-/

set_option linter.all false

namespace CTInt

namespace Src

/-- `A(i,j)`: outside the matrix the access is undefined.  (resizable_matrix.hpp 58-70 asserts `i <= size1_` only: an access one
    step outside may still meet allocated memory that is not part of the matrix.) -/
def rd (A : DMat ℝ) (i j : ℕ) : Res ℝ := if i < A.rows ∧ j < A.cols then .ok (A.val i j) else .ub

/-- `A.swap_col(a,b); A.swap_row(a,b);` as used throughout. -/
def swapBoth (A : DMat ℝ) (a b : ℕ) : DMat ℝ := (A.swapCol a b).swapRow a b

/-- The size checks of lines 346-352 and 443-449, and the range checks of the exchanges which follow. -/
noncomputable def rcChecks (invG Dr Dc : DMat ℝ) (m : ℕ) : Res Unit := do
  Res.assert (invG.rows = invG.cols)
  Res.assert (Dr.rows = 1 ∧ Dr.cols = invG.cols)
  Res.assert (Dc.rows = invG.cols ∧ Dc.cols = 1)
  Res.assert (m < invG.cols)
  Res.assert (Dr.val 0 m = Dc.val m 0)

/-- `copy_block` of the four parts of the exchanged matrix (lines 355-361), and the two lines 377/471 and
    393-396/482-486 which write four parts back. -/
def rcPut (Y P Q R : DMat ℝ) (s : ℝ) (n : ℕ) : DMat ℝ :=
  (((Y.setBlock 0 0 P).setBlock 0 n Q).setBlock n 0 R).set n n s

/-- lines 382-386 (and 474-479): the leading part of the result in the singular branch. -/
noncomputable def rcSingP (tP tQp tRp Q R : DMat ℝ) : DMat ℝ :=
  tP.add (((tQp.mul (R.mul tP)).neg.sub ((tP.mul Q).mul tRp)).add ((tQp.mul (R.mul (tP.mul Q))).mul tRp))

/-- `compute_inverse_matrix_replace_row_col(invG, Dr, Dc, m, assume_intermediate_state_is_singular)`.
    src/fastupdate_formula.h 339-433.  `eps` is 1E-10 in the code (line 344).
    Line 375: with `lambda = 0` the quotient `tS/lambda` is infinite or not a number and the comparison is
    false; this is the extra condition `lam ≠ 0`. -/
noncomputable def replaceRowCol (eps : ℝ) (invG Dr Dc : DMat ℝ) (m : ℕ) (sing : Bool) :
    Res (ℝ × DMat ℝ) := do
  rcChecks invG Dr Dc m
  let n := invG.cols - 1
  let Y := swapBoth invG m n
  let tP := Y.block 0 0 n n
  let tQ := Y.block 0 n n 1
  let tR := Y.block n 0 1 n
  let tS := Y.val n n
  let S := Dc.val m 0
  let Q := (Dc.swapRow m n).block 0 0 n 1
  let R := (Dr.swapCol m n).block 0 0 1 n
  let lam := tS * (S - (R.mul (tP.mul Q)).val 0 0) + ((R.mul tQ).mul (tR.mul Q)).val 0 0
  let tSp := tS / lam
  if sing = true ∨ (|tS| < eps ∧ (lam ≠ 0 ∧ |tSp| < eps)) then
    let RtQ := (R.mul tQ).val 0 0
    let tRQ := (tR.mul Q).val 0 0
    let tQp := tQ.smul (1 / RtQ)
    let tRp := tR.smul (1 / tRQ)
    return (lam, swapBoth (rcPut Y (rcSingP tP tQp tRp Q R) tQp tRp tSp n) m n)
  else
    let Mm := ((tQ.mul tR).smul (-1 / tS)).add tP
    let MQ := Mm.mul Q
    let RM := R.mul Mm
    let tQp := MQ.smul (-tS / lam)
    let tRp := RM.smul (-tS / lam)
    let tPp := Mm.add ((MQ.mul RM).smul (tS / lam))
    return (lam, swapBoth (rcPut Y tPp tQp tRp tSp n) m n)

/-- `compute_inverse_matrix_replace_row_col2(invG, Dr, Dc, m, compute_only_det_rat)`.
    src/fastupdate_formula.h 436-493. -/
noncomputable def replaceRowCol2 (invG Dr Dc : DMat ℝ) (m : ℕ) (onlyDet : Bool) :
    Res (ℝ × DMat ℝ) := do
  rcChecks invG Dr Dc m
  let n := invG.cols - 1
  let Y := swapBoth invG m n
  let tQ := Y.block 0 n n 1
  let tR := Y.block n 0 1 n
  let tS := Y.val n n
  let Q := (Dc.swapRow m n).block 0 0 n 1
  let R := (Dr.swapCol m n).block 0 0 1 n
  let RtQ := (R.mul tQ).val 0 0
  let tRQ := (tR.mul Q).val 0 0
  let lam := RtQ * tRQ
  if onlyDet = true then
    return (lam, swapBoth Y m n)
  else
    let tP := Y.block 0 0 n n
    let tQp := tQ.smul (1 / RtQ)
    let tRp := tR.smul (1 / tRQ)
    return (lam, swapBoth (rcPut Y (rcSingP tP tQp tRp Q R) tQp tRp (tS / lam) n) m n)

/-- `is_included`: lines 514-517, 564-567, 634-637, 657-660.  An index outside the vector is undefined. -/
def isIncluded (N : ℕ) (rc : List ℕ) : Res (ℕ → Bool) := do
  Res.assert (∀ r ∈ rc, r < N)
  return fun i => decide (i ∈ rc)

/-- One pass of the loop body of lines 531-541 (and 573-583): element `i` of the new row and of the new
    column number `im`.  The state holds `Dr`, `Dc`, `idx`, `idx2`. -/
noncomputable def fillStep (Q R S : DMat ℝ) (inc : ℕ → Bool) (im : ℕ)
    (s : (ℕ → ℝ) × (ℕ → ℝ) × ℕ × ℕ) (i : ℕ) : Res ((ℕ → ℝ) × (ℕ → ℝ) × ℕ × ℕ) :=
  let (dr, dc, idx, idx2) := s
  if inc i = false then do
    let a ← rd R im idx
    let b ← rd Q idx im
    return (Function.update dr i a, Function.update dc i b, idx + 1, idx2)
  else do
    let a ← rd S im idx2
    let b ← rd S idx2 im
    return (Function.update dr i a, Function.update dc i b, idx, idx2 + 1)

/-- The loop over `i` of lines 530-541 (571-583) and the two assertions behind it. -/
noncomputable def fillRowCol (N M : ℕ) (Q R S : DMat ℝ) (inc : ℕ → Bool) (im : ℕ)
    (dr dc : ℕ → ℝ) : Res ((ℕ → ℝ) × (ℕ → ℝ)) := do
  let s ← Res.foldl (fillStep Q R S inc im) (dr, dc, 0, 0) (List.range N)
  Res.assert (s.2.2.1 = N - M)
  Res.assert (s.2.2.2 = M)
  return (s.1, s.2.1)

/-- One pass of the loop over `im` (lines 528-545).  The state holds `invG`, `Dr`, `Dc`, `lambda`. -/
noncomputable def succStep (eps : ℝ) (N M : ℕ) (Q R S : DMat ℝ) (inc : ℕ → Bool) (rc : List ℕ)
    (sing : Bool) (s : DMat ℝ × (ℕ → ℝ) × (ℕ → ℝ) × ℝ) (im : ℕ) :
    Res (DMat ℝ × (ℕ → ℝ) × (ℕ → ℝ) × ℝ) := do
  let d ← fillRowCol N M Q R S inc im s.2.1 s.2.2.1
  let m ← Res.get rc im
  let r ← replaceRowCol eps s.1 ⟨1, N, fun _ j => d.1 j⟩ ⟨N, 1, fun i _ => d.2 i⟩ m sing
  return (r.2, d.1, d.2, s.2.2.2 * r.1)

/-- The size checks of lines 503-506 (558-561); `N - M` is a difference of `int`s, which a matrix size
    equals only when it is not negative. -/
def sizeChecks (invG Q R S : DMat ℝ) (M : ℕ) : Res Unit := do
  Res.assert (invG.rows = invG.cols)
  Res.assert (Q.rows + M = invG.cols ∧ Q.cols = M)
  Res.assert (R.rows = M ∧ R.cols + M = invG.cols)
  Res.assert (S.rows = M ∧ S.cols = M)

/-- `compute_inverse_matrix_replace_rows_cols_succesive(invG, Q, R, S, rows_cols, flag)`.
    src/fastupdate_formula.h 496-552.  Lines 507-511 check the order of `rows_cols`; the bound
    `rows_cols.size()-1` is unsigned, so that for an empty list the check reads beyond the end.
    `junkr`, `junkc` are the uninitialised elements of `Dr`, `Dc`. -/
noncomputable def replaceSuccessive (eps : ℝ) (junkr junkc : ℕ → ℝ) (invG Q R S : DMat ℝ)
    (rc : List ℕ) (sing : Bool) : Res (ℝ × DMat ℝ) := do
  sizeChecks invG Q R S rc.length
  Res.assert (rc ≠ [])
  Res.assert (List.IsChain (· < ·) rc)
  let inc ← isIncluded invG.cols rc
  let s ← Res.foldl (succStep eps invG.cols rc.length Q R S inc rc sing) (invG, junkr, junkc, 1)
    (List.range rc.length)
  return (s.2.2.2, s.1)

/-- `compute_inverse_matrix_replace_single_row_col(invG, Q, R, S, rows_cols, compute_only_det)`.
    src/fastupdate_formula.h 554-597.  After the test of line 556 the loop over `im` runs once. -/
noncomputable def replaceSingle (junkr junkc : ℕ → ℝ) (invG Q R S : DMat ℝ) (rc : List ℕ)
    (onlyDet : Bool) : Res (ℝ × DMat ℝ) := do
  Res.throwIf (rc.length ≠ 1) .logicError
  sizeChecks invG Q R S rc.length
  let inc ← isIncluded invG.cols rc
  let d ← fillRowCol invG.cols rc.length Q R S inc 0 junkr junkc
  let m ← Res.get rc 0
  let r ← replaceRowCol2 invG ⟨1, invG.cols, fun _ j => d.1 j⟩ ⟨invG.cols, 1, fun i _ => d.2 i⟩ m onlyDet
  return (1 * r.1, r.2)

/-- `compute_det_ratio_replace_rows_cols_safe(invBigMat, Q, R, S, ...)`.
    src/fastupdate_formula.h 811-837.  The last two arguments are not used. -/
noncomputable def detRatioSafe (inv Q R S : DMat ℝ) : Res ℝ := do
  let M := R.rows
  let N := inv.cols - M
  Res.assert (M < inv.cols)
  Res.assert (M = 1)
  Res.assert (inv.cols = inv.rows)
  Res.assert (R.cols = N)
  Res.assert (Q.rows = N ∧ Q.cols = M)
  Res.assert (S.rows = M ∧ S.cols = M)
  let tP := inv.block 0 0 N N
  let tQ := inv.block 0 N N M
  let tR := inv.block N 0 M N
  let tS := inv.block N N M M
  return ((tS.mul (S.sub (R.mul (tP.mul Q)))).add ((R.mul tQ).mul (tR.mul Q))).val 0 0

/-! ### Placing rows and columns in a matrix -/

/-- `replace_rows_cols(A, Q, R, S, rows_cols)`.  src/fastupdate_formula.h 600-626.  The copies of blocks
    (lines 616-618) assert that both sides are large enough. -/
def replaceRowsCols (A Q R S : DMat ℝ) (rc : List ℕ) : Res (DMat ℝ) := do
  Res.assert (rc.length ≤ A.cols)
  Res.assert (∀ r ∈ rc, r < A.cols ∧ r < A.rows)
  Res.assert (A.rows = A.cols)
  let M := rc.length
  let N := A.cols - M
  Res.assert (N ≤ Q.rows ∧ M ≤ Q.cols)
  Res.assert (M ≤ R.rows ∧ N ≤ R.cols)
  Res.assert (M ≤ S.rows ∧ M ≤ S.cols)
  let l := swapList M A.cols rc
  let Y := applySwaps l A
  let Y1 := Y.setBlock 0 N (Q.block 0 0 N M)
  let Y2 := Y1.setBlock N 0 (R.block 0 0 M N)
  let Y3 := Y2.setBlock N N (S.block 0 0 M M)
  return applySwaps l.reverse Y3

/-- The loop of lines 640-645 of `generate_indices`. -/
def restLoop (inc : ℕ → Bool) (N : ℕ) (s : List ℕ × ℕ) (i : ℕ) : Res (List ℕ × ℕ) :=
  if inc i = false then
    if s.2 < N then .ok (s.1.set s.2 i, s.2 + 1) else .ub
  else .ok s

/-- `generate_indices(rows_cols, N, M, rows_cols_rest)`.  src/fastupdate_formula.h 628-647.  `resize`
    keeps old elements and appends zeros. -/
def generateIndices (rc : List ℕ) (N M : ℕ) (old : List ℕ) : Res (List ℕ) := do
  Res.assert (rc.length = M)
  let inc ← isIncluded (N + M) rc
  let start := (old ++ List.replicate (N - old.length) 0).take N
  let s ← Res.foldl (restLoop inc N) (start, 0) (List.range (N + M))
  Res.assert (s.2 = N)
  return s.1

/-- The loop of lines 663-671: positions of the remaining and of the chosen indices. -/
def splitLoop (inc : ℕ → Bool) (N M : ℕ) (s : (List ℕ × ℕ) × (List ℕ × ℕ)) (i : ℕ) :
    Res ((List ℕ × ℕ) × (List ℕ × ℕ)) :=
  if inc i = true then
    if s.2.2 < M then .ok (s.1, (s.2.1.set s.2.2 i, s.2.2 + 1)) else .ub
  else
    if s.1.2 < N then .ok ((s.1.1.set s.1.2 i, s.1.2 + 1), s.2) else .ub

/-- `A(p, q) = x` with the range check of the element access. -/
def wr (A : DMat ℝ) (p q : ℕ) (x : ℝ) : Res (DMat ℝ) :=
  if p < A.rows ∧ q < A.cols then .ok (A.set p q x) else .ub

/-- One pass of the inner loop of lines 674-678. -/
def placeS (S : DMat ℝ) (pM : List ℕ) (j : ℕ) (A : DMat ℝ) (i : ℕ) : Res (DMat ℝ) := do
  let x ← rd S i j
  let p ← Res.get pM i
  let q ← Res.get pM j
  wr A p q x

/-- One pass of the inner loop of lines 679-684. -/
def placeQR (Q R : DMat ℝ) (pN pM : List ℕ) (j : ℕ) (A : DMat ℝ) (i : ℕ) : Res (DMat ℝ) := do
  let p ← Res.get pN i
  let q ← Res.get pM j
  let x ← rd Q i j
  let A' ← wr A p q x
  let y ← rd R j i
  wr A' q p y

/-- `replace_rows_cols_respect_ordering(A, Q, R, S, rows_cols)`.  src/fastupdate_formula.h 649-687. -/
def replaceOrdered (A Q R S : DMat ℝ) (rc : List ℕ) : Res (DMat ℝ) := do
  Res.assert (rc.length ≤ A.cols)
  let inc ← isIncluded (A.cols - rc.length + rc.length) rc
  let s ← Res.foldl (splitLoop inc (A.cols - rc.length) rc.length)
    ((List.replicate (A.cols - rc.length) 0, 0), (List.replicate rc.length 0, 0)) (List.range A.cols)
  Res.assert (s.1.2 = A.cols - rc.length ∧ s.2.2 = rc.length)
  let A1 ← Res.foldl (fun B j => Res.foldl (placeS S s.2.1 j) B (List.range rc.length)) A
    (List.range rc.length)
  Res.foldl (fun B j => Res.foldl (placeQR Q R s.1.1 s.2.1 j) B (List.range (A.cols - rc.length))) A1
    (List.range rc.length)

end Src

end CTInt
