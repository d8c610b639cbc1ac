import Verif.Base.DMat

/-!
# Fast-update formulas: growing and shrinking

Models of
* include/alps/fastupdate/detail/fastupdate_formula.ipp (namespace `Inc`)
* src/fastupdate_formula.h (namespace `Src`)

`safe_determinant` / `safe_inverse` are taken to be the exact determinant / inverse here; that the
rescaled computations agree with them is property C18.  `junk` stands for the unspecified contents
of newly exposed matrix entries.
-/

set_option linter.all false

namespace CTInt

variable {K : Type} [Field K]

namespace Inc

/-- `compute_det_ratio_up`, fastupdate_formula.ipp 32-55. -/
def detRatioUp (B C D invA : DMat K) : Res K := do
  let N := invA.rows
  let M := D.rows
  Res.assert (0 < M)
  Res.assert (invA.rows = invA.cols)
  Res.assert (B.rows = N ∧ B.cols = M)
  Res.assert (C.rows = M ∧ C.cols = N)
  Res.assert (D.rows = M ∧ D.cols = M)
  if N = 0 then pure D.det
  else pure (D.sub ((C.mul invA).mul B)).det

/-- `compute_inverse_matrix_up`, fastupdate_formula.ipp 57-104.  Returns the value and the new `invA`. -/
noncomputable def inverseUp (junk : ℕ → ℕ → K) (B C D invA : DMat K) : Res (K × DMat K) := do
  let N := invA.rows
  let M := D.rows
  Res.assert (0 < M)
  Res.assert (invA.rows = invA.cols)
  Res.assert (B.rows = N ∧ B.cols = M)
  Res.assert (C.rows = M ∧ C.cols = N)
  Res.assert (D.rows = M ∧ D.cols = M)
  if N = 0 then pure (D.det, D.inv)
  else
    let C_invA := C.mul invA
    let H := (D.sub (C_invA.mul B)).inv
    let invA_B := invA.mul B
    let F := (invA_B.neg).mul H
    let X := invA.conservativeResize junk (N + M) (N + M)
    let X := X.setBlock N 0 ((H.neg).mul C_invA)
    let X := X.setBlock 0 0 ((X.block 0 0 N N).sub (invA_B.mul (X.block N 0 M N)))
    let X := X.setBlock 0 N F
    let X := X.setBlock N N H
    pure (1 / H.det, X)

/-- `compute_det_ratio_down` for the last rows and columns, fastupdate_formula.ipp 144-165.
    The loop reads `invG(N+i, N+j)` with `N = NpM - M` possibly negative: then undefined. -/
def detRatioDownLast (M : ℕ) (invG : DMat K) : Res K := do
  let NpM := invG.rows
  Res.assert (invG.cols = NpM)
  Res.assert (0 < M)
  Res.assert (M ≤ NpM)
  pure (invG.block (NpM - M) (NpM - M) M M).det

/-- `compute_inverse_matrix_down` for the last rows and columns, fastupdate_formula.ipp 221-254.
    (The two `throw`s at 236-242 are preceded by equivalent asserts; the model takes the
    release-build reading: throw.) -/
noncomputable def inverseDownLast (junk : ℕ → ℕ → K) (M : ℕ) (invG : DMat K) : Res (DMat K) := do
  let NpM := invG.rows
  Res.assert (invG.cols = NpM)
  Res.throwIf (NpM < M) .logicError
  Res.throwIf (M = 0) .logicError
  let N := NpM - M
  let X := if 0 < N then
      invG.setBlock 0 0 ((invG.block 0 0 N N).sub
        (((invG.block 0 N N M).mul (invG.block N N M M).inv).mul (invG.block N 0 M N)))
    else invG
  pure (X.conservativeResize junk N N)

/-- `compute_det_ratio_down` with explicit row and column lists, fastupdate_formula.ipp 113-142.
    `rows_removed`/`cols_removed` must have at least `M` entries below `NpM` (asserted / read). -/
def detRatioDownRC (M : ℕ) (rs cs : List ℕ) (invG : DMat K) : Res K := do
  let NpM := invG.rows
  Res.assert (invG.cols = NpM)
  Res.assert (M ≤ rs.length)
  Res.assert (M ≤ cs.length)
  Res.assert (0 < M)
  Res.assert (∀ j < M, rs.getD j 0 < NpM ∧ cs.getD j 0 < NpM)
  let H : DMat K := ⟨M, M, fun i j => invG.val (cs.getD i 0) (rs.getD j 0)⟩
  let perm := ((List.range M).map fun j =>
    ((rs.getD j 0 : ℤ) - (cs.getD j 0 : ℤ)).natAbs).sum
  pure (if perm % 2 = 0 then H.det else - H.det)

/-- The swap loop of `compute_inverse_matrix_down`, fastupdate_formula.ipp 203-207, as a fold over
    `idel = 0, 1, ..., M-1`. -/
def swapLoop (M NpM : ℕ) (rs cs : List ℕ) (invG : DMat K) : DMat K :=
  (List.range M).foldl (fun X idel =>
    (X.swapCol (rs.getD (M - 1 - idel) 0) (NpM - 1 - idel)).swapRow
      (cs.getD (M - 1 - idel) 0) (NpM - 1 - idel)) invG

/-- `compute_inverse_matrix_down` with explicit lists, fastupdate_formula.ipp 167-219. -/
noncomputable def inverseDownRC (junk : ℕ → ℕ → K) (M : ℕ) (rs cs : List ℕ) (invG : DMat K) :
    Res (DMat K) := do
  let NpM := invG.rows
  Res.assert (invG.cols = NpM)
  Res.assert (M ≤ rs.length)
  Res.assert (M ≤ cs.length)
  Res.throwIf (NpM < M) .logicError
  Res.throwIf (M = 0) .logicError
  Res.assert (∀ j < M, rs.getD j 0 < NpM ∧ cs.getD j 0 < NpM)
  let N := NpM - M
  let X := swapLoop M NpM rs cs invG
  let X := if 0 < N then
      X.setBlock 0 0 ((X.block 0 0 N N).sub
        (((X.block 0 N N M).mul (X.block N N M M).inv).mul (X.block N 0 M N)))
    else X
  pure (X.conservativeResize junk N N)

/-- State of `ReplaceHelper` (fastupdate_formula.hpp 128-146): the sizes and two work matrices. -/
structure Replace (K : Type) where
  N : ℕ
  M : ℕ
  Mold : ℕ
  Mmat : DMat K
  invtSp : DMat K

/-- Constructor, fastupdate_formula.ipp 264-281.  (The declaration in fastupdate_formula.hpp 131 names the
    arguments `R, Q, S`, the definition `Q, R, S`; callers pass `Q, R, S`.) -/
def Replace.mk' (invG Q R S : DMat K) (w1 w2 : DMat K) : Res (Replace K) := do
  let N := R.cols
  let M := R.rows
  Res.assert (N ≤ invG.cols)
  Res.assert (invG.cols = invG.rows)
  Res.assert (Q.rows = N ∧ Q.cols = M)
  Res.assert (S.rows = M ∧ S.cols = M)
  pure ⟨N, M, invG.cols - N, w1, w2⟩

/-- `compute_det_ratio`, fastupdate_formula.ipp 283-314. -/
noncomputable def Replace.detRatio [DecidableEq K] (h : Replace K) (invG Q R S : DMat K) :
    Res (K × Replace K) := do
  if h.N = 0 then pure (S.det * invG.det, h)
  else
    let tP := invG.block 0 0 h.N h.N
    let tQ := invG.block 0 h.N h.N h.Mold
    let tR := invG.block h.N 0 h.Mold h.N
    let tS := invG.block h.N h.N h.Mold h.Mold
    if tS.det = 0 then pure (0, h)
    else
      let Mmat := if 0 < h.Mold then tP.sub ((tQ.mul tS.inv).mul tR) else tP
      let invtSp := S.sub (R.mul (Mmat.mul Q))
      pure (tS.det * invtSp.det, { h with Mmat := Mmat, invtSp := invtSp })

/-- `compute_inverse_matrix`, fastupdate_formula.ipp 316-353. -/
noncomputable def Replace.inverse (junk : ℕ → ℕ → K) (h : Replace K) (Q R S : DMat K) :
    DMat K :=
  if h.N = 0 then
    let X := DMat.destructiveResize junk h.M h.M
    if 0 < h.M then X.setBlock 0 0 S.inv else X
  else
    let X := DMat.destructiveResize junk (h.N + h.M) (h.N + h.M)
    let X := if 0 < h.M then
        let X := X.setBlock h.N h.N h.invtSp.inv
        let X := X.setBlock 0 h.N ((h.Mmat.neg).mul (Q.mul (X.block h.N h.N h.M h.M)))
        X.setBlock h.N 0 ((((X.block h.N h.N h.M h.M).mul R).neg).mul h.Mmat)
      else X
    let X := X.setBlock 0 0 h.Mmat
    if 0 < h.M then
      X.setBlock 0 0 ((X.block 0 0 h.N h.N).sub
        ((h.Mmat.mul Q).mul (X.block h.N 0 h.M h.N)))
    else X

/-- `compute_det_ratio_relace_last_row`, fastupdate_formula.ipp 358-365. -/
def detRatioLastRow (invG row : DMat K) : Res K := do
  Res.assert (row.rows = 1)
  Res.assert (row.cols = invG.rows)
  Res.assert (0 < invG.cols)
  pure ((row.mul (invG.block 0 (invG.cols - 1) invG.rows 1)).val 0 0)

/-- `compute_inverse_matrix_replace_last_row`, fastupdate_formula.ipp 370-389. -/
def inverseLastRow (invG row : DMat K) (detRat : K) : Res (DMat K) := do
  Res.assert (row.rows = 1)
  let N := invG.rows
  Res.assert (0 < N ∧ invG.cols = N ∧ row.cols = N)
  let lastCol := fun n => invG.val n (N - 1)
  let R := fun m => if m = N - 1 then 0 else (row.mul (invG.block 0 0 N (N - 1))).val 0 m
  let c := 1 / detRat
  pure ⟨N, N, fun n m => if m = N - 1 then lastCol n * c
    else invG.val n m - lastCol n * R m * c⟩

/-- `compute_det_ratio_relace_last_col`, fastupdate_formula.ipp 394-401. -/
def detRatioLastCol (invG col : DMat K) : Res K := do
  Res.assert (col.cols = 1)
  Res.assert (col.rows = invG.cols)
  Res.assert (0 < invG.cols ∧ invG.rows = invG.cols)
  pure (((invG.block (invG.cols - 1) 0 1 invG.cols).mul col).val 0 0)

/-- `compute_inverse_matrix_replace_last_col`, fastupdate_formula.ipp 406-427. -/
def inverseLastCol (invG col : DMat K) (detRat : K) : Res (DMat K) := do
  Res.assert (col.cols = 1)
  let N := invG.rows
  Res.assert (0 < N ∧ invG.cols = N ∧ col.rows = N)
  let lastRow := fun n => invG.val (N - 1) n
  let R := fun m => if m = N - 1 then 0 else ((invG.block 0 0 (N - 1) N).mul col).val m 0
  let c := 1 / detRat
  pure ⟨N, N, fun m n => if m = N - 1 then lastRow n * c
    else invG.val m n - lastRow n * R m * c⟩

end Inc

namespace Src

/-- `compute_det_ratio_up`, src/fastupdate_formula.h 14-41 (the commented-out size asserts are
    still preconditions of the products). -/
def detRatioUp (B C D invA : DMat K) : Res K := do
  let N := invA.rows
  let M := D.rows
  Res.assert (0 < M ∧ D.cols = M)
  if N = 0 then pure D.det
  else
    Res.assert (invA.cols = N ∧ B.rows = N ∧ B.cols = M ∧ C.rows = M ∧ C.cols = N)
    pure (D.sub ((C.mul invA).mul B)).det

/-- `compute_inverse_matrix_up`, src/fastupdate_formula.h 43-103: returns the value and `E, F, G, H`. -/
noncomputable def inverseUpBlocks (junk : ℕ → ℕ → K) (B C D invA : DMat K) :
    Res (K × DMat K × DMat K × DMat K × DMat K) := do
  let N := invA.rows
  let M := D.rows
  Res.assert (0 < M ∧ D.cols = M)
  if N = 0 then
    let H := D.inv
    pure (1 / H.det, DMat.destructiveResize junk 0 0, DMat.destructiveResize junk 0 M,
      DMat.destructiveResize junk M 0, H)
  else
    Res.assert (invA.cols = N ∧ B.rows = N ∧ B.cols = M ∧ C.rows = M ∧ C.cols = N)
    let C_invA := C.mul invA
    let H := (D.sub (C_invA.mul B)).inv
    let G := (H.mul C_invA).neg
    let invA_B := invA.mul B
    let F := (invA_B.mul H).neg
    let E := ((invA_B.mul G).neg).add invA
    pure (1 / H.det, E, F, G, H)

/-- `compute_inverse_matrix_up2`, src/fastupdate_formula.h 107-164.  `invA` and `invBigMat` may be the
    same object: everything read after the resize (150) is a copy taken before it. -/
noncomputable def inverseUp2 (junk : ℕ → ℕ → K) (B C D invA : DMat K) : Res (K × DMat K) := do
  let N := invA.rows
  let M := D.cols
  Res.assert (0 < M ∧ D.rows = M)
  if N = 0 then pure (D.det, D.inv)
  else
    Res.assert (invA.cols = N ∧ B.rows = N ∧ B.cols = M ∧ C.rows = M ∧ C.cols = N)
    let invA_copy := invA
    let C_invA := C.mul invA
    let C_invA_B := C_invA.mul B
    let H := (D.sub C_invA_B).inv
    let invA_B := invA.mul B
    let F := (invA_B.neg).mul H
    let X := DMat.destructiveResize junk (N + M) (N + M)
    let X := X.setBlock N 0 ((H.neg).mul C_invA)
    let X := X.setBlock 0 0 (invA_copy.sub (invA_B.mul (X.block N 0 M N)))
    let X := X.setBlock N N H
    let X := X.setBlock 0 N F
    pure (1 / H.det, X)

/-- `compute_det_ratio_down`, src/fastupdate_formula.h 166-193. -/
def detRatioDown (M : ℕ) (ps : List ℕ) (inv : DMat K) : Res K := do
  let NpM := inv.rows
  Res.assert (inv.cols = NpM)
  Res.assert (M ≤ ps.length)
  Res.assert (0 < M)
  Res.assert (∀ j < M, ps.getD j 0 < NpM)
  let H : DMat K := ⟨M, M, fun i j => inv.val (ps.getD i 0) (ps.getD j 0)⟩
  pure H.det

/-- Swap list built at src/fastupdate_formula.h 233-238. -/
def swapList (M NpM : ℕ) (ps : List ℕ) : List (ℕ × ℕ) :=
  (List.range M).map fun i => (ps.getD (M - 1 - i) 0, NpM - 1 - i)

/-- Applying the exchanges of a swap list to rows and columns of a matrix
    (loop bodies at src/fastupdate_formula.h 235-236, src/submatrix.hpp 114-118). -/
def applySwaps (l : List (ℕ × ℕ)) (A : DMat K) : DMat K :=
  l.foldl (fun X p => (X.swapCol p.1 p.2).swapRow p.1 p.2) A

/-- `compute_inverse_matrix_down`, src/fastupdate_formula.h 196-261:
    returns the ratio, the shrunk matrix and the swap list. -/
noncomputable def inverseDown (junk : ℕ → ℕ → K) (M : ℕ) (ps : List ℕ) (inv : DMat K) :
    Res (K × DMat K × List (ℕ × ℕ)) := do
  let NpM := inv.rows
  Res.throwIf (NpM < M) .logicError
  Res.throwIf (M = 0) .logicError
  let N := NpM - M
  Res.assert (inv.cols = NpM ∧ M ≤ ps.length)
  Res.assert (∀ j < M, ps.getD j 0 < NpM)
  let sl := swapList M NpM ps
  let X := applySwaps sl inv
  if N = 0 then
    pure (X.det, X.conservativeResize junk 0 0, sl)
  else
    let H := X.block N N M M
    let F := X.block 0 N N M
    let G := X.block N 0 M N
    let X := X.setBlock 0 0 ((X.block 0 0 N N).add (((F.neg).mul H.inv).mul G))
    pure (H.det, X.conservativeResize junk N N, sl)

end Src
end CTInt
