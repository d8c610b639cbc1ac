import Verif.Model.FastReplace
import Verif.Base.Types

/-!
# One flavor's A⁻¹ : `InvAMatrix`

src/submatrix.hpp 33-199, src/submatrix_impl/invA.ipp.

`NI` is the constant `ALPHA_NON_INT` (src/submatrix.hpp 23): the value of alpha that marks an operator of
a non-interacting vertex.  `G0` is the bare Green function `spline_G0(annihilator, creator)`.
The four parallel vectors are kept as four lists, as in the code.
-/

set_option linter.all false

namespace CTInt

noncomputable section
variable {K : Type} [Field K] [DecidableEq K]

/-- `eval_f`, src/submatrix.hpp 32-35. -/
def evalF (NI a : K) : K := if a = NI then 1 else a / (a - 1)

/-- `gamma_func`, src/submatrix.hpp 37-40. -/
def gammaFunc (f1 f2 : K) : K := (f1 - f2) / f2

/-- Fields of `InvAMatrix` (src/submatrix.hpp 179-194).  The work matrices of `update_matrix` are locals of
    the model. -/
structure InvA (K : Type) where
  mat : DMat K
  tG : DMat K
  cr : List Op
  an : List Op
  al : List K
  vi : List VInfo
  cache : DMat K
  idx : List ℤ
  num : ℕ

namespace InvA

/-- Default constructor, src/submatrix_impl/invA.ipp 6-20. -/
def empty : InvA K := ⟨⟨0, 0, fun _ _ => 0⟩, ⟨0, 0, fun _ _ => 0⟩, [], [], [], [], ⟨0, 0, fun _ _ => 0⟩, [], 0⟩

/-- `push_back_op`, invA.ipp 22-33. -/
def pushBackOp (A : InvA K) (cr an : Op) (al : K) (vi : VInfo) : Res (InvA K) := do
  Res.assert (A.an.length = A.cr.length)
  Res.assert (A.an.length = A.al.length)
  Res.assert (A.an.length = A.vi.length)
  pure { A with cr := A.cr ++ [cr], an := A.an ++ [an], al := A.al ++ [al], vi := A.vi ++ [vi] }

/-- `alpha_at`, src/submatrix.hpp 61-64 (both branches of its conditional are the same). -/
def alphaAt (A : InvA K) (pos : ℕ) : Res K := do
  Res.assert (pos < A.cr.length)
  Res.get A.al pos

/-- `find_row_col(uid, rank)`, src/submatrix.hpp 77-85; `-1` is `none`. -/
def findRowCol (A : InvA K) (uid rank : ℕ) : Option ℕ :=
  (List.range A.cr.length).find? fun i =>
    decide ((A.vi.getD i default).uid = uid ∧ (A.vi.getD i default).rank = rank)

/-- `find_row_col(uid)`, src/submatrix.hpp 87-98. -/
def findRowCols (A : InvA K) (uid : ℕ) : Res (List ℕ) :=
  let pos := (List.range A.cr.length).filter fun i => decide ((A.vi.getD i default).uid = uid)
  if pos.length = 0 then .throw .logicError else .ok pos

/-- `extend`, invA.ipp 35-79.  `j1`, `j2` are the unspecified contents of newly exposed entries.
    The final `sanity_check` only tests sizes (debug builds). -/
def extend (NI : K) (G0 : Op → Op → K) (j1 j2 : ℕ → ℕ → K) (A : InvA K) : Res (InvA K) := do
  let n := A.mat.cols
  Res.assert (n ≤ A.cr.length)
  let a := A.cr.length - n
  Res.assert (A.mat.rows = n ∧ n + a ≤ A.an.length ∧ n ≤ A.al.length)
  let X := A.mat.conservativeResize j1 (n + a) (n + a)
  let X : DMat K := ⟨n + a, n + a, fun i j => if n ≤ i ∨ n ≤ j then 0 else X.val i j⟩
  let X : DMat K := ⟨n + a, n + a, fun i j => if n ≤ i ∧ i = j then 1 else X.val i j⟩
  let B : DMat K := ⟨a, n, fun i j =>
    - G0 (A.an.getD (i + n) default) (A.cr.getD j default) * (evalF NI (A.al.getD j 0) - 1)⟩
  let X := X.setBlock n 0 (B.neg.mul (X.block 0 0 n n))
  pure { A with
    mat := X
    cache := DMat.destructiveResize j2 (n + a) 100
    idx := List.replicate (n + a) (-1)
    num := 0 }

/-- `compute_G0_col`, invA.ipp 508-530: the column of `G0` for creator `col`, through the cache.
    `static_cast<int>(1.5*num)` is `3*num/2`. -/
def computeG0Col (G0 : Op → Op → K) (junk : ℕ → ℕ → K) (A : InvA K) (col : ℕ) :
    Res (InvA K × (ℕ → K)) := do
  let Nv := A.mat.rows
  Res.assert (col < A.idx.length)
  let ix := A.idx.getD col (-1)
  if 0 ≤ ix then
    Res.assert (ix.toNat < A.cache.cols ∧ Nv ≤ A.cache.rows)
    pure (A, fun iv => A.cache.val iv ix.toNat)
  else
    let index := A.num
    let C := if A.cache.cols ≤ A.num then A.cache.conservativeResize junk Nv (3 * A.num / 2 + 1)
      else A.cache
    Res.assert (Nv ≤ C.rows ∧ index < C.cols ∧ Nv ≤ A.an.length ∧ col < A.cr.length)
    let C : DMat K := ⟨C.rows, C.cols, fun i j =>
      if j = index ∧ i < Nv then G0 (A.an.getD i default) (A.cr.getD col default) else C.val i j⟩
    pure ({ A with idx := A.idx.set col (A.num : ℤ), cache := C, num := A.num + 1 },
      fun iv => C.val iv index)

/-- `eval_Gij_col_part`, invA.ipp 470-506: the fast formula for one interacting column. -/
def evalGijColPart (NI : K) (A : InvA K) (row col : ℕ) : K :=
  let fj := evalF NI (A.al.getD col 0)
  if row ≠ col then (fj * A.mat.val row col) / (fj - 1)
  else (fj * A.mat.val row col - 1) / (fj - 1)

/-- The loop over slow columns in `eval_Gij_cols_rows` (invA.ipp 426-430): read the columns of `G0`, one
    after the other, through the cache. -/
def slowCols (G0 : Op → Op → K) (junk : ℕ → ℕ → K) : InvA K → List ℕ → Res (InvA K × List (ℕ → K))
  | A, [] => .ok (A, [])
  | A, c :: cs => do
    let (A1, g) ← computeG0Col G0 junk A c
    let (A2, gs) ← slowCols G0 junk A1 cs
    pure (A2, g :: gs)

/-- `eval_Gij_cols_rows`, invA.ipp 396-468.  Fast columns are written by `eval_Gij_col_part`, the others
    from the product of the rows of A⁻¹ with the collected `G0` columns; `k` below is the position of a slow
    column in the list of slow columns. -/
def evalGij (NI : K) (G0 : Op → Op → K) (junk : ℕ → ℕ → K) (A : InvA K) (rows cols : List ℕ) :
    Res (InvA K × DMat K) := do
  let Nv := A.mat.rows
  Res.assert (A.mat.cols = Nv ∧ (∀ c ∈ cols, c < A.cr.length ∧ c < A.al.length ∧ c < Nv) ∧ ∀ r ∈ rows, r < Nv)
  let slow := cols.filter fun c => decide (A.al.getD c 0 = NI)
  let (A', gs) ← slowCols G0 junk A slow
  pure (A', ⟨rows.length, cols.length, fun irow icol =>
    let c := cols.getD icol 0
    let r := rows.getD irow 0
    if A.al.getD c 0 ≠ NI then evalGijColPart NI A r c
    else
      let k := ((cols.take icol).filter fun c => decide (A.al.getD c 0 = NI)).length
      ∑ p ∈ Finset.range Nv, A.mat.val r p * (gs.getD k fun _ => 0) p⟩)

/-- `update_tildeG`, src/submatrix.hpp 140-147. -/
def updateTildeG (NI : K) (G0 : Op → Op → K) (junk : ℕ → ℕ → K) (A : InvA K) : Res (InvA K) := do
  let all := List.range A.mat.rows
  let (A', R) ← evalGij NI G0 junk A all all
  pure { A' with tG := R }

/-- `swap_ops`, src/submatrix.hpp 106-113, on one vector. -/
def swapAt {α : Type} (l : List α) (i j : ℕ) : List α :=
  match l[i]?, l[j]? with
  | some a, some b => (l.set i b).set j a
  | _, _ => l

/-- `swap_rows_cols`, src/submatrix.hpp 106-118. -/
def swapRowsCols (A : InvA K) (i j : ℕ) : Res (InvA K) := do
  Res.assert (i < A.cr.length)
  Res.assert (j < A.cr.length)
  Res.assert (A.an.length = A.cr.length ∧ A.al.length = A.cr.length ∧ A.vi.length = A.cr.length)
  Res.assert (i < A.mat.rows ∧ j < A.mat.rows ∧ i < A.mat.cols ∧ j < A.mat.cols)
  pure { A with
    cr := swapAt A.cr i j
    an := swapAt A.an i j
    al := swapAt A.al i j
    vi := swapAt A.vi i j
    mat := (A.mat.swapCol i j).swapRow i j }

/-- `remove_rows_cols(positions)`, invA.ipp 235-248.  `std::vector::resize` to a smaller size drops the
    tail. -/
def removeRowsCols (junk : ℕ → ℕ → K) (A : InvA K) (ps : List ℕ) : Res (InvA K) := do
  let Nv := A.mat.rows
  let n := ps.length
  Res.assert (n ≤ Nv)
  let A ← Res.foldl (fun A i => A.swapRowsCols (ps.getD (n - 1 - i) 0) (Nv - 1 - i)) A (List.range n)
  pure { A with
    cr := A.cr.take (Nv - n)
    an := A.an.take (Nv - n)
    al := A.al.take (Nv - n)
    vi := A.vi.take (Nv - n)
    mat := A.mat.conservativeResize junk (Nv - n) (Nv - n) }

/-- `remove_rows_cols(uids)`, invA.ipp 250-262. -/
def removeUids (junk : ℕ → ℕ → K) (A : InvA K) (uids : List ℕ) : Res (InvA K) := do
  let pss ← Res.mapM A.findRowCols uids
  let ps := pss.flatten
  if ps.length = 0 then pure A
  else A.removeRowsCols junk (ps.mergeSort (· ≤ ·))

/-- `compute_M`, invA.ipp 329-368 (without the debug-only check of the result). -/
def computeM (NI : K) (A : InvA K) : Res (DMat K) := do
  let N := A.mat.cols
  Res.assert (A.mat.rows = N ∧ N ≤ A.cr.length ∧ N ≤ A.al.length)
  pure ⟨N, N, fun i j => (1 - evalF NI (A.al.getD i 0)) * A.mat.val i j⟩

/-- `compute_f_prod`, invA.ipp 153-167. -/
def computeFProd (NI : K) (A : InvA K) : Res K := do
  Res.assert (A.an.length ≤ A.cr.length ∧ A.an.length ≤ A.al.length)
  pure (∏ i ∈ Finset.range A.an.length, (1 - evalF NI (A.al.getD i 0)))

/-- The matrix written by `recompute_matrix`, invA.ipp 120-133. -/
def scratchMat (NI : K) (G0 : Op → Op → K) (A : InvA K) : DMat K :=
  let Nv := A.an.length
  ⟨Nv, Nv, fun i j =>
    (- G0 (A.an.getD i default) (A.cr.getD j default) * (evalF NI (A.al.getD j 0) - 1)) +
      if i = j then evalF NI (A.al.getD j 0) else 0⟩

/-- `recompute_matrix`, invA.ipp 103-151: the new object, det A and the list of `1 - f`.
    The code keeps only the phases of the two numbers it returns, sign(det A) and sign(det(1-F));
    the phases are taken by the caller in this model (`Verif.Model.Submatrix`).  `invert` on a non-empty
    matrix is the exact inverse (C18).  The `check_error` branch only prints. -/
noncomputable def recompute (NI : K) (G0 : Op → Op → K) (A : InvA K) : Res (InvA K × K × K) := do
  let Nv := A.an.length
  if Nv = 0 then pure (A, 1, 1)
  else
    Res.assert (Nv ≤ A.cr.length ∧ Nv ≤ A.al.length)
    Res.throwIf (∃ i ∈ List.range Nv, A.al.getD i 0 = NI) .logicError
    let S := A.scratchMat NI G0
    pure ({ A with mat := S.inv }, S.det, ∏ i ∈ Finset.range Nv, (1 - evalF NI (A.al.getD i 0)))

end InvA

/-- Row/column record of `InvGammaMatrix` (src/submatrix.hpp 271): position in A⁻¹, alpha0, current alpha. -/
structure GInfo (K : Type) where
  pos : ℕ
  a0 : K
  a : K

instance {K : Type} [Zero K] : Inhabited (GInfo K) := ⟨⟨0, 0, 0⟩⟩

/-- `OperatorToBeUpdated` (src/submatrix.hpp 254-266); the operator time is never read. -/
structure OpU (K : Type) where
  pos : ℕ
  a0 : K
  cur : K
  new : K

instance {K : Type} [Zero K] : Inhabited (OpU K) := ⟨⟨0, 0, 0, 0⟩⟩

/-- Fields of `InvGammaMatrix` that are read (src/submatrix.hpp 324-337). -/
structure Gamma (K : Type) where
  mat : DMat K
  info : List (GInfo K)
  Gnn : DMat K
  Gnj : DMat K
  Gjn : DMat K
  removed : List ℕ
  Mmat : DMat K
  invtSp : DMat K

namespace Gamma

/-- Default constructor. -/
def empty : Gamma K :=
  let z : DMat K := ⟨0, 0, fun _ _ => 0⟩
  ⟨z, [], z, z, z, [], z, z⟩

/-- `find_row_col_gamma`, gamma.ipp 7-18. -/
def find (G : Gamma K) (posA : ℕ) : Res ℕ :=
  match (List.range G.info.length).find? fun i => decide ((G.info.getD i default).pos = posA) with
  | some i => .ok i
  | none => .throw .runtimeError

/-- `gamma_func(eval_f(alpha), eval_f(alpha0))` of one record. -/
def gam (NI : K) (r : GInfo K) : K := gammaFunc (evalF NI r.a) (evalF NI r.a0)

/-- `eval_Gammaij`, gamma.ipp 20-40. -/
def evalGammaij (NI : K) (tG : DMat K) (info : List (GInfo K)) (i j : ℕ) : K :=
  let gij := tG.val (info.getD i default).pos (info.getD j default).pos
  if i = j then gij - (1 + gam NI (info.getD i default)) / gam NI (info.getD i default) else gij

/-- `clear`, gamma.ipp 74-76, 88-95. -/
def clear (junk : ℕ → ℕ → K) (G : Gamma K) : Gamma K :=
  { G with mat := G.mat.conservativeResize junk 0 0, info := [] }

/-- The product of `-gamma` over the operators, with `f1` taken from `sel`. -/
def gammaProd (NI : K) (sel : OpU K → K) (ops : List (OpU K)) : K :=
  (ops.map fun o => - gammaFunc (evalF NI (sel o)) (evalF NI o.a0)).prod

/-- `try_add`, gamma.ipp 97-152. -/
def tryAdd (NI : K) (A : InvA K) (ops : List (OpU K)) (G : Gamma K) : Res (Gamma K × K) := do
  let nop := G.mat.cols
  let nadd := ops.length
  Res.assert (∀ o ∈ ops, o.a0 = o.cur)
  let prod := gammaProd NI OpU.new ops
  let info := G.info ++ ops.map fun o => ⟨o.pos, o.a0, o.new⟩
  Res.assert (nop ≤ G.info.length)
  Res.assert (∀ r ∈ info, r.pos < A.tG.rows ∧ r.pos < A.tG.cols)
  let pos := fun i => (info.getD i default).pos
  let Gnj : DMat K := ⟨nadd, nop, fun i j => A.tG.val (pos (nop + i)) (pos j)⟩
  let Gjn : DMat K := ⟨nop, nadd, fun i j => A.tG.val (pos i) (pos (nop + j))⟩
  let Gnn : DMat K := ⟨nadd, nadd, fun i j => A.tG.val (pos (nop + i)) (pos (nop + j)) -
    if i = j then (1 + gam NI (info.getD (nop + i) default)) / gam NI (info.getD (nop + i) default) else 0⟩
  let r ← Src.detRatioUp Gjn Gnj Gnn G.mat
  pure ({ G with info := info, Gnn := Gnn, Gnj := Gnj, Gjn := Gjn }, prod * r)

/-- `perform_add`, gamma.ipp 154-159. -/
noncomputable def performAdd (junk : ℕ → ℕ → K) (G : Gamma K) : Res (Gamma K) := do
  let (_, X) ← Src.inverseUp2 junk G.Gjn G.Gnj G.Gnn G.mat
  pure { G with mat := X }

/-- `reject_add`, gamma.ipp 161-164; also `reject_add_remove`, 285-288. -/
def rejectAdd (G : Gamma K) : Gamma K := { G with info := G.info.take G.mat.cols }

/-- `try_remove`, gamma.ipp 166-186.  The three debug-only assertions (176-178), which are stronger than what
    the formulas need, are not treated as preconditions: the model is the release build here. -/
def tryRemove (NI : K) (ops : List (OpU K)) (G : Gamma K) : Res (Gamma K × K) := do
  let rows ← Res.mapM (fun o : OpU K => G.find o.pos) ops
  let prod := gammaProd NI OpU.cur ops
  let rs := rows.mergeSort (· ≤ ·)
  let r ← Src.detRatioDown ops.length rs G.mat
  pure ({ G with removed := rs }, r / prod)

/-- `std::swap(v[i], v[j])` for all pairs of a list, in order (gamma.ipp 198-200). -/
def swapInfo (l : List (ℕ × ℕ)) (info : List (GInfo K)) : List (GInfo K) :=
  l.foldl (fun v p => InvA.swapAt v p.1 p.2) info

/-- `perform_remove`, gamma.ipp 188-202. -/
noncomputable def performRemove (junk : ℕ → ℕ → K) (G : Gamma K) : Res (Gamma K) := do
  let nop := G.mat.rows
  let nrem := G.removed.length
  let (_, X, sl) ← Src.inverseDown junk nrem G.removed G.mat
  Res.assert (∀ p ∈ sl, p.1 < G.info.length ∧ p.2 < G.info.length)
  pure { G with mat := X, info := (swapInfo sl G.info).take (nop - nrem) }

/-- `try_add_remove`, gamma.ipp 208-264: the swaps (228-230) are done on the object before the ratio is
    computed.  The debug-only assertion at 223 is not a precondition (release build, as in `tryRemove`). -/
noncomputable def tryAddRemove (NI : K) (A : InvA K) (ins rem : List (OpU K)) (G : Gamma K) :
    Res (Gamma K × K) := do
  let nop := G.mat.rows
  let nadd := ins.length
  let nrem := rem.length
  let rows ← Res.mapM (fun o : OpU K => G.find o.pos) rem
  let prodRem := gammaProd NI OpU.cur rem
  let rs := rows.mergeSort (· ≤ ·)
  Res.assert (nrem ≤ nop ∧ G.mat.cols = nop ∧ nop = G.info.length)
  Res.assert (∀ r ∈ rs, r < nop)
  let sl := Src.swapList nrem nop rs
  let mat := Src.applySwaps sl G.mat
  let info := swapInfo sl G.info
  let prodAdd := gammaProd NI OpU.new ins
  let info := info ++ ins.map fun o => ⟨o.pos, o.a0, o.new⟩
  Res.assert (∀ r ∈ info, r.pos < A.tG.rows ∧ r.pos < A.tG.cols)
  let nun := nop - nrem
  let Gnj : DMat K := ⟨nadd, nun, fun i j => evalGammaij NI A.tG info (nop + i) j⟩
  let Gjn : DMat K := ⟨nun, nadd, fun i j => evalGammaij NI A.tG info i (nop + j)⟩
  let Gnn : DMat K := ⟨nadd, nadd, fun i j => evalGammaij NI A.tG info (nop + i) (nop + j)⟩
  let (r, Mmat, invtSp) ← Src.detRatioReplace mat Gjn Gnj Gnn G.Mmat G.invtSp
  pure ({ G with mat := mat, info := info, removed := rs, Gnn := Gnn, Gnj := Gnj, Gjn := Gjn,
                 Mmat := Mmat, invtSp := invtSp }, (prodAdd / prodRem) * r)

/-- `perform_add_remove`, gamma.ipp 266-283. -/
noncomputable def performAddRemove (junk : ℕ → ℕ → K) (G : Gamma K) : Res (Gamma K) := do
  let nop := G.mat.rows
  let nadd := G.Gnn.cols
  let nun := G.Gjn.rows
  let X ← Src.inverseReplace junk G.mat G.Gjn G.Gnj G.Gnn G.Mmat G.invtSp
  Res.assert (X.cols = nun + nadd)
  Res.assert (nun ≤ G.info.length ∧ nop + nadd ≤ G.info.length)
  pure { G with mat := X, info := G.info.take nun ++ (G.info.drop nop).take nadd }

end Gamma

/-- `InvAMatrix::update_matrix`, invA.ipp 264-325.  The code scales row `pl[l]` for `l = 0, 1, ...` in turn
    (294-312) and then writes the new alphas (315-318), also in turn. -/
def InvA.updateMatrix (NI : K) (junk : ℕ → ℕ → K) (G : Gamma K) (A : InvA K) : Res (InvA K) := do
  let nop := G.mat.rows
  let N := A.mat.cols
  if nop = 0 then pure A
  else
    Res.assert (A.mat.rows = N ∧ nop ≤ G.info.length ∧ G.mat.cols = nop)
    let pl := fun l => (G.info.getD l default).pos
    Res.assert (∀ l < nop, pl l < N ∧ pl l < A.cr.length ∧ pl l < A.al.length)
    Res.assert (N ≤ A.tG.rows ∧ ∀ l < nop, pl l < A.tG.cols)
    let invA0 : DMat K := ⟨nop, N, fun l j => A.mat.val (pl l) j⟩
    let G0left : DMat K := ⟨N, nop, fun i l => A.tG.val i (pl l)⟩
    let X := A.mat.add ((G0left.neg.mul G.mat).mul invA0)
    Res.throwIf (∃ l ∈ List.range nop, (G.info.getD l default).a = (G.info.getD l default).a0) .runtimeError
    let X := (List.range nop).foldl (fun (X : DMat K) l =>
      let coeff := 1 / (1 + Gamma.gam NI (G.info.getD l default))
      ⟨X.rows, X.cols, fun i j => if i = pl l then X.val i j * coeff else X.val i j⟩) X
    let al := (List.range nop).foldl (fun al l => al.set (pl l) (G.info.getD l default).a) A.al
    pure { A with
      mat := X
      al := al
      cache := DMat.destructiveResize junk 0 0
      idx := []
      num := 0 }
end
end CTInt
