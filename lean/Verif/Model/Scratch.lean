import Verif.Model.Submatrix
import Verif.Model.Safe

/-!
# Weights and M computed from scratch

src/submatrix_impl/common.ipp 359-394 (`compute_M_from_scratch`) and src/interaction_expansion.ipp 288-330
(`compute_weight`).
-/

set_option linter.all false

namespace CTInt

noncomputable section
variable {K : Type} [RCLike K] [DecidableEq K]

/-- The entries written by common.ipp 373-378 and interaction_expansion.ipp 319-324: first the column of bare
    Green functions, then the field is subtracted on the diagonal. -/
def scratchG (G0 : Op → Op → K) (an cr : List Op) (al : List K) (n : ℕ) : DMat K :=
  ⟨n, n, fun i j => if i = j then G0 (an.getD i default) (cr.getD j default) - al.getD j 0
    else G0 (an.getD i default) (cr.getD j default)⟩

/-- `compute_M_from_scratch`, common.ipp 362-394: the matrices, the sign and the weight. -/
def Sub.computeMScratch (c : Ctx K) (s : Sub K) : Res ((ℕ → DMat K) × K × K) := do
  let (M, sg, w) ← Res.foldl (fun (x : (ℕ → DMat K) × K × K) fl => do
    let A := s.invA fl
    let n := A.mat.cols
    if 0 < n then do
      Res.assert (n ≤ A.an.length ∧ n ≤ A.cr.length ∧ n ≤ A.al.length)
      let G := scratchG c.G0 A.an A.cr A.al n
      let d ← rmDet G
      let Gi ← rmInvert G
      pure (Function.update x.1 fl Gi, x.2.1 * mysign d, x.2.2 * d)
    else pure (Function.update x.1 fl ⟨0, 0, fun _ _ => 0⟩, x.2.1, x.2.2))
    ((fun _ => ⟨0, 0, fun _ _ => 0⟩), 1, 1) (List.range c.nf)
  let (sg, w) ← Res.foldl (fun (x : K × K) (v : Vert) => do
    if v.nonInt = false then do
      let d ← Res.get c.tbl v.type
      pure (x.1 * mysign (-d.U), x.2 * -d.U)
    else pure x) (sg, w) s.verts
  pure (M, sg, w)

/-- The three vectors `compute_weight` fills for one flavor. -/
structure CWOps (K : Type) where
  cr : List Op
  an : List Op
  al : List K

/-- interaction_expansion.ipp 302-312: one operator pair. -/
def cwRank (c : Ctx K) (d : VDef K) (v : Vert) (x : ℕ → CWOps K) (r : ℕ) : Res (ℕ → CWOps K) := do
  let fl ← Res.get d.flavors r
  Res.assert (fl < c.nf)
  let s1 ← Res.get d.sites (2 * r)
  let s2 ← Res.get d.sites (2 * r + 1)
  let a ← d.getAlpha v.af r
  pure (Function.update x fl ⟨(x fl).cr ++ [⟨fl, s1, v.time, -(r : ℤ)⟩], (x fl).an ++ [⟨fl, s2, v.time, -(r : ℤ)⟩],
    (x fl).al ++ [a]⟩)

/-- interaction_expansion.ipp 298-313: one vertex; the loop runs to the rank recorded in the vertex. -/
def cwVert (c : Ctx K) (x : (ℕ → CWOps K) × K) (v : Vert) : Res ((ℕ → CWOps K) × K) := do
  let d ← Res.get c.tbl v.type
  let y ← Res.foldl (cwRank c d v) x.1 (List.range v.rank.toNat)
  pure (y, x.2 * -d.U)

/-- `compute_weight`, interaction_expansion.ipp 288-330. -/
def computeWeight (c : Ctx K) (vs : List Vert) : Res K := do
  let (x, wU) ← Res.foldl (cwVert c) ((fun _ => ⟨[], [], []⟩), 1) vs
  let wd ← Res.foldl (fun (w : K) fl => do
    let d ← rmSafeDet (scratchG c.G0 (x fl).an (x fl).cr (x fl).al (x fl).al.length)
    pure (w * d)) 1 (List.range c.nf)
  pure (wU * wd)

end
end CTInt
