import Verif.Model.SubmatrixRun

/-!
# The checks of the debug build

Without `NDEBUG` the code compares what it maintains incrementally with what it computes from scratch:
`sanity_check` of `InvGammaMatrix` (src/submatrix_impl/gamma.ipp 43-71), of `InvAMatrix` (invA.ipp 81-98), of
`InvAMatrixFlavors` (invA.ipp 552-600) and of `SubmatrixUpdate` (common.ipp 51-72), the check at the end of
`compute_M` (invA.ipp 348-366) and the assertions of gamma.ipp 176-178, 224 and invA.ipp 302.  They are absent from
the other models, which follow the release build; here they are added to them.  A failing assertion is `ub`.
-/

set_option linter.all false

namespace CTInt

noncomputable section
variable {K : Type} [RCLike K] [DecidableEq K]

open Classical in
/-- `my_equal`, src/util.h 244-247.  For two zeros the code compares NaN with `eps`, which is false. -/
def myEqual (x y : K) (eps : ℝ) : Bool :=
  decide ((x ≠ 0 ∨ y ≠ 0) ∧ ‖x - y‖ / max ‖x‖ ‖y‖ < eps)

/-- `norm_square`, include/alps/fastupdate/resizable_matrix.hpp 443-446. -/
def normSquare (A : DMat K) : ℝ := ∑ i ∈ Finset.range A.rows, ∑ j ∈ Finset.range A.cols, ‖A.val i j‖ ^ 2

open Classical in
/-- `InvGammaMatrix::sanity_check`, gamma.ipp 43-71.  Inverting a singular matrix gives entries that are not numbers,
    and then the comparison at 68 fails. -/
def Gamma.sanityCheck (NI : K) (A : InvA K) (G : Gamma K) : Res Bool :=
  let N := G.info.length
  if N = 0 then pure true
  else do
    Res.assert (∀ j < N, A.alphaAt (G.info.getD j default).pos = .ok (G.info.getD j default).a0)
    Res.assert (∀ j < N, (G.info.getD j default).pos < A.tG.rows ∧ (G.info.getD j default).pos < A.tG.cols)
    let g : DMat K := ⟨N, N, fun i j =>
      A.tG.val (G.info.getD i default).pos (G.info.getD j default).pos -
        if i = j then (1 + Gamma.gam NI (G.info.getD j default)) / Gamma.gam NI (G.info.getD j default) else 0⟩
    Res.assert (g.det ≠ 0)
    Res.assert (G.mat.rows = N ∧ G.mat.cols = N)
    let e := normSquare (g.inv.sub G.mat) / ((N : ℝ) * N)
    Res.assert (e < 1E-5)
    pure (decide (e < 1E-5))

/-- `InvAMatrix::sanity_check`, invA.ipp 81-98. -/
def InvA.sanityCheck (A : InvA K) : Res Bool := do
  Res.assert (A.mat.rows = A.mat.cols)
  Res.assert (A.mat.rows = A.cr.length)
  Res.assert (A.cr.length = A.an.length)
  Res.assert (A.cr.length = A.al.length)
  Res.assert (A.cr.length = A.vi.length)
  pure (decide (A.mat.rows = A.mat.cols) && decide (A.mat.rows = A.cr.length) &&
    decide (A.cr.length = A.an.length) && decide (A.cr.length = A.al.length) && decide (A.cr.length = A.vi.length))

/-- One iteration of invA.ipp 569-581: the five scratch vectors of a flavor are one list of records here (the vertex
    type, which the code does not keep, is recorded too but never compared). -/
def scratchRank (c : Ctx K) (d : VDef K) (v : Vert) (S : ℕ → List (OpRow K)) (r : ℕ) :
    Res (ℕ → List (OpRow K)) := do
  let fl ← Res.get d.flavors r
  Res.assert (fl < c.nf)
  let s1 ← Res.get d.sites (2 * r)
  let s2 ← Res.get d.sites (2 * r + 1)
  let a ← d.getAlpha v.af r
  pure (Function.update S fl (S fl ++ [⟨⟨fl, s1, v.time, -(r : ℤ)⟩, ⟨fl, s2, v.time, -(r : ℤ)⟩, a, ⟨v.type, r, v.uid⟩⟩]))

/-- One iteration of invA.ipp 566-582; the loop runs to the rank stored in the vertex, not to that of its type. -/
def scratchVertex (c : Ctx K) (S : ℕ → List (OpRow K)) (v : Vert) : Res (ℕ → List (OpRow K)) := do
  let d ← Res.get c.tbl v.type
  Res.foldl (scratchRank c d v) S (List.range v.rank.toNat)

open Classical in
/-- invA.ipp 590-596: one operator pair.  `==` of operators compares site, time and flavor (src/operator.hpp 94-104);
    -1 from `find_row_col` is used as an index. -/
def checkOp (A : InvA K) (o : OpRow K) : Res Unit :=
  match A.findRowCol o.vi.uid o.vi.rank with
  | none => .ub
  | some p => do
    Res.assert (A.cr[p]? = some o.cr)
    Res.assert (A.an[p]? = some o.an)
    Res.assert (A.alphaAt p = .ok o.al)

/-- invA.ipp 584-597 for one flavor; `result && ...` is not evaluated once `result` is false. -/
def checkFlavor (I : ℕ → InvA K) (S : ℕ → List (OpRow K)) (b : Bool) (fl : ℕ) : Res Bool := do
  let r ← (if b then (I fl).sanityCheck else pure false)
  Res.assert ((I fl).an.length = (S fl).length)
  Res.assert ((I fl).cr.length = (S fl).length)
  Res.foldl (fun _ o => checkOp (I fl) o) () (S fl)
  pure r

/-- `InvAMatrixFlavors::sanity_check`, invA.ipp 552-600. -/
def sanityFlavors (c : Ctx K) (vs : List Vert) (I : ℕ → InvA K) : Res Bool := do
  let S ← Res.foldl (scratchVertex c) (fun _ => []) vs
  Res.foldl (checkFlavor I S) true (List.range c.nf)

namespace Sub

/-- common.ipp 56-58. -/
def checkGamma (c : Ctx K) (s : Sub K) : Res Bool :=
  Res.foldl (fun b fl => if b then (s.gam fl).sanityCheck c.NI (s.invA fl) else pure false) true (List.range c.nf)

/-- `SubmatrixUpdate::sanity_check`, common.ipp 51-72: the object afterwards and the value returned. -/
def sanityCheck (c : Ctx K) (s : Sub K) : Res (Sub K × Bool) := do
  let b ← s.checkGamma c
  if s.trying = false then
    let b ← (if b then sanityFlavors c s.verts s.invA else pure false)
    let s' ← s.recompute c
    Res.assert (myEqual s.sign s'.sign 1E-5 = true)
    Res.assert (myEqual s.signDetA s'.signDetA 1E-5 = true)
    pure (s', b)
  else pure (s, b)

end Sub

/-! ### The calls of the debug build -/

/-- `InvAMatrix::extend` with the check at its end (invA.ipp 78). -/
def InvA.extendD (NI : K) (G0 : Op → Op → K) (j1 j2 : ℕ → ℕ → K) (A : InvA K) : Res (InvA K) := do
  let A ← A.extend NI G0 j1 j2
  let _ ← A.sanityCheck
  pure A

open Classical in
/-- `InvAMatrix::update_matrix` with the check at 272 and the assertion at 302 (`alpha_` is written only after the loop
    that contains it). -/
def InvA.updateMatrixD (NI : K) (junk : ℕ → ℕ → K) (G : Gamma K) (A : InvA K) : Res (InvA K) := do
  let _ ← A.sanityCheck
  Res.assert (∀ l < G.mat.rows, A.alphaAt (G.info.getD l default).pos = .ok (G.info.getD l default).a0)
  A.updateMatrix NI junk G

/-- `compute_M` with the check at 348-366. -/
def InvA.computeMD (NI : K) (G0 : Op → Op → K) (A : InvA K) : Res (DMat K) := do
  let M ← A.computeM NI
  let N := A.mat.cols
  Res.assert (N ≤ A.an.length ∧ N ≤ A.cr.length)
  let g : DMat K := ⟨N, N, fun i j =>
    G0 (A.an.getD i default) (A.cr.getD j default) - if i = j then A.al.getD j 0 else 0⟩
  let P := g.mul M
  Res.assert (∀ i < N, ∀ j < N, if i = j then ‖P.val i j - 1‖ < 1E-5 else ‖P.val i j‖ < 1E-5)
  pure M

/-- `add_non_interacting_vertices` (invA.ipp 171-197) with the checked `extend`. -/
def addNonIntD (c : Ctx K) (j1 j2 : ℕ → ℕ → ℕ → K) (vs : List Vert) (b : ℕ) (I : ℕ → InvA K) :
    Res (ℕ → InvA K) := do
  Res.assert (∀ v ∈ vs.drop b, v.nonInt = true)
  let I ← Res.foldl (pushVertex c) I (vs.drop b)
  forFlavors c.nf (fun fl A => A.extendD c.NI c.G0 (j1 fl) (j2 fl)) I

namespace Sub

/-- `init_update`, common.ipp 108-139. -/
def initUpdateD (c : Ctx K) (j1 j2 j3 : ℕ → ℕ → ℕ → K) (new : List Vert) (s : Sub K) : Res (Sub K) := do
  Res.assert (s.trying = false)
  let b := s.verts.length
  let vs := s.verts ++ withIds (new.map fun v => { v with nonInt := true }) s.uid
  Res.assert (∀ v ∈ s.verts, v.nonInt = false)
  let I ← (if b < vs.length then addNonIntD c j1 j2 vs b s.invA else pure s.invA)
  let I ← forFlavors c.nf (fun fl A => A.updateTildeG c.NI c.G0 (j3 fl)) I
  pure { s with verts := vs, verts0 := vs, invA := I, uid := s.uid + new.length, trying := true }

/-- The dispatch of common.ipp 269-284 with the assertions of `try_remove` (gamma.ipp 176-178) and `try_add_remove`
    (gamma.ipp 224). -/
def tryFlavorD (c : Ctx K) (w : Work K) (A : InvA K) (fl : ℕ) (G : Gamma K) : Res (Gamma K × K) :=
  if w.rem fl = [] ∧ w.ins fl = [] ∧ w.rep fl = [] then .ok (G, 1)
  else if w.rem fl = [] ∧ w.ins fl ≠ [] ∧ w.rep fl = [] then G.tryAdd c.NI A (w.ins fl)
  else if w.rem fl ≠ [] ∧ w.ins fl = [] ∧ w.rep fl = [] then do
    Res.assert (∀ o ∈ w.rem fl, o.a0 = c.NI ∧ o.cur ≠ c.NI ∧ o.new = c.NI)
    G.tryRemove c.NI (w.rem fl)
  else if w.rem fl ≠ [] ∧ w.ins fl ≠ [] ∧ w.rep fl = [] then do
    Res.assert (∀ o ∈ w.rem fl, o.new = c.NI)
    G.tryAddRemove c.NI A (w.ins fl) (w.rem fl)
  else .throw .runtimeError

/-- `try_spin_flip`, common.ipp 179-289. -/
def trySpinFlipD (c : Ctx K) (pos : List ℕ) (spins : List ℤ) (s : Sub K) : Res (Sub K × K × K × K) := do
  Res.assert (s.trying = true)
  Res.assert (pos.length = spins.length)
  Res.assert (∀ p ∈ pos, p < s.verts.length)
  Res.assert pos.Nodup
  let w ← Res.foldl (workVert c s) ⟨fun _ => [], fun _ => [], fun _ => [], 1, 1⟩ (pos.zip spins)
  let (gam, det) ← Res.foldl (fun (x : (ℕ → Gamma K) × K) fl => do
    let (G, r) ← tryFlavorD c w (s.invA fl) fl (x.1 fl)
    pure (Function.update x.1 fl G, x.2 * r)) (s.gam, 1) (List.range c.nf)
  pure ({ s with gam := gam, rem := w.rem, ins := w.ins, rep := w.rep, detRat := det,
                 signRat := mysign det * mysign w.u / mysign w.f }, det, 1 / w.f, w.u)

/-- `perform_spin_flip` with the check at common.ipp 324. -/
def performSpinFlipD (c : Ctx K) (junk : ℕ → ℕ → ℕ → K) (pos : List ℕ) (spins : List ℤ) (s : Sub K) :
    Res (Sub K) := do
  let s ← s.performSpinFlip c junk pos spins
  let (s, _) ← s.sanityCheck c
  pure s

/-- `reject_spin_flip` with the check at common.ipp 346. -/
def rejectSpinFlipD (c : Ctx K) (s : Sub K) : Res (Sub K) := do
  let s ← s.rejectSpinFlip c
  let (s, _) ← s.sanityCheck c
  pure s

/-- `finalize_update`, common.ipp 141-177, with the checked `update_matrix`. -/
def finalizeUpdateD (c : Ctx K) (j1 j2 j3 : ℕ → ℕ → ℕ → K) (s : Sub K) : Res (Sub K) := do
  Res.assert (s.trying = true)
  let I ← forFlavors c.nf (fun fl A => A.updateMatrixD c.NI (j1 fl) (s.gam fl)) s.invA
  let uids := (s.verts.filter fun v => v.nonInt).map Vert.uid
  let vs := s.verts.filter fun v => !v.nonInt
  let I ← forFlavors c.nf (fun fl A => A.removeUids (j2 fl) uids) I
  let gam ← forFlavors c.nf (fun fl G => .ok (G.clear (j3 fl))) s.gam
  Res.throwIf (∃ fl ∈ List.range c.nf, (I fl).cr.length ≠ (I fl).an.length ∨
    ∃ i ∈ List.range (I fl).an.length, (I fl).al.getD i 0 = c.NI) .logicError
  pure { s with invA := I, verts := vs, gam := gam, trying := false }

/-- `compute_M`, common.ipp 349-356, with the checks of invA.ipp 348-366. -/
def computeMD (c : Ctx K) (s : Sub K) : Res (ℕ → DMat K) :=
  Res.foldl (fun x fl => do
    let M ← (s.invA fl).computeMD c.NI c.G0
    pure (Function.update x fl M)) (fun _ => ⟨0, 0, fun _ _ => 0⟩) (List.range c.nf)

/-- One call on an object of the debug build. -/
def callD (c : Ctx K) (J : ℕ → ℕ → ℕ → ℕ → K) (s : Sub K) : Call → Res (Sub K)
  | .start new => s.initUpdateD c (J 0) (J 1) (J 2) new
  | .flip pos spins acc => do
    let (s, _) ← s.trySpinFlipD c pos spins
    if acc then s.performSpinFlipD c (J 0) pos spins else s.rejectSpinFlipD c
  | .finish => s.finalizeUpdateD c (J 0) (J 1) (J 2)
  | .recompute => s.recompute c

/-- Several calls on an object of the debug build. -/
def runD (c : Ctx K) (J : ℕ → ℕ → ℕ → ℕ → ℕ → K) (s : Sub K) : List Call → Res (Sub K)
  | [] => .ok s
  | call :: calls => do
    let s ← s.callD c (J calls.length) call
    s.runD c J calls

end Sub
end
end CTInt
