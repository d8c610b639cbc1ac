import Verif.Model.InvA
import Mathlib.Analysis.RCLike.Basic

/-!
# `SubmatrixUpdate` and `InvAMatrixFlavors`

src/submatrix.hpp 201-248, 344-453, src/submatrix_impl/common.ipp, src/submatrix_impl/invA.ipp 168-232, 528-.

The vectors indexed by flavor are functions of the flavor together with the number of flavors `nf`; an access
at an index ≥ nf is undefined.  `junk` gives the unspecified contents of newly exposed matrix entries, per
flavor.  `sanity_check` is empty in release builds and only asserts in debug builds.
-/

set_option linter.all false

namespace CTInt

noncomputable section
variable {K : Type} [RCLike K] [DecidableEq K]

/-- `mysign`, src/util.h 44-47: x/|x|.  At zero the code produces NaN, the model 0. -/
def mysign (x : K) : K := x / ((‖x‖ : ℝ) : K)

/-- What a `SubmatrixUpdate` object refers to but does not change (src/submatrix.hpp 427-431). -/
structure Ctx (K : Type) where
  NI : K
  nf : ℕ
  G0 : Op → Op → K
  tbl : List (VDef K)

/-- Members of `SubmatrixUpdate` (src/submatrix.hpp 428-449).  `trying` is the state flag. -/
structure Sub (K : Type) where
  verts : List Vert
  verts0 : List Vert
  invA : ℕ → InvA K
  gam : ℕ → Gamma K
  signDetA : K
  sign : K
  detRat : K
  signRat : K
  rem : ℕ → List (OpU K)
  ins : ℕ → List (OpU K)
  rep : ℕ → List (OpU K)
  uid : ℕ
  trying : Bool

/-- `for (flavor = 0; flavor < n; ++flavor) x[flavor] = f(flavor, x[flavor])`. -/
def forFlavors {α : Type} (nf : ℕ) (f : ℕ → α → Res α) (x : ℕ → α) : Res (ℕ → α) :=
  Res.foldl (fun x fl => do
    let y ← f fl (x fl)
    pure (Function.update x fl y)) x (List.range nf)

/-- `vertex_definition::get_alpha`, src/U_matrix.h 69-71: an index outside the table is undefined. -/
def VDef.getAlpha (d : VDef K) (af : ℤ) (r : ℕ) : Res K := do
  Res.assert (0 ≤ af ∧ af < d.numAf ∧ r < d.rank)
  pure (d.alpha af.toNat r)

/-- The conditional of common.ipp 227-235 and invA.ipp 218. -/
def alphaOf (NI : K) (d : VDef K) (nonInt : Bool) (af : ℤ) (r : ℕ) : Res K :=
  if nonInt then pure NI else d.getAlpha af r

/-- One iteration of the loops over `rank` in `add_non_interacting_vertices` (invA.ipp 182-190) and `init`
    (invA.ipp 215-224). -/
def pushRank (c : Ctx K) (d : VDef K) (v : Vert) (I : ℕ → InvA K) (r : ℕ) : Res (ℕ → InvA K) := do
  let fl ← Res.get d.flavors r
  Res.assert (fl < c.nf)
  let s1 ← Res.get d.sites (2 * r)
  let s2 ← Res.get d.sites (2 * r + 1)
  let a ← alphaOf c.NI d v.nonInt v.af r
  let A ← (I fl).pushBackOp ⟨fl, s1, v.time, -(r : ℤ)⟩ ⟨fl, s2, v.time, -(r : ℤ)⟩ a ⟨v.type, r, v.uid⟩
  pure (Function.update I fl A)

/-- One iteration of the loops over vertices. -/
def pushVertex (c : Ctx K) (I : ℕ → InvA K) (v : Vert) : Res (ℕ → InvA K) := do
  let d ← Res.get c.tbl v.type
  Res.foldl (pushRank c d v) I (List.range d.rank)

/-- `InvAMatrixFlavors::add_non_interacting_vertices`, invA.ipp 172-197, from index `b`. -/
def addNonInt (c : Ctx K) (j1 j2 : ℕ → ℕ → ℕ → K) (vs : List Vert) (b : ℕ) (I : ℕ → InvA K) :
    Res (ℕ → InvA K) := do
  Res.assert (∀ v ∈ vs.drop b, v.nonInt = true)
  let I ← Res.foldl (pushVertex c) I (vs.drop b)
  forFlavors c.nf (fun fl A => A.extend c.NI c.G0 (j1 fl) (j2 fl)) I

/-- `InvAMatrixFlavors::recompute_matrix`, invA.ipp 605-616: the new matrices, the product of sign(det A) and the
    product of sign(det(1-F)).  `InvAMatrix::recompute_matrix` returns the phases (invA.ipp 150). -/
def recomputeAll (c : Ctx K) (I : ℕ → InvA K) : Res ((ℕ → InvA K) × K × K) :=
  Res.foldl (fun (x : (ℕ → InvA K) × K × K) fl => do
    let (A, d, p) ← (x.1 fl).recompute c.NI c.G0
    pure (Function.update x.1 fl A, x.2.1 * mysign d, x.2.2 * mysign p)) (I, 1, 1) (List.range c.nf)

/-- `InvAMatrixFlavors::init`, invA.ipp 204-232 with begin_index = 0, on default-constructed matrices. -/
def initAll (c : Ctx K) (vs : List Vert) : Res ((ℕ → InvA K) × K × K) := do
  Res.assert (∀ v ∈ vs, v.nonInt = false)
  let I ← Res.foldl (pushVertex c) (fun _ => InvA.empty) vs
  let us ← Res.mapM (fun v : Vert => do
    let d ← Res.get c.tbl v.type
    pure (mysign (-d.U))) vs
  let (I, sd, sf) ← recomputeAll c I
  pure (I, sd, mysign (sd * us.prod / sf))

namespace Sub

/-- First constructor, common.ipp 4-21. -/
def empty : Sub K where
  verts := []
  verts0 := []
  invA := fun _ => InvA.empty
  gam := fun _ => Gamma.empty
  signDetA := 1
  sign := 1
  detRat := 0
  signRat := 0
  rem := fun _ => []
  ins := fun _ => []
  rep := fun _ => []
  uid := 0
  trying := false

/-- `set_unique_id(gen_new_vertex_id())` on consecutive vertices (common.ipp 44-46, 115-119, 397-400). -/
def withIds (vs : List Vert) (k : ℕ) : List Vert :=
  match vs with
  | [] => []
  | v :: vs => { v with uid := k + 1 } :: withIds vs (k + 1)

/-- Second constructor, common.ipp 24-49. -/
def create (c : Ctx K) (init : List Vert) : Res (Sub K) :=
  if init.length ≠ 0 then do
    let vs := withIds init 0
    let (I, sd, s) ← initAll c vs
    pure { (empty : Sub K) with verts := vs, invA := I, signDetA := sd, sign := s, uid := init.length }
  else pure empty

/-- `recompute_matrix`, common.ipp 77-105 (the comparison with the old values only prints). -/
def recompute (c : Ctx K) (s : Sub K) : Res (Sub K) := do
  Res.throwIf (s.trying = true) .logicError
  let (I, sd, sf) ← recomputeAll c s.invA
  Res.assert (∀ v ∈ s.verts, v.nonInt = false)
  let us ← Res.mapM (fun v : Vert => do
    let d ← Res.get c.tbl v.type
    pure (mysign (-d.U))) s.verts
  pure { s with invA := I, signDetA := sd, sign := us.foldl (· * ·) (sd / sf) }

/-- `init_update`, common.ipp 108-139. -/
def initUpdate (c : Ctx K) (j1 j2 j3 : ℕ → ℕ → ℕ → K) (new : List Vert) (s : Sub K) : Res (Sub K) := do
  Res.assert (s.trying = false)
  let b := s.verts.length
  let vs := s.verts ++ withIds (new.map fun v => { v with nonInt := true }) s.uid
  Res.assert (∀ v ∈ s.verts, v.nonInt = false)
  let I ← (if b < vs.length then addNonInt c j1 j2 vs b s.invA else pure s.invA)
  let I ← forFlavors c.nf (fun fl A => A.updateTildeG c.NI c.G0 (j3 fl)) I
  pure { s with verts := vs, verts0 := vs, invA := I, uid := s.uid + new.length, trying := true }

/-- The work lists of `try_spin_flip` with the two ratios. -/
structure Work (K : Type) where
  rem : ℕ → List (OpU K)
  ins : ℕ → List (OpU K)
  rep : ℕ → List (OpU K)
  f : K
  u : K

/-- Append to the list of one flavor. -/
def pushTo {α : Type} (x : ℕ → List α) (fl : ℕ) (a : α) : ℕ → List α := Function.update x fl (x fl ++ [a])

/-- common.ipp 240-253: which list the operator goes to. -/
def classify (w : Work K) (fl : ℕ) (o : OpU K) : Work K :=
  if o.a0 ≠ o.cur ∧ ¬ o.a0 ≠ o.new then { w with rem := pushTo w.rem fl o }
  else if ¬ o.a0 ≠ o.cur ∧ o.a0 ≠ o.new then { w with ins := pushTo w.ins fl o }
  else if o.a0 ≠ o.cur ∧ o.a0 ≠ o.new then
    if o.cur ≠ o.new then { w with rep := pushTo w.rep fl o } else w
  else w

/-- common.ipp 255-262: the factor of det(1-F). -/
def fFactor (NI : K) (f : K) (o : OpU K) : K :=
  if o.cur ≠ o.new then
    let f := if o.new ≠ NI then f * (1 - evalF NI o.new) else f
    if o.cur ≠ NI then f / (1 - evalF NI o.cur) else f
  else f

/-- common.ipp 224-263: one operator pair of one vertex. -/
def workRank (c : Ctx K) (s : Sub K) (iv : ℕ) (spin : ℤ) (d : VDef K) (v v0 : Vert) (w : Work K) (r : ℕ) :
    Res (Work K) := do
  let fl ← Res.get d.flavors r
  let a0 ← alphaOf c.NI d v0.nonInt v0.af r
  let cur ← alphaOf c.NI d v.nonInt v.af r
  let new ← alphaOf c.NI d (decide (spin = -1)) spin r
  Res.assert (fl < c.nf)
  match (s.invA fl).findRowCol v.uid r with
  | none => .ub
  | some p =>
    let o : OpU K := ⟨p, a0, cur, new⟩
    let w := classify w fl o
    pure { w with f := fFactor c.NI w.f o }

/-- common.ipp 210-264: one vertex of the trial. -/
def workVert (c : Ctx K) (s : Sub K) (w : Work K) (ps : ℕ × ℤ) : Res (Work K) := do
  let v ← Res.get s.verts ps.1
  let v0 ← Res.get s.verts0 ps.1
  let d ← Res.get c.tbl v.type
  let w : Work K :=
    if v.nonInt = true ∧ ps.2 ≠ -1 then { w with u := w.u * -d.U }
    else if v.nonInt = false ∧ ps.2 = -1 then { w with u := w.u / -d.U }
    else w
  Res.foldl (workRank c s ps.1 ps.2 d v v0) w (List.range d.rank)

/-- The dispatch of common.ipp 268-284 for one flavor: the trial on that flavor's Gamma matrix. -/
def tryFlavor (c : Ctx K) (w : Work K) (A : InvA K) (fl : ℕ) (G : Gamma K) : Res (Gamma K × K) :=
  if w.rem fl = [] ∧ w.ins fl = [] ∧ w.rep fl = [] then .ok (G, 1)
  else if w.rem fl = [] ∧ w.ins fl ≠ [] ∧ w.rep fl = [] then G.tryAdd c.NI A (w.ins fl)
  else if w.rem fl ≠ [] ∧ w.ins fl = [] ∧ w.rep fl = [] then G.tryRemove c.NI (w.rem fl)
  else if w.rem fl ≠ [] ∧ w.ins fl ≠ [] ∧ w.rep fl = [] then G.tryAddRemove c.NI A (w.ins fl) (w.rem fl)
  else .throw .runtimeError

/-- `try_spin_flip`, common.ipp 179-289: the object afterwards and (det_rat_A, 1/f_rat, U_rat).
    What an object looks like after the "Not implemented" exceptions is not modelled: nothing in the solver
    catches them. -/
def trySpinFlip (c : Ctx K) (pos : List ℕ) (spins : List ℤ) (s : Sub K) : Res (Sub K × K × K × K) := do
  Res.assert (s.trying = true)
  Res.assert (pos.length = spins.length)
  Res.assert (∀ p ∈ pos, p < s.verts.length)
  Res.assert pos.Nodup
  let w ← Res.foldl (workVert c s) ⟨fun _ => [], fun _ => [], fun _ => [], 1, 1⟩ (pos.zip spins)
  let (gam, det) ← Res.foldl (fun (x : (ℕ → Gamma K) × K) fl => do
    let (G, r) ← tryFlavor c w (s.invA fl) fl (x.1 fl)
    pure (Function.update x.1 fl G, x.2 * r)) (s.gam, 1) (List.range c.nf)
  pure ({ s with gam := gam, rem := w.rem, ins := w.ins, rep := w.rep, detRat := det,
                 signRat := mysign det * mysign w.u / mysign w.f }, det, 1 / w.f, w.u)

/-- The dispatch of common.ipp 295-310 for one flavor. -/
def performFlavor (junk : ℕ → ℕ → ℕ → K) (s : Sub K) (fl : ℕ) (G : Gamma K) : Res (Gamma K) :=
  if s.rem fl = [] ∧ s.ins fl = [] ∧ s.rep fl = [] then .ok G
  else if s.rem fl = [] ∧ s.ins fl ≠ [] ∧ s.rep fl = [] then G.performAdd (junk fl)
  else if s.rem fl ≠ [] ∧ s.ins fl = [] ∧ s.rep fl = [] then G.performRemove (junk fl)
  else if s.rem fl ≠ [] ∧ s.ins fl ≠ [] ∧ s.rep fl = [] then G.performAddRemove (junk fl)
  else .throw .runtimeError

/-- common.ipp 312-319. -/
def setSpin (vs : List Vert) (p : ℕ) (s : ℤ) : Res (List Vert) :=
  match vs[p]? with
  | none => .ub
  | some v => .ok (vs.set p (if s = -1 then { v with nonInt := true } else { v with nonInt := false, af := s }))

/-- `perform_spin_flip`, common.ipp 291-325. -/
def performSpinFlip (c : Ctx K) (junk : ℕ → ℕ → ℕ → K) (pos : List ℕ) (spins : List ℤ) (s : Sub K) :
    Res (Sub K) := do
  Res.assert (s.trying = true)
  let gam ← forFlavors c.nf (performFlavor junk s) s.gam
  Res.assert (pos.length ≤ spins.length)
  let vs ← Res.foldl (fun vs (x : ℕ × ℤ) => setSpin vs x.1 x.2) s.verts (pos.zip spins)
  pure { s with gam := gam, verts := vs, signDetA := s.signDetA * mysign s.detRat, sign := s.sign * s.signRat }

/-- The dispatch of common.ipp 331-345 for one flavor; `reject_remove` does nothing (gamma.ipp 204-206). -/
def rejectFlavor (s : Sub K) (fl : ℕ) (G : Gamma K) : Res (Gamma K) :=
  if s.rem fl = [] ∧ s.ins fl = [] ∧ s.rep fl = [] then .ok G
  else if s.rem fl = [] ∧ s.ins fl ≠ [] ∧ s.rep fl = [] then .ok G.rejectAdd
  else if s.rem fl ≠ [] ∧ s.ins fl = [] ∧ s.rep fl = [] then .ok G
  else if s.rem fl ≠ [] ∧ s.ins fl ≠ [] ∧ s.rep fl = [] then .ok G.rejectAdd
  else .throw .runtimeError

/-- `reject_spin_flip`, common.ipp 327-347. -/
def rejectSpinFlip (c : Ctx K) (s : Sub K) : Res (Sub K) := do
  Res.assert (s.trying = true)
  let gam ← forFlavors c.nf (rejectFlavor s) s.gam
  pure { s with gam := gam }

/-- `finalize_update`, common.ipp 141-177. -/
def finalizeUpdate (c : Ctx K) (j1 j2 j3 : ℕ → ℕ → ℕ → K) (s : Sub K) : Res (Sub K) := do
  Res.assert (s.trying = true)
  let I ← forFlavors c.nf (fun fl A => A.updateMatrix c.NI (j1 fl) (s.gam fl)) s.invA
  let uids := (s.verts.filter fun v => v.nonInt).map Vert.uid
  let vs := s.verts.filter fun v => !v.nonInt
  let I ← forFlavors c.nf (fun fl A => A.removeUids (j2 fl) uids) I
  let gam ← forFlavors c.nf (fun fl G => .ok (G.clear (j3 fl))) s.gam
  Res.throwIf (∃ fl ∈ List.range c.nf, (I fl).cr.length ≠ (I fl).an.length ∨
    ∃ i ∈ List.range (I fl).an.length, (I fl).al.getD i 0 = c.NI) .logicError
  pure { s with invA := I, verts := vs, gam := gam, trying := false }

/-- `compute_M`, common.ipp 349-356. -/
def computeM (c : Ctx K) (s : Sub K) : Res (ℕ → DMat K) :=
  Res.foldl (fun x fl => do
    let M ← (s.invA fl).computeM c.NI
    pure (Function.update x fl M)) (fun _ => ⟨0, 0, fun _ _ => 0⟩) (List.range c.nf)

end Sub
end
end CTInt
