import Verif.Spec.Weight

/-!
# Specification: configurations and their Monte Carlo weight

A configuration is a list of vertices.  A vertex of type `t` contributes, for each of the `rank` operator pairs
of interaction term `t`, one row and column to the matrix of the pair's flavor.  The weight of a configuration is

  ∏ over flavors det(G0 - α)  ×  ∏ over vertices (-U),

taken over the interacting vertices.
-/

set_option linter.all false

namespace CTInt

variable {K : Type} [Field K] [DecidableEq K]

/-- The interaction term of a vertex. -/
def termOf (tbl : List (VDef K)) (v : Vert) : VDef K := tbl.getD v.type default

/-- The auxiliary field of operator pair `r` of vertex `v`; `NI` marks a non-interacting vertex. -/
def fieldOf (NI : K) (tbl : List (VDef K)) (v : Vert) (r : ℕ) : K :=
  if v.nonInt then NI else (termOf tbl v).alpha v.af.toNat r

/-- The flavor of operator pair `r`. -/
def flavorOf (tbl : List (VDef K)) (v : Vert) (r : ℕ) : ℕ := (termOf tbl v).flavors.getD r 0

/-- Operator pair `r` of vertex `v`: creator, annihilator, field and where it comes from. -/
def rowOf (NI : K) (tbl : List (VDef K)) (v : Vert) (r : ℕ) : OpRow K where
  cr := ⟨flavorOf tbl v r, (termOf tbl v).sites.getD (2 * r) 0, v.time, -(r : ℤ)⟩
  an := ⟨flavorOf tbl v r, (termOf tbl v).sites.getD (2 * r + 1) 0, v.time, -(r : ℤ)⟩
  al := fieldOf NI tbl v r
  vi := ⟨v.type, r, v.uid⟩

/-- The operator pairs of `v` on flavor `fl`. -/
def rowsV (NI : K) (tbl : List (VDef K)) (fl : ℕ) (v : Vert) : List (OpRow K) :=
  ((List.range (termOf tbl v).rank).filter fun r => decide (flavorOf tbl v r = fl)).map (rowOf NI tbl v)

/-- The operator pairs of a configuration on flavor `fl`. -/
def rowsOf (NI : K) (tbl : List (VDef K)) (vs : List Vert) (fl : ℕ) : List (OpRow K) :=
  vs.flatMap (rowsV NI tbl fl)

/-- G0 - α for listed operator pairs. -/
noncomputable def rowG (G0 : Op → Op → K) (l : List (OpRow K)) : ℕ → ℕ → K :=
  specG (fun j => (l.getD j default).al) fun i j => G0 (l.getD i default).an (l.getD j default).cr

/-- A = F - G0 (F - 1) for listed operator pairs. -/
noncomputable def rowA (NI : K) (G0 : Op → Op → K) (l : List (OpRow K)) : ℕ → ℕ → K :=
  specA (fun j => specF NI (l.getD j default).al) fun i j => G0 (l.getD i default).an (l.getD j default).cr

/-- The interacting vertices of a configuration. -/
def interacting (vs : List Vert) : List Vert := vs.filter fun v => !v.nonInt

/-- ∏ over flavors det(G0 - α). -/
noncomputable def detWeight (NI : K) (nf : ℕ) (G0 : Op → Op → K) (tbl : List (VDef K)) (vs : List Vert) : K :=
  ∏ fl ∈ Finset.range nf,
    detN (rowsOf NI tbl (interacting vs) fl).length (rowG G0 (rowsOf NI tbl (interacting vs) fl))

/-- ∏ over flavors det A of all listed vertices, non-interacting ones included. -/
noncomputable def detAll (NI : K) (nf : ℕ) (G0 : Op → Op → K) (tbl : List (VDef K)) (vs : List Vert) : K :=
  ∏ fl ∈ Finset.range nf, detN (rowsOf NI tbl vs fl).length (rowA NI G0 (rowsOf NI tbl vs fl))

/-- ∏ over vertices (-U). -/
def uWeight (tbl : List (VDef K)) (vs : List Vert) : K :=
  ((interacting vs).map fun v => - (termOf tbl v).U).prod

/-- The Monte Carlo weight. -/
noncomputable def weight (NI : K) (nf : ℕ) (G0 : Op → Op → K) (tbl : List (VDef K)) (vs : List Vert) : K :=
  detWeight NI nf G0 tbl vs * uWeight tbl vs

/-- A usable interaction: shapes fit, flavors exist, U is not zero and every field value is admissible. -/
structure TblOK (NI : K) (nf : ℕ) (tbl : List (VDef K)) : Prop where
  fl : ∀ d ∈ tbl, d.flavors.length = d.rank
  si : ∀ d ∈ tbl, d.sites.length = 2 * d.rank
  lt : ∀ d ∈ tbl, ∀ f ∈ d.flavors, f < nf
  U : ∀ d ∈ tbl, d.U ≠ 0
  al : ∀ d ∈ tbl, ∀ s < d.numAf, ∀ r < d.rank, GoodAlpha NI (d.alpha s r)

/-- A usable vertex: its type exists and, if it is interacting, its auxiliary-field state exists. -/
def VertOK (tbl : List (VDef K)) (v : Vert) : Prop :=
  v.type < tbl.length ∧ (v.nonInt = false → 0 ≤ v.af ∧ v.af < (termOf tbl v).numAf)

/-- The vertex after a flip to state `s`; -1 stands for "non-interacting". -/
def flipTo (v : Vert) (s : ℤ) : Vert :=
  if s = -1 then { v with nonInt := true } else { v with nonInt := false, af := s }

/-- The configuration after flipping the vertices at the given positions, one after the other. -/
def flipAll (vs : List Vert) : List (ℕ × ℤ) → List Vert
  | [] => vs
  | (p, s) :: l => flipAll (vs.modify p (flipTo · s)) l

end CTInt
