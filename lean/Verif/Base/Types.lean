import Mathlib.Data.Real.Basic

/-!
# Records shared by the models and the specifications
-/

set_option linter.all false

namespace CTInt

/-- A creation or annihilation operator: flavor, site, time and the small index that orders equal times
    (src/operator.hpp 42-92). -/
structure Op where
  flavor : ℕ
  site : ℕ
  time : ℝ
  small : ℤ

noncomputable instance : Inhabited Op := ⟨⟨0, 0, 0, 0⟩⟩

/-- `vertex_info_type` (src/submatrix.hpp 50): vertex type, rank within the vertex, unique id. -/
structure VInfo where
  type : ℕ
  rank : ℕ
  uid : ℕ
  deriving DecidableEq, Inhabited

/-- What the four vectors record at one position. -/
structure OpRow (K : Type) where
  cr : Op
  an : Op
  al : K
  vi : VInfo

noncomputable instance {K : Type} [Zero K] : Inhabited (OpRow K) := ⟨⟨default, default, 0, default⟩⟩

/-- A term of the interaction: `vertex_definition` (src/U_matrix.h 28-105).  `rank` operator pairs; pair `r`
    lives on flavor `flavors[r]`, creates at `sites[2r]`, annihilates at `sites[2r+1]`; `alpha s r` is the
    auxiliary field of pair `r` in state `s < numAf`. -/
structure VDef (K : Type) where
  rank : ℕ
  flavors : List ℕ
  sites : List ℕ
  numAf : ℕ
  U : K
  alpha : ℕ → ℕ → K

instance {K : Type} [Zero K] : Inhabited (VDef K) := ⟨⟨0, [], [], 0, 0, fun _ _ => 0⟩⟩

/-- A vertex on the imaginary-time axis: `itime_vertex` (src/U_matrix.h 360-403).  The unique id, a 64-bit
    unsigned counter in the code, is a natural number. -/
structure Vert where
  type : ℕ
  af : ℤ
  rank : ℤ
  time : ℝ
  isDensity : Bool
  nonInt : Bool
  uid : ℕ

noncomputable instance : Inhabited Vert := ⟨⟨0, -1, -1, -1, false, false, 0⟩⟩

end CTInt
