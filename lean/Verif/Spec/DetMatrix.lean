import Verif.Spec.Inverse
import Verif.Model.DetMatrix
import Mathlib.Data.List.Sort

/-!
# Specification: time-ordered determinants and histories of updates

A configuration is a collection of creation operators and one of annihilation operators; the order inside the two lists
has no meaning.
-/

set_option linter.all false

namespace CTInt

variable {K Cd Co T X : Type} [Field K] [LinearOrder T]

/-- A list of operators in the order of their times. -/
def byTime (τ : X → T) (l : List X) : List X := l.insertionSort (fun a b => τ a ≤ τ b)

/-- The element in row `i` and column `j` of the matrix of `G` between the annihilation operators `cs` (rows) and the
    creation operators `cds` (columns). -/
def greenAt (G : Co → Cd → K) (cs : List Co) (cds : List Cd) (i j : ℕ) : K :=
  ((cs[i]?).bind fun b => (cds[j]?).map fun a => G b a).getD 0

/-- Number of pairs of operators that are not in the order of their times. -/
def outOfOrder (τ : X → T) : List X → ℕ
  | [] => 0
  | x :: l => l.countP (fun y => decide (τ y < τ x)) + outOfOrder τ l

/-- The sign of the permutation that orders the operators by time. -/
def orderSign (τ : X → T) (l : List X) : ℤ := (-1) ^ outOfOrder τ l

/-- A configuration. -/
structure Conf (Cd Co : Type) where
  cds : List Cd
  cs : List Co

namespace Conf

/-- No two operators at the same time. -/
def Distinct (o : OpSys K Cd Co T) (A : Conf Cd Co) : Prop := (A.cds.map o.tcd ++ A.cs.map o.tc).Nodup

/-- The same operators. -/
def Same (A A' : Conf Cd Co) : Prop := A.cds.Perm A'.cds ∧ A.cs.Perm A'.cs

/-- The determinant of the Green-function matrix with rows and columns ordered by time. -/
def det (o : OpSys K Cd Co T) (A : Conf Cd Co) : K :=
  detN A.cds.length (greenAt o.G (byTime o.tc A.cs) (byTime o.tcd A.cds))

end Conf

/-- Taking the change `ch` out of and into configuration `A` gives `A'`; `R` is what stays. -/
structure Takes (A : Conf Cd Co) (ch : Change Cd Co) (R A' : Conf Cd Co) : Prop where
  oldCds : A.cds.Perm (R.cds ++ ch.remCd)
  oldCs : A.cs.Perm (R.cs ++ ch.remC)
  newCds : A'.cds.Perm (R.cds ++ ch.addCd)
  newCs : A'.cs.Perm (R.cs ++ ch.addC)

/-- The shapes of changes: as many creation as annihilation operators removed, and as many added; or one operator
    replaced by another of the same kind. -/
def Change.Regular (ch : Change Cd Co) : Prop :=
  (ch.remCd.length = ch.remC.length ∧ ch.addCd.length = ch.addC.length) ∨
  (ch.remCd.length = 1 ∧ ch.addCd.length = 1 ∧ ch.remC = [] ∧ ch.addC = []) ∨
  (ch.remC.length = 1 ∧ ch.addC.length = 1 ∧ ch.remCd = [] ∧ ch.addCd = [])

/-- A change that removes pairs and adds pairs at the same time. -/
def Change.Mixed (ch : Change Cd Co) : Prop := ch.remCd ≠ [] ∧ ch.remC ≠ [] ∧ ch.addCd ≠ [] ∧ ch.addC ≠ []

/-- A valid change: the removed operators are there, and afterwards no two operators have the same time.
    For changes that remove and add at the same time, what stays must have an invertible matrix: without this
    restriction `try_update` is not exact. -/
structure Valid (o : OpSys K Cd Co T) (A : Conf Cd Co) (ch : Change Cd Co) (A' : Conf Cd Co) : Prop where
  regular : ch.Regular
  takes : ∃ R, Takes A ch R A' ∧ (ch.Mixed → R.det o ≠ 0)
  distinct : A'.Distinct o

/-- A change that removes and adds at the same time, where what stays has a singular matrix (`try_update` gives up). -/
structure Singular (o : OpSys K Cd Co T) (A : Conf Cd Co) (ch : Change Cd Co) (A' : Conf Cd Co) : Prop where
  regular : ch.remCd.length = ch.remC.length ∧ ch.addCd.length = ch.addC.length
  mixed : ch.Mixed
  takes : ∃ R, Takes A ch R A' ∧ R.det o = 0
  distinct : A'.Distinct o

/-- An insertion of pairs that cannot be done because two operators would have the same time. -/
structure Clash (o : OpSys K Cd Co T) (A : Conf Cd Co) (ch : Change Cd Co) : Prop where
  remCd : ch.remCd = []
  remC : ch.remC = []
  count : ch.addCd.length = ch.addC.length
  clash : ¬ (Conf.mk (A.cds ++ ch.addCd) (A.cs ++ ch.addC)).Distinct o

/-- A change after which there would not be as many creation as annihilation operators. -/
def Change.Uneven (ch : Change Cd Co) : Prop :=
  ch.addCd.length + ch.remC.length ≠ ch.addC.length + ch.remCd.length

/-- Histories: `History o A l rs A'` — starting from `A`, the trials `l`, each with the client's decision, must report
    the ratios `rs` and lead to `A'`. -/
inductive History (o : OpSys K Cd Co T) : Conf Cd Co → List (Change Cd Co × Bool) → List K → Conf Cd Co → Prop
  | done (A A') : A.Same A' → History o A [] [] A'
  | accept (A ch A' l rs A'') : Valid o A ch A' → A'.det o ≠ 0 → History o A' l rs A'' →
      History o A ((ch, true) :: l) (A'.det o / A.det o :: rs) A''
  | reject (A ch A' l rs A'') : Valid o A ch A' → History o A l rs A'' →
      History o A ((ch, false) :: l) (A'.det o / A.det o :: rs) A''
  | clash (A ch l rs A'') : Clash o A ch → History o A l rs A'' → History o A ((ch, false) :: l) (0 :: rs) A''
  | singular (A ch A' l rs A'') : Singular o A ch A' → History o A l rs A'' → History o A ((ch, false) :: l) (0 :: rs) A''
  | uneven (A ch b l rs A'') : ch.Uneven → History o A l rs A'' → History o A ((ch, b) :: l) (0 :: rs) A''

/-- What a client sees of the object when it holds configuration `A`. -/
structure ShowsConf [DecidableEq K] (o : OpSys K Cd Co T) (s : DM K Cd Co T) (A : Conf Cd Co) : Prop where
  /-- `get_cdagg_ops_set`, `get_c_ops_set` -/
  setCd : s.cd.set = byTime o.tcd A.cds
  setC : s.c.set = byTime o.tc A.cs
  /-- `get_cdagg_ops`, `get_c_ops`: matrix order -/
  opsCd : s.cd.ops.Perm A.cds
  opsC : s.c.ops.Perm A.cs
  /-- `compute_determinant` -/
  det : s.computeDeterminant = A.det o
  /-- the sign that goes with the matrix order -/
  sign : s.perm = orderSign o.tcd s.cd.ops * orderSign o.tc s.c.ops
  /-- `inverse_matrix`: the inverse of the Green-function matrix in matrix order -/
  inv : IsInvOf s.inv A.cds.length (greenAt o.G s.c.ops s.cd.ops)

/-- The client: try each change, then perform or reject it, and collect the reported ratios. -/
noncomputable def play [DecidableEq K] (o : OpSys K Cd Co T) (dbg : Bool) (junk : ℕ → ℕ → K) :
    List (Change Cd Co × Bool) → Act (DM K Cd Co T) (List K)
  | [] => pure []
  | (ch, accept) :: l => do
    let r ← DM.tryUpdate o dbg junk ch
    if accept then DM.performUpdate o dbg junk else DM.rejectUpdate o dbg
    let rs ← play o dbg junk l
    pure (r :: rs)

/-- A state that a client can reach from the constructor, holding configuration `A`. -/
def Reached [DecidableEq K] (o : OpSys K Cd Co T) (dbg : Bool) (junk : ℕ → ℕ → K) (j : DM K Cd Co T) (A : Conf Cd Co)
    (s : DM K Cd Co T) : Prop :=
  ∃ l rs, History o ⟨[], []⟩ l rs A ∧ play o dbg junk l (DM.create j) = (.ok rs, s)

end CTInt
