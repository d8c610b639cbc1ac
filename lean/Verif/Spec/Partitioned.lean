import Verif.Spec.DetMatrix
import Verif.Spec.Clustering
import Verif.Model.Partitioned

/-!
# Specification: time-ordered determinants of operators that fall into sectors

`lab f` is the number of the sector to which flavor `f` belongs, `n` the number of sectors.
-/

set_option linter.all false

namespace CTInt

variable {K Cd Co T X : Type} [Field K] [LinearOrder T]

/-- The operators of sector `k`. -/
def Conf.sec (fl : FlSys Cd Co) (lab : ℕ → ℕ) (k : ℕ) (A : Conf Cd Co) : Conf Cd Co :=
  ⟨A.cds.filter fun a => decide (lab (fl.fcd a) = k), A.cs.filter fun b => decide (lab (fl.fc b) = k)⟩

/-- The operators of sector `k` in a change. -/
def Change.sec (fl : FlSys Cd Co) (lab : ℕ → ℕ) (k : ℕ) (ch : Change Cd Co) : Change Cd Co :=
  ⟨ch.remCd.filter fun a => decide (lab (fl.fcd a) = k), ch.remC.filter fun b => decide (lab (fl.fc b) = k),
    ch.addCd.filter fun a => decide (lab (fl.fcd a) = k), ch.addC.filter fun b => decide (lab (fl.fc b) = k)⟩

/-- Sectors: flavors are in the same sector if a chain of connected flavors joins them; the sectors are numbered from `0`
    to `n - 1`. -/
structure Sectors (fl : FlSys Cd Co) (n : ℕ) (lab : ℕ → ℕ) : Prop where
  same : ∀ f g, f < fl.nf → g < fl.nf →
    (lab f = lab g ↔ Relation.EqvGen (fun a b => a < fl.nf ∧ b < fl.nf ∧ fl.conn a b = true) f g)
  onto : ∀ k, k < n ↔ ∃ f, f < fl.nf ∧ lab f = k

/-- The Green function vanishes between operators of different flavors that are not connected; `is_connected` is
    symmetric. -/
structure Connects (o : OpSys K Cd Co T) (fl : FlSys Cd Co) : Prop where
  symm : ∀ f g, f < fl.nf → g < fl.nf → fl.conn f g = fl.conn g f
  zero : ∀ b a, fl.fc b < fl.nf → fl.fcd a < fl.nf → fl.fc b ≠ fl.fcd a → fl.conn (fl.fc b) (fl.fcd a) = false → o.G b a = 0

/-- A change of operators of existing flavors: the removed operators are there, and afterwards no two creation operators
    and no two annihilation operators have the same time. -/
structure PTakes (o : OpSys K Cd Co T) (fl : FlSys Cd Co) (A : Conf Cd Co) (ch : Change Cd Co) (A' : Conf Cd Co) : Prop where
  flavCd : ∀ a ∈ ch.addCd, fl.fcd a < fl.nf
  flavC : ∀ b ∈ ch.addC, fl.fc b < fl.nf
  takes : ∃ R, Takes A ch R A'
  timesCd : (A'.cds.map o.tcd).Nodup
  timesC : (A'.cs.map o.tc).Nodup

/-- A change that every sector can handle: it is valid there, or leaves the sector with unequal numbers of creation and
    annihilation operators. -/
structure PValid (o : OpSys K Cd Co T) (fl : FlSys Cd Co) (n : ℕ) (lab : ℕ → ℕ) (A : Conf Cd Co) (ch : Change Cd Co)
    (A' : Conf Cd Co) : Prop where
  takes : PTakes o fl A ch A'
  secs : ∀ k < n, Valid o (A.sec fl lab k) (ch.sec fl lab k) (A'.sec fl lab k) ∨ (ch.sec fl lab k).Uneven

/-- A change with which at least one sector gives up: an insertion that would put a creation and an annihilation
    operator of the sector at the same time, or a change that removes and adds at the same time where what stays has a
    singular matrix, or one that leaves unequal numbers of creation and annihilation operators. -/
structure PGivenUp (o : OpSys K Cd Co T) (fl : FlSys Cd Co) (n : ℕ) (lab : ℕ → ℕ) (A : Conf Cd Co) (ch : Change Cd Co)
    (A' : Conf Cd Co) : Prop where
  takes : PTakes o fl A ch A'
  secs : ∀ k < n, Valid o (A.sec fl lab k) (ch.sec fl lab k) (A'.sec fl lab k) ∨ (ch.sec fl lab k).Uneven ∨
    Clash o (A.sec fl lab k) (ch.sec fl lab k) ∨ Singular o (A.sec fl lab k) (ch.sec fl lab k) (A'.sec fl lab k)
  some : ∃ k < n, (ch.sec fl lab k).Uneven ∨ Clash o (A.sec fl lab k) (ch.sec fl lab k) ∨
    Singular o (A.sec fl lab k) (ch.sec fl lab k) (A'.sec fl lab k)

/-- Histories: starting from `A`, the trials `l`, each with the client's decision, must report the ratios `rs` of full
    time-ordered determinants and lead to `A'`.  In a build with asserts (`dbg`), no accepted trial leaves the matrix
    without operators. -/
inductive PHistory (dbg : Bool) (o : OpSys K Cd Co T) (fl : FlSys Cd Co) (n : ℕ) (lab : ℕ → ℕ) :
    Conf Cd Co → List (Change Cd Co × Bool) → List K → Conf Cd Co → Prop
  | done (A A') : A.Same A' → PHistory dbg o fl n lab A [] [] A'
  | accept (A ch A' l rs A'') : PValid o fl n lab A ch A' → A'.cds.length = A'.cs.length → A'.det o ≠ 0 →
      (dbg = true → A'.cds ≠ []) →
      PHistory dbg o fl n lab A' l rs A'' → PHistory dbg o fl n lab A ((ch, true) :: l) (A'.det o / A.det o :: rs) A''
  | reject (A ch A' l rs A'') : PValid o fl n lab A ch A' → A'.cds.length = A'.cs.length →
      PHistory dbg o fl n lab A l rs A'' → PHistory dbg o fl n lab A ((ch, false) :: l) (A'.det o / A.det o :: rs) A''
  | gaveUp (A ch A' l rs A'') : PGivenUp o fl n lab A ch A' →
      PHistory dbg o fl n lab A l rs A'' → PHistory dbg o fl n lab A ((ch, false) :: l) (0 :: rs) A''

/-- The operator sets are in step with each other and hold configuration `A`. -/
structure InStep (o : OpSys K Cd Co T) (fl : FlSys Cd Co) (lab : ℕ → ℕ) (s : PDM K Cd Co T) (A : Conf Cd Co) : Prop where
  /-- `get_cdagg_ops_set`, `get_c_ops_set` -/
  setCd : s.cd.set = byTime o.tcd A.cds
  setC : s.c.set = byTime o.tc A.cs
  /-- the same of each sector -/
  secCd : s.cd.secs = (List.range s.ns).map fun k => byTime o.tcd (A.sec fl lab k).cds
  secC : s.c.secs = (List.range s.ns).map fun k => byTime o.tc (A.sec fl lab k).cs
  /-- the same of each block: `get_cdagg_ops_set(block)`, `get_c_ops_set(block)` -/
  blockCd : s.mats.map (fun m => m.cd.set) = s.cd.secs
  blockC : s.mats.map (fun m => m.c.set) = s.c.secs
  /-- the global sets are the unions of the blocks' sets -/
  unionCd : s.cd.set.Perm (s.mats.flatMap fun m => m.cd.set)
  unionC : s.c.set.Perm (s.mats.flatMap fun m => m.c.set)
  /-- `get_cdagg_ops`, `get_c_ops`: the operators of the blocks one after the other -/
  orderCd : s.cd.order = s.mats.flatMap fun m => m.cd.ops
  orderC : s.c.order = s.mats.flatMap fun m => m.c.ops
  permCd : s.cd.order.Perm A.cds
  permC : s.c.order.Perm A.cs

/-- The client: try each change, then perform or reject it, and collect the reported ratios. -/
noncomputable def pplay [DecidableEq K] (o : OpSys K Cd Co T) (fl : FlSys Cd Co) (dbg : Bool) (junk : ℕ → ℕ → K) :
    List (Change Cd Co × Bool) → Act (PDM K Cd Co T) (List K)
  | [] => pure []
  | (ch, accept) :: l => do
    let r ← PDM.tryUpdate o fl dbg junk ch
    if accept then PDM.performUpdate o fl dbg junk else PDM.rejectUpdate o dbg
    let rs ← pplay o fl dbg junk l
    pure (r :: rs)

/-- A state that a history leads to from a new object, with the configuration it should hold; `lab f` is
    `block_belonging_to(f)`. -/
def PReached [DecidableEq K] (o : OpSys K Cd Co T) (fl : FlSys Cd Co) (dbg : Bool) (junk : ℕ → ℕ → K) (j : ℕ → DM K Cd Co T) (np : ℤ)
    (lab : ℕ → ℕ) (A : Conf Cd Co) (s : PDM K Cd Co T) : Prop :=
  ∃ s0 l rs, PDM.create fl dbg j np = .ok s0 ∧ (∀ f < fl.nf, s0.blockOf f = .ok (lab f)) ∧
    PHistory dbg o fl s0.ns lab ⟨[], []⟩ l rs A ∧ pplay o fl dbg junk l s0 = (.ok rs, s)

end CTInt
