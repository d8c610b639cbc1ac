import Verif.Spec.Config

/-!
# Specification: what a sequence of calls on a `SubmatrixUpdate` object means

An object is used in batches: `start` opens a batch and lists vertices that may be inserted during it, `flip` tries
to change the state of some vertices and is then accepted or rejected, `finish` closes the batch, `recompute`
rebuilds the matrices between batches.  The meaning of a call is its effect on the configuration.
-/

set_option linter.all false

namespace CTInt

/-- Calls.  `pos` and `spins` are the arguments of `try_spin_flip`; spin -1 means "make non-interacting". -/
inductive Call where
  | start (new : List Vert)
  | flip (pos : List ℕ) (spins : List ℤ) (accept : Bool)
  | finish
  | recompute

/-- The meaning of an object: the configuration, the configuration when the current batch was opened, whether a
    batch is open, and the last vertex id handed out. -/
structure Abs where
  cfg : List Vert
  base : List Vert
  isOpen : Bool
  lastId : ℕ

/-- Vertices with consecutive ids after `k`. -/
def fresh (k : ℕ) : List Vert → List Vert
  | [] => []
  | v :: vs => { v with nonInt := true, uid := k + 1 } :: fresh (k + 1) vs

/-- The effect of a call. -/
def Abs.step (a : Abs) : Call → Abs
  | .start new => ⟨a.cfg ++ fresh a.lastId new, a.cfg ++ fresh a.lastId new, true, a.lastId + new.length⟩
  | .flip pos spins true => { a with cfg := flipAll a.cfg (pos.zip spins) }
  | .flip _ _ false => a
  | .finish => { a with cfg := interacting a.cfg, isOpen := false }
  | .recompute => a

/-- The effect of several calls. -/
def Abs.run (a : Abs) (calls : List Call) : Abs := calls.foldl Abs.step a

variable {K : Type} [Field K] [DecidableEq K]

/-- Vertex `v` has an operator pair on flavor `fl`. -/
def OnFlavor (tbl : List (VDef K)) (v : Vert) (fl : ℕ) : Prop := ∃ r < (termOf tbl v).rank, flavorOf tbl v r = fl

/-- On flavor `fl` the flips `ps` of `cfg` only change fields that still have the value they had in `base`. -/
def OnlyLeaves (NI : K) (tbl : List (VDef K)) (base cfg : List Vert) (ps : List (ℕ × ℤ)) (fl : ℕ) : Prop :=
  ∀ x ∈ ps, ∀ r < (termOf tbl (cfg.getD x.1 default)).rank, flavorOf tbl (cfg.getD x.1 default) r = fl →
    fieldOf NI tbl (cfg.getD x.1 default) r = fieldOf NI tbl (base.getD x.1 default) r ∨
    fieldOf NI tbl (flipTo (cfg.getD x.1 default) x.2) r = fieldOf NI tbl (cfg.getD x.1 default) r

/-- On flavor `fl` the flips `ps` of `cfg` only change fields back to the value they had in `base`. -/
def OnlyReturns (NI : K) (tbl : List (VDef K)) (base cfg : List Vert) (ps : List (ℕ × ℤ)) (fl : ℕ) : Prop :=
  ∀ x ∈ ps, ∀ r < (termOf tbl (cfg.getD x.1 default)).rank, flavorOf tbl (cfg.getD x.1 default) r = fl →
    fieldOf NI tbl (flipTo (cfg.getD x.1 default) x.2) r = fieldOf NI tbl (base.getD x.1 default) r ∨
    fieldOf NI tbl (flipTo (cfg.getD x.1 default) x.2) r = fieldOf NI tbl (cfg.getD x.1 default) r

/-- On flavor `fl` every field changed by the flips leaves, or returns to, the value it had in `base`. -/
def LeavesOrReturns (NI : K) (tbl : List (VDef K)) (base cfg : List Vert) (ps : List (ℕ × ℤ)) (fl : ℕ) : Prop :=
  ∀ x ∈ ps, ∀ r < (termOf tbl (cfg.getD x.1 default)).rank, flavorOf tbl (cfg.getD x.1 default) r = fl →
    fieldOf NI tbl (cfg.getD x.1 default) r = fieldOf NI tbl (base.getD x.1 default) r ∨
    fieldOf NI tbl (flipTo (cfg.getD x.1 default) x.2) r = fieldOf NI tbl (base.getD x.1 default) r ∨
    fieldOf NI tbl (flipTo (cfg.getD x.1 default) x.2) r = fieldOf NI tbl (cfg.getD x.1 default) r

/-- The operator pairs on flavor `fl` half way from `cfg` to `new`: the fields that return to their value in `base`
    have done so, the others are still those of `cfg`. -/
def midRows (NI : K) (tbl : List (VDef K)) (base cfg new : List Vert) (fl : ℕ) : List (OpRow K) :=
  List.zipWith (fun (bv : OpRow K × OpRow K) n => { bv.2 with al := if n.al = bv.1.al then bv.1.al else bv.2.al })
    ((rowsOf NI tbl base fl).zip (rowsOf NI tbl cfg fl)) (rowsOf NI tbl new fl)

/-- det A half way. -/
noncomputable def detMid (NI : K) (G0 : Op → Op → K) (tbl : List (VDef K)) (base cfg new : List Vert) (fl : ℕ) : K :=
  detN (midRows NI tbl base cfg new fl).length (rowA NI G0 (midRows NI tbl base cfg new fl))

/-- On flavor `fl` every field of `cfg` that differs from `base` is back in `new`. -/
def ReturnsAll (NI : K) (tbl : List (VDef K)) (base cfg new : List Vert) (fl : ℕ) : Prop :=
  ∀ i < cfg.length, ∀ r < (termOf tbl (cfg.getD i default)).rank, flavorOf tbl (cfg.getD i default) r = fl →
    fieldOf NI tbl (cfg.getD i default) r = fieldOf NI tbl (base.getD i default) r ∨
    fieldOf NI tbl (new.getD i default) r = fieldOf NI tbl (base.getD i default) r

/-- The trials the code can handle on flavor `fl`: leaving only, returning only, or both; in the last case the trial
    may be accepted only if nothing stays away from its batch-start value except what leaves in this very trial. -/
def FlavorTrial (NI : K) (tbl : List (VDef K)) (base cfg : List Vert) (ps : List (ℕ × ℤ))
    (acc : Bool) (fl : ℕ) : Prop :=
  OnlyLeaves NI tbl base cfg ps fl ∨ OnlyReturns NI tbl base cfg ps fl ∨
    LeavesOrReturns NI tbl base cfg ps fl ∧
      (acc = true → ReturnsAll NI tbl base cfg (flipAll cfg ps) fl)

/-- On flavor `fl` the ratio can be computed: the trial does not mix, or det A half way is not zero. -/
def FlavorRatio (NI : K) (G0 : Op → Op → K) (tbl : List (VDef K)) (base cfg : List Vert) (ps : List (ℕ × ℤ))
    (fl : ℕ) : Prop :=
  OnlyLeaves NI tbl base cfg ps fl ∨ OnlyReturns NI tbl base cfg ps fl ∨
    detMid NI G0 tbl base cfg (flipAll cfg ps) fl ≠ 0

/-- A trial is well formed: equally long lists, distinct existing positions, existing states. -/
structure WellFormed (tbl : List (VDef K)) (cfg : List Vert) (pos : List ℕ) (spins : List ℤ) : Prop where
  len : pos.length = spins.length
  nodup : pos.Nodup
  lt : ∀ p ∈ pos, p < cfg.length
  spin : ∀ x ∈ pos.zip spins, x.2 = -1 ∨ 0 ≤ x.2 ∧ x.2 < (termOf tbl (cfg.getD x.1 default)).numAf

/-- What a caller has to respect. -/
def Admissible (NI : K) (nf : ℕ) (G0 : Op → Op → K) (tbl : List (VDef K)) (a : Abs) : Call → Prop
  | .start new => a.isOpen = false ∧ ∀ v ∈ new, v.type < tbl.length
  | .flip pos spins acc => a.isOpen = true ∧ WellFormed tbl a.cfg pos spins ∧
      (∀ fl < nf, FlavorTrial NI tbl a.base a.cfg (pos.zip spins) acc fl) ∧
      (acc = true → weight NI nf G0 tbl (flipAll a.cfg (pos.zip spins)) ≠ 0)
  | .finish => a.isOpen = true ∧ ∀ v ∈ a.cfg, v.nonInt = true → ∀ fl < nf, OnFlavor tbl v fl
  | .recompute => a.isOpen = false

/-- Every call respects the rules at the time it is made. -/
def AllAdmissible (NI : K) (nf : ℕ) (G0 : Op → Op → K) (tbl : List (VDef K)) : Abs → List Call → Prop
  | _, [] => True
  | a, call :: calls => Admissible NI nf G0 tbl a call ∧ AllAdmissible NI nf G0 tbl (a.step call) calls

/-- A starting configuration with ids 1, 2, .... -/
def numbered (k : ℕ) : List Vert → List Vert
  | [] => []
  | v :: vs => { v with uid := k + 1 } :: numbered (k + 1) vs

/-- The meaning of a newly constructed object. -/
def Abs.init (vs : List Vert) : Abs := ⟨numbered 0 vs, [], false, vs.length⟩

/-- A usable starting configuration: interacting vertices only, existing types and states, weight not zero. -/
structure GoodStart (NI : K) (nf : ℕ) (G0 : Op → Op → K) (tbl : List (VDef K)) (vs : List Vert) : Prop where
  int : ∀ v ∈ vs, v.nonInt = false
  ok : ∀ v ∈ vs, VertOK tbl v
  w : weight NI nf G0 tbl (numbered 0 vs) ≠ 0

end CTInt
