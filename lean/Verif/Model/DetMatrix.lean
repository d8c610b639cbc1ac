import Verif.Base.Act
import Verif.Model.FastUpdate
import Verif.Model.Sort
import Mathlib.Data.List.Sort
import Mathlib.Order.Lattice

/-!
# Model of `DeterminantMatrix` (include/alps/fastupdate/determinant_matrix.hpp, detail/determinant_matrix*.ipp)

The operators are of any type; their times are in any linear order and `G` is any Green function.  The members for
creation operators and those for annihilation operators are grouped in one structure `Side` each.
-/

set_option linter.all false

namespace CTInt

/-- What the template parameters supply: `operator_time` of both kinds of operators and the Green function
    (determinant_matrix_base.hpp 18-30, determinant_matrix.hpp 20-32). -/
structure OpSys (K Cd Co T : Type) where
  tcd : Cd → T
  tc : Co → T
  G : Co → Cd → K

/-- The members for one kind of operators, determinant_matrix.hpp 216-227: the operators in matrix order
    (`cdagg_ops_`), the map from times to positions (`cdagg_op_pos_`; its entries in any order) and the time-ordered set
    (`cdagg_ops_set_`; operators compare by their times). -/
structure Side (X T : Type) where
  ops : List X
  pos : List (T × ℕ)
  set : List X

namespace Side

variable {X T : Type} [LinearOrder T] (τ : X → T)

/-- `find(time) != end()`. -/
def Has (S : Side X T) (t : T) : Prop := t ∈ S.pos.map Prod.fst

instance (S : Side X T) (t : T) : Decidable (S.Has t) := by unfold Has; infer_instance

/-- `find_cdagg`, `find_c`, determinant_matrix.hpp 380-388. -/
def find (S : Side X T) (x : X) : Res ℕ :=
  match S.pos.find? (fun e => decide (e.1 = τ x)) with
  | some e => .ok e.2
  | none => .ub

/-- `std::distance(map.lower_bound(t), map.end())`. -/
def after (S : Side X T) (t : T) : ℕ := S.pos.countP fun e => decide (t ≤ e.1)

/-- `map.erase(t)`. -/
def mapErase (l : List (T × ℕ)) (t : T) : List (T × ℕ) := l.filter fun e => decide (e.1 ≠ t)

/-- `map[t] = p`. -/
def mapPut (l : List (T × ℕ)) (t : T) (p : ℕ) : List (T × ℕ) := (t, p) :: mapErase l t

/-- `set.insert(x)`. -/
def setInsert (l : List X) (x : X) : List X :=
  if τ x ∈ l.map τ then l else l.orderedInsert (fun a b => τ a ≤ τ b) x

/-- `set.erase(x)`. -/
def setErase (l : List X) (x : X) : List X := l.filter fun y => decide (τ y ≠ τ x)

/-- The part of `add_new_operators` for one operator, determinant_matrix.ipp 243-247 and 252-256: the operator is
    appended, the map and the set get it if its time is new. -/
def push (S : Side X T) (x : X) (p : ℕ) : Side X T :=
  ⟨S.ops ++ [x], if S.Has (τ x) then S.pos else (τ x, p) :: S.pos, setInsert τ S.set x⟩

/-- The part of `remove_last_operators` for one operator, determinant_matrix.ipp 283-286, 288-291 and 293-294. -/
def pop (S : Side X T) : Res (ℕ × Side X T) :=
  match S.ops.getLast? with
  | none => .ub
  | some x => .ok (S.after (τ x), ⟨S.ops.dropLast, mapErase S.pos (τ x), setErase τ S.set x⟩)

/-- The part of `swap_cdagg_op`, `swap_c_op` for the operators and the map, determinant_matrix.ipp 190-197, 212-219. -/
def swap (S : Side X T) (i j : ℕ) : Res (Side X T) := do
  let a ← Res.get S.ops i
  let b ← Res.get S.ops j
  pure ⟨(S.ops.set i b).set j a, mapPut (mapPut S.pos (τ a) j) (τ b) i, S.set⟩

/-- Erasing operator `i` from the map and the set, determinant_matrix.ipp 313-316. -/
def forget (S : Side X T) (i : ℕ) : Res (Side X T) := do
  let x ← Res.get S.ops i
  pure ⟨S.ops, mapErase S.pos (τ x), setErase τ S.set x⟩

/-- The entries of the map are the times of the operators at their positions, determinant_matrix.ipp 346-354. -/
def checkPos (S : Side X T) (n : ℕ) : Res Unit :=
  Res.foldl (fun _ e => do
    Res.assert (e.2 < n)
    let x ← Res.get S.ops e.2
    Res.assert (τ x = e.1)) () S.pos

/-- Every operator is found before position `n`, determinant_matrix.ipp 361-363. -/
def checkFind (S : Side X T) (n : ℕ) : Res Unit :=
  Res.foldl (fun _ i => do
    let x ← Res.get S.ops i
    let p ← S.find τ x
    Res.assert (p < n)) () (List.range n)

/-- `cdagg_set_t(begin, end)`, the set made of a list. -/
def setOf (l : List X) : List X := l.foldl (setInsert τ) []

open Classical in
/-- `permutation(begin, end)` on operators, which compare by their times: `permutationSign` (Model/Sort.lean) with any
    sufficient number of iterations; a loop that never ends and has no effect is undefined. -/
noncomputable def permOf (l : List X) : Res ℤ :=
  if h : ∃ r F, ∀ fuel ≥ F, permutationSign (fun a b => decide (τ a < τ b)) fuel l = some r then .ok h.choose else .ub

/-- `ops.resize(n)`, determinant_matrix.ipp 319-320 (growing would add default operators: not modelled). -/
def resize (S : Side X T) (n : ℕ) : Res (Side X T) := do
  Res.assert (n ≤ S.ops.length)
  pure { S with ops := S.ops.take n }

end Side

/-- `DeterminantMatrixState`, determinant_matrix.hpp 62-69. -/
inductive DState where
  | waiting | tryAdd | tryRem | tryRemAdd | tryReplaceCd | tryReplaceC
  deriving DecidableEq

/-- `UpdateMode`, determinant_matrix.hpp 71-79. -/
inductive DMode where
  | doNothing | add | rem | remAdd | replaceCd | replaceC | invalid
  deriving DecidableEq

/-- The members, determinant_matrix.hpp 207-239 (`rem_cols_`, `rem_rows_` are scratch space of `moveToEnd`).  `mode = none`: `update_mode_` has not been set yet. -/
structure DM (K Cd Co T : Type) where
  state : DState
  mode : Option DMode
  inv : DMat K
  perm : ℤ
  cd : Side Cd T
  c : Side Co T
  permRat : ℤ
  nopAdded : ℤ
  impossible : Bool
  detRat : K
  newCd : Option Cd
  oldCd : Option Cd
  newC : Option Co
  oldC : Option Co
  removed : List (Cd × Co)
  Gnn : DMat K
  Gnj : DMat K
  Gjn : DMat K
  helper : Inc.Replace K

/-- The arguments of `try_update`: operators to be removed and to be added. -/
structure Change (Cd Co : Type) where
  remCd : List Cd
  remC : List Co
  addCd : List Cd
  addC : List Co

/-- The Green-function matrix of two lists of operators: rows annihilation, columns creation operators
    (`compute_g`, determinant_matrix.hpp 363). -/
def entry {K Cd Co : Type} [Zero K] (G : Co → Cd → K) (cs : List Co) (cds : List Cd) (i j : ℕ) : K :=
  match cs[i]?, cds[j]? with
  | some b, some a => G b a
  | _, _ => 0

variable {K Cd Co T : Type} [Field K] [DecidableEq K] [LinearOrder T]

namespace DM

/-- The constructor, determinant_matrix.ipp 12-21; `j` holds the members that are not initialised. -/
def create (j : DM K Cd Co T) : DM K Cd Co T :=
  { j with
    state := .waiting, mode := none, inv := ⟨0, 0, j.inv.val⟩, perm := 1, cd := ⟨[], [], []⟩, c := ⟨[], [], []⟩,
    removed := [], Gnn := ⟨0, 0, j.Gnn.val⟩, Gnj := ⟨0, 0, j.Gnj.val⟩, Gjn := ⟨0, 0, j.Gjn.val⟩ }

/-- `check_state`, determinant_matrix.hpp 245-249. -/
def checkState (st : DState) : Act (DM K Cd Co T) Unit := do
  let s ← Act.get
  Act.throwIf (s.state ≠ st) .logicError

/-- `state_ = st`. -/
def setState (st : DState) : Act (DM K Cd Co T) Unit := Act.modify fun s => { s with state := st }

/-- `exist`, determinant_matrix.hpp 376-378. -/
def Exist (s : DM K Cd Co T) (t : T) : Prop := s.c.Has t ∨ s.cd.Has t

instance (s : DM K Cd Co T) (t : T) : Decidable (s.Exist t) := by unfold Exist; infer_instance

variable (o : OpSys K Cd Co T)

open Classical in
/-- `sanity_check`, determinant_matrix.ipp 332-373: does nothing unless compiled with asserts (`dbg`).  That the elements of
    the inverse are numbers (365) is not checked: the elements are of a field here. -/
noncomputable def sanityCheck (dbg : Bool) : Act (DM K Cd Co T) Unit :=
  if dbg then do
    checkState .waiting
    let s ← Act.get
    let n := s.cd.ops.length
    let m := s.inv.rows
    Act.assert (m = n)
    Act.assert (s.cd.ops.length = s.c.ops.length)
    Act.assert (s.c.pos.length = n)
    Act.assert (s.cd.pos.length = n)
    Act.lift (s.c.checkPos o.tc n)
    Act.lift (s.cd.checkPos o.tcd n)
    let p ← Act.lift (Side.permOf o.tc (s.c.ops.take m))
    let q ← Act.lift (Side.permOf o.tcd (s.cd.ops.take m))
    Act.assert (s.perm = p * q)
    Act.lift (s.cd.checkFind o.tcd m)
    Act.lift (s.c.checkFind o.tc m)
    Act.assert (m ≤ s.inv.cols)
    Act.assert (s.cd.set = Side.setOf o.tcd s.cd.ops)
    Act.assert (s.c.set = Side.setOf o.tc s.c.ops)
  else pure ()

/-- The times of a list of pairs. -/
def pairTimes (ops : List (Cd × Co)) : List T := ops.flatMap fun p => [o.tcd p.1, o.tc p.2]

/-- `insertion_possible`, determinant_matrix.ipp 52-73 (sorting and looking for equal neighbours finds duplicates). -/
def InsertionPossible (s : DM K Cd Co T) (ops : List (Cd × Co)) : Prop :=
  (∀ p ∈ ops, ¬ (s.Exist (o.tcd p.1) ∨ s.Exist (o.tc p.2))) ∧ (pairTimes o ops).Nodup

instance (s : DM K Cd Co T) (ops : List (Cd × Co)) : Decidable (InsertionPossible o s ops) := by
  unfold InsertionPossible; infer_instance

/-- `removal_possible`, determinant_matrix.ipp 143-177. -/
def removalPossible (s : DM K Cd Co T) (ops : List (Cd × Co)) : Res Bool := do
  Res.throwIf (¬ ∀ p ∈ ops, s.Exist (o.tcd p.1) ∧ s.Exist (o.tc p.2)) .runtimeError
  pure (decide (pairTimes o ops).Nodup)

/-- `removal_insertion_possible`, determinant_matrix.ipp 82-134. -/
def removalInsertionPossible (s : DM K Cd Co T) (rem add : List (Cd × Co)) : Res Bool := do
  Res.throwIf (¬ ∀ p ∈ rem, s.Exist (o.tcd p.1) ∧ s.Exist (o.tc p.2)) .runtimeError
  if ¬ ∀ p ∈ add, (¬ s.Exist (o.tcd p.1) ∨ o.tcd p.1 ∈ pairTimes o rem) ∧
      (¬ s.Exist (o.tc p.2) ∨ o.tc p.2 ∈ pairTimes o rem) then pure false
  else pure (decide ((pairTimes o add).Nodup ∧ (pairTimes o rem).Nodup))

/-- `swap_cdagg_op`, determinant_matrix.ipp 186-199: rows of the inverse matrix. -/
def swapCd (i j : ℕ) : Act (DM K Cd Co T) Unit := do
  let s ← Act.get
  if i = j then pure () else do
    let S ← Act.lift (s.cd.swap o.tcd i j)
    Act.assert (i < s.inv.rows ∧ j < s.inv.rows)
    Act.modify fun s => { s with cd := S, inv := s.inv.swapRow i j, perm := s.perm * (-1) }

/-- `swap_c_op`, determinant_matrix.ipp 208-221: columns of the inverse matrix. -/
def swapC (i j : ℕ) : Act (DM K Cd Co T) Unit := do
  let s ← Act.get
  if i = j then pure () else do
    let S ← Act.lift (s.c.swap o.tc i j)
    Act.assert (i < s.inv.cols ∧ j < s.inv.cols)
    Act.modify fun s => { s with c := S, inv := s.inv.swapCol i j, perm := s.perm * (-1) }

/-- `perm_diff%2==0 ? 1 : -1`. -/
def parity (n : ℕ) : ℤ := if n % 2 = 0 then 1 else -1

/-- `add_new_operators`, determinant_matrix.ipp 233-264. -/
def addNew (ops : List (Cd × Co)) : Act (DM K Cd Co T) ℤ := do
  let n ← Act.fold (fun (n : ℕ) (p : Cd × Co) => do
    let s ← Act.get
    let q := s.cd.ops.length
    let n := n + s.cd.after (o.tcd p.1)
    Act.modify fun s => { s with cd := s.cd.push o.tcd p.1 q }
    Act.throwIf (s.cd.Has (o.tcd p.1)) .runtimeError
    let n := n + s.c.after (o.tc p.2)
    Act.modify fun s => { s with c := s.c.push o.tc p.2 q }
    Act.throwIf (s.c.Has (o.tc p.2)) .runtimeError
    pure n) 0 ops
  pure (parity n)

/-- `remove_last_operators`, determinant_matrix.ipp 273-298 (the assert before the `throw` is skipped). -/
def removeLast (k : ℤ) : Act (DM K Cd Co T) ℤ := do
  let s ← Act.get
  Act.throwIf ((s.cd.ops.length : ℤ) - k < 0) .logicError
  let n ← Act.fold (fun (n : ℕ) (_ : ℕ) => do
    let s ← Act.get
    let (a, S) ← Act.lift (s.c.pop o.tc)
    let (b, S') ← Act.lift (s.cd.pop o.tcd)
    Act.modify fun s => { s with c := S, cd := S' }
    pure (n + a + b)) 0 (List.range k.toNat)
  pure (parity n)

/-- `remove_excess_operators`, determinant_matrix.ipp 307-323. -/
noncomputable def removeExcess (dbg : Bool) : Act (DM K Cd Co T) Unit := do
  let s ← Act.get
  let off := s.inv.rows
  Act.fold (fun (_ : Unit) (i : ℕ) => do
    let s ← Act.get
    let S ← Act.lift (s.c.forget o.tc (i + off))
    let S' ← Act.lift (s.cd.forget o.tcd (i + off))
    Act.modify fun s => { s with c := S, cd := S' }) () (List.range (s.cd.pos.length - off))
  let s ← Act.get
  let S' ← Act.lift (s.cd.resize off)
  let S ← Act.lift (s.c.resize off)
  Act.modify fun s => { s with c := S, cd := S' }
  sanityCheck o dbg

/-- A block of the Green-function matrix of the stored operators (the loops around `compute_g`). -/
def gBlock (s : DM K Cd Co T) (r c h w : ℕ) : Res (DMat K) := do
  Res.assert (h = 0 ∨ w = 0 ∨ (r + h ≤ s.c.ops.length ∧ c + w ≤ s.cd.ops.length))
  pure ⟨h, w, fun i j => entry o.G s.c.ops s.cd.ops (r + i) (c + j)⟩

/-- The three blocks of new elements, determinant_matrix_add.ipp 31-50 and determinant_matrix_remove_add.ipp 71-90. -/
def newBlocks (nop nAdd : ℕ) : Act (DM K Cd Co T) Unit := do
  let s ← Act.get
  let B ← Act.lift (s.gBlock o nop 0 nAdd nop)
  let C ← Act.lift (s.gBlock o 0 nop nop nAdd)
  let D ← Act.lift (s.gBlock o nop nop nAdd nAdd)
  Act.modify fun s => { s with Gnj := B, Gjn := C, Gnn := D }

/-- `try_add`, determinant_matrix_add.ipp 14-53. -/
def tryAdd (ops : List (Cd × Co)) : Act (DM K Cd Co T) K := do
  checkState .waiting
  setState .tryAdd
  let s ← Act.get
  let nop := s.inv.rows
  if ¬ InsertionPossible o s ops then pure 0 else do
    let r ← addNew o ops
    Act.modify fun s => { s with permRat := r }
    newBlocks o nop ops.length
    let s ← Act.get
    let d ← Act.lift (Inc.detRatioUp s.Gjn s.Gnj s.Gnn s.inv)
    pure ((s.permRat : K) * d)

/-- `perform_add`, determinant_matrix_add.ipp 62-67. -/
noncomputable def performAdd (junk : ℕ → ℕ → K) : Act (DM K Cd Co T) Unit := do
  checkState .tryAdd
  setState .waiting
  let s ← Act.get
  let (_, X) ← Act.lift (Inc.inverseUp junk s.Gjn s.Gnj s.Gnn s.inv)
  Act.modify fun s => { s with inv := X, perm := s.perm * s.permRat }

/-- `reject_add`, determinant_matrix_add.ipp 76-80. -/
noncomputable def rejectAdd (dbg : Bool) : Act (DM K Cd Co T) Unit := do
  checkState .tryAdd
  setState .waiting
  removeExcess o dbg

/-- Moving the operators to be removed to the end and remembering them, determinant_matrix_remove.ipp 29-59,
    determinant_matrix_remove_add.ipp 33-65. -/
def moveToEnd (nop : ℕ) (rem : List (Cd × Co)) : Act (DM K Cd Co T) Unit := do
  let n := rem.length
  let s ← Act.get
  let cols ← Act.lift (Res.mapM (fun p : Cd × Co => s.cd.find o.tcd p.1) rem)
  let rows ← Act.lift (Res.mapM (fun p : Cd × Co => s.c.find o.tc p.2) rem)
  let cols := cols.insertionSort (· ≤ ·)
  let rows := rows.insertionSort (· ≤ ·)
  Act.fold (fun (_ : Unit) (k : ℕ) => do
    Act.assert (k + 1 ≤ nop)
    swapCd o (cols.getD (n - 1 - k) 0) (nop - 1 - k)
    swapC o (rows.getD (n - 1 - k) 0) (nop - 1 - k)) () (List.range n)
  Act.modify fun s => { s with removed := [] }
  Act.fold (fun (_ : Unit) (k : ℕ) => do
    let s ← Act.get
    let a ← Act.lift (Res.get s.cd.ops (nop - 1 - k))
    let b ← Act.lift (Res.get s.c.ops (nop - 1 - k))
    Act.modify fun s => { s with
      removed := s.removed ++ [(a, b)]
      cd := { s.cd with set := Side.setErase o.tcd s.cd.set a }
      c := { s.c with set := Side.setErase o.tc s.c.set b } }) () (List.range n)

/-- `try_remove`, determinant_matrix_remove.ipp 14-63. -/
def tryRemove (rem : List (Cd × Co)) : Act (DM K Cd Co T) K := do
  checkState .waiting
  setState .tryRem
  let s ← Act.get
  let nop := s.inv.rows
  let p ← Act.lift (removalPossible o s rem)
  if ¬ p then pure 0 else do
    moveToEnd o nop rem
    let r ← removeLast o rem.length
    Act.modify fun s => { s with permRat := r }
    let s ← Act.get
    let d ← Act.lift (Inc.detRatioDownLast rem.length s.inv)
    pure ((s.permRat : K) * d)

/-- `perform_remove`, determinant_matrix_remove.ipp 72-79. -/
noncomputable def performRemove (junk : ℕ → ℕ → K) : Act (DM K Cd Co T) Unit := do
  checkState .tryRem
  setState .waiting
  Act.modify fun s => { s with perm := s.perm * s.permRat }
  let s ← Act.get
  let X ← Act.lift (Inc.inverseDownLast junk s.removed.length s.inv)
  Act.modify fun s => { s with inv := X }

/-- `reject_remove`, determinant_matrix_remove.ipp 88-94. -/
def rejectRemove : Act (DM K Cd Co T) Unit := do
  checkState .tryRem
  setState .waiting
  let s ← Act.get
  let _ ← addNew o s.removed.reverse
  pure ()

/-- `try_remove_add`, determinant_matrix_remove_add.ipp 14-98. -/
noncomputable def tryRemoveAdd (junk : ℕ → ℕ → K) (rem add : List (Cd × Co)) : Act (DM K Cd Co T) K := do
  checkState .waiting
  setState .tryRemAdd
  let s ← Act.get
  let nop := s.inv.rows
  Act.modify fun s => { s with impossible := false }
  let p ← Act.lift (removalInsertionPossible o s rem add)
  if ¬ p then do
    Act.modify fun s => { s with impossible := true }
    pure 0
  else do
    if rem ≠ [] then moveToEnd o nop rem else pure ()
    let r ← removeLast o rem.length
    Act.modify fun s => { s with permRat := r }
    let r ← addNew o add
    Act.modify fun s => { s with permRat := s.permRat * r }
    Act.assert (rem.length ≤ nop)
    newBlocks o (nop - rem.length) add.length
    Act.modify fun s => { s with nopAdded := add.length }
    let s ← Act.get
    let h ← Act.lift (Inc.Replace.mk' s.inv s.Gjn s.Gnj s.Gnn ⟨0, 0, junk⟩ ⟨0, 0, junk⟩)
    Act.modify fun s => { s with helper := h }
    let (d, h) ← Act.lift (h.detRatio s.inv s.Gjn s.Gnj s.Gnn)
    Act.modify fun s => { s with helper := h }
    pure ((s.permRat : K) * d)

/-- `perform_remove_add`, determinant_matrix_remove_add.ipp 107-116: the inverse is written before the state is
    checked. -/
noncomputable def performRemoveAdd (dbg : Bool) (junk : ℕ → ℕ → K) : Act (DM K Cd Co T) Unit := do
  Act.modify fun s => { s with inv := s.helper.inverse junk s.Gjn s.Gnj s.Gnn }
  checkState .tryRemAdd
  setState .waiting
  let s ← Act.get
  if s.impossible then pure () else do
    Act.modify fun s => { s with perm := s.perm * s.permRat }
    sanityCheck o dbg

/-- `reject_remove_add`, determinant_matrix_remove_add.ipp 125-136. -/
noncomputable def rejectRemoveAdd (dbg : Bool) : Act (DM K Cd Co T) Unit := do
  checkState .tryRemAdd
  setState .waiting
  let s ← Act.get
  let _ ← removeLast o s.nopAdded
  let s ← Act.get
  let _ ← addNew o s.removed.reverse
  sanityCheck o dbg

/-- The sign of a replacement, determinant_matrix_replace.ipp 36-45 and 119-128. -/
def replaceSign {X : Type} (τ : X → T) (S : Side X T) (old new : X) : ℤ :=
  let diff := ((S.after (τ old) : ℤ) - (S.after (τ new) : ℤ)).natAbs
  let r := parity diff
  if τ old < τ new then r * (-1) else r

/-- `try_replace_cdagg`, determinant_matrix_replace.ipp 13-51. -/
def tryReplaceCd (old new : Cd) : Act (DM K Cd Co T) K := do
  checkState .waiting
  setState .tryReplaceCd
  let s ← Act.get
  let nop := s.inv.rows
  Act.modify fun s => { s with newCd := some new, oldCd := some old }
  let p ← Act.lift (s.cd.find o.tcd old)
  Act.assert (1 ≤ nop)
  (if p ≠ nop - 1 then swapCd o p (nop - 1) else pure () : Act (DM K Cd Co T) Unit)
  let s ← Act.get
  Act.assert (nop ≤ s.c.ops.length)
  Act.modify fun s => { s with Gjn := ⟨nop, 1, fun i _ => entry o.G s.c.ops [new] i 0⟩ }
  let s ← Act.get
  Act.modify fun s => { s with permRat := replaceSign o.tcd s.cd old new }
  let s ← Act.get
  let d ← Act.lift (Inc.detRatioLastCol s.inv s.Gjn)
  Act.modify fun s => { s with detRat := d }
  pure ((s.permRat : K) * d)

/-- Replacing an operator in the members of its side, determinant_matrix_replace.ipp 68-73 and 148-153:
    `ops[n-1] = new`, the map and the set are changed. -/
def _root_.CTInt.Side.replace {X : Type} (τ : X → T) (S : Side X T) (nop : ℕ) (old new : X) : Res (Side X T) := do
  Res.assert (1 ≤ nop ∧ nop ≤ S.ops.length)
  let m := Side.mapErase S.pos (τ old)
  let m := if τ new ∈ m.map Prod.fst then m else (τ new, nop - 1) :: m
  pure ⟨S.ops.set (nop - 1) new, m, Side.setInsert τ (Side.setErase τ S.set old) new⟩

/-- `perform_replace_cdagg`, determinant_matrix_replace.ipp 60-74. -/
def performReplaceCd : Act (DM K Cd Co T) Unit := do
  checkState .tryReplaceCd
  setState .waiting
  let s ← Act.get
  let X ← Act.lift (Inc.inverseLastCol s.inv s.Gjn s.detRat)
  Act.modify fun s => { s with inv := X, perm := s.perm * s.permRat }
  match s.oldCd, s.newCd with
  | some old, some new => do
    let S ← Act.lift (s.cd.replace o.tcd s.inv.rows old new)
    Act.modify fun s => { s with cd := S }
  | _, _ => Act.lift .ub

/-- `reject_replace_cdagg`, determinant_matrix_replace.ipp 83-87. -/
def rejectReplaceCd : Act (DM K Cd Co T) Unit := do
  checkState .tryReplaceCd
  setState .waiting

/-- `try_replace_c`, determinant_matrix_replace.ipp 96-131. -/
def tryReplaceC (old new : Co) : Act (DM K Cd Co T) K := do
  checkState .waiting
  setState .tryReplaceC
  let s ← Act.get
  let nop := s.inv.rows
  Act.modify fun s => { s with newC := some new, oldC := some old }
  let p ← Act.lift (s.c.find o.tc old)
  Act.assert (1 ≤ nop)
  (if p ≠ nop - 1 then swapC o p (nop - 1) else pure () : Act (DM K Cd Co T) Unit)
  let s ← Act.get
  Act.assert (nop ≤ s.cd.ops.length)
  Act.modify fun s => { s with Gnj := ⟨1, nop, fun _ i => entry o.G [new] s.cd.ops 0 i⟩ }
  let s ← Act.get
  Act.modify fun s => { s with permRat := replaceSign o.tc s.c old new }
  let s ← Act.get
  let d ← Act.lift (Inc.detRatioLastRow s.inv s.Gnj)
  Act.modify fun s => { s with detRat := d }
  pure ((s.permRat : K) * d)

/-- `perform_replace_c`, determinant_matrix_replace.ipp 140-154. -/
def performReplaceC : Act (DM K Cd Co T) Unit := do
  checkState .tryReplaceC
  setState .waiting
  let s ← Act.get
  let X ← Act.lift (Inc.inverseLastRow s.inv s.Gnj s.detRat)
  Act.modify fun s => { s with inv := X, perm := s.perm * s.permRat }
  match s.oldC, s.newC with
  | some old, some new => do
    let S ← Act.lift (s.c.replace o.tc s.inv.rows old new)
    Act.modify fun s => { s with c := S }
  | _, _ => Act.lift .ub

/-- `reject_replace_c`, determinant_matrix_replace.ipp 163-167. -/
def rejectReplaceC : Act (DM K Cd Co T) Unit := do
  checkState .tryReplaceC
  setState .waiting

/-- `to_operator_pairs`, determinant_matrix.ipp 468-481: `n` elements of both ranges are read. -/
def pairs (cds : List Cd) (cs : List Co) (n : ℕ) : Res (List (Cd × Co)) := do
  Res.assert (n ≤ cds.length ∧ n ≤ cs.length)
  pure ((cds.take n).zip (cs.take n))

/-- `update_mode_ = m`. -/
def setMode (m : DMode) : Act (DM K Cd Co T) Unit := Act.modify fun s => { s with mode := some m }

/-- `try_update`, determinant_matrix.ipp 492-553. -/
noncomputable def tryUpdate (dbg : Bool) (junk : ℕ → ℕ → K) (ch : Change Cd Co) : Act (DM K Cd Co T) K := do
  sanityCheck o dbg
  let na := ch.addCd.length
  let nr := ch.remCd.length
  let ma := ch.addC.length
  let mr := ch.remC.length
  if (na : ℤ) - nr ≠ (ma : ℤ) - mr then do
    setMode .invalid
    pure 0
  else if na = 0 ∧ nr = 0 ∧ ma = 0 ∧ mr = 0 then do
    setMode .doNothing
    pure 1
  else if na = 1 ∧ nr = 1 ∧ ma = 0 ∧ mr = 0 then do
    setMode .replaceCd
    let a ← Act.lift (Res.get ch.remCd 0)
    let b ← Act.lift (Res.get ch.addCd 0)
    tryReplaceCd o a b
  else if na = 0 ∧ nr = 0 ∧ ma = 1 ∧ mr = 1 then do
    setMode .replaceC
    let a ← Act.lift (Res.get ch.remC 0)
    let b ← Act.lift (Res.get ch.addC 0)
    tryReplaceC o a b
  else if 0 < na ∧ nr = 0 ∧ 0 < ma ∧ mr = 0 then do
    setMode .add
    let ops ← Act.lift (pairs ch.addCd ch.addC na)
    tryAdd o ops
  else if na = 0 ∧ 0 < nr ∧ ma = 0 ∧ 0 < mr then do
    setMode .rem
    let ops ← Act.lift (pairs ch.remCd ch.remC nr)
    tryRemove o ops
  else do
    setMode .remAdd
    let add ← Act.lift (pairs ch.addCd ch.addC na)
    let rem ← Act.lift (pairs ch.remCd ch.remC nr)
    tryRemoveAdd o junk rem add

/-- `perform_update`, determinant_matrix.ipp 562-591. -/
noncomputable def performUpdate (dbg : Bool) (junk : ℕ → ℕ → K) : Act (DM K Cd Co T) Unit := do
  let s ← Act.get
  match s.mode with
  | none => Act.lift .ub
  | some .doNothing => pure ()
  | some .replaceCd => performReplaceCd o
  | some .replaceC => performReplaceC o
  | some .add => performAdd junk
  | some .rem => performRemove junk
  | some .remAdd => performRemoveAdd o dbg junk
  | some .invalid => pure ()

/-- `reject_update`, determinant_matrix.ipp 600-628. -/
noncomputable def rejectUpdate (dbg : Bool) : Act (DM K Cd Co T) Unit := do
  let s ← Act.get
  match s.mode with
  | none => Act.lift .ub
  | some .doNothing => pure ()
  | some .replaceCd => rejectReplaceCd
  | some .replaceC => rejectReplaceC
  | some .add => rejectAdd o dbg
  | some .rem => rejectRemove o
  | some .remAdd => rejectRemoveAdd o dbg
  | some .invalid => pure ()

/-- The constructor from a list of pairs, determinant_matrix.ipp 30-44. -/
noncomputable def createWith (junk : ℕ → ℕ → K) (j : DM K Cd Co T) (ops : List (Cd × Co)) : Res Unit × DM K Cd Co T :=
  (do let _ ← tryAdd o ops
      performAdd junk : Act (DM K Cd Co T) Unit) (create j)

/-- `compute_determinant`, determinant_matrix.hpp 133-135. -/
def computeDeterminant (s : DM K Cd Co T) : K := (s.perm : K) / s.inv.det

/-- `compute_G_matrix`, determinant_matrix.ipp 409-422. -/
def computeG : Act (DM K Cd Co T) (DMat K) := do
  checkState .waiting
  let s ← Act.get
  let n := s.cd.ops.length
  Act.assert (s.inv.rows = n)
  Act.lift (s.gBlock o 0 0 n n)

/-- `rebuild_inverse_matrix`, determinant_matrix.ipp 382-400. -/
noncomputable def rebuild (dbg : Bool) : Act (DM K Cd Co T) Unit := do
  let g ← computeG o
  Act.modify fun s => { s with inv := g.inv }
  sanityCheck o dbg

end DM
end CTInt
