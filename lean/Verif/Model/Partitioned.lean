import Verif.Model.DetMatrix
import Verif.Model.Clustering

/-!
# Model of `DeterminantMatrixPartitioned` (include/alps/fastupdate/determinant_matrix_partitioned.hpp,
detail/determinant_matrix_partitioned.ipp)

The members for creation operators and those for annihilation operators are grouped in one structure `PSide` each.
-/

set_option linter.all false

namespace CTInt

/-- What the template parameters supply besides `OpSys`: `operator_flavor` of both kinds of operators (negative flavors are
    not modelled), `num_flavors` and `is_connected` of the Green function. -/
structure FlSys (Cd Co : Type) where
  fcd : Cd → ℕ
  fc : Co → ℕ
  nf : ℕ
  conn : ℕ → ℕ → Bool

/-- The members for one kind of operators, determinant_matrix_partitioned.hpp 389-403: the operators in the order of the
    blocks (`cdagg_ops_actual_order_`), the time-ordered set (`cdagg_times_set_`), the time-ordered set of each sector
    (`cdagg_times_sectored_set_`), and the operators of each sector to be added and removed (`cdagg_ops_add_`,
    `cdagg_ops_rem_`). -/
structure PSide (X : Type) where
  order : List X
  set : List X
  secs : List (List X)
  add : List (List X)
  rem : List (List X)

namespace PSide

variable {X T : Type} [LinearOrder T] (τ : X → T)

/-- The number `num_ops`, determinant_matrix_partitioned.ipp 120-124 and 132-136: operators not before `x` in the set,
    operators in later sectors, operators not before `x` in its sector. -/
def passed (S : PSide X) (x : X) (k : ℕ) (sec : List X) : ℕ :=
  S.set.countP (fun y => decide (τ x ≤ τ y)) + ((S.secs.drop (k + 1)).map List.length).sum +
    sec.countP (fun y => decide (τ x ≤ τ y))

/-- `erase_and_compute_perm_sign_change`, determinant_matrix_partitioned.ipp 118-128. -/
def erase (S : PSide X) (x : X) (k : ℕ) : Res (ℤ × PSide X) := do
  let sec ← Res.get S.secs k
  pure (DM.parity (S.passed τ x k sec),
    { S with set := Side.setErase τ S.set x, secs := S.secs.set k (Side.setErase τ sec x) })

/-- `insert_and_compute_perm_sign_change`, determinant_matrix_partitioned.ipp 130-140. -/
def insert (S : PSide X) (x : X) (k : ℕ) : Res (ℤ × PSide X) := do
  let sec ← Res.get S.secs k
  pure (DM.parity (S.passed τ x k sec),
    { S with set := Side.setInsert τ S.set x, secs := S.secs.set k (Side.setInsert τ sec x) })

variable (f : X → ℕ) (sector : List ℕ)

/-- One pass of the loop over the operators to be removed, determinant_matrix_partitioned.ipp 160-164 and 167-171. -/
def markRem (S : PSide X) (x : X) : Res (ℤ × PSide X) := do
  let k ← Res.get sector (f x)
  let w ← Res.get S.rem k
  { S with rem := S.rem.set k (w ++ [x]) }.erase τ x k

/-- One pass of the loop over the operators to be added, determinant_matrix_partitioned.ipp 174-178 and 181-185. -/
def markAdd (S : PSide X) (x : X) : Res (ℤ × PSide X) := do
  let k ← Res.get sector (f x)
  let w ← Res.get S.add k
  { S with add := S.add.set k (w ++ [x]) }.insert τ x k

/-- A loop over operators that multiplies the signs. -/
def marks (m : PSide X → X → Res (ℤ × PSide X)) (S : PSide X) (l : List X) : Res (ℤ × PSide X) :=
  Res.foldl (fun (y : ℤ × PSide X) x => do
    let r ← m y.2 x
    pure (y.1 * r.1, r.2)) (1, S) l

/-- Taking the added operators of sector `k` out again, determinant_matrix_partitioned.ipp 239-242 and 246-249. -/
def unAdd (S : PSide X) (k : ℕ) : Res (PSide X) := do
  let w ← Res.get S.add k
  Res.foldl (fun (S : PSide X) x => do
    let sec ← Res.get S.secs k
    pure { S with set := Side.setErase τ S.set x, secs := S.secs.set k (Side.setErase τ sec x) }) S w

/-- Putting the removed operators of sector `k` back, determinant_matrix_partitioned.ipp 253-256 and 260-263. -/
def unRem (S : PSide X) (k : ℕ) : Res (PSide X) := do
  let w ← Res.get S.rem k
  Res.foldl (fun (S : PSide X) x => do
    let sec ← Res.get S.secs k
    pure { S with set := Side.setInsert τ S.set x, secs := S.secs.set k (Side.setInsert τ sec x) }) S w

/-- `clear_work`, determinant_matrix_partitioned.hpp 405-412. -/
def clear (S : PSide X) (ns : ℕ) : Res (PSide X) := do
  Res.assert (ns ≤ S.add.length ∧ ns ≤ S.rem.length)
  pure { S with add := List.replicate ns [] ++ S.add.drop ns, rem := List.replicate ns [] ++ S.rem.drop ns }

/-- Comparison of `CompareOverSectors`, determinant_matrix_partitioned.hpp 78-83: by time. -/
def over (a b : ℕ × X) : Bool := decide (τ a.2 < τ b.2)

/-- Comparison of `CompareWithinSectors`, determinant_matrix_partitioned.hpp 66-75: by sector, then by time. -/
def within (a b : ℕ × X) : Bool := if a.1 = b.1 then decide (τ a.2 < τ b.2) else decide (a.1 < b.1)

open Classical in
/-- `comb_sort` on a vector, detail/util.hpp 151-186: the contents and the sign once the loop has ended.  The quotient
    `int(n/1.3)` is taken without rounding (C20 holds for every such quotient).  On an empty vector line 166 advances an
    iterator past the end, see `C20_empty_violation`. -/
noncomputable def sortVec {Y : Type} (cmp : Y → Y → Bool) (l : List Y) : Res (List Y × ℤ) :=
  match l with
  | [] => .ub
  | x :: l' =>
    if h : ∃ r F, ∀ fuel ≥ F, combSort (fun n => 10 * n / 13) cmp fuel (fun i => (x :: l').getD i x) (x :: l').length = some r then do
      let r ← h.choose
      pure ((List.range (x :: l').length).map r.1, r.2)
    else .ub

open Classical in
/-- `sanity_check`, determinant_matrix_partitioned.ipp 283-295: the set against the sets of the sectors and the list in
    actual order. -/
noncomputable def checkSets (ns : ℕ) (S : PSide X) : Res Unit := do
  Res.assert (ns ≤ S.secs.length)
  let work := Side.setOf τ (S.secs.take ns).flatten
  Res.assert (work = S.set)
  Res.assert (work = Side.setOf τ S.order)

/-- `sanity_check`, determinant_matrix_partitioned.ipp 297-304: every operator is in the sector of its flavor. -/
def checkSectors (ns : ℕ) (S : PSide X) : Res Unit :=
  Res.foldl (fun (_ : Unit) k => do
    let sec ← Res.get S.secs k
    Res.foldl (fun (_ : Unit) x => do
      let k' ← Res.get sector (f x)
      Res.assert (k' = k)) () sec) () (List.range ns)

/-- `sanity_check`, determinant_matrix_partitioned.ipp 312-326, for one kind of operators: the sign of sorting within the
    sectors what is sorted over the sectors. -/
noncomputable def checkSign (S : PSide X) : Res ℤ := do
  let w ← Res.mapM (fun x => do
    let k ← Res.get sector (f x)
    pure (k, x)) S.set
  let r ← sortVec (over τ) w
  let r' ← sortVec (within τ) r.1
  pure r'.2

open Classical in
/-- `sanity_check`, determinant_matrix_partitioned.ipp 329-339, for one kind of operators; `blocks` holds the size and the
    operators of each block. -/
noncomputable def checkOrder (S : PSide X) (blocks : List (ℕ × List X)) : Res Unit := do
  let _ ← Res.foldl (fun (iop : ℕ) (b : ℕ × List X) =>
    Res.foldl (fun (iop : ℕ) (i : ℕ) => do
      let a ← Res.get S.order iop
      let a' ← Res.get b.2 i
      Res.assert (a = a')
      pure (iop + 1)) iop (List.range b.1)) 0 blocks
  pure ()

end PSide

/-- The members, determinant_matrix_partitioned.hpp 367-403 (`state_` and `singular_` are never changed;
    `sector_members_` is kept). -/
structure PDM (K Cd Co T : Type) where
  ns : ℕ
  members : List (List ℕ)
  sector : List ℕ
  mats : List (DM K Cd Co T)
  perm : ℤ
  newPerm : ℤ
  cd : PSide Cd
  c : PSide Co

variable {K Cd Co T : Type} [Field K] [DecidableEq K] [LinearOrder T]

namespace PDM

/-- A call of a member function of block `k`. -/
def onBlock {α : Type} (k : ℕ) (m : Act (DM K Cd Co T) α) : Act (PDM K Cd Co T) α := fun s =>
  match s.mats[k]? with
  | none => (.ub, s)
  | some b => ((m b).1, { s with mats := s.mats.set k (m b).2 })

variable (o : OpSys K Cd Co T) (fl : FlSys Cd Co)

/-- The pairs of flavors that are connected, determinant_matrix_partitioned.ipp 76-83. -/
def links : List (ℕ × ℕ) :=
  (List.range fl.nf).flatMap fun f => ((List.range f).filter fun g => fl.conn f g).map fun g => (f, g)

/-- The constructor with `init`, determinant_matrix_partitioned.ipp 12-24 and 72-114; `j` holds the members of the blocks
    that are not initialised, `np` the value of `new_perm_`.  The asserts are those of lines 78 and 96 (line 78 is evaluated
    between the connections; nothing is seen of this). -/
def create (dbg : Bool) (j : ℕ → DM K Cd Co T) (np : ℤ) : Res (PDM K Cd Co T) := do
  Res.assert (dbg = true → ∀ f < fl.nf, ∀ g < f, fl.conn f g = fl.conn g f)
  let c ← (Clus.create fl.nf).connects (links fl)
  let F ← c.finalize
  let ns := F.members.length
  Res.assert (dbg = true → ∀ f < fl.nf, ∀ g < f, F.labels.getD f 0 ≠ F.labels.getD g 0 → fl.conn f g = false)
  pure ⟨ns, F.members, F.labels, (List.range ns).map fun k => DM.create (j k), 1, np,
    ⟨[], [], List.replicate ns [], List.replicate fl.nf [], List.replicate fl.nf []⟩,
    ⟨[], [], List.replicate ns [], List.replicate fl.nf [], List.replicate fl.nf []⟩⟩

/-- `try_update`, determinant_matrix_partitioned.ipp 151-201. -/
noncomputable def tryUpdate (dbg : Bool) (junk : ℕ → ℕ → K) (ch : Change Cd Co) : Act (PDM K Cd Co T) K := do
  let s ← Act.get
  let (r1, S) ← Act.lift (s.cd.marks (PSide.markRem o.tcd fl.fcd s.sector) ch.remCd)
  Act.modify fun s => { s with cd := S }
  let s ← Act.get
  let (r2, S) ← Act.lift (s.c.marks (PSide.markRem o.tc fl.fc s.sector) ch.remC)
  Act.modify fun s => { s with c := S }
  let s ← Act.get
  let (r3, S) ← Act.lift (s.cd.marks (PSide.markAdd o.tcd fl.fcd s.sector) ch.addCd)
  Act.modify fun s => { s with cd := S }
  let s ← Act.get
  let (r4, S) ← Act.lift (s.c.marks (PSide.markAdd o.tc fl.fc s.sector) ch.addC)
  Act.modify fun s => { s with c := S }
  let r := r1 * r2 * r3 * r4
  Act.modify fun s => { s with newPerm := r * s.perm }
  let s ← Act.get
  let d ← Act.fold (fun (d : K) (k : ℕ) => do
    let a ← Act.lift (Res.get s.cd.rem k)
    let b ← Act.lift (Res.get s.c.rem k)
    let a' ← Act.lift (Res.get s.cd.add k)
    let b' ← Act.lift (Res.get s.c.add k)
    let q ← onBlock k (DM.tryUpdate o dbg junk ⟨a, b, a', b'⟩)
    pure (d * q)) 1 (List.range s.ns)
  pure (d * (r : K))

/-- `reconstruct_operator_list_in_actual_order`, determinant_matrix_partitioned.hpp 422-437. -/
def reconstruct (dbg : Bool) : Act (PDM K Cd Co T) Unit := do
  let s ← Act.get
  Act.assert (s.ns ≤ s.mats.length)
  let ms := s.mats.take s.ns
  Act.modify fun s => { s with
    cd := { s.cd with order := ms.flatMap fun m => m.cd.ops }
    c := { s.c with order := ms.flatMap fun m => m.c.ops } }
  let s ← Act.get
  Act.assert (dbg = true → s.cd.order.length = s.cd.set.length)
  Act.assert (dbg = true → s.c.order.length = s.cd.set.length)

/-- `clear_work`, determinant_matrix_partitioned.hpp 405-412, for both kinds of operators. -/
def clearWork : Act (PDM K Cd Co T) Unit := do
  let s ← Act.get
  let S ← Act.lift (s.cd.clear s.ns)
  let S' ← Act.lift (s.c.clear s.ns)
  Act.modify fun s => { s with cd := S, c := S' }

/-- `sanity_check`, determinant_matrix_partitioned.ipp 277-342 (`state_` is always `waiting` and `singular_` false); the
    checks of one kind of operators are grouped. -/
noncomputable def sanityCheck (dbg : Bool) : Act (PDM K Cd Co T) Unit :=
  if dbg then do
    let s ← Act.get
    Act.lift (s.cd.checkSets o.tcd s.ns)
    Act.lift (s.c.checkSets o.tc s.ns)
    Act.lift (s.cd.checkSectors fl.fcd s.sector s.ns)
    Act.lift (s.c.checkSectors fl.fc s.sector s.ns)
    Act.assert (s.ns ≤ s.mats.length)
    let ms := s.mats.take s.ns
    Act.assert (s.cd.set.length = (ms.map fun m => m.inv.rows).sum)
    let p ← Act.lift (s.cd.checkSign o.tcd fl.fcd s.sector)
    let q ← Act.lift (s.c.checkSign o.tc fl.fc s.sector)
    Act.assert (s.perm = p * q)
    Act.lift (s.cd.checkOrder (ms.map fun m => (m.inv.rows, m.cd.ops)))
    Act.lift (s.c.checkOrder (ms.map fun m => (m.inv.rows, m.c.ops)))
  else pure ()

/-- `perform_update`, determinant_matrix_partitioned.ipp 210-222. -/
noncomputable def performUpdate (dbg : Bool) (junk : ℕ → ℕ → K) : Act (PDM K Cd Co T) Unit := do
  let s ← Act.get
  Act.fold (fun (_ : Unit) (k : ℕ) => onBlock k (DM.performUpdate o dbg junk)) () (List.range s.ns)
  reconstruct dbg
  Act.modify fun s => { s with perm := s.newPerm }
  clearWork
  sanityCheck o fl dbg

/-- `reject_update`, determinant_matrix_partitioned.ipp 231-268. -/
noncomputable def rejectUpdate (dbg : Bool) : Act (PDM K Cd Co T) Unit := do
  let s ← Act.get
  Act.fold (fun (_ : Unit) (k : ℕ) => onBlock k (DM.rejectUpdate o dbg)) () (List.range s.ns)
  let s ← Act.get
  let S ← Act.lift (Res.foldl (fun S k => S.unAdd o.tcd k) s.cd (List.range s.ns))
  Act.modify fun s => { s with cd := S }
  let s ← Act.get
  let S ← Act.lift (Res.foldl (fun S k => S.unAdd o.tc k) s.c (List.range s.ns))
  Act.modify fun s => { s with c := S }
  let s ← Act.get
  let S ← Act.lift (Res.foldl (fun S k => S.unRem o.tcd k) s.cd (List.range s.ns))
  Act.modify fun s => { s with cd := S }
  let s ← Act.get
  let S ← Act.lift (Res.foldl (fun S k => S.unRem o.tc k) s.c (List.range s.ns))
  Act.modify fun s => { s with c := S }
  reconstruct dbg
  clearWork

/-- The constructor from a list of pairs, determinant_matrix_partitioned.ipp 33-63. -/
noncomputable def createWith (dbg : Bool) (junk : ℕ → ℕ → K) (j : ℕ → DM K Cd Co T) (np : ℤ) (ops : List (Cd × Co)) :
    Res (PDM K Cd Co T) := do
  let s ← create fl dbg j np
  match (do let _ ← tryUpdate o fl dbg junk ⟨[], [], ops.map Prod.fst, ops.map Prod.snd⟩
            performUpdate o fl dbg junk
            sanityCheck o fl dbg : Act (PDM K Cd Co T) Unit) s with
  | (.ok (), s) => .ok s
  | (.throw e, _) => .throw e
  | (.ub, _) => .ub

/-- `rebuild_inverse_matrix`, determinant_matrix_partitioned.hpp 278-282. -/
noncomputable def rebuild (dbg : Bool) : Act (PDM K Cd Co T) Unit := do
  let s ← Act.get
  Act.fold (fun (_ : Unit) (k : ℕ) => onBlock k (DM.rebuild o dbg)) () (List.range s.ns)

/-- `block_belonging_to`, determinant_matrix_partitioned.hpp 134-136. -/
def blockOf (s : PDM K Cd Co T) (f : ℕ) : Res ℕ := Res.get s.sector f

/-- `compute_determinant`, determinant_matrix_partitioned.hpp 187-196. -/
def computeDeterminant (s : PDM K Cd Co T) : K :=
  (s.perm : K) * ((s.mats.take s.ns).map DM.computeDeterminant).prod

/-- `compute_inverse_matrix`, determinant_matrix_partitioned.hpp 220-233: the inverses of the blocks along the diagonal,
    the rest zero. -/
def computeInverse (s : PDM K Cd Co T) : DMat K :=
  let n := s.cd.set.length
  ((s.mats.take s.ns).foldl (fun (x : ℕ × DMat K) m =>
    let b := m.cd.ops.length
    (x.1 + b, ⟨n, n, fun i j => if x.1 ≤ i ∧ i < x.1 + b ∧ x.1 ≤ j ∧ j < x.1 + b then m.inv.val (i - x.1) (j - x.1)
      else x.2.val i j⟩)) (0, ⟨n, n, fun _ _ => 0⟩)).2

end PDM
end CTInt
