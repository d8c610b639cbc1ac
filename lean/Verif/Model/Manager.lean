import Verif.Model.Submatrix
import Verif.Model.Random

/-!
# Model of `VertexUpdateManager` (src/update_manager.hpp) and of the Monte Carlo step (src/interaction_expansion.ipp)

`n_multi_vertex_update` is initialised with the constant 1 (update_manager.hpp 157), so `Nv_m1_dist` always gives 0 and
every inserted or removed group is one vertex; the factors for pairs are modelled separately (`pairCorrIns`,
`pairCorrRem`).  The random numbers are a stream `u` read from a position `p` on; numbers that
`boost::random::discrete_distribution` may consume while returning 0 are not modelled.  `J` supplies the contents
of uninitialised memory.
-/

set_option linter.all false

namespace CTInt

variable {K : Type} [RCLike K] [DecidableEq K]

/-- `is_density_type`, U_matrix.h 76-85. -/
def VDef.isDensity (d : VDef K) : Bool :=
  (List.range d.rank).all fun r => d.sites.getD (2 * r) 0 == d.sites.getD (2 * r + 1) 0

/-- `acc_rate_statistics`, update_statistics.h 94-118: the two counters. -/
structure AccStat where
  acc : ℕ
  rej : ℕ

/-- `accepted`, `rejected`, update_statistics.h 100-106. -/
def AccStat.count (x : AccStat) (b : Bool) : AccStat := if b then { x with acc := x.acc + 1 } else { x with rej := x.rej + 1 }

/-- The members of `VertexUpdateManager` that the updates read, update_manager.hpp 99-146. -/
structure Mgr where
  beta : ℝ
  kIns : ℕ
  maxOrder : ℕ
  /-- `sv_update_vertices`. -/
  sv : List ℕ
  /-- `sv_update_vertices_flag`. -/
  flag : List Bool
  /-- `shift_step_size`. -/
  shiftStep : ℝ

/-- Constructor, update_manager.hpp 150-178: with `n_multi_vertex_update==1` every vertex type takes part. -/
noncomputable def Mgr.create (beta : ℝ) (kIns maxOrder : ℕ) (stepSize : ℝ) (tbl : List (VDef K)) : Mgr :=
  ⟨beta, kIns, maxOrder, List.range tbl.length, List.replicate tbl.length true, beta * stepSize⟩

namespace Mgr

/-- `gen_itime_vertices_insertion` for one vertex, update_manager.hpp 546-572, followed by `set_non_interacting`
    (line 376).  The constructor of `itime_vertex` is U_matrix.h 372-380.  `vdef.id()` is the position of the term in
    the table (U_matrix.h 203, 268). -/
noncomputable def genVertex (m : Mgr) (tbl : List (VDef K)) (u : ℕ → ℝ) (p : ℕ) : Res (List Vert × ℕ) :=
  if m.sv.length = 0 then pure ([], p)
  else do
    let time := u p * m.beta
    let iv := ⌊u (p + 1) * m.sv.length⌋₊
    let t ← Res.get m.sv iv
    let d ← Res.get tbl t
    let af := ⌊u (p + 2) * d.numAf⌋₊
    pure ([⟨t, (af : ℤ), (d.rank : ℤ), time, d.isDensity, true, 0⟩], p + 3)

/-- The positions of the vertices that may be removed, update_manager.hpp 622-627 (and 581-586): interacting and with
    the flag of their type set. -/
noncomputable def candidates (m : Mgr) (vs : List Vert) : Res (List ℕ) :=
  Res.foldl (fun l i => do
    let v := vs.getD i default
    if v.nonInt then pure l
    else do
      let b ← Res.get m.flag v.type
      pure (if b then l ++ [i] else l)) [] (List.range vs.length)

/-- `acc_rate_corr_insertion` for one vertex, update_manager.hpp 579-587. -/
noncomputable def corrIns (m : Mgr) (vs : List Vert) : Res ℝ := do
  let l ← m.candidates vs
  pure (m.beta * m.sv.length / ((l.length : ℝ) + 1))

/-- `pick_up_vertices_to_be_removed` for one vertex, update_manager.hpp 619-639: the chosen position, if any, and the
    correction factor. -/
noncomputable def pickRemoval (m : Mgr) (vs : List Vert) (u : ℕ → ℝ) (p : ℕ) : Res (Option ℕ × ℝ × ℕ) := do
  let l ← m.candidates vs
  if l.length = 0 then pure (none, 0, p)
  else do
    let i ← Res.get l ⌊l.length * u p⌋₊
    pure (some i, l.length / (m.beta * m.sv.length), p + 1)

end Mgr

open Classical in
/-- The common end of `insertion_step` (451-462), `removal_step` (486-497), `spin_flip_step` (716-727) and of the
    loop of `do_shift_update` (771-788): try the flips, accept if |det_rat_A f_rat U_rat corr| > r.  Returns
    det_rat_A f_rat U_rat if accepted, and U_rat.  The correction factor, computed after `try_spin_flip` in
    `insertion_step`, does not depend on anything `try_spin_flip` changes. -/
noncomputable def metropolis (c : Ctx K) (junk : ℕ → ℕ → ℕ → K) (s : Sub K) (pos : List ℕ) (spins : List ℤ)
    (corr r : ℝ) : Res (Sub K × Option K × K) := do
  let (s, det, f, w) ← s.trySpinFlip c pos spins
  let prob := det * f * w * (corr : K)
  if r < ‖prob‖ then do
    let s ← s.performSpinFlip c junk pos spins
    pure (s, some (det * f * w), w)
  else do
    let s ← s.rejectSpinFlip c
    pure (s, none, w)

namespace Mgr

/-- `insertion_step`, update_manager.hpp 431-463.  The returned value is the code's `T` with, in addition, whether the
    move was accepted (1.0 is returned if not). -/
noncomputable def insertionStep (m : Mgr) (c : Ctx K) (junk : ℕ → ℕ → ℕ → K) (u : ℕ → ℝ) (Us : ℝ) (s : Sub K)
    (b n p : ℕ) : Res (Sub K × Option K × ℕ) := do
  Res.assert (b + n ≤ s.verts.length)
  if n = 0 then pure (s, none, p)
  else do
    let pos := (List.range n).map fun i => i + b
    Res.assert (∀ i ∈ pos, (s.verts.getD i default).nonInt = true)
    let spins := pos.map fun i => (s.verts.getD i default).af
    let corr ← (if n = 1 then m.corrIns s.verts else .throw .runtimeError)
    let (s, o, _) ← metropolis c junk s pos spins (corr * Us ^ n) (u p)
    pure (s, o, p + 1)

/-- `removal_step`, update_manager.hpp 467-498. -/
noncomputable def removalStep (m : Mgr) (c : Ctx K) (junk : ℕ → ℕ → ℕ → K) (u : ℕ → ℝ) (Us : ℝ) (s : Sub K)
    (p : ℕ) : Res (Sub K × Option K × ℕ) := do
  let (i, corr, p) ← m.pickRemoval s.verts u p
  match i with
  | none => pure (s, none, p)
  | some i => do
    Res.assert ((s.verts.getD i default).nonInt = false)
    let (s, o, _) ← metropolis c junk s [i] [-1] (corr * Us⁻¹) (u p)
    pure (s, o, p + 1)

/-- The local variables of the loop of `do_ins_rem_update`; `truth` (not in the code) records for each step the
    ratio of an accepted move, and `none` if no move was accepted. -/
structure InsRem (K : Type) where
  s : Sub K
  ins : ℕ
  w : K
  stat : AccStat
  p : ℕ
  truth : List (Option K)

/-- One turn of the loop, update_manager.hpp 391-420.  `posIns` and `numIns` are `pos_vertices_ins` and
    `num_vertices_ins`; `rtmp` is 1.0 if nothing was accepted. -/
noncomputable def insRemTurn (m : Mgr) (c : Ctx K) (J : ℕ → ℕ → ℕ → ℕ → ℕ → K) (u : ℕ → ℝ) (Us : ℝ)
    (posIns numIns : List ℕ) (tryIns : List Bool) (x : InsRem K) (i : ℕ) : Res (InsRem K) := do
  let b ← Res.get tryIns i
  let (s, o, p, ins) ← (if b then do
      let q ← Res.get posIns x.ins
      let n ← Res.get numIns x.ins
      if (x.s.verts.filter fun v => !v.nonInt).length + n > m.maxOrder then pure (x.s, none, x.p, x.ins + 1)
      else do
        let (s, o, p) ← m.insertionStep c (J (i + 2) 0) u Us x.s q n x.p
        pure (s, o, p, x.ins + 1)
    else do
      let (s, o, p) ← m.removalStep c (J (i + 2) 0) u Us x.s x.p
      pure (s, o, p, x.ins) : Res (Sub K × Option K × ℕ × ℕ))
  let rtmp := o.getD 1
  pure ⟨s, ins, x.w * rtmp, x.stat.count (decide (rtmp ≠ 1)), p, x.truth ++ [o]⟩

/-- The local variables of the loop that draws the vertices. -/
structure GenAll where
  new : List Vert
  pos : List ℕ
  num : List ℕ
  b : ℕ
  p : ℕ

/-- The loop that draws the vertices to be inserted, update_manager.hpp 373-382. -/
noncomputable def genAll (m : Mgr) (tbl : List (VDef K)) (u : ℕ → ℝ) (Nv0 n p : ℕ) : Res GenAll :=
  Res.foldl (fun (x : GenAll) _ => do
    let (vs, p) ← m.genVertex tbl u x.p
    pure ⟨x.new ++ vs, x.pos ++ [x.b], x.num ++ [vs.length], x.b + vs.length, p⟩) ⟨[], [], [], Nv0, p⟩ (List.range n)

open Classical in
/-- `do_ins_rem_update`, update_manager.hpp 353-427. -/
noncomputable def doInsRem (m : Mgr) (c : Ctx K) (J : ℕ → ℕ → ℕ → ℕ → ℕ → K) (u : ℕ → ℝ) (Us : ℝ) (s : Sub K)
    (stat : AccStat) (p : ℕ) : Res (InsRem K) := do
  let tryIns := (List.range (2 * m.kIns)).map fun i => decide (u (p + i) < 1 / 2)
  let g ← m.genAll c.tbl u s.verts.length (tryIns.count true) (p + 2 * m.kIns)
  let s ← s.initUpdate c (J 0 0) (J 0 1) (J 0 2) g.new
  let x ← Res.foldl (m.insRemTurn c J u Us g.pos g.num tryIns) ⟨s, 0, 1, stat, g.p, []⟩ (List.range (2 * m.kIns))
  Res.assert (x.ins = tryIns.count true)
  let s ← x.s.finalizeUpdate c (J 1 0) (J 1 1) (J 1 2)
  pure { x with s := s }

/-- The loop of `spin_flip_step` that draws a state until it differs from the present one, update_manager.hpp
    711-714. -/
noncomputable def drawOther (u : ℕ → ℝ) (n : ℕ) (now : ℤ) : ℕ → ℕ → Run (ℤ × ℕ)
  | 0, _ => .more
  | fuel + 1, p =>
    let x : ℤ := ⌊u p * n⌋₊
    if x = now then drawOther u n now fuel (p + 1) else .ok (x, p + 1)

/-- `spin_flip_step`, update_manager.hpp 700-728; 1.0 is returned if the result is `none`. -/
noncomputable def spinFlipStep (c : Ctx K) (junk : ℕ → ℕ → ℕ → K) (u : ℕ → ℝ) (fuel : ℕ) (s : Sub K) (i p : ℕ) :
    Run (Sub K × Option K × ℕ) := do
  let v ← Run.lift (Res.get s.verts i)
  let d ← Run.lift (Res.get c.tbl v.type)
  if d.numAf ≤ 1 then pure (s, none, p)
  else do
    let (x, p) ← drawOther u d.numAf v.af fuel p
    let (s, o, _) ← Run.lift (metropolis c junk s [i] [x] 1 (u p))
    pure (s, o, p + 1)

/-- The loop of `do_spin_flip_update`, update_manager.hpp 688-690. -/
noncomputable def spinFlipLoop (c : Ctx K) (J : ℕ → ℕ → ℕ → ℕ → ℕ → K) (u : ℕ → ℝ) (fuel : ℕ) :
    List ℕ → Sub K → K → ℕ → Run (Sub K × K × ℕ)
  | [], s, w, p => .ok (s, w, p)
  | i :: l, s, w, p => do
    let (s, o, p) ← spinFlipStep c (J (l.length + 2) 0) u fuel s i p
    spinFlipLoop c J u fuel l s (w * o.getD 1) p

/-- `do_spin_flip_update`, update_manager.hpp 674-696. -/
noncomputable def doSpinFlip (m : Mgr) (c : Ctx K) (J : ℕ → ℕ → ℕ → ℕ → ℕ → K) (u : ℕ → ℝ) (fuel : ℕ) (s : Sub K)
    (p : ℕ) : Run (Sub K × K × ℕ) := do
  let n := min (2 * m.kIns) s.verts.length
  let (l, p) ← pickNumbers u fuel s.verts.length n p
  let s ← Run.lift (s.initUpdate c (J 0 0) (J 0 1) (J 0 2) [])
  let (s, w, p) ← spinFlipLoop c J u fuel l s 1 p
  let s ← Run.lift (s.finalizeUpdate c (J 1 0) (J 1 1) (J 1 2))
  pure (s, w, p)

/-- The copies with shifted times, update_manager.hpp 742-747. -/
noncomputable def shiftNew (m : Mgr) (u : ℕ → ℝ) (vs : List Vert) : List ℕ → ℕ → Res (List Vert)
  | [], _ => .ok []
  | i :: l, p => do
    let v ← Res.get vs i
    let r ← m.shiftNew u vs l (p + 1)
    pure ({ v with time := mymod (v.time + (u p - 1 / 2) * m.shiftStep) m.beta, nonInt := true } :: r)

open Classical in
/-- The loop of `do_shift_update`, update_manager.hpp 757-789, with `tune_step_size` false as in its only call
    (interaction_expansion.ipp 112): `k` is `i_update + Nv0`.  The assertion on
    U_rat, made before the decision in the code, is modelled after it. -/
noncomputable def shiftLoop (c : Ctx K) (J : ℕ → ℕ → ℕ → ℕ → ℕ → K) (u : ℕ → ℝ) :
    List ℕ → ℕ → Sub K → K → ℕ → Res (Sub K × K)
  | [], _, s, w, _ => .ok (s, w)
  | i :: l, k, s, w, p => do
    let v ← Res.get s.verts i
    let v' ← Res.get s.verts k
    Res.assert (v.type = v'.type)
    let (s, o, ur) ← metropolis c (J (l.length + 2) 0) s [i, k] [-1, v.af] 1 (u p)
    Res.assert (‖ur - 1‖ < 1 / 100000000)
    shiftLoop c J u l (k + 1) s (w * o.getD 1) (p + 1)

/-- `do_shift_update`, update_manager.hpp 732-795. -/
noncomputable def doShift (m : Mgr) (c : Ctx K) (J : ℕ → ℕ → ℕ → ℕ → ℕ → K) (u : ℕ → ℝ) (fuel : ℕ) (s : Sub K)
    (p : ℕ) : Run (Sub K × K × ℕ) := do
  let Nv0 := s.verts.length
  let n := min Nv0 m.kIns
  let (l, p) ← pickNumbers u fuel Nv0 n p
  let new ← Run.lift (m.shiftNew u s.verts l p)
  let s ← Run.lift (s.initUpdate c (J 0 0) (J 0 1) (J 0 2) new)
  let (s, w) ← Run.lift (shiftLoop c J u l Nv0 s 1 (p + n))
  let s ← Run.lift (s.finalizeUpdate c (J 1 0) (J 1 1) (J 1 2))
  pure (s, w, p + 2 * n)

/-- `acc_rate_corr_insertion` for a pair, update_manager.hpp 588-607: `vs` is the current configuration, `i`, `j` are the
    positions of the two new vertices. -/
noncomputable def pairCorrIns (d : PairDist) (beta : ℝ) (draw : List ℝ → ℕ) (vs : List Vert) (i j : ℕ) : Res ℝ := do
  let new := (vs.modify i fun v => { v with nonInt := false }).modify j fun v => { v with nonInt := false }
  let v0 ← Res.get vs i
  let v1 ← Res.get vs j
  let r ← pickPair d beta draw new v0.type v1.type
  match r.F with
  | none => .throw .logicError
  | some F => pure (beta * beta * d.coeffX / F)

/-- `pick_up_vertices_to_be_removed` for a pair of types `t1`, `t2`, update_manager.hpp 640-663. -/
noncomputable def pairCorrRem (d : PairDist) (beta : ℝ) (draw : List ℝ → ℕ) (vs : List Vert) (t1 t2 : ℕ) :
    Res (Option (ℕ × ℕ) × ℝ) := do
  let r ← pickPair d beta draw vs t1 t2
  match r.pair, r.F with
  | some x, some F => pure (some x, F / (beta * beta * d.coeffX))
  | _, _ => pure (none, 0)

end Mgr

/-- The Monte Carlo state of a solver. -/
structure Walker (K : Type) where
  s : Sub K
  stat : AccStat
  p : ℕ

/-- The updates a Monte Carlo step is made of. -/
inductive Upd where
  | insRem
  | shift
  | spinFlip
  | recompute

/-- One update as called in interaction_expansion.ipp 107-117 and 129-131. -/
noncomputable def Walker.step (m : Mgr) (c : Ctx K) (J : ℕ → ℕ → ℕ → ℕ → ℕ → K) (u : ℕ → ℝ) (fuel : ℕ)
    (x : Walker K) : Upd → Run (Walker K)
  | .insRem => do
    let r ← Run.lift (m.doInsRem c J u 1 x.s x.stat x.p)
    pure ⟨r.s, r.stat, r.p⟩
  | .shift => do
    let (s, _, p) ← m.doShift c J u fuel x.s x.p
    pure ⟨s, x.stat, p⟩
  | .spinFlip => do
    let (s, _, p) ← m.doSpinFlip c J u fuel x.s x.p
    pure ⟨s, x.stat, p⟩
  | .recompute => do
    let s ← Run.lift (x.s.recompute c)
    pure ⟨s, x.stat, x.p⟩

/-- Several updates; `J k` is the uninitialised memory met by the update that has `k` updates after it. -/
noncomputable def Walker.run (m : Mgr) (c : Ctx K) (J : ℕ → ℕ → ℕ → ℕ → ℕ → ℕ → K) (u : ℕ → ℝ) (fuel : ℕ) :
    Walker K → List Upd → Run (Walker K)
  | x, [] => .ok x
  | x, a :: l => do
    let x ← x.step m c (J l.length) u fuel a
    Walker.run m c J u fuel x l

/-- The updates of one turn of the loop of `InteractionExpansion::update`, interaction_expansion.ipp 107-117, with `nIR`,
    `nSh`, `nSF` for `n_ins_rem`, `n_shift`, `n_spin_flip`. -/
def turnUpdates (nIR nSh nSF : ℕ) : List Upd :=
  List.replicate nIR .insRem ++ List.replicate nSh .shift ++ List.replicate nSF .spinFlip

/-- The updates of one call of `InteractionExpansion::update`, interaction_expansion.ipp 88-154: `period` turns, then
    `recompute_matrix` if `step` is a multiple of 20 `period`.  `global_updates` returns at once if the list of global
    updates is empty; otherwise see `globalUpdates`. -/
def updateUpdates (nIR nSh nSF period step : ℕ) : List Upd :=
  (List.replicate period (turnUpdates nIR nSh nSF)).flatten ++
    (if (step + period) % (20 * period) = 0 then [.recompute] else [])

end CTInt
