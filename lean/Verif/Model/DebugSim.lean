import Verif.Model.Debug
import Verif.Model.Simulation

/-!
# The simulation as the debug build runs it

The functions of src/update_manager.hpp, src/interaction_expansion.ipp and src/measurement.ipp call the object with its
checks compiled in (`Verif.Model.Debug`).  Everything else is as in the release build: the assertions of these three files
themselves are in the other models already.  Printing (interaction_expansion.ipp 70-72, 97-105) is left out.
-/

set_option linter.all false

namespace CTInt

noncomputable section
variable {K : Type} [RCLike K] [DecidableEq K]

open Classical in
/-- update_manager.hpp 451-462, 486-497, 716-727, 771-788, debug build. -/
def metropolisD (c : Ctx K) (junk : ℕ → ℕ → ℕ → K) (s : Sub K) (pos : List ℕ) (spins : List ℤ)
    (corr r : ℝ) : Res (Sub K × Option K × K) := do
  let (s, det, f, w) ← s.trySpinFlipD c pos spins
  let prob := det * f * w * (corr : K)
  if r < ‖prob‖ then do
    let s ← s.performSpinFlipD c junk pos spins
    pure (s, some (det * f * w), w)
  else do
    let s ← s.rejectSpinFlipD c
    pure (s, none, w)

namespace Mgr

/-- `insertion_step`, update_manager.hpp 431-463, debug build. -/
def insertionStepD (m : Mgr) (c : Ctx K) (junk : ℕ → ℕ → ℕ → K) (u : ℕ → ℝ) (Us : ℝ) (s : Sub K)
    (b n p : ℕ) : Res (Sub K × Option K × ℕ) := do
  Res.assert (b + n ≤ s.verts.length)
  if n = 0 then pure (s, none, p)
  else do
    let pos := (List.range n).map fun i => i + b
    Res.assert (∀ i ∈ pos, (s.verts.getD i default).nonInt = true)
    let spins := pos.map fun i => (s.verts.getD i default).af
    let corr ← (if n = 1 then m.corrIns s.verts else .throw .runtimeError)
    let (s, o, _) ← metropolisD c junk s pos spins (corr * Us ^ n) (u p)
    pure (s, o, p + 1)

/-- `removal_step`, update_manager.hpp 467-498, debug build. -/
def removalStepD (m : Mgr) (c : Ctx K) (junk : ℕ → ℕ → ℕ → K) (u : ℕ → ℝ) (Us : ℝ) (s : Sub K)
    (p : ℕ) : Res (Sub K × Option K × ℕ) := do
  let (i, corr, p) ← m.pickRemoval s.verts u p
  match i with
  | none => pure (s, none, p)
  | some i => do
    Res.assert ((s.verts.getD i default).nonInt = false)
    let (s, o, _) ← metropolisD c junk s [i] [-1] (corr * Us⁻¹) (u p)
    pure (s, o, p + 1)

/-- One turn of the loop, update_manager.hpp 391-420, debug build. -/
def insRemTurnD (m : Mgr) (c : Ctx K) (J : ℕ → ℕ → ℕ → ℕ → ℕ → K) (u : ℕ → ℝ) (Us : ℝ)
    (posIns numIns : List ℕ) (tryIns : List Bool) (x : InsRem K) (i : ℕ) : Res (InsRem K) := do
  let b ← Res.get tryIns i
  let (s, o, p, ins) ← (if b then do
      let q ← Res.get posIns x.ins
      let n ← Res.get numIns x.ins
      if (x.s.verts.filter fun v => !v.nonInt).length + n > m.maxOrder then pure (x.s, none, x.p, x.ins + 1)
      else do
        let (s, o, p) ← m.insertionStepD c (J (i + 2) 0) u Us x.s q n x.p
        pure (s, o, p, x.ins + 1)
    else do
      let (s, o, p) ← m.removalStepD c (J (i + 2) 0) u Us x.s x.p
      pure (s, o, p, x.ins) : Res (Sub K × Option K × ℕ × ℕ))
  let rtmp := o.getD 1
  pure ⟨s, ins, x.w * rtmp, x.stat.count (decide (rtmp ≠ 1)), p, x.truth ++ [o]⟩

open Classical in
/-- `do_ins_rem_update`, update_manager.hpp 353-427, debug build. -/
def doInsRemD (m : Mgr) (c : Ctx K) (J : ℕ → ℕ → ℕ → ℕ → ℕ → K) (u : ℕ → ℝ) (Us : ℝ) (s : Sub K)
    (stat : AccStat) (p : ℕ) : Res (InsRem K) := do
  let tryIns := (List.range (2 * m.kIns)).map fun i => decide (u (p + i) < 1 / 2)
  let g ← m.genAll c.tbl u s.verts.length (tryIns.count true) (p + 2 * m.kIns)
  let s ← s.initUpdateD c (J 0 0) (J 0 1) (J 0 2) g.new
  let x ← Res.foldl (m.insRemTurnD c J u Us g.pos g.num tryIns) ⟨s, 0, 1, stat, g.p, []⟩ (List.range (2 * m.kIns))
  Res.assert (x.ins = tryIns.count true)
  let s ← x.s.finalizeUpdateD c (J 1 0) (J 1 1) (J 1 2)
  pure { x with s := s }

/-- `spin_flip_step`, update_manager.hpp 700-728, debug build. -/
def spinFlipStepD (c : Ctx K) (junk : ℕ → ℕ → ℕ → K) (u : ℕ → ℝ) (fuel : ℕ) (s : Sub K) (i p : ℕ) :
    Run (Sub K × Option K × ℕ) := do
  let v ← Run.lift (Res.get s.verts i)
  let d ← Run.lift (Res.get c.tbl v.type)
  if d.numAf ≤ 1 then pure (s, none, p)
  else do
    let (x, p) ← drawOther u d.numAf v.af fuel p
    let (s, o, _) ← Run.lift (metropolisD c junk s [i] [x] 1 (u p))
    pure (s, o, p + 1)

/-- The loop of `do_spin_flip_update`, update_manager.hpp 688-690, debug build. -/
def spinFlipLoopD (c : Ctx K) (J : ℕ → ℕ → ℕ → ℕ → ℕ → K) (u : ℕ → ℝ) (fuel : ℕ) :
    List ℕ → Sub K → K → ℕ → Run (Sub K × K × ℕ)
  | [], s, w, p => .ok (s, w, p)
  | i :: l, s, w, p => do
    let (s, o, p) ← spinFlipStepD c (J (l.length + 2) 0) u fuel s i p
    spinFlipLoopD c J u fuel l s (w * o.getD 1) p

/-- `do_spin_flip_update`, update_manager.hpp 674-696, debug build. -/
def doSpinFlipD (m : Mgr) (c : Ctx K) (J : ℕ → ℕ → ℕ → ℕ → ℕ → K) (u : ℕ → ℝ) (fuel : ℕ) (s : Sub K)
    (p : ℕ) : Run (Sub K × K × ℕ) := do
  let n := min (2 * m.kIns) s.verts.length
  let (l, p) ← pickNumbers u fuel s.verts.length n p
  let s ← Run.lift (s.initUpdateD c (J 0 0) (J 0 1) (J 0 2) [])
  let (s, w, p) ← spinFlipLoopD c J u fuel l s 1 p
  let s ← Run.lift (s.finalizeUpdateD c (J 1 0) (J 1 1) (J 1 2))
  pure (s, w, p)

open Classical in
/-- The loop of `do_shift_update`, update_manager.hpp 757-789, debug build. -/
def shiftLoopD (c : Ctx K) (J : ℕ → ℕ → ℕ → ℕ → ℕ → K) (u : ℕ → ℝ) :
    List ℕ → ℕ → Sub K → K → ℕ → Res (Sub K × K)
  | [], _, s, w, _ => .ok (s, w)
  | i :: l, k, s, w, p => do
    let v ← Res.get s.verts i
    let v' ← Res.get s.verts k
    Res.assert (v.type = v'.type)
    let (s, o, ur) ← metropolisD c (J (l.length + 2) 0) s [i, k] [-1, v.af] 1 (u p)
    Res.assert (‖ur - 1‖ < 1 / 100000000)
    shiftLoopD c J u l (k + 1) s (w * o.getD 1) (p + 1)

/-- `do_shift_update`, update_manager.hpp 732-795, debug build. -/
def doShiftD (m : Mgr) (c : Ctx K) (J : ℕ → ℕ → ℕ → ℕ → ℕ → K) (u : ℕ → ℝ) (fuel : ℕ) (s : Sub K)
    (p : ℕ) : Run (Sub K × K × ℕ) := do
  let Nv0 := s.verts.length
  let n := min Nv0 m.kIns
  let (l, p) ← pickNumbers u fuel Nv0 n p
  let new ← Run.lift (m.shiftNew u s.verts l p)
  let s ← Run.lift (s.initUpdateD c (J 0 0) (J 0 1) (J 0 2) new)
  let (s, w) ← Run.lift (shiftLoopD c J u l Nv0 s 1 (p + n))
  let s ← Run.lift (s.finalizeUpdateD c (J 1 0) (J 1 1) (J 1 2))
  pure (s, w, p + 2 * n)

end Mgr

/-- One update, interaction_expansion.ipp 107-117 and 129-131, debug build. -/
def Walker.stepD (m : Mgr) (c : Ctx K) (J : ℕ → ℕ → ℕ → ℕ → ℕ → K) (u : ℕ → ℝ) (fuel : ℕ)
    (x : Walker K) : Upd → Run (Walker K)
  | .insRem => do
    let r ← Run.lift (m.doInsRemD c J u 1 x.s x.stat x.p)
    pure ⟨r.s, r.stat, r.p⟩
  | .shift => do
    let (s, _, p) ← m.doShiftD c J u fuel x.s x.p
    pure ⟨s, x.stat, p⟩
  | .spinFlip => do
    let (s, _, p) ← m.doSpinFlipD c J u fuel x.s x.p
    pure ⟨s, x.stat, p⟩
  | .recompute => do
    let s ← Run.lift (x.s.recompute c)
    pure ⟨s, x.stat, x.p⟩

/-- Several updates, debug build. -/
def Walker.runD (m : Mgr) (c : Ctx K) (J : ℕ → ℕ → ℕ → ℕ → ℕ → ℕ → K) (u : ℕ → ℝ) (fuel : ℕ) :
    Walker K → List Upd → Run (Walker K)
  | x, [] => .ok x
  | x, a :: l => do
    let x ← x.stepD m c (J l.length) u fuel a
    Walker.runD m c J u fuel x l

/-- Updates of the Monte Carlo state, see `McState.run`, debug build. -/
def McState.runD (m : Mgr) (c : Ctx K) (J : ℕ → ℕ → ℕ → ℕ → ℕ → ℕ → K) (u : ℕ → ℝ) (fuel : ℕ) (x : McState K)
    (l : List Upd) : Run (McState K) := do
  let w ← x.w.runD m c J u fuel l
  pure ⟨w, x.shift⟩

/-- `measure_observables`, measurement.ipp 74-115, debug build: `compute_M` checks its result. -/
def measureObservablesD (q : MeasPar K) (c : Ctx K) (junk : ℕ → ℕ → K) (u : ℕ → ℝ) (s : Sub K) (p : ℕ) :
    Res (Record × ℕ) := do
  let M ← s.computeMD c
  let m := measIn q c s M
  let shifts := (List.range q.nShifts).map fun i => q.beta * u (p + i)
  let S ← m.computeStau junk q.nb shifts
  let d ← m.measureDensities (q.beta * u (p + q.nShifts))
  let t ← countTypes c.tbl.length s.verts
  pure (⟨RCLike.re s.sign,
    fun z a b => (List.range q.nb).map fun i => (S (off4 q.ns q.ns q.nb z a b i)).re,
    fun z a b => (List.range q.nb).map fun i => (S (off4 q.ns q.ns q.nb z a b i)).im,
    d, (List.range c.nf).map fun f => ((M f).rows : ℝ), t⟩, p + q.nShifts + 1)

/-- `measure` after the thermalisation, interaction_expansion.ipp 165-166, debug build. -/
def McState.measureD (q : MeasPar K) (c : Ctx K) (junk : ℕ → ℕ → K) (u : ℕ → ℝ) (x : McState K) :
    Res (Measured × McState K) := do
  let (r, p) ← measureObservablesD q c junk u x.w.s x.w.p
  pure (⟨r, x.w.stat.result, x.shift.result⟩, ⟨⟨x.w.s, ⟨0, 0⟩, p⟩, ⟨0, 0⟩⟩)

/-- `update`, interaction_expansion.ipp 88-154, debug build. -/
def Sim.updateD (a : SimPar) (m : Mgr) (c : Ctx K) (J : ℕ → ℕ → ℕ → ℕ → ℕ → ℕ → K) (u : ℕ → ℝ) (fuel : ℕ)
    (s : Sim K) : Run (Sim K) := do
  let x ← s.x.runD m c J u fuel (updateUpdates a.nIR a.nSh a.nSF a.steps.period s.step)
  let step := s.step + a.steps.period
  pure ⟨if a.steps.isTherm step && !s.was then x.prepare else x, step, a.steps.isTherm step, s.log⟩

/-- `measure`, interaction_expansion.ipp 157-174, debug build. -/
def Sim.measureD (a : SimPar) (q : MeasPar K) (c : Ctx K) (junk : ℕ → ℕ → K) (u : ℕ → ℝ) (s : Sim K) :
    Run (Sim K) :=
  if !a.steps.isTherm s.step then pure s else do
    let (r, x) ← Run.lift (s.x.measureD q c junk u)
    pure ⟨x, s.step, s.was, s.log ++ [r]⟩

/-- One pass of the loop of `run`, interaction_expansion.hpp 55-56, debug build. -/
def Sim.passD (a : SimPar) (m : Mgr) (q : MeasPar K) (c : Ctx K) (J : ℕ → ℕ → ℕ → ℕ → ℕ → ℕ → ℕ → K)
    (junk : ℕ → ℕ → ℕ → K) (u : ℕ → ℝ) (fuel : ℕ) (s : Sim K) : Run (Sim K) := do
  let s ← s.updateD a m c (J s.step) u fuel
  s.measureD a q c (junk s.step) u

/-- Several passes, interaction_expansion.hpp 54-70, debug build. -/
def Sim.passesD (a : SimPar) (m : Mgr) (q : MeasPar K) (c : Ctx K) (J : ℕ → ℕ → ℕ → ℕ → ℕ → ℕ → ℕ → K)
    (junk : ℕ → ℕ → ℕ → K) (u : ℕ → ℝ) (fuel : ℕ) : Sim K → ℕ → Run (Sim K)
  | s, 0 => .ok s
  | s, n + 1 => do
    let s ← s.passD a m q c J junk u fuel
    Sim.passesD a m q c J junk u fuel s n

end
end CTInt
