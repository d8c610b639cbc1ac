import Verif.Model.Manager
import Verif.Model.Measure

/-!
# Model of one measurement: `measure`, `measure_observables`, `measure_Sl` (src/measurement.ipp, src/interaction_expansion.ipp)

An observable is the sequence of the values passed to it.  The clock readings ("Timings") are not modelled.
-/

set_option linter.all false

namespace CTInt

variable {K : Type} [RCLike K] [DecidableEq K]

/-- What a measurement reads besides the object: `n_site`, `beta`, `legendre_transformer`, the call
    `g0_intpl(time, flavor, site1, site2)`, "G1.num_samples" and "G1.n_bin" (not negative). -/
structure MeasPar (K : Type) where
  ns : ℕ
  beta : ℝ
  leg : Legendre
  g0 : ℝ → ℕ → ℕ → ℕ → Res K
  nShifts : ℕ
  nb : ℕ

/-- The values passed to "Sign", "Stau_real_z_s1_s2", "Stau_imag_z_s1_s2", "densities_z", "densities", "n_i_n_j_real",
    "n_i_n_j_imag", "PertOrder" and "PerturbationOrderVertex". -/
structure Record where
  sign : ℝ
  stauRe : ℕ → ℕ → ℕ → List ℝ
  stauIm : ℕ → ℕ → ℕ → List ℝ
  dens : MeasIn.DensOut
  pertOrder : List ℝ
  pertVertex : List ℝ

/-- What the estimators read: `M_flavors` was just filled, sign and operators come from the object, measurement.ipp 76-77, 501,
    513-514. -/
def measIn (q : MeasPar K) (c : Ctx K) (s : Sub K) (M : ℕ → DMat K) : MeasIn K :=
  ⟨c.nf, q.ns, q.beta, s.sign, q.leg, q.g0, M, fun z => (s.invA z).an, fun z => (s.invA z).cr⟩

/-- The loop over the vertices, measurement.ipp 107-112. -/
def countTypes (n : ℕ) (vs : List Vert) : Res (List ℝ) :=
  Res.foldl (fun l v => do
    Res.assert (v.type < n)
    pure (l.modify v.type (· + 1))) (List.replicate n 0) vs

/-- `measure_observables`, measurement.ipp 74-115, with `measure_Sl` (118-199) and `measure_densities`; `p` is the position in
    the stream of random numbers, `junk` uninitialised memory. -/
noncomputable def measureObservables (q : MeasPar K) (c : Ctx K) (junk : ℕ → ℕ → K) (u : ℕ → ℝ) (s : Sub K) (p : ℕ) :
    Res (Record × ℕ) := do
  let M ← s.computeM c
  let m := measIn q c s M
  let shifts := (List.range q.nShifts).map fun i => q.beta * u (p + i)
  let S ← m.computeStau junk q.nb shifts
  let d ← m.measureDensities (q.beta * u (p + q.nShifts))
  let t ← countTypes c.tbl.length s.verts
  pure (⟨RCLike.re s.sign,
    fun z a b => (List.range q.nb).map fun i => (S (off4 q.ns q.ns q.nb z a b i)).re,
    fun z a b => (List.range q.nb).map fun i => (S (off4 q.ns q.ns q.nb z a b i)).im,
    d, (List.range c.nf).map fun f => ((M f).rows : ℝ), t⟩, p + q.nShifts + 1)

/-- `get_result`, update_statistics.h 108-111; `none` stands for the two results of 0/0, which are not numbers. -/
noncomputable def AccStat.result (x : AccStat) : Option (ℝ × ℝ) :=
  if x.acc + x.rej = 0 then none else some ((x.acc : ℝ) / ((x.acc : ℝ) + x.rej), (x.rej : ℝ) / ((x.acc : ℝ) + x.rej))

/-- The Monte Carlo state with both counters of the update manager: `acc_rate_ins_rem` (in the walker) and
    `acc_rate_shift`, update_manager.hpp 133. -/
structure McState (K : Type) where
  w : Walker K
  shift : AccStat

/-- `prepare_for_measurement_steps`, update_manager.hpp 535-541. -/
def McState.prepare (x : McState K) : McState K := ⟨{ x.w with stat := ⟨0, 0⟩ }, ⟨0, 0⟩⟩

/-- Updates.  No update touches `acc_rate_shift`: besides its declaration it occurs only in update_manager.hpp 527, 529, 540. -/
noncomputable def McState.run (m : Mgr) (c : Ctx K) (J : ℕ → ℕ → ℕ → ℕ → ℕ → ℕ → K) (u : ℕ → ℝ) (fuel : ℕ) (x : McState K)
    (l : List Upd) : Run (McState K) := do
  let w ← x.w.run m c J u fuel l
  pure ⟨w, x.shift⟩

/-- What one call of `measure` passes on: the values of the configuration and "VertexInsertionRemoval_Acceptance_Rate",
    "VertexShift_Acceptance_Rate". -/
structure Measured where
  values : Record
  insRem : Option (ℝ × ℝ)
  shift : Option (ℝ × ℝ)

/-- `measure` after the thermalisation, interaction_expansion.ipp 165-166, with the `measure_observables` of the update
    manager, update_manager.hpp 526-529. -/
noncomputable def McState.measure (q : MeasPar K) (c : Ctx K) (junk : ℕ → ℕ → K) (u : ℕ → ℝ) (x : McState K) :
    Res (Measured × McState K) := do
  let (r, p) ← measureObservables q c junk u x.w.s x.w.p
  pure (⟨r, x.w.stat.result, x.shift.result⟩, ⟨⟨x.w.s, ⟨0, 0⟩, p⟩, ⟨0, 0⟩⟩)

end CTInt
