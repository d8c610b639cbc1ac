import Verif.Model.Simulation
import Verif.Spec.Average
import Verif.Spec.Converge
import Verif.Spec.SpinFlip
import Verif.Props.SpinFlip

/-!
# Specification: averages over one long simulation
-/

set_option linter.all false

namespace CTInt

open MeasureTheory

variable {K : Type} [RCLike K] [DecidableEq K]

/-- What is assumed of the input: a usable table of terms that is not empty, β > 0, at least one bin, sites in range,
    a bare Green's function `G` that the interpolation returns, and an update manager built for it. -/
structure SimOK (c : Ctx K) (q : MeasPar K) (G : ℝ → ℕ → ℕ → ℕ → K) (m : Mgr) (kIns maxOrder : ℕ) (sz : ℝ) : Prop where
  ht : TblOK c.NI c.nf c.tbl
  hf : FullTerms c
  hT : c.tbl ≠ []
  hb : 0 < q.beta
  hnb : 0 < q.nb
  hsite : SitesIn q.ns c.tbl
  hg : ∀ t z s1 s2, z < c.nf → s1 < q.ns → s2 < q.ns → q.g0 t z s1 s2 = .ok (G t z s1 s2)
  hsz : 0 ≤ sz
  hm : m = Mgr.create q.beta kIns maxOrder sz c.tbl

/-- What the averages need: the Green's functions are measurable and bounded by `B`. -/
structure Regular (c : Ctx K) (G : ℝ → ℕ → ℕ → ℕ → K) (B : ℝ) : Prop where
  meas : MeasurableG0 c.G0
  bound : ∀ a b, ‖c.G0 a b‖ ≤ B
  measG : ∀ z s1 s2, Measurable fun t => G t z s1 s2
  boundG : ∀ t z s1 s2, ‖G t z s1 s2‖ ≤ B

/-- A simulation before its first pass. -/
structure AtStart (m : Mgr) (c : Ctx K) (beta : ℝ) (maxOrder : ℕ) (s : Sim K) : Prop where
  reached : ReachedBy m c s.x.w.s
  valid : ValidPts beta c.tbl (ptsOf s.x.w.s.verts)
  order : s.x.w.s.verts.length ≤ maxOrder
  pos : s.x.w.p = 0
  step : s.step = 0
  log : s.log = []

/-- The average of a recorded quantity. -/
noncomputable def logMean (val : Record → ℝ) (l : List Measured) : ℝ := (l.map fun r => val r.values).sum / l.length

/-- With the random numbers `u`: the passes before the end of the thermalisation and any number of passes after it return, each of
    the latter records once, and the averages of the recorded values of `val` converge to `x`. -/
def Settles (a : SimPar) (m : Mgr) (q : MeasPar K) (c : Ctx K) (J : ℕ → ℕ → ℕ → ℕ → ℕ → ℕ → ℕ → K) (junk : ℕ → ℕ → ℕ → K)
    (s : Sim K) (val : Record → ℝ) (x : ℝ) (u : ℕ → ℝ) : Prop :=
  ∃ y : ℕ → Sim K, (∀ n, Returns (fun fuel => s.passes a m q c J junk u fuel (a.steps.therm / a.steps.period + n)) (y n) ∧
    (y n).log.length = n) ∧ Filter.Tendsto (fun n => logMean val (y n).log) Filter.atTop (nhds x)

end CTInt
