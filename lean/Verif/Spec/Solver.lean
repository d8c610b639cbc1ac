import Verif.Model.Solver
import Verif.Spec.Simulation
import Verif.Spec.Green
import Verif.Spec.Postprocess
import Verif.Spec.UMatrix

/-!
# Specification: what the constructed solver must be
-/

set_option linter.all false

namespace CTInt

variable {K : Type} [RCLike K] [DecidableEq K]

/-- Terms the updates can work with: there is one, U is not zero, every term has a state and acts on every flavor, the fields are
    neither 0 nor 1 nor the number that marks non-interacting vertices. -/
structure UsableTerms (nf : ℕ) (tbl : List (VDef K)) : Prop where
  some : tbl ≠ []
  U : ∀ d ∈ tbl, d.U ≠ 0
  fields : ∀ d ∈ tbl, ∀ s < d.numAf, ∀ r < d.rank, d.alpha s r ≠ ((10 ^ 100 : ℝ) : K) ∧ d.alpha s r ≠ 0 ∧ d.alpha s r ≠ 1
  states : ∀ d ∈ tbl, 0 < d.numAf
  flavors : ∀ d ∈ tbl, ∀ z < nf, ∃ r < d.rank, d.flavors.getD r 0 = z

/-- The same for the entries of an interaction file. -/
structure UsableEntry (cast : ℂ → K) (nf : ℕ) (e : Entry) : Prop where
  U : cast e.U ≠ 0
  fields : ∀ s < e.numAf, ∀ r < e.rank, cast (e.alpha s r) ≠ ((10 ^ 100 : ℝ) : K) ∧ cast (e.alpha s r) ≠ 0 ∧ cast (e.alpha s r) ≠ 1
  states : 0 < e.numAf
  flavors : ∀ z < nf, ∃ r < e.rank, e.flavors.getD r 0 = z

/-- A usable file with the bare Green's function: it agrees with the request, at least three grid points, all lines in order, the
    values Hermitian. -/
structure UsableGreen (K : Type) [RCLike K] (file : GFile) (β : ℝ) (nf ns : ℕ) : Prop where
  grid : 3 ≤ file.ntau
  flavors : file.nf = nf
  sites : file.ns = ns
  beta : |file.beta - β| ≤ 1e-8
  lines : file.Ordered
  hermitian : ∀ f s1 s2 t : ℕ, f < nf → s1 < ns → s2 < ns → (t : ℤ) < file.ntau →
    (file.value f s1 s2 t : K) = starRingEnd K (file.value f s2 s1 t)

/-- What every parameter set must satisfy besides the files. -/
structure UsableParams {S : Type} (P : Params S) : Prop where
  beta : 1e-8 < P.beta
  step : 0 ≤ P.stepSize
  bins : 0 < P.nBin
  period : 0 < P.period
  legendre : 0 < P.nLegendre
  rates : P.rates = none ∨ P.rates = some 1

/-- Input that makes no sense: both "model.U" and an interaction file or neither, an interaction file that cannot be opened, a
    number of flavors for which "model.U" has no meaning, more than one proposal rate, no file for the bare Green's function or one
    that cannot be opened, one that does not agree with the parameters or whose lines are not all there in order, a measurement
    period that is not positive. -/
def Senseless {S : Type} (P : Params S) : Prop :=
  (P.uFile = none ↔ P.U = none) ∨ (∃ s, P.uFile = some (false, s)) ∨ (P.U ≠ none ∧ P.spins ≠ 1 ∧ P.spins ≠ 2) ∨
  (∃ n, P.rates = some n ∧ n ≠ 1) ∨ P.g0File = none ∨ P.g0File = some none ∨
  (∃ file, P.g0File = some (some file) ∧
    (file.nf ≠ P.spins ∨ file.ns ≠ P.sites ∨ 1e-8 < |file.beta - P.beta| ∨ ¬ file.Ordered)) ∨
  P.period ≤ 0

/-- What keeps the construction away from undefined behaviour: at least one Legendre polynomial, β > 0, no configuration file, and
    if there is a file with the bare Green's function it has three grid points and a line. -/
structure Harmless {S : Type} (P : Params S) : Prop where
  legendre : 0 < P.nLegendre
  beta : 0 < P.beta
  config : P.config = none
  green : ∀ file, P.g0File = some (some file) → 3 ≤ file.ntau ∧ file.rows ≠ []

/-- The solver starts from the empty configuration, or from one it can work with. -/
def UsableStart {S : Type} (P : Params S) (V : FullSolver K) : Prop :=
  P.config = none ∨ (GoodStart V.c.NI V.c.nf V.c.G0 V.c.tbl V.init ∧ ValidPts P.beta V.c.tbl (ptsOf V.init) ∧ V.init.length ≤ P.maxOrder)

/-- A solver ready to run: it meets what the theorems about the simulation ask for. -/
def Ready {S : Type} (P : Params S) (V : FullSolver K) : Prop :=
  ∃ G B, SimOK V.c V.q G V.m P.kIns P.maxOrder P.stepSize ∧ Regular V.c G B ∧ AtStart V.m V.c V.q.beta P.maxOrder V.s

/-- The parameters arrive where they are used. -/
structure Passed {S : Type} (P : Params S) (V : FullSolver K) : Prop where
  nf : V.c.nf = P.spins
  ns : V.q.ns = P.sites
  beta : V.q.beta = P.beta
  betaM : V.m.beta = P.beta
  samples : V.q.nShifts = P.nSamples
  bins : V.q.nb = P.nBin
  legendre : V.q.leg.nl = P.nLegendre
  nIR : V.a.nIR = P.nIR
  nSh : V.a.nSh = P.nSh
  nSF : V.a.nSF = P.nSF
  total : V.a.steps.mc = P.total
  therm : V.a.steps.therm = P.therm
  period : (V.a.steps.period : ℤ) = P.period
  kIns : V.m.kIns = P.kIns
  maxOrder : V.m.maxOrder = P.maxOrder
  step : V.m.shiftStep = P.beta * P.stepSize

end CTInt
