import Verif.Model.Observables
import Verif.Model.RunLoop

/-!
# Model of the whole simulation (src/interaction_expansion.ipp update, measure; src/interaction_expansion.hpp mcmpiadapter::run)

The list of global updates is empty.  The histograms of the expansion order (interaction_expansion.ipp 121-123) and the clock
readings are not part of the state here.
-/

set_option linter.all false

namespace CTInt

variable {K : Type} [RCLike K] [DecidableEq K]

/-- The run parameters: `n_ins_rem`, `n_shift`, `n_spin_flip` and those of the loop. -/
structure SimPar where
  nIR : ℕ
  nSh : ℕ
  nSF : ℕ
  steps : Steps

/-- The state of the simulation: the Monte Carlo state, `step`, `is_thermalized_in_previous_step_` and what was passed to the
    observables so far. -/
structure Sim (K : Type) where
  x : McState K
  step : ℕ
  was : Bool
  log : List Measured

/-- `update`, interaction_expansion.ipp 88-154. -/
noncomputable def Sim.update (a : SimPar) (m : Mgr) (c : Ctx K) (J : ℕ → ℕ → ℕ → ℕ → ℕ → ℕ → K) (u : ℕ → ℝ) (fuel : ℕ)
    (s : Sim K) : Run (Sim K) := do
  let x ← s.x.run m c J u fuel (updateUpdates a.nIR a.nSh a.nSF a.steps.period s.step)
  let step := s.step + a.steps.period
  pure ⟨if a.steps.isTherm step && !s.was then x.prepare else x, step, a.steps.isTherm step, s.log⟩

/-- `measure`, interaction_expansion.ipp 157-174. -/
noncomputable def Sim.measure (a : SimPar) (q : MeasPar K) (c : Ctx K) (junk : ℕ → ℕ → K) (u : ℕ → ℝ) (s : Sim K) :
    Run (Sim K) :=
  if !a.steps.isTherm s.step then pure s else do
    let (r, x) ← Run.lift (s.x.measure q c junk u)
    pure ⟨x, s.step, s.was, s.log ++ [r]⟩

/-- One pass of the loop of `run`, interaction_expansion.hpp 55-56; `J` and `junk` are the uninitialised memory met at each
    value of `step`. -/
noncomputable def Sim.pass (a : SimPar) (m : Mgr) (q : MeasPar K) (c : Ctx K) (J : ℕ → ℕ → ℕ → ℕ → ℕ → ℕ → ℕ → K)
    (junk : ℕ → ℕ → ℕ → K) (u : ℕ → ℝ) (fuel : ℕ) (s : Sim K) : Run (Sim K) := do
  let s ← s.update a m c (J s.step) u fuel
  s.measure a q c (junk s.step) u

/-- Several passes, interaction_expansion.hpp 54-70.  How many passes the loop makes is decided by the schedule checker and the
    stop callback, see `Proc.pass`. -/
noncomputable def Sim.passes (a : SimPar) (m : Mgr) (q : MeasPar K) (c : Ctx K) (J : ℕ → ℕ → ℕ → ℕ → ℕ → ℕ → ℕ → K)
    (junk : ℕ → ℕ → ℕ → K) (u : ℕ → ℝ) (fuel : ℕ) : Sim K → ℕ → Run (Sim K)
  | s, 0 => .ok s
  | s, n + 1 => do
    let s ← s.pass a m q c J junk u fuel
    Sim.passes a m q c J junk u fuel s n

end CTInt
