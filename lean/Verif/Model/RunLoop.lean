import Mathlib.Data.Real.Basic
import Mathlib.Algebra.BigOperators.Fin
import Mathlib.Logic.Relation
import Verif.Base.Res

/-!
# Model of the run loop (src/interaction_expansion.ipp update, measure, fraction_completed; src/interaction_expansion.hpp
mcmpiadapter::run)

Only the control flow around the Monte Carlo updates and the measurements is modelled here.  Step counters do not overflow.
-/

set_option linter.all false

namespace CTInt

/-- The run parameters `total_steps`, `thermalization_steps`, `measurement_period`. -/
structure Steps where
  mc : ℕ
  therm : ℕ
  period : ℕ

/-- What is visible from outside: the preparation for measurements, and a recorded measurement at a step. -/
inductive Event where
  | prepare (step : ℕ)
  | record (step : ℕ)

/-- `step` and `is_thermalized_in_previous_step_` of `InteractionExpansion`, and the events so far. -/
structure Loop where
  step : ℕ
  was : Bool
  log : List Event

/-- After construction, interaction_expansion.ipp 30, 37. -/
def Loop.start : Loop := ⟨0, false, []⟩

/-- `is_thermalized`, interaction_expansion.hpp 277-279. -/
def Steps.isTherm (c : Steps) (step : ℕ) : Bool := decide (step > c.therm)

/-- `update`, interaction_expansion.ipp 88-154: `measurement_period` steps, then the check whether the thermalisation ended. -/
def Loop.update (c : Steps) (s : Loop) : Loop :=
  let step := (List.range c.period).foldl (fun n _ => n + 1) s.step
  let log := if c.isTherm step && !s.was then s.log ++ [.prepare step] else s.log
  ⟨step, c.isTherm step, log⟩

/-- `measure`, interaction_expansion.ipp 157-174. -/
def Loop.measure (c : Steps) (s : Loop) : Loop :=
  if !c.isTherm s.step then s else { s with log := s.log ++ [.record s.step] }

/-- `fraction_completed`, interaction_expansion.ipp 196-205.  `total_steps = 0` gives infinity, which is not modelled: see the
    hypotheses of the theorems. -/
noncomputable def fraction (c : Steps) (step : ℕ) : ℝ :=
  if !c.isTherm step then 0 else ((step : ℝ) - c.therm) / c.mc

/-- A call of one of the two methods. -/
inductive LoopCall where
  | update
  | measure

/-- The effect of a call. -/
def Loop.call (c : Steps) (s : Loop) : LoopCall → Loop
  | .update => s.update c
  | .measure => s.measure c

/-! ## The parallel loop -/

/-- Where a process is in `run`: at the head of the loop with its variable `stopped`, inside the reduction with the value it
    contributed, or returned. -/
inductive Where where
  | running (stopped : Bool)
  | reducing (stopped : Bool) (value : ℝ)
  | returned (result : Bool)

/-- One process: its place, its step counter, and the number of reductions it entered. -/
structure Proc where
  at_ : Where
  step : ℕ
  entered : ℕ

/-- A process at the start of `run`, interaction_expansion.hpp 53. -/
def Proc.start : Proc := ⟨.running false, 0, 0⟩

/-- One pass of the loop up to the reduction, interaction_expansion.hpp 55-60.  `pending` is the answer of the schedule checker
    and `stop` that of the callback, both free. -/
noncomputable def Proc.pass (c : Steps) (pending stop : Bool) (p : Proc) : Proc :=
  match p.at_ with
  | .running stopped =>
    let step := p.step + c.period
    if stopped || pending then
      ⟨.reducing stop (if stop then 1 else fraction c step), step, p.entered + 1⟩
    else ⟨.running stopped, step, p.entered⟩
  | _ => p

open Classical in
/-- A process leaves the reduction with the sum, interaction_expansion.hpp 60-61, 70-72. -/
noncomputable def Proc.leave (sum : ℝ) (p : Proc) : Proc :=
  match p.at_ with
  | .reducing stopped _ => ⟨if sum ≥ 1 then .returned (!stopped) else .running stopped, p.step, p.entered⟩
  | _ => p

/-- The value a process contributes. -/
def Proc.value (p : Proc) : ℝ :=
  match p.at_ with
  | .reducing _ v => v
  | _ => 0

/-- The process is inside the reduction. -/
def Proc.isReducing (p : Proc) : Prop := ∃ b v, p.at_ = .reducing b v

/-- The process has returned. -/
def Proc.isReturned (p : Proc) : Prop := ∃ b, p.at_ = .returned b

/-- All processes, and the processes as they were inside each completed reduction. -/
structure World (n : ℕ) where
  proc : Fin n → Proc
  done : List (Fin n → Proc)

/-- One step of the whole: one process makes a pass, or, if all are inside the reduction, they all leave it with the sum of
    the values (`all_reduce` is collective). -/
inductive World.Step (c : Steps) {n : ℕ} : World n → World n → Prop where
  | pass (w : World n) (i : Fin n) (pending stop : Bool) (h : ∃ b, (w.proc i).at_ = .running b) :
      World.Step c w ⟨fun j => if j = i then (w.proc i).pass c pending stop else w.proc j, w.done⟩
  | reduce (w : World n) (h : ∀ i, (w.proc i).isReducing) :
      World.Step c w ⟨fun i => (w.proc i).leave (∑ j, (w.proc j).value), w.done ++ [w.proc]⟩

/-- What can be reached from the start. -/
def World.Reachable (c : Steps) {n : ℕ} (w : World n) : Prop :=
  Relation.ReflTransGen (World.Step c) ⟨fun _ => Proc.start, []⟩ w

end CTInt
