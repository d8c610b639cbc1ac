import Verif.Model.RunLoop
import Mathlib.MeasureTheory.Measure.Map
import Verif.Spec.Streams

/-!
# Specification: runs of several processes
-/

set_option linter.all false

namespace CTInt

open MeasureTheory

/-- The parallel loop can end with process `i` having gone round `passes i` times, without a request to stop: a state in which all
    processes have returned `true` can be reached. -/
def Completes (c : Steps) {n : ℕ} (passes : Fin n → ℕ) : Prop :=
  ∃ w : World n, w.Reachable c ∧ ∀ i, (w.proc i).at_ = .returned true ∧ (w.proc i).step = passes i * c.period

/-- The loop can end like this, perhaps stopped. -/
def Ends (c : Steps) {n : ℕ} (passes : Fin n → ℕ) : Prop :=
  ∃ w : World n, w.Reachable c ∧ ∀ i, (w.proc i).isReturned ∧ (w.proc i).step = passes i * c.period

/-- Every process draws independent uniform random numbers.  Nothing is said about the numbers of different processes together. -/
def EachUniform {n : ℕ} (μ : Measure (Fin n → ℕ → ℝ)) : Prop := ∀ i, μ.map (fun u => u i) = streams

end CTInt
