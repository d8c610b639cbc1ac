import Mathlib.Probability.ProductMeasure
import Mathlib.MeasureTheory.Measure.Lebesgue.Basic
import Verif.Base.Run

/-!
# Specification: random numbers

The generator of the code is taken to deliver independent numbers uniform in [0,1): a stream `u 0, u 1, ...` distributed by
the infinite product of the uniform law.
-/

set_option linter.all false

namespace CTInt

open MeasureTheory

/-- The uniform law on [0,1). -/
noncomputable def uniform01 : Measure ℝ := volume.restrict (Set.Ico 0 1)

instance : IsProbabilityMeasure uniform01 := ⟨by simp [uniform01]⟩

/-- The law of a stream of independent numbers, each uniform in [0,1). -/
noncomputable def streams : Measure (ℕ → ℝ) := Measure.infinitePi fun _ => uniform01

instance : IsProbabilityMeasure streams := by unfold streams; infer_instance

/-- A call whose loops are given `fuel` iterations returns `r` once there are enough of them. -/
def Returns {α : Type} (f : ℕ → Run α) (r : α) : Prop := ∃ F, ∀ fuel ≥ F, f fuel = .ok r

/-- The numbers from position `p` on. -/
def dropS (p : ℕ) (u : ℕ → ℝ) (k : ℕ) : ℝ := u (p + k)

end CTInt
