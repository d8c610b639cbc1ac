import Verif.Spec.Config
import Mathlib.MeasureTheory.Measure.Lebesgue.Basic

/-!
# Specification: detailed balance
-/

set_option linter.all false

namespace CTInt

open MeasureTheory

variable {K : Type} [RCLike K] [DecidableEq K]

/-- The probability of an event that depends on one random number uniform in [0,1). -/
noncomputable def prob1 (E : ℝ → Prop) : ENNReal := volume {r : ℝ | 0 ≤ r ∧ r < 1 ∧ E r}

/-- The probability of an event that depends on two independent random numbers uniform in [0,1). -/
noncomputable def prob2 (E : ℝ → ℝ → Prop) : ENNReal :=
  volume {z : ℝ × ℝ | (0 ≤ z.1 ∧ z.1 < 1) ∧ (0 ≤ z.2 ∧ z.2 < 1) ∧ E z.1 z.2}

/-- The probability of an event that depends on three independent random numbers uniform in [0,1). -/
noncomputable def prob3 (E : ℝ → ℝ → ℝ → Prop) : ENNReal :=
  volume {z : ℝ × ℝ × ℝ | (0 ≤ z.1 ∧ z.1 < 1) ∧ (0 ≤ z.2.1 ∧ z.2.1 < 1) ∧ (0 ≤ z.2.2 ∧ z.2.2 < 1) ∧ E z.1 z.2.1 z.2.2}

/-- The stationary density of a configuration: the modulus of its weight, shared equally between the states of the
    auxiliary fields of every vertex. -/
noncomputable def target (NI : K) (nf : ℕ) (G0 : Op → Op → K) (tbl : List (VDef K)) (vs : List Vert) : ℝ :=
  ‖weight NI nf G0 tbl vs‖ * ((interacting vs).map fun v => ((termOf tbl v).numAf : ℝ)⁻¹).prod

/-- A stream that starts with the two given numbers. -/
def stream2 (r1 r2 : ℝ) (k : ℕ) : ℝ := if k = 0 then r1 else r2

/-- A stream that starts with the three given numbers. -/
def stream3 (r1 r2 r3 : ℝ) (k : ℕ) : ℝ := if k = 0 then r1 else if k = 1 then r2 else r3

end CTInt
