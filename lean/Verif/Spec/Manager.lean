import Verif.Spec.Machine

/-!
# Specification: what the Monte Carlo updates may do to a configuration
-/

set_option linter.all false

namespace CTInt

variable {K : Type} [Field K] [DecidableEq K]

/-- `v'` is `v` up to the auxiliary field, which is the old one or a valid one. -/
def OnlyFieldChanged (tbl : List (VDef K)) (v v' : Vert) : Prop :=
  ∃ x : ℤ, v' = { v with af := x } ∧ (x = v.af ∨ 0 ≤ x ∧ x < (termOf tbl v).numAf)

/-- `v'` is `v`, or a new vertex with the attributes of `v` and a time in [0, β] that differs from that of `v`, up to
    a multiple of β, by at most half a step. -/
def OnlyTimeChanged (beta step : ℝ) (v v' : Vert) : Prop :=
  v' = v ∨ ∃ (t : ℝ) (k : ℤ) (id : ℕ), v' = { v with time := t, uid := id } ∧ 0 ≤ t ∧ t ≤ beta ∧
    |t - v.time - k * beta| ≤ step / 2

end CTInt
