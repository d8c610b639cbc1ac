import Verif.Spec.Fock
import Verif.Spec.Converge

/-!
# Specification: the interaction with its terms counted several times
-/

set_option linter.all false

namespace CTInt

variable {K : Type} [Field K]

/-- How many operator pairs of a term have flavor `z`. -/
def pairsIn (z : ℕ) (d : VDef K) : ℕ := ((List.range d.rank).filter fun r => d.flavors.getD r 0 = z).length

/-- The terms with their couplings multiplied by the numbers `ρ`. -/
def multiplied (ρ : VDef K → ℕ) (tbl : List (VDef K)) : List (VDef K) := tbl.map fun d => { d with U := (ρ d : K) * d.U }

/-- The weights of the configurations with at most `M` vertices are negative at most on sets of measure zero. -/
def AlmostNonnegative (c : Ctx ℝ) (beta : ℝ) (M : ℕ) : Prop :=
  ∀ n ≤ M, ∀ᵐ x : Fin n → Pt ∂MeasureTheory.Measure.pi fun _ => pointMeasure beta c.tbl, 0 ≤ weight c.NI c.nf c.G0 c.tbl ((List.ofFn x).map vertAt)

end CTInt
