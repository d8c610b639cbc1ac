import Verif.Spec.Balance
import Verif.Spec.Streams
import Verif.Model.Submatrix
import Mathlib.MeasureTheory.Constructions.Pi
import Mathlib.MeasureTheory.Constructions.BorelSpace.Complex
import Mathlib.Data.Nat.Factorial.Basic

/-!
# Specification: the ensemble of configurations

A configuration with `n` vertices is a list of `n` points: type, state of the auxiliary field and time of every vertex.  The
partition function sums over the number of vertices, with 1/n!, over types and states, and integrates over the times in
[0,beta).
-/

set_option linter.all false

namespace CTInt

open MeasureTheory

/-- Type, state of the auxiliary field and time of a vertex. -/
abbrev Pt := ℕ × ℕ × ℝ

/-- The point of a vertex. -/
def ptOf (v : Vert) : Pt := (v.type, v.af.toNat, v.time)

/-- The configuration as a list of points. -/
def ptsOf (vs : List Vert) : List Pt := vs.map ptOf

/-- An interacting vertex at a point. -/
def vertAt (x : Pt) : Vert := ⟨x.1, (x.2.1 : ℤ), 0, x.2.2, false, false, 0⟩

variable {K : Type} [RCLike K] [DecidableEq K]

/-- The stationary density of a configuration given by points. -/
noncomputable def density (c : Ctx K) (x : List Pt) : ENNReal :=
  ENNReal.ofReal (target c.NI c.nf c.G0 c.tbl (x.map vertAt))

/-- The number of states of a type. -/
def numStates (tbl : List (VDef K)) (t : ℕ) : ℕ := (tbl.getD t default).numAf

/-- Sum over the types and states of a vertex and integral over its time. -/
noncomputable def pointMeasure (beta : ℝ) (tbl : List (VDef K)) : Measure Pt :=
  ∑ t ∈ Finset.range tbl.length, ∑ f ∈ Finset.range (numStates tbl t),
    (volume.restrict (Set.Ico 0 beta)).map fun τ => ((t, f, τ) : Pt)

/-- The integral of `F` over all configurations with at most `M` vertices, with the stationary density; it is the partition
    function if `F` is 1. -/
noncomputable def ensemble (c : Ctx K) (beta : ℝ) (M : ℕ) (F : List Pt → ENNReal) : ENNReal :=
  ∑ n ∈ Finset.range (M + 1), ENNReal.ofReal (1 / (n.factorial : ℝ)) *
    ∫⁻ x : Fin n → Pt, density c (List.ofFn x) * F (List.ofFn x) ∂Measure.pi fun _ => pointMeasure beta c.tbl

/-- The bare Green function is a measurable function of the two times (every table with interpolation is). -/
def MeasurableG0 (G0 : Op → Op → K) : Prop :=
  ∀ (f s : ℕ) (a : ℤ) (f' s' : ℕ) (a' : ℤ), Measurable fun z : ℝ × ℝ => G0 ⟨f, s, z.1, a⟩ ⟨f', s', z.2, a'⟩

/-- A usable configuration: types and states exist, times are in [0,beta). -/
def ValidPts (beta : ℝ) (tbl : List (VDef K)) (x : List Pt) : Prop :=
  ∀ p ∈ x, p.1 < tbl.length ∧ p.2.1 < numStates tbl p.1 ∧ 0 ≤ p.2.2 ∧ p.2.2 < beta

end CTInt
