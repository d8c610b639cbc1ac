import Verif.Spec.Ensemble
import Verif.Spec.Observables
import Mathlib.MeasureTheory.Integral.Bochner.Basic

/-!
# Specification: averages over the simulation
-/

set_option linter.all false

namespace CTInt

open MeasureTheory

variable {K : Type} [RCLike K] [DecidableEq K]

/-- The mean of `R x u` when the configuration `x` is drawn from the normalised ensemble and the random numbers `u` are
    independent and uniform in [0,1): the mean of the positive part minus the mean of the negative part. -/
noncomputable def average (c : Ctx K) (beta : ℝ) (M : ℕ) (R : List Pt → (ℕ → ℝ) → ℝ) : ℝ :=
  ((ensemble c beta M fun x => ∫⁻ u, ENNReal.ofReal (R x u) ∂streams).toReal -
    (ensemble c beta M fun x => ∫⁻ u, ENNReal.ofReal (-R x u) ∂streams).toReal) / (ensemble c beta M 1).toReal

/-- Both means are finite. -/
def FiniteMeans (c : Ctx K) (beta : ℝ) (M : ℕ) (R : List Pt → (ℕ → ℝ) → ℝ) : Prop :=
  ensemble c beta M (fun x => ∫⁻ u, ENNReal.ofReal (R x u) ∂streams) < ⊤ ∧
    ensemble c beta M (fun x => ∫⁻ u, ENNReal.ofReal (-R x u) ∂streams) < ⊤

/-- The sum of `F` over all configurations with at most `M` vertices: 1/n!, sum over types and states, each state counted with
    one over their number, integral over the times. -/
noncomputable def configSum (c : Ctx K) (beta : ℝ) (M : ℕ) (F : List Pt → ℝ) : ℝ :=
  ∑ n ∈ Finset.range (M + 1), (1 / (n.factorial : ℝ)) * ∫ x : Fin n → Pt,
    ((List.ofFn x).map fun p => ((numStates c.tbl p.1 : ℕ) : ℝ)⁻¹).prod * F (List.ofFn x)
      ∂Measure.pi fun _ => pointMeasure beta c.tbl

/-- The weight of a configuration with one more pair of operators of flavor `z` at time `τ`, without field. -/
noncomputable def weightExtra (c : Ctx K) (G : ℝ → ℕ → ℕ → ℕ → K) (z : ℕ) (ε τ : ℝ) (s s2 : ℕ) (vs : List Vert) : K :=
  (∏ fl ∈ Finset.range c.nf, if fl = z then
      detN ((rowsOf c.NI c.tbl (interacting vs) fl).length + 1) (extraPair c.G0 G z (rowsOf c.NI c.tbl (interacting vs) fl) ε τ s s2)
    else detN (rowsOf c.NI c.tbl (interacting vs) fl).length (rowG c.G0 (rowsOf c.NI c.tbl (interacting vs) fl))) *
  uWeight c.tbl vs

/-- The weight of a configuration whose creation operator number `q` of flavor `z` (with its field) is replaced by a creation
    operator on site `b` at time `-t`. -/
noncomputable def weightOther (c : Ctx K) (G : ℝ → ℕ → ℕ → ℕ → K) (z q b : ℕ) (t : ℝ) (vs : List Vert) : K :=
  (∏ fl ∈ Finset.range c.nf, if fl = z then
      detN (rowsOf c.NI c.tbl (interacting vs) fl).length (otherCreator c.G0 G z (rowsOf c.NI c.tbl (interacting vs) fl) q b t)
    else detN (rowsOf c.NI c.tbl (interacting vs) fl).length (rowG c.G0 (rowsOf c.NI c.tbl (interacting vs) fl))) *
  uWeight c.tbl vs

/-- The sum of these weights over the creation operators of flavor `z` on site `a` whose time, shifted by `t` and folded back
    to [0,β), is in bin `i` of `n`; with the sign of the fold and divided by the width of the bin. -/
noncomputable def binnedWeights (c : Ctx ℝ) (β : ℝ) (n i : ℕ) (G : ℝ → ℕ → ℕ → ℕ → ℝ) (z a b : ℕ) (t : ℝ) (vs : List Vert) : ℝ :=
  ∑ q ∈ Finset.range (rowsOf c.NI c.tbl (interacting vs) z).length,
    if ((rowsOf c.NI c.tbl (interacting vs) z).getD q default).cr.site = a then
      (-1) ^ ⌊(((rowsOf c.NI c.tbl (interacting vs) z).getD q default).cr.time + t) / β⌋ *
        (if β * i / n ≤ foldTime β (((rowsOf c.NI c.tbl (interacting vs) z).getD q default).cr.time + t) ∧
          foldTime β (((rowsOf c.NI c.tbl (interacting vs) z).getD q default).cr.time + t) < β * (i + 1) / n then n / β else 0) *
        weightOther c G z q b t vs
    else 0

end CTInt
