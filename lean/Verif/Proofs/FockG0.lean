import Verif.Proofs.FockSum
import Verif.Proofs.FockExists

/-!
# The bare Green's function of hopping fermions as a function of operators
-/

set_option linter.all false

namespace CTInt

open NormedSpace Matrix MeasureTheory

variable {K : Type} [RCLike K] {n : Type} [Fintype n] [DecidableEq n] {a : ℕ → ℕ → Matrix n n K}

open Classical in
/-- The bare Green's function. -/
noncomputable def thermalG0 (β : ℝ) (a : ℕ → ℕ → Matrix n n K) (H : Matrix n n K) : Op → Op → K := fun an cr =>
  if cr.time < an.time ∨ an.time = cr.time ∧ cr.small < an.small then
    - thermal β H (atTime H an.time (a an.flavor an.site) * atTime H cr.time (a cr.flavor cr.site)ᴴ)
  else thermal β H (atTime H cr.time (a cr.flavor cr.site)ᴴ * atTime H an.time (a an.flavor an.site))

theorem thermalG0_spec (β : ℝ) (nf ns : ℕ) (a : ℕ → ℕ → Matrix n n K) (H : Matrix n n K) : ThermalG0 β nf ns a H (thermalG0 β a H) :=
  fun z _ s _ s' _ t _ t' _ k k' => ⟨fun h => if_pos h, fun h => if_neg h⟩

open scoped Matrix.Norms.Operator in
theorem thermal_continuous (β : ℝ) (H : Matrix n n K) {f : ℝ × ℝ → Matrix n n K} (hf : Continuous f) : Continuous fun z => thermal β H (f z) :=
  (thermalCL β H).continuous.comp hf

open scoped Matrix.Norms.Operator in
theorem thermalG0_measurable (β : ℝ) (a : ℕ → ℕ → Matrix n n K) (H : Matrix n n K) : MeasurableG0 (thermalG0 β a H) := by
  intro f s k f' s' k'
  unfold thermalG0
  have c1 : Continuous fun z : ℝ × ℝ => atTime H z.1 (a f s) := (atTime_continuous H _).comp continuous_fst
  have c2 : Continuous fun z : ℝ × ℝ => atTime H z.2 (a f' s')ᴴ := (atTime_continuous H _).comp continuous_snd
  refine Measurable.ite ?_ ?_ ?_
  · refine (measurableSet_lt measurable_snd measurable_fst).union ((measurableSet_eq_fun measurable_fst measurable_snd).inter ?_)
    exact MeasurableSet.const (k' < k)
  · exact (thermal_continuous β H (c1.mul c2)).measurable.neg
  · exact (thermal_continuous β H (c2.mul c1)).measurable

end CTInt
