import Mathlib.Analysis.SpecialFunctions.Exponential
import Mathlib.MeasureTheory.Integral.IntervalIntegral.FundThmCalculus
import Mathlib.Analysis.SpecialFunctions.Integrals.Basic
import Mathlib.Analysis.SpecificLimits.Normed
import Mathlib.Topology.Algebra.Order.Floor

/-!
# The series of time-ordered integrals of an interaction
-/

set_option linter.all false

namespace CTInt

open NormedSpace Filter MeasureTheory

variable {A : Type} [NormedRing A] [NormedAlgebra ℝ A] [CompleteSpace A]

/-- The terms of the series: 1, ∫ W, ∫ W ∫ W, ... -/
noncomputable def dyson (W : ℝ → A) : ℕ → ℝ → A
  | 0 => fun _ => 1
  | n + 1 => fun s => ∫ t in (0 : ℝ)..s, W t * dyson W n t

theorem dyson_continuous {W : ℝ → A} (hW : Continuous W) (n : ℕ) : Continuous (dyson W n) := by
  induction n with
  | zero => exact continuous_const
  | succ n ih =>
    exact intervalIntegral.continuous_primitive (fun a b => (hW.mul ih).intervalIntegrable a b) 0

theorem exp_real_continuous (X : A) : Continuous fun t : ℝ => exp (t • X) :=
  continuous_iff_continuousAt.2 fun t => (hasDerivAt_exp_smul_const (𝕂 := ℝ) X t).continuousAt

/-- The evolution with the interaction, seen from the bare evolution. -/
noncomputable def evolved (H V : A) (s : ℝ) : A := exp (s • H) * exp (-(s • (H + V)))

/-- The interaction at time `t`, with negative sign. -/
noncomputable def moved (H V : A) (t : ℝ) : A := -(exp (t • H) * V * exp (-(t • H)))

theorem moved_continuous (H V : A) : Continuous (moved H V) := by
  unfold moved
  have := exp_real_continuous (-H)
  simp only [smul_neg] at this
  exact (((exp_real_continuous H).mul continuous_const).mul this).neg

theorem evolved_deriv (H V : A) (s : ℝ) : HasDerivAt (evolved H V) (moved H V s * evolved H V s) s := by
  have h1 : HasDerivAt (fun u : ℝ => exp (u • H)) (exp (s • H) * H) s := hasDerivAt_exp_smul_const (𝕂 := ℝ) H s
  have h2 : HasDerivAt (fun u : ℝ => exp (u • (-(H + V)))) (-(H + V) * exp (s • (-(H + V)))) s := hasDerivAt_exp_smul_const' (𝕂 := ℝ) _ s
  have h3 := h1.mul h2
  have e : exp (s • H) * H * exp (s • -(H + V)) + exp (s • H) * (-(H + V) * exp (s • -(H + V))) = moved H V s * evolved H V s := by
    unfold moved evolved
    have hinv : exp (-(s • H)) * exp (s • H) = 1 := by
      letI : NormedAlgebra ℚ A := NormedAlgebra.restrictScalars ℚ ℝ A
      rw [← exp_add_of_commute (Commute.neg_left (Commute.refl _)), neg_add_cancel, exp_zero]
    rw [smul_neg]
    calc _ = -(exp (s • H) * V * 1 * exp (-(s • (H + V)))) := by noncomm_ring
      _ = _ := by rw [← hinv]; noncomm_ring
  rw [e] at h3
  refine h3.congr_of_eventuallyEq (Eventually.of_forall fun u => ?_)
  show exp (u • H) * exp (-(u • (H + V))) = exp (u • H) * exp (u • -(H + V))
  rw [smul_neg]

theorem evolved_continuous (H V : A) : Continuous (evolved H V) :=
  continuous_iff_continuousAt.2 fun t => (evolved_deriv H V t).continuousAt

theorem evolved_eq (H V : A) (s : ℝ) : evolved H V s = 1 + ∫ t in (0 : ℝ)..s, moved H V t * evolved H V t := by
  rw [intervalIntegral.integral_eq_sub_of_hasDerivAt (fun t _ => evolved_deriv H V t)
    (((moved_continuous H V).mul (evolved_continuous H V)).intervalIntegrable _ _)]
  have : evolved H V 0 = 1 := by unfold evolved; simp
  rw [this]
  abel

theorem dyson_rest (H V : A) (M : ℕ) (s : ℝ) :
    evolved H V s - ∑ n ∈ Finset.range (M + 2), dyson (moved H V) n s =
      ∫ t in (0 : ℝ)..s, moved H V t * (evolved H V t - ∑ n ∈ Finset.range (M + 1), dyson (moved H V) n t) := by
  have hd : ∀ n, Continuous (dyson (moved H V) n) := dyson_continuous (moved_continuous H V)
  have c1 : Continuous fun t => moved H V t * evolved H V t := (moved_continuous H V).mul (evolved_continuous H V)
  have c2 : ∀ n, Continuous fun t => moved H V t * dyson (moved H V) n t := fun n => (moved_continuous H V).mul (hd n)
  have c3 : Continuous fun t => ∑ n ∈ Finset.range (M + 1), moved H V t * dyson (moved H V) n t := continuous_finset_sum _ fun n _ => c2 n
  simp only [mul_sub, Finset.mul_sum]
  rw [intervalIntegral.integral_sub (c1.intervalIntegrable _ _) (c3.intervalIntegrable _ _),
    intervalIntegral.integral_finset_sum fun n _ => (c2 n).intervalIntegrable _ _, Finset.sum_range_succ', evolved_eq H V s]
  simp only [dyson]
  abel

theorem dyson_bound (H V : A) {β B C : ℝ} (hB : ∀ t ∈ Set.Icc 0 β, ‖moved H V t‖ ≤ B) (hC : ∀ t ∈ Set.Icc 0 β, ‖evolved H V t‖ ≤ C) (M : ℕ) :
    ∀ s ∈ Set.Icc 0 β, ‖evolved H V s - ∑ n ∈ Finset.range (M + 1), dyson (moved H V) n s‖ ≤ C * (B ^ (M + 1) * s ^ (M + 1) / (M + 1).factorial) := by
  intro s hs
  have hB0 : 0 ≤ B := (norm_nonneg _).trans (hB s hs)
  have hC0 : 0 ≤ C := (norm_nonneg _).trans (hC s hs)
  induction M generalizing s with
  | zero =>
    have e : evolved H V s - ∑ n ∈ Finset.range (0 + 1), dyson (moved H V) n s = ∫ t in (0 : ℝ)..s, moved H V t * evolved H V t := by
      rw [zero_add, Finset.sum_range_one, evolved_eq H V s]
      simp [dyson]
    rw [e]
    have := intervalIntegral.norm_integral_le_of_norm_le_const (a := 0) (b := s) (C := B * C) (f := fun t => moved H V t * evolved H V t) (fun t ht => ?_)
    · rw [sub_zero, abs_of_nonneg hs.1] at this
      refine this.trans (le_of_eq ?_)
      simp
      ring
    · rw [Set.uIoc_of_le hs.1] at ht
      have ht' : t ∈ Set.Icc 0 β := ⟨ht.1.le, ht.2.trans hs.2⟩
      exact (norm_mul_le _ _).trans (mul_le_mul (hB t ht') (hC t ht') (norm_nonneg _) hB0)
  | succ M ih =>
    rw [dyson_rest]
    have h1 := intervalIntegral.norm_integral_le_of_norm_le (a := 0) (b := s) (μ := volume)
      (f := fun t => moved H V t * (evolved H V t - ∑ n ∈ Finset.range (M + 1), dyson (moved H V) n t))
      (g := fun t => B * C * B ^ (M + 1) / (M + 1).factorial * t ^ (M + 1)) hs.1
      (Eventually.of_forall fun t ht => by
        have ht' : t ∈ Set.Icc 0 β := ⟨ht.1.le, ht.2.trans hs.2⟩
        refine (norm_mul_le _ _).trans ((mul_le_mul (hB t ht') (ih t ht') (norm_nonneg _) hB0).trans (le_of_eq ?_))
        ring) ((continuous_const.mul (continuous_pow _)).intervalIntegrable _ _)
    refine h1.trans (le_of_eq ?_)
    rw [intervalIntegral.integral_const_mul, integral_pow]
    have hf : ((M + 1 + 1).factorial : ℝ) = (M + 1 + 1) * (M + 1).factorial := by rw [Nat.factorial_succ]; push_cast; ring
    have : ((M + 1).factorial : ℝ) ≠ 0 := by positivity
    have : (M : ℝ) + 1 + 1 ≠ 0 := by positivity
    rw [hf]
    push_cast
    field_simp
    simp
    ring

theorem dyson_limit (H V : A) {β : ℝ} (hβ : 0 ≤ β) :
    Tendsto (fun M => ∑ n ∈ Finset.range (M + 1), dyson (moved H V) n β) atTop (nhds (evolved H V β)) := by
  obtain ⟨B, hB⟩ := isCompact_Icc.exists_bound_of_continuousOn (s := Set.Icc 0 β) (moved_continuous H V).continuousOn
  obtain ⟨C, hC⟩ := isCompact_Icc.exists_bound_of_continuousOn (s := Set.Icc 0 β) (evolved_continuous H V).continuousOn
  rw [tendsto_iff_norm_sub_tendsto_zero]
  have h0 : Tendsto (fun M : ℕ => C * ((B * β) ^ (M + 1) / (M + 1).factorial)) atTop (nhds 0) := by
    have := ((tendsto_add_atTop_iff_nat 1).2 (FloorSemiring.tendsto_pow_div_factorial_atTop (B * β))).const_mul C
    rwa [mul_zero] at this
  refine squeeze_zero (fun _ => norm_nonneg _) (fun M => ?_) h0
  rw [norm_sub_rev]
  have := dyson_bound H V hB hC M β ⟨hβ, le_rfl⟩
  rwa [← mul_pow] at this

end CTInt
