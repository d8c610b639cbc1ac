import Mathlib.MeasureTheory.Integral.Bochner.Basic
import Mathlib.MeasureTheory.Integral.IntegrableOn
import Mathlib.MeasureTheory.Function.L1Space.Integrable
import Mathlib.Analysis.PSeries
import Mathlib.Topology.Algebra.InfiniteSum.ENNReal

/-!
# From means of squares to convergence with probability one
-/

set_option linter.all false

namespace CTInt

open MeasureTheory Filter

/-- Sums of bounded terms that are small at the squares are small. -/
theorem tendsto_of_squares {d : ℕ → ℝ} {b : ℝ} (hd : ∀ k, |d k| ≤ b)
    (h : Tendsto (fun k : ℕ => (∑ i ∈ Finset.range (k ^ 2), d i) / (k : ℝ) ^ 2) atTop (nhds 0)) :
    Tendsto (fun n : ℕ => (∑ i ∈ Finset.range n, d i) / n) atTop (nhds 0) := by
  have hb : 0 ≤ b := (abs_nonneg _).trans (hd 0)
  have hs : Tendsto Nat.sqrt atTop atTop := by
    refine tendsto_atTop.2 fun k => ?_
    filter_upwards [eventually_ge_atTop (k * k)] with n hn
    exact Nat.le_sqrt.2 hn
  have h1 : Tendsto (fun n : ℕ => |(∑ i ∈ Finset.range (n.sqrt ^ 2), d i) / (n.sqrt : ℝ) ^ 2| + 2 * b / n.sqrt) atTop (nhds 0) := by
    have e1 := (h.comp hs).abs
    have e2 : Tendsto (fun n : ℕ => 2 * b / (n.sqrt : ℝ)) atTop (nhds 0) :=
      (tendsto_const_div_atTop_nhds_zero_nat (2 * b)).comp hs
    have := e1.add e2
    simpa [Function.comp_def] using this
  rw [tendsto_zero_iff_abs_tendsto_zero]
  refine squeeze_zero' (Eventually.of_forall fun n => abs_nonneg _) ?_ h1
  filter_upwards [eventually_ge_atTop 1] with n hn
  set k := n.sqrt with hk
  have k1 : k ^ 2 ≤ n := by rw [pow_two]; exact Nat.sqrt_le n
  have k2 : n < (k + 1) * (k + 1) := Nat.lt_succ_sqrt n
  have k0 : 0 < k := Nat.sqrt_pos.2 hn
  have hkr : (0 : ℝ) < k := by exact_mod_cast k0
  have hnr : (0 : ℝ) < n := by exact_mod_cast hn
  have k3 : ((k ^ 2 : ℕ) : ℝ) ≤ n := by exact_mod_cast k1
  have k4 : n - k ^ 2 ≤ 2 * k := by
    have : (k + 1) * (k + 1) = k ^ 2 + 2 * k + 1 := by ring
    omega
  have e : ∑ i ∈ Finset.range n, d i = ∑ i ∈ Finset.range (k ^ 2), d i + ∑ i ∈ Finset.range (n - k ^ 2), d (k ^ 2 + i) := by
    rw [← Finset.sum_range_add]
    congr 2
    omega
  have e2 : |∑ i ∈ Finset.range (n - k ^ 2), d (k ^ 2 + i)| ≤ 2 * k * b := by
    refine (Finset.abs_sum_le_sum_abs _ _).trans ((Finset.sum_le_sum fun i _ => hd _).trans ?_)
    rw [Finset.sum_const, Finset.card_range, nsmul_eq_mul]
    refine mul_le_mul_of_nonneg_right ?_ hb
    exact_mod_cast k4
  have e3 : |∑ i ∈ Finset.range n, d i| ≤ |∑ i ∈ Finset.range (k ^ 2), d i| + 2 * k * b := by
    rw [e]; exact (abs_add_le _ _).trans (by linarith)
  have hk2 : (0 : ℝ) < (k : ℝ) ^ 2 := by positivity
  have k3' : (k : ℝ) ^ 2 ≤ n := by push_cast at k3; exact k3
  show |(∑ i ∈ Finset.range n, d i) / n| ≤ |(∑ i ∈ Finset.range (k ^ 2), d i) / (k : ℝ) ^ 2| + 2 * b / k
  rw [abs_div, abs_div, abs_of_pos hnr, abs_of_pos hk2]
  calc |∑ i ∈ Finset.range n, d i| / n ≤ (|∑ i ∈ Finset.range (k ^ 2), d i| + 2 * k * b) / n := div_le_div_of_nonneg_right e3 hnr.le
    _ ≤ (|∑ i ∈ Finset.range (k ^ 2), d i| + 2 * k * b) / (k : ℝ) ^ 2 :=
        div_le_div_of_nonneg_left (by positivity) hk2 k3'
    _ = |∑ i ∈ Finset.range (k ^ 2), d i| / (k : ℝ) ^ 2 + 2 * b / k := by
        rw [add_div]
        congr 1
        rw [div_eq_div_iff hk2.ne' hkr.ne']
        ring

/-- If the mean of the square of the sum of the first `n` deviations grows at most like `n`, the averages converge with
    probability one. -/
theorem strong_law {Ω : Type} [MeasurableSpace Ω] {μ : Measure Ω} [IsProbabilityMeasure μ] {d : ℕ → Ω → ℝ} (hd : ∀ k, Measurable (d k))
    {b : ℝ} (hb : ∀ k w, |d k w| ≤ b) {C : ℝ} (hC : ∀ n : ℕ, ∫ w, (∑ i ∈ Finset.range n, d i w) ^ 2 ∂μ ≤ n * C) :
    ∀ᵐ w ∂μ, Tendsto (fun n : ℕ => (∑ i ∈ Finset.range n, d i w) / n) atTop (nhds 0) := by
  have hS : ∀ n, Measurable fun w => ∑ i ∈ Finset.range n, d i w := fun n => Finset.measurable_sum _ fun i _ => hd i
  have hSb : ∀ n w, |∑ i ∈ Finset.range n, d i w| ≤ n * b := by
    intro n w
    refine (Finset.abs_sum_le_sum_abs _ _).trans ((Finset.sum_le_sum fun i _ => hb i w).trans ?_)
    simp
  let X : ℕ → Ω → ENNReal := fun k w => ENNReal.ofReal (((∑ i ∈ Finset.range (k ^ 2), d i w) / (k : ℝ) ^ 2) ^ 2)
  have hX : ∀ k, Measurable (X k) := fun k => ENNReal.measurable_ofReal.comp (((hS _).div_const _).pow_const 2)
  have hi : ∀ k, ∫⁻ w, X k w ∂μ ≤ ENNReal.ofReal (|C| * (1 / (k : ℝ) ^ 2)) := by
    intro k
    have hint : Integrable (fun w => ((∑ i ∈ Finset.range (k ^ 2), d i w) / (k : ℝ) ^ 2) ^ 2) μ := by
      refine Integrable.of_bound (((hS _).div_const _).pow_const 2).aestronglyMeasurable
        (((k ^ 2 : ℕ) * b / (k : ℝ) ^ 2) ^ 2) (Eventually.of_forall fun w => ?_)
      rw [Real.norm_eq_abs, abs_of_nonneg (sq_nonneg _)]
      refine sq_le_sq' ?_ ?_
      · rw [← neg_div]
        exact div_le_div_of_nonneg_right (abs_le.1 (hSb _ w)).1 (by positivity)
      · exact div_le_div_of_nonneg_right (abs_le.1 (hSb _ w)).2 (by positivity)
    rw [← ofReal_integral_eq_lintegral_ofReal hint (Eventually.of_forall fun w => sq_nonneg _)]
    refine ENNReal.ofReal_le_ofReal ?_
    simp only [div_pow]
    rw [integral_div]
    rcases Nat.eq_zero_or_pos k with rfl | hk
    · simp
    · have hkr : (0 : ℝ) < k := by exact_mod_cast hk
      have h2 := hC (k ^ 2)
      push_cast at h2
      rw [div_le_iff₀ (by positivity)]
      refine h2.trans ?_
      have : |C| * (1 / (k : ℝ) ^ 2) * ((k : ℝ) ^ 2) ^ 2 = (k : ℝ) ^ 2 * |C| := by
        field_simp
      rw [this]
      exact mul_le_mul_of_nonneg_left (le_abs_self C) (by positivity)
  have hsum : ∫⁻ w, ∑' k, X k w ∂μ ≠ ⊤ := by
    rw [lintegral_tsum fun k => (hX k).aemeasurable]
    have hs : Summable fun k : ℕ => |C| * (1 / (k : ℝ) ^ 2) :=
      (Real.summable_one_div_nat_pow.2 (by norm_num)).mul_left _
    have h2 : ∑' k : ℕ, ENNReal.ofReal (|C| * (1 / (k : ℝ) ^ 2)) ≠ ⊤ := by
      rw [← ENNReal.ofReal_tsum_of_nonneg (fun k => by positivity) hs]
      exact ENNReal.ofReal_ne_top
    exact ne_top_of_le_ne_top h2 (ENNReal.tsum_le_tsum hi)
  filter_upwards [ae_lt_top (Measurable.ennreal_tsum hX) hsum] with w hw
  refine tendsto_of_squares (fun k => hb k w) ?_
  have h1 := ENNReal.tendsto_atTop_zero_of_tsum_ne_top hw.ne
  have h2 := (ENNReal.tendsto_toReal ENNReal.zero_ne_top).comp h1
  have h3 : Tendsto (fun k : ℕ => ((∑ i ∈ Finset.range (k ^ 2), d i w) / (k : ℝ) ^ 2) ^ 2) atTop (nhds 0) := by
    have e : (ENNReal.toReal ∘ fun k => X k w) = fun k : ℕ => ((∑ i ∈ Finset.range (k ^ 2), d i w) / (k : ℝ) ^ 2) ^ 2 := by
      funext k
      exact ENNReal.toReal_ofReal (sq_nonneg _)
    rw [e] at h2
    simpa using h2
  have h4 := h3.sqrt
  simp only [Real.sqrt_sq_eq_abs, Real.sqrt_zero] at h4
  exact (tendsto_zero_iff_abs_tendsto_zero _).2 h4

end CTInt
