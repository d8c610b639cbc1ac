import Verif.Proofs.Doeblin

/-!
# Averages of recorded values

A program that in each repetition changes its state and records a number.
-/

set_option linter.all false

namespace CTInt

open MeasureTheory Set

section

variable {X : Type} [MeasurableSpace X]

/-- The change of state of a recording program. -/
def stateOf (K : X × (ℕ → ℝ) → (X × ℝ) × (ℕ → ℝ)) (p : X × (ℕ → ℝ)) : X × (ℕ → ℝ) := ((K p).1.1, (K p).2)

/-- The number recorded in repetition `k`. -/
def recorded (K : X × (ℕ → ℝ) → (X × ℝ) × (ℕ → ℝ)) (k : ℕ) (p : X × (ℕ → ℝ)) : ℝ := (K ((stateOf K)^[k] p)).1.2

/-- The mean of the number recorded next. -/
noncomputable def nextMean (K : X × (ℕ → ℝ) → (X × ℝ) × (ℕ → ℝ)) (x : X) : ℝ := ∫ u, (K (x, u)).1.2 ∂streams

variable {K : X × (ℕ → ℝ) → (X × ℝ) × (ℕ → ℝ)} {S : Set X} {e : X} {r : ℕ} {δ : ℝ}

theorem recorded_meas (hK : Measurable K) (k : ℕ) : Measurable (recorded K k) := by
  have h1 : Measurable (stateOf K) := ((measurable_fst.comp measurable_fst).comp hK).prodMk (measurable_snd.comp hK)
  exact (measurable_snd.comp measurable_fst).comp (hK.comp (h1.iterate k))

theorem recorded_succ (k : ℕ) (p : X × (ℕ → ℝ)) : recorded K (k + 1) p = recorded K k (stateOf K p) := by
  simp [recorded, Function.iterate_succ_apply]

/-- The sum of the deviations of the recorded numbers from `m`. -/
noncomputable def devSum (K : X × (ℕ → ℝ) → (X × ℝ) × (ℕ → ℝ)) (m : ℝ) (n : ℕ) (p : X × (ℕ → ℝ)) : ℝ :=
  ∑ k ∈ Finset.range n, (recorded K k p - m)

theorem devSum_succ (m : ℝ) (n : ℕ) (p : X × (ℕ → ℝ)) :
    devSum K m (n + 1) p = ((K p).1.2 - m) + devSum K m n (stateOf K p) := by
  rw [devSum, Finset.sum_range_succ', add_comm]
  rfl

theorem devSum_meas (hK : Measurable K) (m : ℝ) (n : ℕ) : Measurable (devSum K m n) :=
  Finset.measurable_sum _ fun k _ => (recorded_meas hK k).sub_const m

theorem devSum_bound {B : ℝ} (hB : ∀ p, |(K p).1.2| ≤ B) {m : ℝ} (hm : |m| ≤ B) (n : ℕ) (p : X × (ℕ → ℝ)) :
    |devSum K m n p| ≤ n * (2 * B) := by
  refine (Finset.abs_sum_le_sum_abs _ _).trans ?_
  refine (Finset.sum_le_sum fun k _ => show |recorded K k p - m| ≤ 2 * B from ?_).trans ?_
  · have h1 := hB ((stateOf K)^[k] p)
    rw [abs_le] at *
    constructor <;> linarith [h1.1, h1.2, hm.1, hm.2, show recorded K k p = (K ((stateOf K)^[k] p)).1.2 from rfl]
  · simp

theorem nextMean_meas (hK : Measurable K) : Measurable (nextMean K) :=
  mean_measurable ((measurable_snd.comp measurable_fst).comp hK)

theorem recorded_mean (h : Renews (stateOf K) S e r δ) (hK : Measurable K) {B : ℝ} (hB : ∀ p, |(K p).1.2| ≤ B) (k : ℕ) (x : X) :
    ∫ u, recorded K k (x, u) ∂streams = meanAfter (stateOf K) k (nextMean K) x := by
  obtain ⟨A, hA⟩ := h.samples
  have h1 := (Samples.iterate hA k).integral x (G := fun p => (K p).1.2) ((measurable_snd.comp measurable_fst).comp hK) hB
  exact h1

/-- Averages of the recorded numbers converge in mean square. -/
theorem mean_square {A : (X × ℝ → ENNReal) → X → ENNReal} (hK : Samples K A) (h : Renews (stateOf K) S e r δ) {B : ℝ}
    (hB : ∀ p, |(K p).1.2| ≤ B) {m : ℝ} (hm : Centre (stateOf K) S (nextMean K) m) (n : ℕ) :
    ∀ x ∈ S, ∫ u, devSum K m n (x, u) ^ 2 ∂streams ≤ n * (12 * B ^ 2 * r / δ) := by
  have hqB : ∀ x, |nextMean K x| ≤ B := fun x => mean_bound fun u => hB _
  have hqr : ∀ x ∈ S, -B ≤ nextMean K x ∧ nextMean K x ≤ B := fun x _ => abs_le.1 (hqB x)
  have hmB : |m| ≤ B := abs_le.2 (hm 0 (-B) B fun x hx => by rw [meanAfter_zero]; exact hqr x hx)
  have hB0 : 0 ≤ B := (abs_nonneg m).trans hmB
  have hδ := h.pos
  have hδ1 := h.le_one
  -- the mean of the sum of deviations
  have hdev : ∀ n, ∀ y ∈ S, |∫ u, devSum K m n (y, u) ∂streams| ≤ 2 * B * r / δ := by
    intro n y hy
    have hi : ∀ k, Integrable (fun u => recorded K k (y, u)) streams := fun k =>
      bdd_integrable ((recorded_meas hK.meas k).comp measurable_prodMk_left) fun u => hB _
    have h1 : ∫ u, devSum K m n (y, u) ∂streams = ∑ k ∈ Finset.range n, (meanAfter (stateOf K) k (nextMean K) y - m) := by
      unfold devSum
      have hi' : ∀ k ∈ Finset.range n, Integrable (fun u => recorded K k (y, u) - m) streams := fun k _ => (hi k).sub (integrable_const m)
      rw [integral_finset_sum _ hi']
      refine Finset.sum_congr rfl fun k _ => ?_
      rw [integral_sub (hi k) (integrable_const m), recorded_mean h hK.meas hB]
      simp
    rw [h1]
    refine (Finset.abs_sum_le_sum_abs _ _).trans ?_
    refine (Finset.sum_le_sum fun k _ => h.converge (nextMean_meas hK.meas) hqB hqr hm k hy).trans ?_
    rw [← Finset.sum_mul]
    have h2 := sum_div_pow h.rpos (ρ := 1 - δ) (by linarith) (by linarith) n
    calc _ ≤ r / (1 - (1 - δ)) * (B - -B) := mul_le_mul_of_nonneg_right h2 (by linarith)
      _ = _ := by rw [sub_sub_cancel]; ring
  induction n with
  | zero => intro x _; simp [devSum]
  | succ n ih =>
    intro x hx
    set cl : ℝ → ℝ := fun t => max (-B) (min B t) with hcl
    have hclm : Measurable cl := measurable_const.max (measurable_const.min measurable_id)
    have hclb : ∀ r, |cl r| ≤ B := fun r => abs_le.2 ⟨le_max_left _ _, max_le (by linarith) (min_le_left _ _)⟩
    have hcle : ∀ p, cl (K p).1.2 = (K p).1.2 := fun p => by
      obtain ⟨h1, h2⟩ := abs_le.1 (hB p)
      simp [hcl, h1, h2]
    -- the three parts
    have hr : Measurable fun u => (K (x, u)).1.2 := (measurable_snd.comp measurable_fst).comp (hK.meas.comp measurable_prodMk_left)
    have hst : Measurable (stateOf K) := h.meas
    have hd : Measurable fun u => devSum K m n (stateOf K (x, u)) := (devSum_meas hK.meas m n).comp (hst.comp measurable_prodMk_left)
    have b1 : ∀ p, |(K p).1.2 - m| ≤ 2 * B := fun p => by
      have h1 := hB p
      rw [abs_le] at *
      constructor <;> linarith [h1.1, h1.2, hmB.1, hmB.2]
    have b2 := devSum_bound (K := K) hB hmB n
    have nn : (0 : ℝ) ≤ n * (2 * B) := by positivity
    have i1 : Integrable (fun u => ((K (x, u)).1.2 - m) ^ 2) streams :=
      bdd_integrable ((hr.sub_const m).pow_const 2) (B := (2 * B) ^ 2) fun u => by
        rw [abs_pow]; exact pow_le_pow_left₀ (abs_nonneg _) (b1 _) 2
    have i2 : Integrable (fun u => ((K (x, u)).1.2 - m) * devSum K m n (stateOf K (x, u))) streams :=
      bdd_integrable ((hr.sub_const m).mul hd) (B := (2 * B) * (n * (2 * B))) fun u => by
        rw [abs_mul]; exact mul_le_mul (b1 _) (b2 _) (abs_nonneg _) (by linarith)
    have i3 : Integrable (fun u => devSum K m n (stateOf K (x, u)) ^ 2) streams :=
      bdd_integrable (hd.pow_const 2) (B := (n * (2 * B)) ^ 2) fun u => by
        rw [abs_pow]; exact pow_le_pow_left₀ (abs_nonneg _) (b2 _) 2
    have e0 : ∀ u, devSum K m (n + 1) (x, u) ^ 2 = (((K (x, u)).1.2 - m) ^ 2 + 2 * (((K (x, u)).1.2 - m) * devSum K m n (stateOf K (x, u)))) +
        devSum K m n (stateOf K (x, u)) ^ 2 := fun u => by rw [devSum_succ]; ring
    have e1 : ∫ u, devSum K m (n + 1) (x, u) ^ 2 ∂streams = (∫ u, ((K (x, u)).1.2 - m) ^ 2 ∂streams +
        2 * ∫ u, ((K (x, u)).1.2 - m) * devSum K m n (stateOf K (x, u)) ∂streams) + ∫ u, devSum K m n (stateOf K (x, u)) ^ 2 ∂streams := by
      simp only [e0]
      have i12 : Integrable (fun u => ((K (x, u)).1.2 - m) ^ 2 + 2 * (((K (x, u)).1.2 - m) * devSum K m n (stateOf K (x, u)))) streams :=
        i1.add (i2.const_mul 2)
      rw [integral_add i12 i3, integral_add i1 (i2.const_mul 2), integral_const_mul]
    -- the square of the first
    have q1 : ∫ u, ((K (x, u)).1.2 - m) ^ 2 ∂streams ≤ 4 * B ^ 2 := by
      refine (le_abs_self _).trans ((mean_bound (B := (2 * B) ^ 2) fun u => ?_).trans (by nlinarith))
      rw [abs_pow]; exact pow_le_pow_left₀ (abs_nonneg _) (b1 _) 2
    -- the product
    have q2 : ∫ u, ((K (x, u)).1.2 - m) * devSum K m n (stateOf K (x, u)) ∂streams ≤ 2 * B * (2 * B * r / δ) := by
      have hG : Measurable fun w : (X × ℝ) × (ℕ → ℝ) => (cl w.1.2 - m) * devSum K m n (w.1.1, w.2) :=
        ((hclm.comp (measurable_snd.comp measurable_fst)).sub_const m).mul
          ((devSum_meas hK.meas m n).comp ((measurable_fst.comp measurable_fst).prodMk measurable_snd))
      have c1 : ∀ r, |cl r - m| ≤ 2 * B := fun r => by
        have h1 := hclb r
        rw [abs_le] at *
        constructor <;> linarith [h1.1, h1.2, hmB.1, hmB.2]
      have h1 := hK.integral x hG (B := (2 * B) * (n * (2 * B))) fun w => by
        rw [abs_mul]; exact mul_le_mul (c1 _) (b2 _) (abs_nonneg _) (by linarith)
      simp only [hcle] at h1
      have h2 : ∫ u, ((K (x, u)).1.2 - m) * devSum K m n (stateOf K (x, u)) ∂streams =
          ∫ u, ((K (x, u)).1.2 - m) * (∫ v, devSum K m n ((K (x, u)).1.1, v) ∂streams) ∂streams := by
        refine Eq.trans h1 ?_
        simp only [integral_const_mul]
      rw [h2]
      have h3 : ∀ᵐ u ∂streams, ‖((K (x, u)).1.2 - m) * (∫ v, devSum K m n ((K (x, u)).1.1, v) ∂streams)‖ ≤ 2 * B * (2 * B * r / δ) := by
        filter_upwards [h.stays 1 x hx] with u hu
        rw [norm_mul]
        exact mul_le_mul (b1 _) (hdev n _ hu) (norm_nonneg _) (by linarith)
      have h4 := norm_integral_le_of_norm_le_const h3
      refine (le_abs_self _).trans ?_
      simpa using h4
    -- the rest
    have q3 : ∫ u, devSum K m n (stateOf K (x, u)) ^ 2 ∂streams ≤ n * (12 * B ^ 2 * r / δ) := by
      obtain ⟨A', hA'⟩ := h.samples
      have h1 := hA'.integral x (G := fun p => devSum K m n p ^ 2) ((devSum_meas hK.meas m n).pow_const 2) (B := (n * (2 * B)) ^ 2) fun w => by
        rw [abs_pow]; exact pow_le_pow_left₀ (abs_nonneg _) (b2 _) 2
      rw [h1]
      have h3 : ∀ᵐ u ∂streams, ‖∫ v, devSum K m n ((stateOf K (x, u)).1, v) ^ 2 ∂streams‖ ≤ n * (12 * B ^ 2 * r / δ) := by
        filter_upwards [h.stays 1 x hx] with u hu
        rw [Real.norm_of_nonneg (integral_nonneg fun v => sq_nonneg _)]
        exact ih _ hu
      have h4 := norm_integral_le_of_norm_le_const h3
      refine (le_abs_self _).trans ?_
      simpa using h4
    rw [e1]
    have hr1 : (1 : ℝ) ≤ r := by exact_mod_cast h.rpos
    have q4 : 4 * B ^ 2 ≤ 4 * B ^ 2 * r / δ := by
      rw [le_div_iff₀ hδ]
      have : 4 * B ^ 2 * δ ≤ 4 * B ^ 2 * 1 := mul_le_mul_of_nonneg_left hδ1 (by positivity)
      have : 4 * B ^ 2 * 1 ≤ 4 * B ^ 2 * r := mul_le_mul_of_nonneg_left hr1 (by positivity)
      linarith
    have q5 : 2 * B * (2 * B * r / δ) = 4 * B ^ 2 * r / δ := by ring
    have q6 : ((n + 1 : ℕ) : ℝ) * (12 * B ^ 2 * r / δ) = n * (12 * B ^ 2 * r / δ) + 3 * (4 * B ^ 2 * r / δ) := by push_cast; ring
    rw [q6]
    linarith

end

end CTInt
