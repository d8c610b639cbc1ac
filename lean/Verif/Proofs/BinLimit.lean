import Verif.Proofs.LegendreLimit

/-!
# Sums over bins
-/

set_option linter.all false

namespace CTInt

open Filter

/-- A function taken at the centre of every bin, times the integral of another one over the bin. -/
theorem bin_limit {β : ℝ} (hβ : 0 < β) {f : ℝ → ℝ} (hf : Continuous f) {S : ℝ → ℂ} (hS : Continuous S) :
    Tendsto (fun m : ℕ => ∑ i ∈ Finset.range m, ((f (β * (i + 1 / 2) / m) : ℝ) : ℂ) * ∫ u in (β * i / m)..(β * (i + 1) / m), S u) atTop
      (nhds (∫ u in (0 : ℝ)..β, ((f u : ℝ) : ℂ) * S u)) := by
  obtain ⟨B, hB⟩ : ∃ B, B = 1 + ∫ u in (0 : ℝ)..β, ‖S u‖ := ⟨_, rfl⟩
  have hB0 : 0 ≤ ∫ u in (0 : ℝ)..β, ‖S u‖ := intervalIntegral.integral_nonneg hβ.le fun τ _ => norm_nonneg _
  have hBp : 0 < B := by linarith
  rw [Metric.tendsto_atTop]
  intro ε hε
  have huc := (isCompact_Icc (a := (0 : ℝ)) (b := β)).uniformContinuousOn_of_continuous hf.continuousOn
  rw [Metric.uniformContinuousOn_iff] at huc
  obtain ⟨δ, hδ, hd⟩ := huc (ε / B) (by positivity)
  obtain ⟨N, hN⟩ := exists_nat_gt (β / δ)
  refine ⟨N + 1, fun m hm => ?_⟩
  have hm0 : (0 : ℝ) < m := by exact_mod_cast (show 0 < m by omega)
  have hbm : β / m < δ := by
    rw [div_lt_iff₀ hm0]
    rw [div_lt_iff₀ hδ] at hN
    have : (N : ℝ) ≤ m := by exact_mod_cast (show N ≤ m by omega)
    nlinarith
  have cfS : Continuous fun u : ℝ => ((f u : ℝ) : ℂ) * S u := (Complex.continuous_ofReal.comp hf).mul hS
  obtain ⟨a, ha⟩ : ∃ a : ℕ → ℝ, a = fun i : ℕ => β * i / m := ⟨_, rfl⟩
  have ha1 : ∀ i : ℕ, β * (i + 1) / m = a (i + 1) := fun i => by rw [ha]; push_cast; rfl
  have ha0 : ∀ i : ℕ, β * i / m = a i := fun i => by rw [ha]
  have e0 : a 0 = 0 := by rw [ha]; simp
  have em : a m = β := by rw [ha]; field_simp
  have hstep : ∀ i, a (i + 1) = a i + β / m := fun i => by rw [ha]; push_cast; ring
  have hle : ∀ i, a i ≤ a (i + 1) := fun i => by rw [hstep]; have := div_pos hβ hm0; linarith
  have hmono : Monotone a := monotone_nat_of_le_succ hle
  have e1 : ∫ u in (0 : ℝ)..β, ((f u : ℝ) : ℂ) * S u = ∑ i ∈ Finset.range m, ∫ u in (a i)..(a (i + 1)), ((f u : ℝ) : ℂ) * S u := by
    rw [intervalIntegral.sum_integral_adjacent_intervals fun k _ => cfS.intervalIntegrable _ _, e0, em]
  have e2 : ∫ u in (0 : ℝ)..β, ‖S u‖ = ∑ i ∈ Finset.range m, ∫ u in (a i)..(a (i + 1)), ‖S u‖ := by
    rw [intervalIntegral.sum_integral_adjacent_intervals fun k _ => hS.norm.intervalIntegrable _ _, e0, em]
  simp only [ha1, ha0]
  rw [dist_eq_norm, e1, ← Finset.sum_sub_distrib]
  have hterm : ∀ i ∈ Finset.range m, ‖((f (β * (i + 1 / 2) / m) : ℝ) : ℂ) * (∫ u in (a i)..(a (i + 1)), S u) - ∫ u in (a i)..(a (i + 1)), ((f u : ℝ) : ℂ) * S u‖ ≤
      ε / B * ∫ u in (a i)..(a (i + 1)), ‖S u‖ := by
    intro i hi
    have him : i + 1 ≤ m := Finset.mem_range.1 hi
    have cc : Continuous fun u : ℝ => ((f (β * (i + 1 / 2) / m) : ℝ) : ℂ) * S u := continuous_const.mul hS
    rw [← intervalIntegral.integral_const_mul, ← intervalIntegral.integral_sub (cc.intervalIntegrable _ _) (cfS.intervalIntegrable _ _),
      ← intervalIntegral.integral_const_mul]
    refine (intervalIntegral.norm_integral_le_integral_norm (hle i)).trans ?_
    refine intervalIntegral.integral_mono_on (hle i) ((show Continuous fun u : ℝ => ‖((f (β * (i + 1 / 2) / m) : ℝ) : ℂ) * S u - ((f u : ℝ) : ℂ) * S u‖ from (cc.sub cfS).norm).intervalIntegrable _ _)
      ((continuous_const.mul hS.norm).intervalIntegrable _ _) fun u hu => ?_
    rw [← sub_mul, norm_mul]
    refine mul_le_mul_of_nonneg_right ?_ (norm_nonneg _)
    have hb0 : 0 ≤ a i := e0 ▸ hmono (Nat.zero_le i)
    have hb1 : a (i + 1) ≤ β := em ▸ hmono him
    have hmid : β * (i + 1 / 2) / m = a i + β / m / 2 := by rw [ha]; ring
    have hpos := div_pos hβ hm0
    rw [hstep] at hu hb1
    have := hd (β * (i + 1 / 2) / m) (by rw [hmid]; exact ⟨by linarith, by linarith⟩) u ⟨by linarith [hu.1], by linarith [hu.2]⟩
      (by rw [hmid, Real.dist_eq, abs_lt]; exact ⟨by linarith [hu.2], by linarith [hu.1]⟩)
    rw [← Complex.ofReal_sub, Complex.norm_real, ← dist_eq_norm]
    exact this.le
  refine (norm_sum_le _ _).trans_lt ((Finset.sum_le_sum hterm).trans_lt ?_)
  rw [← Finset.mul_sum, ← e2]
  calc ε / B * ∫ u in (0 : ℝ)..β, ‖S u‖ < ε / B * B := mul_lt_mul_of_pos_left (by linarith) (by positivity)
    _ = ε := by field_simp

/-- The Fourier transform of an expansion is a finite sum: it follows limits of the coefficients. -/
theorem fourier_expansion_coeffs {β : ℝ} (nl k : ℕ) {ι : Type} {F : Filter ι} {s : ι → ℕ → ℂ} {s' : ℕ → ℂ} (h : ∀ l < nl, Tendsto (fun j => s j l) F (nhds (s' l))) :
    Tendsto (fun j => fourier β (expansion β nl (s j)) k) F (nhds (fourier β (expansion β nl s') k)) := by
  have e : ∀ t : ℕ → ℂ, fourier β (expansion β nl t) k = ∑ l ∈ Finset.range nl,
      (∫ τ in (0 : ℝ)..β, Complex.exp (Complex.I * omega β k * τ) * ((Real.sqrt (2 * l + 1) / β * (legendreP l).eval (2 * τ / β - 1) : ℝ) : ℂ)) * t l := by
    intro t
    unfold fourier expansion
    simp only [Finset.mul_sum]
    have hc : ∀ l : ℕ, Continuous fun τ : ℝ => Complex.exp (Complex.I * omega β k * τ) * (((Real.sqrt (2 * l + 1) / β * (legendreP l).eval (2 * τ / β - 1) : ℝ) : ℂ) * t l) := fun l =>
      (cont_exp _).mul ((Complex.continuous_ofReal.comp (continuous_const.mul ((legendreP l).continuous.comp (by fun_prop)))).mul continuous_const)
    rw [intervalIntegral.integral_finset_sum fun l _ => (hc l).intervalIntegrable _ _]
    refine Finset.sum_congr rfl fun l _ => ?_
    rw [← intervalIntegral.integral_mul_const]
    exact intervalIntegral.integral_congr fun τ _ => by ring
  simp only [e]
  exact tendsto_finset_sum _ fun l hl => (h l (Finset.mem_range.1 hl)).const_mul _

end CTInt
