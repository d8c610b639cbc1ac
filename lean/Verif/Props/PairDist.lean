import Verif.Model.Random
import Mathlib.Analysis.SpecialFunctions.Integrals.Basic
import Mathlib.MeasureTheory.Measure.Lebesgue.Integral
import Mathlib.Tactic.Linarith
import Mathlib.Tactic.FieldSimp
import Mathlib.Tactic.Ring
import Mathlib.Tactic.Positivity

/-!
# C34: the distribution of the distance of a vertex pair
-/

set_option linter.all false

namespace CTInt
namespace PairDist

/-- Usable parameters. -/
structure OK (d : PairDist) : Prop where
  a : d.a ≠ 0
  b : 0 ≤ d.b
  beta : 0 < d.beta

variable {d : PairDist}

theorem pos_term (h : d.OK) : 0 < 2 / d.a * (1 - Real.exp (-d.a * d.beta)) := by
  rcases lt_or_gt_of_ne h.a with ha | ha
  · have h1 : 0 < -d.a * d.beta := by have := h.beta; nlinarith
    have h2 : 1 < Real.exp (-d.a * d.beta) := Real.one_lt_exp_iff.mpr h1
    have h3 : 2 / d.a < 0 := div_neg_of_pos_of_neg (by norm_num) ha
    nlinarith
  · have h1 : -d.a * d.beta < 0 := by have := h.beta; nlinarith
    have h2 : Real.exp (-d.a * d.beta) < 1 := Real.exp_lt_one_iff.mpr h1
    have h3 : 0 < 2 / d.a := by positivity
    nlinarith

theorem norm_pos (h : d.OK) : 0 < 2 / d.a * (1 - Real.exp (-d.a * d.beta)) + d.b * d.beta := by
  have h1 := pos_term h
  have h2 := mul_nonneg h.b h.beta.le
  linarith

theorem coeff_pos (h : d.OK) : 0 < d.coeff := one_div_pos.mpr (norm_pos h)

theorem bare_pos (h : d.OK) (t : ℝ) : 0 < d.bare t := by
  have h1 := Real.exp_pos (-d.a * t)
  have h2 := Real.exp_pos (-d.a * (d.beta - t))
  have h3 := h.b
  unfold bare
  linarith

theorem bare_continuous (d : PairDist) : Continuous d.bare := by
  unfold bare
  fun_prop

theorem integral_bare (h : d.OK) : ∫ t in (0 : ℝ)..d.beta, d.bare t =
    2 / d.a * (1 - Real.exp (-d.a * d.beta)) + d.b * d.beta := by
  have i1 : ∫ t in (0 : ℝ)..d.beta, Real.exp (-d.a * t) = 1 / d.a * (1 - Real.exp (-d.a * d.beta)) := by
    rw [intervalIntegral.integral_comp_mul_left (fun x => Real.exp x) (neg_ne_zero.mpr h.a), integral_exp]
    have := h.a
    simp only [mul_zero, Real.exp_zero, smul_eq_mul]
    field_simp
    ring
  have i2 : ∫ t in (0 : ℝ)..d.beta, Real.exp (-d.a * (d.beta - t)) = 1 / d.a * (1 - Real.exp (-d.a * d.beta)) := by
    rw [intervalIntegral.integral_comp_sub_left (fun x => Real.exp (-d.a * x)), sub_self, sub_zero, i1]
  unfold bare
  rw [intervalIntegral.integral_add, intervalIntegral.integral_add, i1, i2, intervalIntegral.integral_const]
  · simp only [sub_zero, smul_eq_mul]; ring
  all_goals (apply Continuous.intervalIntegrable; fun_prop)

end PairDist

open PairDist

/-- C34: the density is normalised on [0,beta]. -/
theorem C34_normalised {d : PairDist} (h : d.OK) : ∫ t in (0 : ℝ)..d.beta, d.density t = 1 := by
  unfold PairDist.density
  rw [intervalIntegral.integral_const_mul, integral_bare h]
  unfold PairDist.coeff
  rw [one_div, inv_mul_cancel₀ (norm_pos h).ne']

/-- C34: it is positive, and symmetric under `t → beta - t`. -/
theorem C34_symmetric {d : PairDist} (h : d.OK) (t : ℝ) : 0 < d.density t ∧ d.density (d.beta - t) = d.density t := by
  refine ⟨mul_pos (coeff_pos h) (bare_pos h t), ?_⟩
  unfold PairDist.density PairDist.bare
  rw [sub_sub_cancel, add_comm (Real.exp (-d.a * (d.beta - t)))]

/-- C34: on [0,beta] it is largest at 0. -/
theorem C34_maximum {d : PairDist} (h : d.OK) {t : ℝ} (h0 : 0 ≤ t) (h1 : t ≤ d.beta) : d.density t ≤ d.density 0 := by
  unfold PairDist.density
  refine mul_le_mul_of_nonneg_left ?_ (coeff_pos h).le
  unfold PairDist.bare
  rw [mul_zero, Real.exp_zero, sub_zero]
  have e : Real.exp (-d.a * d.beta) = Real.exp (-d.a * t) * Real.exp (-d.a * (d.beta - t)) := by
    rw [← Real.exp_add]; congr 1; ring
  rw [e]
  obtain ⟨x, hx⟩ : ∃ x, x = Real.exp (-d.a * t) := ⟨_, rfl⟩
  obtain ⟨y, hy⟩ : ∃ y, y = Real.exp (-d.a * (d.beta - t)) := ⟨_, rfl⟩
  rw [← hx, ← hy]
  rcases lt_or_gt_of_ne h.a with ha | ha
  · have hx1 : 1 ≤ x := by rw [hx]; exact Real.one_le_exp (by nlinarith)
    have hy1 : 1 ≤ y := by rw [hy]; exact Real.one_le_exp (by nlinarith)
    nlinarith
  · have hx1 : x ≤ 1 := by rw [hx]; exact Real.exp_le_one_iff.mpr (by nlinarith)
    have hy1 : y ≤ 1 := by rw [hy]; exact Real.exp_le_one_iff.mpr (by nlinarith)
    nlinarith

/-- C34: the two prefactors belong together. -/
theorem C34_prefactors {d : PairDist} (h : d.OK) : d.coeff * d.coeffX * d.beta = 1 := by
  have e : d.coeffX * d.beta = 2 / d.a * (1 - Real.exp (-d.a * d.beta)) + d.b * d.beta := by
    unfold PairDist.coeffX
    have h1 := h.a
    have h2 := h.beta.ne'
    field_simp
  rw [mul_assoc, e]
  unfold PairDist.coeff
  rw [one_div, inv_mul_cancel₀ (norm_pos h).ne']

/-- C34: rejection sampling with the bound at 0 never meets the failing assertion, and returns the first `beta * u q`
    (at an even offset `q`) that passes the test; it is in [0,beta). -/
theorem C34_rejection {d : PairDist} (h : d.OK) {u : ℕ → ℝ} (hu : ∀ k, 0 ≤ u k ∧ u k < 1) (fuel p : ℕ) :
    (rejection d.density (d.density 0) d.beta u fuel p = .more ∧
        ∀ k < fuel, d.density (d.beta * u (p + 2 * k)) ≤ u (p + 2 * k + 1) * d.density 0) ∨
    ∃ k < fuel, rejection d.density (d.density 0) d.beta u fuel p = .ok (d.beta * u (p + 2 * k), p + 2 * k + 2) ∧
      u (p + 2 * k + 1) * d.density 0 < d.density (d.beta * u (p + 2 * k)) ∧
      (∀ j < k, d.density (d.beta * u (p + 2 * j)) ≤ u (p + 2 * j + 1) * d.density 0) ∧
      0 ≤ d.beta * u (p + 2 * k) ∧ d.beta * u (p + 2 * k) < d.beta := by
  have hb := h.beta
  have hmax : 0 < d.density 0 := (C34_symmetric h 0).1
  have rng : ∀ k, 0 ≤ d.beta * u k ∧ d.beta * u k < d.beta := fun k =>
    ⟨mul_nonneg hb.le (hu k).1, by nlinarith [(hu k).2]⟩
  induction fuel generalizing p with
  | zero => exact Or.inl ⟨rfl, fun k hk => by omega⟩
  | succ f ih =>
    unfold rejection
    simp only []
    rw [Run.assert_true (C34_maximum h (rng p).1 (rng p).2.le)]
    simp only [Run.bind_ok]
    have htest : u (p + 1) < 1 / d.density 0 * d.density (d.beta * u p) ↔
        u (p + 1) * d.density 0 < d.density (d.beta * u p) := by
      rw [one_div, ← div_eq_inv_mul, lt_div_iff₀ hmax]
    by_cases ht : u (p + 1) < 1 / d.density 0 * d.density (d.beta * u p)
    · rw [if_pos ht]
      exact Or.inr ⟨0, by omega, rfl, htest.mp ht, fun j hj => by omega, rng p⟩
    · rw [if_neg ht]
      have hrej : d.density (d.beta * u p) ≤ u (p + 1) * d.density 0 := not_lt.mp fun q => ht (htest.mpr q)
      rcases ih (p + 2) with ⟨e, q⟩ | ⟨k, hk, e, q1, q2, q3⟩
      · refine Or.inl ⟨e, ?_⟩
        intro k hk
        rcases k with _ | k
        · exact hrej
        · have := q k (by omega)
          rw [show p + 2 + 2 * k = p + 2 * (k + 1) by ring] at this
          exact this
      · rw [show p + 2 + 2 * k = p + 2 * (k + 1) by ring] at e q1 q3
        refine Or.inr ⟨k + 1, by omega, e, q1, ?_, q3⟩
        intro j hj
        rcases j with _ | j
        · exact hrej
        · have := q2 j (by omega)
          rw [show p + 2 + 2 * j = p + 2 * (j + 1) by ring] at this
          exact this

open MeasureTheory in
/-- C34: hence the returned times follow the density.  For points `(x,y)` uniform on [0,beta] × [0,1], the area of
    those that pass the test with `x` in a set `A` is `∫_A density / density 0`; for `A = [0,beta]` it is
    `1 / density 0`.  So the probability of `x ∈ A` given acceptance is `∫_A density`. -/
theorem C34_law {d : PairDist} (h : d.OK) {A : Set ℝ} (hA : MeasurableSet A) (hs : A ⊆ Set.Icc 0 d.beta) :
    volume {z : ℝ × ℝ | z.1 ∈ A ∧ 0 < z.2 ∧ z.2 < 1 / d.density 0 * d.density z.1} =
      ENNReal.ofReal ((∫ t in A, d.density t) / d.density 0) ∧
    volume {z : ℝ × ℝ | z.1 ∈ Set.Icc 0 d.beta ∧ 0 < z.2 ∧ z.2 < 1 / d.density 0 * d.density z.1} =
      ENNReal.ofReal (1 / d.density 0) := by
  have hmax : 0 < d.density 0 := (C34_symmetric h 0).1
  have hcont : Continuous d.density := by
    unfold PairDist.density
    exact continuous_const.mul (bare_continuous d)
  have main : ∀ B : Set ℝ, MeasurableSet B → B ⊆ Set.Icc 0 d.beta →
      volume {z : ℝ × ℝ | z.1 ∈ B ∧ 0 < z.2 ∧ z.2 < 1 / d.density 0 * d.density z.1} =
      ENNReal.ofReal ((∫ t in B, d.density t) / d.density 0) := by
    intro B hB hBs
    have hint : IntegrableOn (fun x => 1 / d.density 0 * d.density x) B :=
      ((continuous_const.mul hcont).integrableOn_Icc (a := 0) (b := d.beta)).mono_set hBs
    have := volume_regionBetween_eq_integral (μ := volume) (f := fun _ => (0 : ℝ))
      (g := fun x => 1 / d.density 0 * d.density x) (s := B) integrableOn_zero hint hB
      (fun x _ => by have := (C34_symmetric h x).1; positivity)
    have e : {z : ℝ × ℝ | z.1 ∈ B ∧ 0 < z.2 ∧ z.2 < 1 / d.density 0 * d.density z.1} =
        regionBetween (fun _ => (0 : ℝ)) (fun x => 1 / d.density 0 * d.density x) B := by
      ext z
      simp [regionBetween]
    rw [e, Measure.volume_eq_prod, this]
    congr 1
    simp only [Pi.sub_apply, sub_zero]
    rw [integral_const_mul]
    ring
  refine ⟨main A hA hs, ?_⟩
  rw [main _ measurableSet_Icc le_rfl]
  congr 2
  rw [integral_Icc_eq_integral_Ioc, ← intervalIntegral.integral_of_le h.beta.le]
  exact C34_normalised h

/-- Usable parameters exist. -/
example : (⟨3, 1 / 2, 10⟩ : PairDist).OK := ⟨by norm_num, by norm_num, by norm_num⟩

end CTInt
