import Verif.Proofs.Minor
import Verif.Proofs.Average

/-!
# The limit of the means
-/

set_option linter.all false

namespace CTInt

open MeasureTheory Set

variable {K : Type} [RCLike K] [DecidableEq K]
variable {c : Ctx K} {beta : ℝ} {M : ℕ}

theorem ensemble_mono_live {F H : List Pt → ENNReal} (h : ∀ x ∈ Live c beta M, F x ≤ H x) : ensemble c beta M F ≤ ensemble c beta M H := by
  unfold ensemble
  refine Finset.sum_le_sum fun n hn => mul_le_mul_right (lintegral_mono_ae ?_) _
  filter_upwards [ae_validPts beta c.tbl n] with x hx
  by_cases hw : wt c (List.ofFn x) = 0
  · rw [density_eq, hw]; simp
  · exact mul_le_mul_right (h _ ⟨hx, by rw [List.length_ofFn]; have := Finset.mem_range.1 hn; omega, hw⟩) _

theorem ensemble_const (k : ENNReal) (hk : k ≠ ⊤) : ensemble c beta M (fun _ => k) = k * ensemble c beta M 1 := by
  unfold ensemble
  rw [Finset.mul_sum]
  refine Finset.sum_congr rfl fun n _ => ?_
  rw [← mul_assoc, mul_comm k, mul_assoc]
  congr 1
  rw [← lintegral_const_mul' _ _ hk]
  exact lintegral_congr fun x => by rw [Pi.one_apply, mul_one, mul_comm]

theorem ensemble_add (hG : MeasurableG0 c.G0) {F H : List Pt → ENNReal} (hF : Measurable F) :
    ensemble c beta M (fun x => F x + H x) = ensemble c beta M F + ensemble c beta M H := by
  unfold ensemble
  rw [← Finset.sum_add_distrib]
  refine Finset.sum_congr rfl fun n _ => ?_
  rw [← mul_add]
  congr 1
  have hm : Measurable fun x : Fin n → Pt => density c (List.ofFn x) * F (List.ofFn x) :=
    ((measurable_density hG).comp (measurable_ofFn n)).mul (hF.comp (measurable_ofFn n))
  rw [← lintegral_add_left hm]
  exact lintegral_congr fun x => by rw [mul_add]

/-- The value of `g` in the ensemble. -/
noncomputable def ensVal (c : Ctx K) (beta : ℝ) (M : ℕ) (g : List Pt → ℝ) : ℝ :=
  (configSum c beta M fun x => ‖wt c x‖ * g x) / (ensemble c beta M 1).toReal

theorem ensVal_shift {B : ℝ} (hB : ∀ a b, ‖c.G0 a b‖ ≤ B) (hG : MeasurableG0 c.G0) {g : List Pt → ℝ} (hg : Measurable g) {C : ℝ}
    (hC : ∀ x, |g x| ≤ C) :
    ensemble c beta M (fun x => ENNReal.ofReal (g x + C)) < ⊤ ∧
      (ensemble c beta M fun x => ENNReal.ofReal (g x + C)).toReal = (ensVal c beta M g + C) * (ensemble c beta M 1).toReal := by
  have hC0 : 0 ≤ C := (abs_nonneg _).trans (hC [])
  obtain ⟨⟨q1, q2⟩, q3⟩ := average_eq (c := c) hG (beta := beta) (M := M) (V := fun z : List Pt × (ℕ → ℝ) => g z.1) (hg.comp measurable_fst) (by
    intro n _
    refine ⟨(((n * rankBound c.tbl).factorial * (1 + B + alphaBound c.tbl) ^ (n * rankBound c.tbl)) ^ c.nf * uBound c.tbl ^ n) * C,
      fun x hx hn u => ?_⟩
    have h1 := wt_le hB hx
    rw [hn] at h1
    exact mul_le_mul h1 (hC x) (abs_nonneg _) ((norm_nonneg _).trans h1))
  simp only [lintegral_const, measure_univ, mul_one, integral_const, probReal_univ, smul_eq_mul, one_mul] at q1 q2 q3
  have hZ := ensemble_lt_top (beta := beta) hB M
  have hZ1 := one_le_ensemble c beta M
  have hZ0 : (ensemble c beta M 1).toReal ≠ 0 := (ENNReal.toReal_pos (by intro h; rw [h] at hZ1; simp at hZ1) hZ.ne).ne'
  have e1 : ensemble c beta M (fun x => ENNReal.ofReal (g x + C)) + ensemble c beta M (fun x => ENNReal.ofReal (-g x)) =
      ensemble c beta M (fun x => ENNReal.ofReal (g x)) + ENNReal.ofReal C * ensemble c beta M 1 := by
    have m1 : Measurable fun x => ENNReal.ofReal (g x) := ENNReal.measurable_ofReal.comp hg
    have m2 : Measurable fun x => ENNReal.ofReal (g x + C) := ENNReal.measurable_ofReal.comp (hg.add_const C)
    rw [← ensemble_const _ ENNReal.ofReal_ne_top, ← ensemble_add hG m1, ← ensemble_add hG m2]
    congr 1
    funext x
    have h2 := abs_le.1 (hC x)
    rcases le_total 0 (g x) with h | h
    · rw [ENNReal.ofReal_of_nonpos (show -g x ≤ 0 by linarith), add_zero, ENNReal.ofReal_add h hC0]
    · rw [ENNReal.ofReal_of_nonpos h, zero_add, ← ENNReal.ofReal_add (by linarith) (by linarith)]
      congr 1; ring
  have f1 : ensemble c beta M (fun x => ENNReal.ofReal (g x + C)) < ⊤ := by
    refine lt_of_le_of_lt le_self_add (b := _ + ensemble c beta M (fun x => ENNReal.ofReal (-g x))) ?_
    rw [e1]
    exact ENNReal.add_lt_top.2 ⟨q1, ENNReal.mul_lt_top ENNReal.ofReal_lt_top hZ⟩
  refine ⟨f1, ?_⟩
  have e2 := congrArg ENNReal.toReal e1
  rw [ENNReal.toReal_add f1.ne q2.ne, ENNReal.toReal_add q1.ne (ENNReal.mul_lt_top ENNReal.ofReal_lt_top hZ).ne, ENNReal.toReal_mul,
    ENNReal.toReal_ofReal hC0] at e2
  unfold ensVal
  rw [add_mul, div_mul_cancel₀ _ hZ0]
  linarith

/-- What is known of a program that keeps the ensemble. -/
structure KeepsEnsemble (c : Ctx K) (beta : ℝ) (M : ℕ) (f : List Pt × (ℕ → ℝ) → List Pt × (ℕ → ℝ)) : Prop where
  law : ∃ A, Samples f A ∧ ∀ F, Nice F → Nice (A F) ∧ ensemble c beta M (A F) = ensemble c beta M F

theorem KeepsEnsemble.iterate {f : List Pt × (ℕ → ℝ) → List Pt × (ℕ → ℝ)} (h : KeepsEnsemble c beta M f) (n : ℕ) :
    KeepsEnsemble c beta M f^[n] := by
  obtain ⟨A, h1, h2⟩ := h.law
  refine ⟨⟨_, h1.iterate n, fun F hF => ?_⟩⟩
  induction n with
  | zero => exact ⟨hF, rfl⟩
  | succ n ih =>
    rw [Function.iterate_succ_apply']
    obtain ⟨q1, q2⟩ := h2 _ ih.1
    exact ⟨q1, q2.trans ih.2⟩

/-- The value in the ensemble lies between any bounds of the means. -/
theorem KeepsEnsemble.between {B : ℝ} (hB : ∀ a b, ‖c.G0 a b‖ ≤ B) (hG : MeasurableG0 c.G0)
    {f : List Pt × (ℕ → ℝ) → List Pt × (ℕ → ℝ)} (h : KeepsEnsemble c beta M f) {g : List Pt → ℝ} (hg : Measurable g) {C : ℝ}
    (hC : ∀ x, |g x| ≤ C) (hs : ∀ x y : List Pt, x.Perm y → g x = g y) {a b : ℝ}
    (hab : ∀ x ∈ Live c beta M, a ≤ ∫ u, g (f (x, u)).1 ∂streams ∧ ∫ u, g (f (x, u)).1 ∂streams ≤ b) :
    a ≤ ensVal c beta M g ∧ ensVal c beta M g ≤ b := by
  obtain ⟨A, h1, h2⟩ := h.law
  have hN : Nice fun x => ENNReal.ofReal (g x + C) :=
    ⟨ENNReal.measurable_ofReal.comp (hg.add_const C), fun x y hxy => by rw [hs x y hxy]⟩
  have e0 := (h2 _ hN).2
  obtain ⟨f1, f2⟩ := ensVal_shift (c := c) (beta := beta) (M := M) hB hG hg hC
  have hA : ∀ x, A (fun x => ENNReal.ofReal (g x + C)) x = ENNReal.ofReal (∫ u, g (f (x, u)).1 ∂streams + C) := by
    intro x
    have h3 := h1.law (fun z => ENNReal.ofReal (g z.1 + C)) (ENNReal.measurable_ofReal.comp ((hg.comp measurable_fst).add_const C)) x
    simp only [lintegral_const, measure_univ, mul_one] at h3
    rw [← h3]
    have hi : Integrable (fun u => g (f (x, u)).1) streams := bdd_integrable (hg.comp (fst_meas h1.meas x)) fun u => hC _
    have hi2 : Integrable (fun u => g (f (x, u)).1 + C) streams := hi.add (integrable_const C)
    rw [← ofReal_integral_eq_lintegral_ofReal hi2 (Filter.Eventually.of_forall fun u => by
      have := abs_le.1 (hC (f (x, u)).1)
      simp only [Pi.zero_apply]
      linarith), integral_add hi (integrable_const C)]
    simp
  have hZ := ensemble_lt_top (beta := beta) hB M
  have hZ1 := one_le_ensemble c beta M
  have hZ0 : 0 < (ensemble c beta M 1).toReal := ENNReal.toReal_pos (by intro h; rw [h] at hZ1; simp at hZ1) hZ.ne
  -- both bounds
  have hnil : ([] : List Pt) ∈ Live c beta M := ⟨by intro p hp; simp at hp, by simp, by rw [wt_nil]; simp⟩
  have hm : ∀ x, |∫ u, g (f (x, u)).1 ∂streams| ≤ C := fun x => mean_bound fun u => hC _
  have hbC : 0 ≤ b + C := by have := (hab [] hnil).2; have := (abs_le.1 (hm [])).1; linarith
  have u1 : ensemble c beta M (fun x => ENNReal.ofReal (g x + C)) ≤ ENNReal.ofReal (b + C) * ensemble c beta M 1 := by
    rw [← e0, ← ensemble_const _ ENNReal.ofReal_ne_top]
    refine ensemble_mono_live fun x hx => ?_
    rw [hA]
    exact ENNReal.ofReal_le_ofReal (by linarith [(hab x hx).2])
  have l1 : ENNReal.ofReal (a + C) * ensemble c beta M 1 ≤ ensemble c beta M (fun x => ENNReal.ofReal (g x + C)) := by
    rw [← e0, ← ensemble_const _ ENNReal.ofReal_ne_top]
    refine ensemble_mono_live fun x hx => ?_
    rw [hA]
    exact ENNReal.ofReal_le_ofReal (by linarith [(hab x hx).1])
  constructor
  · have := ENNReal.toReal_mono f1.ne l1
    rw [f2, ENNReal.toReal_mul] at this
    have h3 := le_of_mul_le_mul_right this hZ0
    have h4 : a + C ≤ (ENNReal.ofReal (a + C)).toReal := by rw [ENNReal.toReal_ofReal']; exact le_max_left _ _
    linarith
  · have := ENNReal.toReal_mono (ENNReal.mul_lt_top ENNReal.ofReal_lt_top hZ).ne u1
    rw [f2, ENNReal.toReal_mul, ENNReal.toReal_ofReal hbC] at this
    have h3 := le_of_mul_le_mul_right this hZ0
    linarith

theorem KeepsEnsemble.centre {B : ℝ} (hB : ∀ a b, ‖c.G0 a b‖ ≤ B) (hG : MeasurableG0 c.G0)
    {f : List Pt × (ℕ → ℝ) → List Pt × (ℕ → ℝ)} (h : KeepsEnsemble c beta M f) {g : List Pt → ℝ} (hg : Measurable g) {C : ℝ}
    (hC : ∀ x, |g x| ≤ C) (hs : ∀ x y : List Pt, x.Perm y → g x = g y) : Centre f (Live c beta M) g (ensVal c beta M g) :=
  fun n _ _ hab => (h.iterate n).between hB hG hg hC hs hab

end CTInt
