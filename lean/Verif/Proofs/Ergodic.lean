import Verif.Proofs.MeanSquare
import Verif.Proofs.RecordStep
import Mathlib.Dynamics.Ergodic.MeasurePreserving
import Mathlib.MeasureTheory.Constructions.Cylinders
import Mathlib.MeasureTheory.Integral.Bochner.Set
import Mathlib.MeasureTheory.Integral.Prod

/-!
# Averages over a stationary sequence

The maximal inequality for sums of an integrable function along a map that preserves a measure.
-/

set_option linter.all false

namespace CTInt

open MeasureTheory Set Filter

section maximal
variable {Ω : Type} [MeasurableSpace Ω] {μ : Measure Ω} {T : Ω → Ω} {g : Ω → ℝ}

/-- The largest of the sums of at most `n` terms. -/
noncomputable def maxSum (T : Ω → Ω) (g : Ω → ℝ) : ℕ → Ω → ℝ
  | 0, _ => 0
  | n + 1, x => max 0 (g x + maxSum T g n (T x))

theorem maxSum_nonneg (n : ℕ) (x : Ω) : 0 ≤ maxSum T g n x := by
  cases n with
  | zero => exact le_refl _
  | succ n => exact le_max_left _ _

theorem maxSum_mono (n : ℕ) (x : Ω) : maxSum T g n x ≤ maxSum T g (n + 1) x := by
  induction n generalizing x with
  | zero => exact maxSum_nonneg _ x
  | succ n ih =>
    exact max_le_max (le_refl _) (by linarith [ih (T x)])

theorem maxSum_meas (hT : Measurable T) (hg : Measurable g) (n : ℕ) : Measurable (maxSum T g n) := by
  induction n with
  | zero => exact measurable_const
  | succ n ih => exact measurable_const.max (hg.add (ih.comp hT))

theorem maxSum_integrable (hT : MeasurePreserving T μ μ) (hi : Integrable g μ) (n : ℕ) :
    Integrable (maxSum T g n) μ := by
  induction n with
  | zero => exact integrable_zero _ _ _
  | succ n ih => exact (integrable_zero _ _ _).sup (hi.add (hT.integrable_comp_of_integrable ih))

theorem maxSum_step (n : ℕ) (x : Ω) (h : 0 < maxSum T g n x) : maxSum T g n x ≤ maxSum T g n (T x) + g x := by
  cases n with
  | zero => exact absurd h (lt_irrefl _)
  | succ n =>
    have h1 : maxSum T g (n + 1) x = g x + maxSum T g n (T x) := by
      show max 0 (g x + maxSum T g n (T x)) = _
      refine max_eq_right ?_
      by_contra hc
      have : maxSum T g (n + 1) x = 0 := max_eq_left (le_of_not_ge hc)
      linarith
    rw [h1]
    linarith [maxSum_mono (T := T) (g := g) n (T x)]

/-- The maximal inequality. -/
theorem maximal (hT : MeasurePreserving T μ μ) (hg : Measurable g) (hi : Integrable g μ) :
    0 ≤ ∫ x in {x | ∃ n, 0 < maxSum T g n x}, g x ∂μ := by
  have hE : ∀ n, MeasurableSet {x | 0 < maxSum T g n x} := fun n =>
    measurableSet_lt measurable_const (maxSum_meas hT.measurable hg n)
  have hmono : Monotone fun n => {x | 0 < maxSum T g n x} :=
    monotone_nat_of_le_succ fun n x hx => lt_of_lt_of_le hx (maxSum_mono n x)
  have hU : {x | ∃ n, 0 < maxSum T g n x} = ⋃ n, {x | 0 < maxSum T g n x} := by
    ext x; simp
  have hn : ∀ n, 0 ≤ ∫ x in {x | 0 < maxSum T g n x}, g x ∂μ := by
    intro n
    have iM := maxSum_integrable hT hi n
    have iMT : Integrable (fun x => maxSum T g n (T x)) μ := hT.integrable_comp_of_integrable iM
    have e1 : ∫ x in {x | 0 < maxSum T g n x}, maxSum T g n x ∂μ = ∫ x, maxSum T g n x ∂μ := by
      refine setIntegral_eq_integral_of_forall_compl_eq_zero fun x hx => ?_
      exact le_antisymm (not_lt.1 hx) (maxSum_nonneg n x)
    have e2 : ∫ x in {x | 0 < maxSum T g n x}, maxSum T g n (T x) ∂μ ≤ ∫ x, maxSum T g n (T x) ∂μ :=
      setIntegral_le_integral iMT (Eventually.of_forall fun x => maxSum_nonneg n (T x))
    have e3 : ∫ x, maxSum T g n (T x) ∂μ = ∫ x, maxSum T g n x ∂μ := by
      have := integral_map (μ := μ) hT.measurable.aemeasurable (f := maxSum T g n)
        (maxSum_meas hT.measurable hg n).aestronglyMeasurable
      rw [hT.map_eq] at this
      exact this.symm
    have e4 : ∫ x in {x | 0 < maxSum T g n x}, maxSum T g n x ∂μ ≤
        ∫ x in {x | 0 < maxSum T g n x}, (maxSum T g n (T x) + g x) ∂μ :=
      setIntegral_mono_on iM.integrableOn (iMT.add hi).integrableOn (hE n) fun x hx => maxSum_step n x hx
    rw [integral_add iMT.integrableOn hi.integrableOn] at e4
    linarith
  rw [hU]
  exact ge_of_tendsto' (tendsto_setIntegral_of_monotone hE hmono hi.integrableOn) hn

end maximal

/-! ## Sequences -/

/-- The sequence without its first term. -/
def shiftS (w : ℕ → ℝ) : ℕ → ℝ := fun j => w (j + 1)

theorem shiftS_meas : Measurable shiftS := measurable_pi_lambda _ fun j => measurable_pi_apply (j + 1)

theorem sum_shiftS (w : ℕ → ℝ) (n : ℕ) : ∑ j ∈ Finset.range n, shiftS w j = ∑ j ∈ Finset.range (n + 1), w j - w 0 := by
  rw [Finset.sum_range_succ' w n]; simp [shiftS]

/-- The sums exceed `a` per term, by a fixed amount per term, again and again. -/
def above (a : ℝ) : Set (ℕ → ℝ) :=
  {w | ∃ k : ℕ, ∀ N : ℕ, ∃ n : ℕ, N ≤ n ∧ (a + 1 / (k + 1 : ℝ)) * n < ∑ j ∈ Finset.range n, w j}

theorem above_meas (a : ℝ) : MeasurableSet (above a) := by
  have : above a = ⋃ k : ℕ, ⋂ N : ℕ, ⋃ n : ℕ, {w | N ≤ n ∧ (a + 1 / (k + 1 : ℝ)) * n < ∑ j ∈ Finset.range n, w j} := by
    ext w; simp [above]
  rw [this]
  refine MeasurableSet.iUnion fun k => MeasurableSet.iInter fun N => MeasurableSet.iUnion fun n => ?_
  have h1 : Measurable fun w : ℕ → ℝ => ∑ j ∈ Finset.range n, w j := Finset.measurable_sum _ fun j _ => measurable_pi_apply j
  exact (MeasurableSet.const (N ≤ n)).inter (measurableSet_lt measurable_const h1)

theorem gap_pos (k : ℕ) : (0 : ℝ) < 1 / ((k : ℝ) + 1) - 1 / (((k + 1 : ℕ) : ℝ) + 1) := by
  have hk : (0 : ℝ) ≤ k := Nat.cast_nonneg k
  have : 1 / (((k + 1 : ℕ) : ℝ) + 1) < 1 / ((k : ℝ) + 1) := by
    apply one_div_lt_one_div_of_lt
    · linarith
    · push_cast; linarith
  linarith

theorem above_shift (a : ℝ) (w : ℕ → ℝ) : shiftS w ∈ above a ↔ w ∈ above a := by
  constructor
  · rintro ⟨k, hk⟩
    refine ⟨k + 1, fun N => ?_⟩
    have hd := gap_pos k
    set d := 1 / ((k : ℝ) + 1) - 1 / (((k + 1 : ℕ) : ℝ) + 1) with hdd
    obtain ⟨N', hN'⟩ := exists_nat_ge (((a + 1 / (((k + 1 : ℕ) : ℝ) + 1)) - w 0) / d)
    obtain ⟨n, hn, hs⟩ := hk (max N N')
    refine ⟨n + 1, by have := le_max_left N N'; omega, ?_⟩
    rw [sum_shiftS] at hs
    have h1 : ((a + 1 / (((k + 1 : ℕ) : ℝ) + 1)) - w 0) / d ≤ n :=
      hN'.trans (by exact_mod_cast (le_max_right N N').trans hn)
    rw [div_le_iff₀ hd] at h1
    have h2 : a + 1 / ((k : ℝ) + 1) = a + 1 / (((k + 1 : ℕ) : ℝ) + 1) + d := by rw [hdd]; ring
    rw [h2] at hs
    rw [show ((n + 1 : ℕ) : ℝ) = (n : ℝ) + 1 by push_cast; ring]
    nlinarith
  · rintro ⟨k, hk⟩
    refine ⟨k + 1, fun N => ?_⟩
    have hd := gap_pos k
    set d := 1 / ((k : ℝ) + 1) - 1 / (((k + 1 : ℕ) : ℝ) + 1) with hdd
    obtain ⟨N', hN'⟩ := exists_nat_ge ((w 0 - (a + 1 / ((k : ℝ) + 1))) / d)
    obtain ⟨n, hn, hs⟩ := hk (max N N' + 1)
    obtain ⟨n', rfl⟩ : ∃ n', n = n' + 1 := ⟨n - 1, by omega⟩
    refine ⟨n', by have := le_max_left N N'; omega, ?_⟩
    rw [sum_shiftS]
    have h1 : (w 0 - (a + 1 / ((k : ℝ) + 1))) / d ≤ n' :=
      hN'.trans (by exact_mod_cast (le_max_right N N').trans (by omega))
    rw [div_le_iff₀ hd] at h1
    have h2 : a + 1 / (((k + 1 : ℕ) : ℝ) + 1) = a + 1 / ((k : ℝ) + 1) - d := by rw [hdd]; ring
    rw [show ((n' + 1 : ℕ) : ℝ) = (n' : ℝ) + 1 by push_cast; ring] at hs
    rw [h2]
    nlinarith

/-- Averages exceed `a` on a set of sequences only if the first term does so on average there. -/
theorem above_mean {ν : Measure (ℕ → ℝ)} [IsFiniteMeasure ν] (hT : MeasurePreserving shiftS ν ν) (hi : Integrable (fun w : ℕ → ℝ => w 0) ν) (a : ℝ) :
    0 ≤ ∫ w in above a, (w 0 - a) ∂ν := by
  set g : (ℕ → ℝ) → ℝ := (above a).indicator fun w => w 0 - a with hg
  have hm0 : Measurable fun w : ℕ → ℝ => w 0 := measurable_pi_apply 0
  have hm : Measurable fun w : ℕ → ℝ => w 0 - a := hm0.sub_const a
  have hgm : Measurable g := hm.indicator (above_meas a)
  have hgi : Integrable g ν := (hi.sub (integrable_const a)).indicator (above_meas a)
  have h := maximal hT hgm hgi
  have hsum : ∀ n, ∀ w ∈ above a, ∑ j ∈ Finset.range n, (w j - a) ≤ maxSum shiftS g n w := by
    intro n
    induction n with
    | zero => intro w _; simp [maxSum]
    | succ n ih =>
      intro w hw
      rw [Finset.sum_range_succ']
      have h1 := ih (shiftS w) ((above_shift a w).2 hw)
      have h2 : g w = w 0 - a := indicator_of_mem hw _
      refine le_trans ?_ (le_max_right _ _)
      rw [h2]
      have : ∑ j ∈ Finset.range n, (w (j + 1) - a) = ∑ j ∈ Finset.range n, (shiftS w j - a) := rfl
      rw [this]
      linarith
  have hsub : above a ⊆ {w | ∃ n, 0 < maxSum shiftS g n w} := by
    intro w hw
    obtain ⟨k, hk⟩ := hw
    obtain ⟨n, hn, hs⟩ := hk 1
    refine ⟨n, lt_of_lt_of_le ?_ (hsum n w ⟨k, hk⟩)⟩
    rw [Finset.sum_sub_distrib]
    simp only [Finset.sum_const, Finset.card_range, nsmul_eq_mul]
    have h1 : (0 : ℝ) < n := by exact_mod_cast hn
    have h2 : (0 : ℝ) < 1 / (k + 1 : ℝ) := by positivity
    nlinarith
  rw [hg, setIntegral_indicator (above_meas a), inter_eq_right.2 hsub] at h
  exact h

/-- Averages that are not above or below `m` converge to it. -/
theorem tendsto_of_above {w : ℕ → ℝ} {m : ℝ} (h1 : ∀ k : ℕ, w ∉ above (m + 1 / (k + 1 : ℝ)))
    (h2 : ∀ k : ℕ, (fun j => - w j) ∉ above (-m + 1 / (k + 1 : ℝ))) :
    Tendsto (fun n : ℕ => (∑ j ∈ Finset.range n, w j) / n) atTop (nhds m) := by
  rw [Metric.tendsto_atTop]
  intro ε hε
  obtain ⟨k, hk⟩ := exists_nat_one_div_lt (half_pos hε)
  have a1 := h1 k
  have a2 := h2 k
  simp only [above, mem_setOf_eq, not_exists, not_forall, not_and, not_lt] at a1 a2
  obtain ⟨N1, b1⟩ := a1 k
  obtain ⟨N2, b2⟩ := a2 k
  refine ⟨max (max N1 N2) 1, fun n hn => ?_⟩
  have c1 := b1 n ((le_max_left N1 N2).trans ((le_max_left _ _).trans hn))
  have c2 := b2 n ((le_max_right N1 N2).trans ((le_max_left _ _).trans hn))
  have hn0 : (0 : ℝ) < n := by exact_mod_cast lt_of_lt_of_le one_pos ((le_max_right _ _).trans hn)
  rw [Finset.sum_neg_distrib] at c2
  rw [Real.dist_eq, abs_lt]
  have d1 : (∑ j ∈ Finset.range n, w j) / n ≤ m + 1 / (k + 1 : ℝ) + 1 / (k + 1 : ℝ) := by
    rw [div_le_iff₀ hn0]; exact c1
  have d2 : m - 1 / (k + 1 : ℝ) - 1 / (k + 1 : ℝ) ≤ (∑ j ∈ Finset.range n, w j) / n := by
    rw [le_div_iff₀ hn0]; nlinarith
  constructor <;> linarith

end CTInt
