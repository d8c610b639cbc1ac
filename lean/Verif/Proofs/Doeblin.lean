import Verif.Proofs.Sampler
import Mathlib.MeasureTheory.Integral.Prod
import Mathlib.MeasureTheory.Integral.Bochner.Basic
import Mathlib.Algebra.Order.Field.GeomSum

/-!
# Repeating a random program

A program started in a state of `S` stays in `S`, and after `r` repetitions is in one fixed state `e` with probability at
least `δ`.  Then the law of the state after `n` repetitions forgets the start geometrically, and averages over the repetitions converge in
mean square.
-/

set_option linter.all false

namespace CTInt

open MeasureTheory Set

section

variable {X Y : Type} [MeasurableSpace X] [MeasurableSpace Y]

/-- The law of the result of a program. -/
noncomputable def lawOf (f : X × (ℕ → ℝ) → Y × (ℕ → ℝ)) (x : X) : Measure Y := streams.map fun u => (f (x, u)).1

theorem fst_meas {f : X × (ℕ → ℝ) → Y × (ℕ → ℝ)} (hf : Measurable f) (x : X) : Measurable fun u => (f (x, u)).1 :=
  (measurable_fst.comp hf).comp measurable_prodMk_left

theorem lawOf_prob {f : X × (ℕ → ℝ) → Y × (ℕ → ℝ)} (hf : Measurable f) (x : X) : IsProbabilityMeasure (lawOf f x) :=
  Measure.isProbabilityMeasure_map (fst_meas hf x).aemeasurable

/-- The result and the unused numbers are independent, and the unused numbers are again such a stream. -/
theorem Samples.prod {f : X × (ℕ → ℝ) → Y × (ℕ → ℝ)} {A : (Y → ENNReal) → X → ENNReal} (hf : Samples f A) (x : X) :
    streams.map (fun u => f (x, u)) = (lawOf f x).prod streams := by
  have hp := lawOf_prob hf.meas x
  have hfx : Measurable fun u => f (x, u) := hf.meas.comp measurable_prodMk_left
  refine (Measure.prod_eq fun s t hs ht => ?_).symm
  rw [Measure.map_apply hfx (hs.prod ht), lawOf, Measure.map_apply (fst_meas hf.meas x) hs]
  have i1 : ∀ w : Y, ∫⁻ u, (s ×ˢ t).indicator (1 : Y × (ℕ → ℝ) → ENNReal) (w, u) ∂streams = s.indicator 1 w * streams t := by
    intro w
    have : (fun u => (s ×ˢ t).indicator (1 : Y × (ℕ → ℝ) → ENNReal) (w, u)) = fun u => s.indicator 1 w * t.indicator 1 u := by
      funext u
      by_cases h1 : w ∈ s <;> by_cases h2 : u ∈ t <;> simp [h1, h2]
    rw [this, lintegral_const_mul _ (measurable_one.indicator ht), lintegral_indicator_one ht]
  have i2 : ∀ w : Y, ∫⁻ u, (s.indicator 1 w * streams t) ∂streams = s.indicator 1 w * streams t := by
    intro w; simp
  have l1 := hf.law ((s ×ˢ t).indicator 1) (measurable_one.indicator (hs.prod ht)) x
  have m2 : Measurable fun w : Y × (ℕ → ℝ) => (s.indicator 1 w.1 * streams t : ENNReal) :=
    ((measurable_one.indicator hs).comp measurable_fst).mul_const _
  have l2 := hf.law (fun w => s.indicator 1 w.1 * streams t) m2 x
  simp only [i1] at l1
  simp only [i2] at l2
  have e1 : ∫⁻ u, (s ×ˢ t).indicator 1 (f (x, u)) ∂streams = streams ((fun u => f (x, u)) ⁻¹' (s ×ˢ t)) := by
    rw [← lintegral_indicator_one (hfx (hs.prod ht))]
    exact lintegral_congr fun u => by by_cases h : f (x, u) ∈ s ×ˢ t <;> simp [Set.indicator, h, Set.mem_preimage]
  have e2 : ∫⁻ u, (s.indicator 1 (f (x, u)).1 * streams t) ∂streams = streams ((fun u => (f (x, u)).1) ⁻¹' s) * streams t := by
    have m3 : Measurable fun u => (s.indicator (1 : Y → ENNReal) (f (x, u)).1) :=
      (measurable_one.indicator hs).comp (fst_meas hf.meas x)
    rw [lintegral_mul_const _ m3, ← lintegral_indicator_one ((fst_meas hf.meas x) hs)]
    rfl
  rw [← e1, ← e2, l1, l2]

/-- A bounded measurable function of a stream has a mean. -/
theorem bdd_integrable {Ω : Type} [MeasurableSpace Ω] {μ : Measure Ω} [IsFiniteMeasure μ] {g : Ω → ℝ} (hg : Measurable g) {B : ℝ}
    (hB : ∀ w, |g w| ≤ B) : Integrable g μ :=
  Integrable.of_bound hg.aestronglyMeasurable B (Filter.Eventually.of_forall fun w => by simpa using hB w)

/-- The mean of a bounded function of the result and the unused numbers. -/
theorem Samples.integral {f : X × (ℕ → ℝ) → Y × (ℕ → ℝ)} {A : (Y → ENNReal) → X → ENNReal} (hf : Samples f A) (x : X)
    {G : Y × (ℕ → ℝ) → ℝ} (hG : Measurable G) {B : ℝ} (hB : ∀ w, |G w| ≤ B) :
    ∫ u, G (f (x, u)) ∂streams = ∫ u, (∫ v, G ((f (x, u)).1, v) ∂streams) ∂streams := by
  have hp := lawOf_prob hf.meas x
  have hfx : Measurable fun u => f (x, u) := hf.meas.comp measurable_prodMk_left
  have h1 : ∫ u, G (f (x, u)) ∂streams = ∫ w, G w ∂((lawOf f x).prod streams) := by
    rw [← hf.prod x, integral_map hfx.aemeasurable hG.aestronglyMeasurable]
  have hm : Measurable fun y => ∫ v, G (y, v) ∂streams := by
    have := (hG.stronglyMeasurable).integral_prod_right' (ν := streams)
    exact this.measurable
  rw [h1, integral_prod _ (bdd_integrable hG hB), lawOf, integral_map (fst_meas hf.meas x).aemeasurable hm.aestronglyMeasurable]

/-- Means over streams are measurable in the state. -/
theorem mean_measurable {G : Y × (ℕ → ℝ) → ℝ} (hG : Measurable G) : Measurable fun y => ∫ v, G (y, v) ∂streams :=
  ((hG.stronglyMeasurable).integral_prod_right' (ν := streams)).measurable

theorem mean_bound {Ω : Type} [MeasurableSpace Ω] {μ : Measure Ω} [IsProbabilityMeasure μ] {g : Ω → ℝ} {B : ℝ} (hB : ∀ w, |g w| ≤ B) : |∫ w, g w ∂μ| ≤ B := by
  have h := norm_integral_le_of_norm_le_const (μ := μ) (f := g) (C := B) (Filter.Eventually.of_forall fun w => by simpa using hB w)
  simpa using h

end

section

variable {X : Type} [MeasurableSpace X]

/-- A program that keeps `S` and after `r` repetitions is in `e` with probability at least `δ`, from every state of `S`. -/
structure Renews (f : X × (ℕ → ℝ) → X × (ℕ → ℝ)) (S : Set X) (e : X) (r : ℕ) (δ : ℝ) : Prop where
  samples : ∃ A, Samples f A
  stays : ∀ n, ∀ x ∈ S, ∀ᵐ u ∂streams, (f^[n] (x, u)).1 ∈ S
  rpos : 0 < r
  pos : 0 < δ
  memE : e ∈ S
  measE : MeasurableSet ({e} : Set X)
  hits : ∀ x ∈ S, ENNReal.ofReal δ ≤ streams {u | (f^[r] (x, u)).1 = e}

variable {f : X × (ℕ → ℝ) → X × (ℕ → ℝ)} {S : Set X} {e : X} {r : ℕ} {δ : ℝ}

theorem Renews.meas (h : Renews f S e r δ) : Measurable f := by
  obtain ⟨A, hA⟩ := h.samples; exact hA.meas

theorem Renews.le_one (h : Renews f S e r δ) : δ ≤ 1 := by
  have h1 := (h.hits e h.memE).trans prob_le_one
  simpa using h1

/-- The state after `n` repetitions, a function of the start and of the numbers. -/
noncomputable def after (f : X × (ℕ → ℝ) → X × (ℕ → ℝ)) (n : ℕ) (x : X) (u : ℕ → ℝ) : X := (f^[n] (x, u)).1

theorem Renews.iter_meas (h : Renews f S e r δ) (n : ℕ) : Measurable f^[n] := h.meas.iterate n

/-- The mean of a function of the state after `n` repetitions. -/
noncomputable def meanAfter (f : X × (ℕ → ℝ) → X × (ℕ → ℝ)) (n : ℕ) (g : X → ℝ) (x : X) : ℝ := ∫ u, g (after f n x u) ∂streams

theorem Renews.after_meas (h : Renews f S e r δ) {g : X → ℝ} (hg : Measurable g) (n : ℕ) :
    Measurable fun p : X × (ℕ → ℝ) => g (f^[n] p).1 := hg.comp (measurable_fst.comp (h.iter_meas n))

theorem Renews.meanAfter_meas (h : Renews f S e r δ) {g : X → ℝ} (hg : Measurable g) (n : ℕ) : Measurable (meanAfter f n g) :=
  mean_measurable (h.after_meas hg n)

theorem Renews.meanAfter_bound {g : X → ℝ} {B : ℝ} (hB : ∀ x, |g x| ≤ B) (n : ℕ) (x : X) : |meanAfter f n g x| ≤ B :=
  mean_bound fun u => hB _

theorem meanAfter_zero (g : X → ℝ) (x : X) : meanAfter f 0 g x = g x := by
  simp [meanAfter, after]

theorem Renews.meanAfter_add (h : Renews f S e r δ) {g : X → ℝ} (hg : Measurable g) {B : ℝ} (hB : ∀ x, |g x| ≤ B) (n p : ℕ) (x : X) :
    meanAfter f (n + p) g x = meanAfter f p (meanAfter f n g) x := by
  obtain ⟨A, hA⟩ := h.samples
  have h1 := (hA.iterate p).integral x (h.after_meas hg n) fun w => hB _
  unfold meanAfter after
  rw [← h1]
  simp only [Function.iterate_add_apply]

/-- Means of bounded functions are bounded. -/
theorem Renews.inside (h : Renews f S e r δ) {g : X → ℝ} (hg : Measurable g) {B : ℝ} (hB : ∀ x, |g x| ≤ B) {lo hi : ℝ}
    (hr : ∀ x ∈ S, lo ≤ g x ∧ g x ≤ hi) (n : ℕ) : ∀ x ∈ S, lo ≤ meanAfter f n g x ∧ meanAfter f n g x ≤ hi := by
  intro x hx
  have hint : Integrable (fun u => g (f^[n] (x, u)).1) streams :=
    bdd_integrable (hg.comp (fst_meas (h.iter_meas n) x)) fun u => hB _
  have hc : ∀ k : ℝ, ∫ u : ℕ → ℝ, k ∂streams = k := fun k => by simp
  constructor
  · rw [← hc lo]
    refine integral_mono_ae (integrable_const _) hint ?_
    filter_upwards [h.stays n x hx] with u hu
    exact (hr _ hu).1
  · rw [← hc hi]
    refine integral_mono_ae hint (integrable_const _) ?_
    filter_upwards [h.stays n x hx] with u hu
    exact (hr _ hu).2

/-- `r` repetitions contract the range. -/
theorem Renews.contract (h : Renews f S e r δ) {g : X → ℝ} (hg : Measurable g) {B : ℝ} (hB : ∀ x, |g x| ≤ B) {lo hi : ℝ}
    (hr : ∀ x ∈ S, lo ≤ g x ∧ g x ≤ hi) : ∀ x ∈ S, δ * g e + (1 - δ) * lo ≤ meanAfter f r g x ∧
      meanAfter f r g x ≤ δ * g e + (1 - δ) * hi := by
  intro x hx
  have hfx : Measurable fun u => (f^[r] (x, u)).1 := fst_meas (h.iter_meas r) x
  have hE : MeasurableSet {u : ℕ → ℝ | (f^[r] (x, u)).1 = e} := hfx h.measE
  have hint : Integrable (fun u => g (f^[r] (x, u)).1) streams := bdd_integrable (hg.comp hfx) fun u => hB _
  have hp : δ ≤ streams.real {u | (f^[r] (x, u)).1 = e} := by
    have := ENNReal.toReal_mono (measure_ne_top _ _) (h.hits x hx)
    rwa [ENNReal.toReal_ofReal h.pos.le] at this
  have hi1 : ∀ k : ℝ, ∫ u, {u : ℕ → ℝ | (f^[r] (x, u)).1 = e}.indicator (fun _ => k) u ∂streams = streams.real {u | (f^[r] (x, u)).1 = e} * k := by
    intro k
    rw [integral_indicator_const _ hE]; simp
  have hii : ∀ k : ℝ, Integrable ({u : ℕ → ℝ | (f^[r] (x, u)).1 = e}.indicator fun _ => k) streams := fun k =>
    (integrable_const k).indicator hE
  have hge := hr e h.memE
  have hone : meanAfter f r g x = ∫ u, g (f^[r] (x, u)).1 ∂streams := rfl
  constructor
  · have h1 : ∫ u, {u : ℕ → ℝ | (f^[r] (x, u)).1 = e}.indicator (fun _ => g e - lo) u ∂streams ≤ ∫ u, (g (f^[r] (x, u)).1 - lo) ∂streams := by
      refine integral_mono_ae (hii _) (hint.sub (integrable_const _)) ?_
      filter_upwards [h.stays r x hx] with u hu
      by_cases hh : (f^[r] (x, u)).1 = e
      · simp [Set.indicator, hh]
      · simp only [Set.indicator, Set.mem_setOf_eq, hh, if_false]
        linarith [(hr _ hu).1]
    rw [hi1, integral_sub hint (integrable_const _)] at h1
    simp only [integral_const, probReal_univ, smul_eq_mul, one_mul] at h1
    rw [hone]
    nlinarith [hge.1]
  · have h1 : ∫ u, {u : ℕ → ℝ | (f^[r] (x, u)).1 = e}.indicator (fun _ => hi - g e) u ∂streams ≤ ∫ u, (hi - g (f^[r] (x, u)).1) ∂streams := by
      refine integral_mono_ae (hii _) ((integrable_const _).sub hint) ?_
      filter_upwards [h.stays r x hx] with u hu
      by_cases hh : (f^[r] (x, u)).1 = e
      · simp [Set.indicator, hh]
      · simp only [Set.indicator, Set.mem_setOf_eq, hh, if_false]
        linarith [(hr _ hu).2]
    rw [hi1, integral_sub (integrable_const _) hint] at h1
    simp only [integral_const, probReal_univ, smul_eq_mul, one_mul] at h1
    rw [hone]
    nlinarith [hge.2]

/-- After `n` repetitions the means from all starts lie in an interval whose length has shrunk geometrically. -/
theorem Renews.range (h : Renews f S e r δ) {g : X → ℝ} (hg : Measurable g) {B : ℝ} (hB : ∀ x, |g x| ≤ B) {lo hi : ℝ}
    (hr : ∀ x ∈ S, lo ≤ g x ∧ g x ≤ hi) (n : ℕ) :
    ∃ a b, b - a ≤ (1 - δ) ^ (n / r) * (hi - lo) ∧ ∀ x ∈ S, a ≤ meanAfter f n g x ∧ meanAfter f n g x ≤ b := by
  induction n using Nat.strong_induction_on with
  | _ n ih =>
    by_cases hn : n < r
    · exact ⟨lo, hi, by rw [Nat.div_eq_of_lt hn]; simp, h.inside hg hB hr n⟩
    · have hrp := h.rpos
      obtain ⟨a, b, hab, hm⟩ := ih (n - r) (by omega)
      have hc := h.contract (h.meanAfter_meas hg (n - r)) (fun x => Renews.meanAfter_bound (f := f) hB (n - r) x) hm
      refine ⟨_, _, ?_, fun x hx => by
        rw [show n = (n - r) + r by omega, h.meanAfter_add hg hB]; exact hc x hx⟩
      have h1 : 0 ≤ 1 - δ := by linarith [h.le_one]
      have h2 := mul_le_mul_of_nonneg_left hab h1
      have h3 : n / r = (n - r) / r + 1 := by
        rw [← Nat.add_div_right _ hrp]; congr 1; omega
      rw [h3, pow_succ]
      nlinarith

/-- `m` lies between any two bounds of the means after any number of repetitions. -/
def Centre (f : X × (ℕ → ℝ) → X × (ℕ → ℝ)) (S : Set X) (g : X → ℝ) (m : ℝ) : Prop :=
  ∀ n a b, (∀ x ∈ S, a ≤ meanAfter f n g x ∧ meanAfter f n g x ≤ b) → a ≤ m ∧ m ≤ b

theorem Renews.converge (h : Renews f S e r δ) {g : X → ℝ} (hg : Measurable g) {B : ℝ} (hB : ∀ x, |g x| ≤ B) {lo hi : ℝ}
    (hr : ∀ x ∈ S, lo ≤ g x ∧ g x ≤ hi) {m : ℝ} (hm : Centre f S g m) (n : ℕ) {x : X} (hx : x ∈ S) :
    |meanAfter f n g x - m| ≤ (1 - δ) ^ (n / r) * (hi - lo) := by
  obtain ⟨a, b, hab, hn⟩ := h.range hg hB hr n
  obtain ⟨h1, h2⟩ := hm n a b hn
  obtain ⟨h3, h4⟩ := hn x hx
  rw [abs_le]
  constructor <;> linarith

/-- The decay can be summed. -/
theorem sum_div_pow {r : ℕ} (hr : 0 < r) {ρ : ℝ} (h0 : 0 ≤ ρ) (h1 : ρ < 1) (n : ℕ) :
    ∑ k ∈ Finset.range n, ρ ^ (k / r) ≤ r / (1 - ρ) := by
  have hb : ∀ q : ℕ, ∑ k ∈ Finset.range (r * q), ρ ^ (k / r) = r * ∑ j ∈ Finset.range q, ρ ^ j := by
    intro q
    induction q with
    | zero => simp
    | succ q ih =>
      rw [Nat.mul_succ, Finset.sum_range_add, ih, Finset.sum_range_succ, mul_add]
      congr 1
      rw [Finset.sum_congr rfl (g := fun _ => ρ ^ q) fun k hk => by
        rw [Nat.mul_add_div hr, Nat.div_eq_of_lt (Finset.mem_range.1 hk), add_zero]]
      simp
  have h2 : ∑ k ∈ Finset.range n, ρ ^ (k / r) ≤ ∑ k ∈ Finset.range (r * n), ρ ^ (k / r) :=
    Finset.sum_le_sum_of_subset_of_nonneg (Finset.range_mono (Nat.le_mul_of_pos_left n hr)) fun k _ _ => pow_nonneg h0 _
  refine h2.trans ?_
  rw [hb, div_eq_mul_inv]
  refine mul_le_mul_of_nonneg_left ?_ (Nat.cast_nonneg r)
  have h3 := geom_sum_mul ρ n
  have h4 : 0 ≤ ρ ^ n := pow_nonneg h0 n
  rw [← one_div, le_div_iff₀ (by linarith)]
  nlinarith

end

end CTInt
