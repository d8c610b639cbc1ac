import Verif.Proofs.Rejection

/-!
# C70: rejection sampling draws from its distribution
-/

set_option linter.all false

namespace CTInt

open MeasureTheory Set

variable {P : ℝ → ℝ} {Pmax beta : ℝ}

theorem rejection_event (hP : Measurable P) (hb : 0 < beta) (h0 : ∀ x ∈ Ico 0 beta, 0 ≤ P x ∧ P x ≤ Pmax)
    (C : Set (ℝ × (ℕ → ℝ))) {u : ℕ → ℝ} (hu : ∀ k, 0 ≤ u k ∧ u k < 1) :
    (∃ x p, Returns (fun fuel => rejection P Pmax beta u fuel 0) (x, p) ∧ (x, dropS p u) ∈ C) ↔
      u ∈ ⋃ k, rejEv P Pmax beta C k := by
  have hle : ∀ k, P (beta * u k) ≤ Pmax := fun k =>
    (h0 _ ⟨mul_nonneg hb.le (hu k).1, by nlinarith [(hu k).2]⟩).2
  rw [mem_iUnion]
  constructor
  · rintro ⟨x, p, hr, hC⟩
    rw [rejection_returns hle, dropS_zero] at hr
    obtain ⟨k, hk, rfl, rfl⟩ := hr
    refine ⟨k, hk, ?_⟩
    rw [zero_add] at hC
    exact hC
  · rintro ⟨k, hk, hC⟩
    refine ⟨beta * u (0 + 2 * k), 0 + 2 * k + 2, ?_, by rw [zero_add]; exact hC⟩
    rw [rejection_returns hle, dropS_zero]
    exact ⟨k, hk, rfl, rfl⟩

/-- **C70.**  For a distribution function with values between 0 and the bound on [0,beta), not zero almost everywhere, the
    number returned has the density P(x) / ∫ P on [0,beta), and the random numbers not yet used are again independent and
    uniform, whatever number was returned: for every event `C` about both, its probability is the mean of the
    probability of `C` under that density. -/
theorem C70_law (hP : Measurable P) (hb : 0 < beta) (h0 : ∀ x ∈ Ico 0 beta, 0 ≤ P x ∧ P x ≤ Pmax)
    (hpos : 0 < ∫⁻ x in Ico 0 beta, ENNReal.ofReal (P x)) {C : Set (ℝ × (ℕ → ℝ))} (hC : MeasurableSet C) :
    streams {u | ∃ x p, Returns (fun fuel => rejection P Pmax beta u fuel 0) (x, p) ∧ (x, dropS p u) ∈ C} =
      (∫⁻ x in Ico 0 beta, ENNReal.ofReal (P x) * streams {w | (x, w) ∈ C}) / ∫⁻ x in Ico 0 beta, ENNReal.ofReal (P x) := by
  have hmax : 0 < Pmax := by
    by_contra hn
    push Not at hn
    refine absurd hpos (not_lt.2 (le_of_eq ?_))
    rw [setLIntegral_congr_fun (g := fun _ => 0) measurableSet_Ico fun x hx => ?_, lintegral_zero]
    have := (h0 x hx).2
    exact ENNReal.ofReal_of_nonpos (this.trans hn)
  rw [← rejEv_measure hP hb hmax h0 hpos hC]
  refine measure_congr ?_
  filter_upwards [ae_range] with u hu
  exact propext (rejection_event hP hb h0 C hu)

/-- **C70.**  It returns with probability one. -/
theorem C70_returns (hP : Measurable P) (hb : 0 < beta) (h0 : ∀ x ∈ Ico 0 beta, 0 ≤ P x ∧ P x ≤ Pmax)
    (hpos : 0 < ∫⁻ x in Ico 0 beta, ENNReal.ofReal (P x)) :
    ∀ᵐ u ∂streams, ∃ x p, Returns (fun fuel => rejection P Pmax beta u fuel 0) (x, p) ∧ x ∈ Ico 0 beta := by
  have h := C70_law hP hb h0 hpos (C := Ico 0 beta ×ˢ univ) (measurableSet_Ico.prod MeasurableSet.univ)
  have hfin : ∫⁻ x in Ico 0 beta, ENNReal.ofReal (P x) ≠ ⊤ := by
    refine ne_of_lt (lt_of_le_of_lt (setLIntegral_mono (g := fun _ => ENNReal.ofReal Pmax) measurable_const fun x hx => ?_) ?_)
    · exact ENNReal.ofReal_le_ofReal (h0 x hx).2
    · rw [setLIntegral_const]
      exact ENNReal.mul_lt_top ENNReal.ofReal_lt_top (by simp)
  rw [setLIntegral_congr_fun (g := fun x => ENNReal.ofReal (P x)) measurableSet_Ico fun x hx => ?_, ENNReal.div_self hpos.ne' hfin] at h
  · have hsub : {u : ℕ → ℝ | ∃ x p, Returns (fun fuel => rejection P Pmax beta u fuel 0) (x, p) ∧ (x, dropS p u) ∈ Ico 0 beta ×ˢ (univ : Set (ℕ → ℝ))} =
        {u | ∃ x p, Returns (fun fuel => rejection P Pmax beta u fuel 0) (x, p) ∧ x ∈ Ico 0 beta} := by
      ext u
      simp only [mem_setOf_eq, mem_prod, mem_univ, and_true]
    rw [hsub] at h
    have hmeas : NullMeasurableSet {u : ℕ → ℝ | ∃ x p, Returns (fun fuel => rejection P Pmax beta u fuel 0) (x, p) ∧ x ∈ Ico 0 beta} streams := by
      refine NullMeasurableSet.congr (s := ⋃ k, rejEv P Pmax beta (Ico 0 beta ×ˢ univ) k)
        (MeasurableSet.iUnion fun k => measurableSet_rejEv hP (measurableSet_Ico.prod MeasurableSet.univ) k).nullMeasurableSet ?_
      filter_upwards [ae_range] with u hu
      refine propext ((rejection_event hP hb h0 (Ico 0 beta ×ˢ univ) hu).symm.trans ?_)
      simp only [mem_setOf_eq, mem_prod, mem_univ, and_true]
      rfl
    exact (prob_compl_eq_zero_iff₀ hmeas).2 h
  · show ENNReal.ofReal (P x) * _ = _
    rw [show {w : ℕ → ℝ | (x, w) ∈ Ico 0 beta ×ˢ (univ : Set (ℕ → ℝ))} = univ from by ext w; simp only [mem_setOf_eq, mem_prod, mem_univ, and_true, iff_true]; exact hx,
      measure_univ, mul_one]

/-- **C70.**  A distribution that vanishes on [0,beta) is never sampled: whatever the random numbers, the loop goes on for
    ever. -/
theorem C70_zero (hb : 0 < beta) (hmax : 0 ≤ Pmax) (h0 : ∀ x ∈ Ico 0 beta, P x = 0) {u : ℕ → ℝ} (hu : ∀ k, 0 ≤ u k ∧ u k < 1)
    (fuel p : ℕ) : rejection P Pmax beta u fuel p = .more := by
  have hz : ∀ k, P (beta * u k) = 0 := fun k => h0 _ ⟨mul_nonneg hb.le (hu k).1, by nlinarith [(hu k).2]⟩
  induction fuel generalizing p with
  | zero => rfl
  | succ f ih =>
    unfold rejection
    simp only [hz]
    rw [Run.assert_true hmax]
    simp only [Run.bind_ok, mul_zero]
    rw [if_neg (not_lt.2 (hu (p + 1)).1)]
    exact ih (p + 2)

/-- **C70.**  A bound that is too small is noticed by the assertion, at the latest with the probability that one number
    falls where the distribution exceeds it. -/
theorem C70_bound_needed (hP : Measurable P) (hb : 0 < beta) :
    ENNReal.ofReal (1 / beta) * volume {x | x ∈ Ico 0 beta ∧ Pmax < P x} ≤
      streams {u | ∀ fuel ≥ 1, rejection P Pmax beta u fuel 0 = .ub} := by
  have hM : MeasurableSet {x | Pmax < P x} := measurableSet_lt measurable_const hP
  have h1 := lintegral_time hb (g := ({x | Pmax < P x}).indicator 1) (measurable_one.indicator hM)
  rw [lintegral_indicator_one hM, Measure.restrict_apply hM, inter_comm] at h1
  refine (le_of_eq h1.symm).trans ?_
  have h2 := streams_and {r | Pmax < P (r * beta)} univ
  rw [measure_univ, mul_one] at h2
  have h3 : ∫⁻ r, ({x | Pmax < P x}).indicator 1 (r * beta) ∂uniform01 = uniform01 {r | Pmax < P (r * beta)} := by
    have hm : MeasurableSet {r : ℝ | Pmax < P (r * beta)} := measurable_id.mul_const beta hM
    rw [← lintegral_indicator_one hm]
    rfl
  rw [h3, ← h2]
  refine measure_mono fun u hu fuel hf => ?_
  obtain ⟨f, rfl⟩ : ∃ f, fuel = f + 1 := ⟨fuel - 1, by omega⟩
  unfold rejection
  simp only []
  have : ¬ P (beta * u 0) ≤ Pmax := by rw [mul_comm]; exact not_le.2 hu.1
  unfold Run.assert
  rw [if_neg this]
  rfl

theorem density_continuous (d : PairDist) : Continuous d.density := by
  unfold PairDist.density
  exact continuous_const.mul (PairDist.bare_continuous d)

theorem density_lintegral {d : PairDist} (hd : d.OK) : ∫⁻ x in Ico 0 d.beta, ENNReal.ofReal (d.density x) = 1 := by
  rw [← ofReal_integral_eq_lintegral_ofReal, integral_Ico_eq_integral_Ioc, ← intervalIntegral.integral_of_le hd.beta.le, C34_normalised hd,
    ENNReal.ofReal_one]
  · exact ((density_continuous d).integrableOn_Icc (a := 0) (b := d.beta)).mono_set Ico_subset_Icc_self
  · exact Filter.Eventually.of_forall fun x => (C34_symmetric hd x).1.le

theorem density_bounds {d : PairDist} (hd : d.OK) : ∀ x ∈ Ico 0 d.beta, 0 ≤ d.density x ∧ d.density x ≤ d.density 0 :=
  fun x hx => ⟨(C34_symmetric hd x).1.le, C34_maximum hd hx.1 hx.2.le⟩

/-- **C70** for the distribution of pair distances, with the bound used by the code: the distance falls into `A` with
    probability `∫_A density`. -/
theorem C70_pair_distance {d : PairDist} (hd : d.OK) {A : Set ℝ} (hA : MeasurableSet A) :
    streams {u | ∃ x p, Returns (fun fuel => rejection d.density (d.density 0) d.beta u fuel 0) (x, p) ∧ x ∈ A} =
      ENNReal.ofReal (∫ x in A ∩ Ico 0 d.beta, d.density x) := by
  have h := C70_law (density_continuous d).measurable hd.beta (density_bounds hd) (by rw [density_lintegral hd]; exact one_pos)
    (C := A ×ˢ univ) (hA.prod MeasurableSet.univ)
  rw [density_lintegral hd, div_one] at h
  have e : {u : ℕ → ℝ | ∃ x p, Returns (fun fuel => rejection d.density (d.density 0) d.beta u fuel 0) (x, p) ∧ (x, dropS p u) ∈ A ×ˢ (univ : Set (ℕ → ℝ))} =
      {u | ∃ x p, Returns (fun fuel => rejection d.density (d.density 0) d.beta u fuel 0) (x, p) ∧ x ∈ A} := by
    ext u
    simp only [mem_setOf_eq, mem_prod, mem_univ, and_true]
  rw [← e, h, ofReal_integral_eq_lintegral_ofReal]
  · rw [← Measure.restrict_restrict hA, ← lintegral_indicator hA]
    refine lintegral_congr fun x => ?_
    by_cases hx : x ∈ A
    · rw [indicator_of_mem hx, show {w : ℕ → ℝ | (x, w) ∈ A ×ˢ (univ : Set (ℕ → ℝ))} = univ from by ext w; simp only [mem_setOf_eq, mem_prod, mem_univ, and_true, iff_true]; exact hx,
        measure_univ, mul_one]
    · rw [indicator_of_notMem hx, show {w : ℕ → ℝ | (x, w) ∈ A ×ˢ (univ : Set (ℕ → ℝ))} = ∅ from by ext w; simp only [mem_setOf_eq, mem_prod, mem_univ, and_true, mem_empty_iff_false, iff_false]; exact hx,
        measure_empty, mul_zero]
  · exact ((density_continuous d).integrableOn_Icc (a := 0) (b := d.beta)).mono_set (inter_subset_right.trans Ico_subset_Icc_self)
  · exact Filter.Eventually.of_forall fun x => (C34_symmetric hd x).1.le

/-- The hypotheses hold for a triangle on [0,2) with bound 3. -/
example : ∀ᵐ u ∂streams, ∃ x p, Returns (fun fuel => rejection (fun x => x) 3 2 u fuel 0) (x, p) ∧ x ∈ Ico (0 : ℝ) 2 := by
  refine C70_returns measurable_id (by norm_num) (fun x hx => ⟨hx.1, by linarith [hx.2]⟩) ?_
  rw [← ofReal_integral_eq_lintegral_ofReal, integral_Ico_eq_integral_Ioc, ← intervalIntegral.integral_of_le (by norm_num), integral_id]
  · norm_num
  · exact (continuous_id.integrableOn_Icc (a := 0) (b := 2)).mono_set Ico_subset_Icc_self
  · rw [Filter.EventuallyLE, ae_restrict_iff' measurableSet_Ico]
    exact Filter.Eventually.of_forall fun x hx => hx.1

/-- And for a pair distribution. -/
example : streams {u | ∃ x p, Returns (fun fuel => rejection (PairDist.mk 3 (1 / 2) 10).density ((PairDist.mk 3 (1 / 2) 10).density 0) 10 u fuel 0) (x, p) ∧ x ∈ Ico 1 2} =
    ENNReal.ofReal (∫ x in Ico 1 2 ∩ Ico 0 10, (PairDist.mk 3 (1 / 2) 10).density x) :=
  C70_pair_distance (d := ⟨3, 1 / 2, 10⟩) ⟨by norm_num, by norm_num, by norm_num⟩ measurableSet_Ico

end CTInt
