import Verif.Proofs.SimRun
import Verif.Proofs.Doeblin

/-!
# From every configuration the updates reach the empty one
-/

set_option linter.all false

namespace CTInt

open MeasureTheory Set

variable {K : Type} [RCLike K] [DecidableEq K]
variable {c : Ctx K} {beta : ℝ} {M : ℕ}

/-- The configurations the program can be in: at most `M` vertices, usable, with weight. -/
def Live (c : Ctx K) (beta : ℝ) (M : ℕ) : Set (List Pt) := {x | ValidPts beta c.tbl x ∧ x.length ≤ M ∧ wt c x ≠ 0}

/-- `F` is 0 on the configurations the program can be in. -/
def Off (c : Ctx K) (beta : ℝ) (M : ℕ) (F : List Pt → ENNReal) : Prop := ∀ x ∈ Live c beta M, F x = 0

/-- `F` is at least `a` on those with at most `n` vertices. -/
def LowOn (c : Ctx K) (beta : ℝ) (M n : ℕ) (a : ENNReal) (F : List Pt → ENNReal) : Prop :=
  ∀ x ∈ Live c beta M, x.length ≤ n → a ≤ F x

/-- A point that exists. -/
def ValidPt (beta : ℝ) (tbl : List (VDef K)) (p : Pt) : Prop :=
  p.1 < tbl.length ∧ p.2.1 < numStates tbl p.1 ∧ 0 ≤ p.2.2 ∧ p.2.2 < beta

theorem ae_validPt (beta : ℝ) (tbl : List (VDef K)) : ∀ᵐ p : Pt ∂pointMeasure beta tbl, ValidPt beta tbl p := by
  have hms : MeasurableSet {p : Pt | ValidPt beta tbl p} := by
    have q1 : Measurable fun p : Pt => p.1 := measurable_fst
    have q2 : Measurable fun p : Pt => p.2.1 := measurable_fst.comp measurable_snd
    have q3 : Measurable fun p : Pt => p.2.2 := measurable_snd.comp measurable_snd
    have q4 : Measurable fun p : Pt => numStates tbl p.1 := (Measurable.of_discrete (f := fun t : ℕ => numStates tbl t)).comp q1
    exact ((measurableSet_lt q1 measurable_const).inter ((measurableSet_lt q2 q4).inter
      ((measurableSet_le measurable_const q3).inter (measurableSet_lt q3 measurable_const))))
  rw [MeasureTheory.ae_iff]
  unfold pointMeasure
  rw [Measure.finsetSum_apply]
  refine Finset.sum_eq_zero fun t ht => ?_
  rw [Measure.finsetSum_apply]
  refine Finset.sum_eq_zero fun f hf => ?_
  have hmap : Measurable fun τ : ℝ => ((t, f, τ) : Pt) := measurable_const.prodMk (measurable_const.prodMk measurable_id)
  refine (Measure.map_apply hmap hms.compl).trans ?_
  have : (fun τ : ℝ => ((t, f, τ) : Pt)) ⁻¹' {p : Pt | ¬ ValidPt beta tbl p} = (Set.Ico 0 beta)ᶜ := by
    ext τ
    have a1 := Finset.mem_range.1 ht
    have a2 := Finset.mem_range.1 hf
    simp only [Set.mem_preimage, Set.mem_setOf_eq, Set.mem_compl_iff, Set.mem_Ico, ValidPt, a1, a2, true_and]
  refine (congrArg _ this).trans ?_
  rw [Measure.restrict_apply measurableSet_Ico.compl]
  simp

theorem accept_zero {x y : List Pt} {k : ℝ} (h : wt c y = 0) : accept c x y k = 0 := by
  unfold accept
  rw [h]
  simp

theorem validPts_append {x : List Pt} {v : Pt} (h : ValidPts beta c.tbl x) (hv : ValidPt beta c.tbl v) : ValidPts beta c.tbl (x ++ [v]) := by
  intro p hp
  rcases List.mem_append.1 hp with hp | hp
  · exact h p hp
  · rw [List.mem_singleton.1 hp]; exact hv

theorem validPts_erase {x : List Pt} (h : ValidPts beta c.tbl x) (i : ℕ) : ValidPts beta c.tbl (x.eraseIdx i) :=
  fun p hp => h p (List.mem_of_mem_eraseIdx hp)

theorem validPts_set {x : List Pt} {v : Pt} (h : ValidPts beta c.tbl x) (hv : ValidPt beta c.tbl v) (i : ℕ) :
    ValidPts beta c.tbl (x.set i v) := by
  intro p hp
  rcases List.mem_or_eq_of_mem_set hp with hp | rfl
  · exact h p hp
  · exact hv

/-! ## What is impossible stays impossible -/

theorem insOp_off {F : List Pt → ENNReal} (hF : Off c beta M F) : Off c beta M (insOp c beta M F) := by
  intro x hx
  unfold insOp
  by_cases h : M < x.length + 1
  · rw [if_pos h]; exact hF x hx
  · rw [if_neg h]
    rw [lintegral_congr_ae (g := fun _ => 0)]
    · simp
    · filter_upwards [ae_validPt beta c.tbl] with v hv
      rw [hF x hx, mul_zero, add_zero]
      by_cases hw : wt c (x ++ [v]) = 0
      · rw [accept_zero hw]; simp
      · rw [hF (x ++ [v]) ⟨validPts_append hx.1 hv, by simpa using by omega, hw⟩]; simp

theorem erase_live {x : List Pt} (hx : x ∈ Live c beta M) {i : ℕ} (hi : i < x.length) (hw : wt c (x.eraseIdx i) ≠ 0) :
    x.eraseIdx i ∈ Live c beta M :=
  ⟨validPts_erase hx.1 i, by rw [List.length_eraseIdx_of_lt hi]; have := hx.2.1; omega, hw⟩

theorem remOp_off {F : List Pt → ENNReal} (hF : Off c beta M F) : Off c beta M (remOp c beta F) := by
  intro x hx
  unfold remOp
  by_cases h : x.length = 0
  · rw [if_pos h]; exact hF x hx
  · rw [if_neg h]
    refine Finset.sum_eq_zero fun i hi => ?_
    rw [hF x hx, mul_zero, add_zero]
    by_cases hw : wt c (x.eraseIdx i) = 0
    · rw [accept_zero hw]; simp
    · rw [hF _ (erase_live hx (Finset.mem_range.1 hi) hw)]; simp

theorem mixOp_off {F : List Pt → ENNReal} (hF : Off c beta M F) : Off c beta M (mixOp c beta M F) := by
  intro x hx
  unfold mixOp
  rw [insOp_off hF x hx, remOp_off hF x hx]
  simp

/-- Proposals lead from points that exist to points that exist. -/
def KeepsLive (beta : ℝ) (tbl : List (VDef K)) (κ : Pt → Measure Pt) : Prop :=
  ∀ v, ValidPt beta tbl v → ∀ᵐ w ∂κ v, ValidPt beta tbl w

theorem set_live {κ : Pt → Measure Pt} (hκ : KeepsLive beta c.tbl κ) {x : List Pt} (hx : x ∈ Live c beta M) {i : ℕ} (hi : i < x.length) :
    ∀ᵐ w ∂κ (x.getD i default), wt c (x.set i w) ≠ 0 → x.set i w ∈ Live c beta M := by
  have hv : ValidPt beta c.tbl (x.getD i default) := by
    rw [List.getD_eq_getElem _ _ hi]; exact hx.1 _ (List.getElem_mem hi)
  filter_upwards [hκ _ hv] with w hw h
  exact ⟨validPts_set hx.1 hw i, by rw [List.length_set]; exact hx.2.1, h⟩

theorem moveOp_off {κ : Pt → Measure Pt} (hκ : KeepsLive beta c.tbl κ) {F : List Pt → ENNReal} (hF : Off c beta M F) (i : ℕ) :
    Off c beta M (moveOp c κ i F) := by
  intro x hx
  unfold moveOp
  by_cases hi : i < x.length
  · rw [lintegral_congr_ae (g := fun _ => 0)]
    · simp
    · filter_upwards [set_live hκ hx hi] with w hw
      rw [hF x hx, mul_zero, add_zero]
      by_cases h : wt c (x.set i w) = 0
      · rw [accept_zero h]; simp
      · rw [hF _ (hw h)]; simp
  · have : ∀ w, x.set i w = x := fun w => List.set_eq_of_length_le (by omega)
    simp only [this, hF x hx]
    simp

theorem moveOps_off {κ : Pt → Measure Pt} (hκ : KeepsLive beta c.tbl κ) {F : List Pt → ENNReal} (hF : Off c beta M F) (l : List ℕ) :
    Off c beta M (moveOps c κ l F) := by
  induction l with
  | nil => exact hF
  | cons i l ih => exact moveOp_off hκ ih i

theorem pickMean_zero {N : ℕ} {F : List ℕ → ENNReal} (h : ∀ L, F L = 0) (l : List ℕ) (n : ℕ) : pickMean N F l n = 0 := by
  induction n generalizing l with
  | zero => exact h l
  | succ n ih => unfold pickMean; simp [ih]

theorem pickOp_off {κ : Pt → Measure Pt} (hκ : KeepsLive beta c.tbl κ) {F : List Pt → ENNReal} (hF : Off c beta M F) (k : ℕ) :
    Off c beta M (pickOp c κ k F) := by
  intro x hx
  exact pickMean_zero (fun L => moveOps_off hκ hF L x hx) _ _

theorem flipK_keeps (beta : ℝ) (tbl : List (VDef K)) : KeepsLive beta tbl (flipK tbl) := by
  intro v hv
  rw [MeasureTheory.ae_iff]
  unfold flipK
  by_cases h : numStates tbl v.1 ≤ 1
  · rw [if_pos h]
    simp [hv]
  · rw [if_neg h, Measure.finsetSum_apply]
    refine Finset.sum_eq_zero fun k hk => ?_
    rw [Measure.smul_apply]
    have : ¬ ((v.1, k, v.2.2) : Pt) ∈ {w | ¬ ValidPt beta tbl w} := by
      simp only [Set.mem_setOf_eq, not_not]
      unfold otherStates at hk
      rw [Finset.mem_sdiff, Finset.mem_range] at hk
      exact ⟨hv.1, hk.1, hv.2.2.1, hv.2.2.2⟩
    simp [Measure.dirac_apply, Set.indicator_of_notMem this]

theorem shiftK_keeps (hb : 0 < beta) (step : ℝ) (tbl : List (VDef K)) : KeepsLive beta tbl (shiftK beta step) := by
  intro v hv
  have hm : Measurable fun r : ℝ => ((v.1, v.2.1, mymod (v.2.2 + (r - 1 / 2) * step) beta) : Pt) :=
    (measurable_shift beta step).comp (measurable_const.prodMk measurable_id)
  have hne : ∀ᵐ r ∂uniform01, step ≠ 0 → ∀ z : ℤ, v.2.2 + (r - 1 / 2) * step ≠ z * beta := by
    unfold uniform01
    refine ae_restrict_of_ae ?_
    by_cases h0 : step = 0
    · exact Filter.Eventually.of_forall fun r h => absurd h0 h
    · have : ∀ z : ℤ, ∀ᵐ r : ℝ, v.2.2 + (r - 1 / 2) * step ≠ z * beta := by
        intro z
        have : ∀ᵐ r : ℝ, r ≠ (z * beta - v.2.2) / step + 1 / 2 := by
          rw [MeasureTheory.ae_iff]; simp
        filter_upwards [this] with r hr h
        refine hr ?_
        field_simp
        linarith
      filter_upwards [ae_all_iff.2 this] with r hr _
      exact hr
  unfold shiftK
  refine (ae_map_iff hm.aemeasurable ?_).2 ?_
  · have q1 : Measurable fun p : Pt => p.1 := measurable_fst
    have q2 : Measurable fun p : Pt => p.2.1 := measurable_fst.comp measurable_snd
    have q3 : Measurable fun p : Pt => p.2.2 := measurable_snd.comp measurable_snd
    have q4 : Measurable fun p : Pt => numStates tbl p.1 := (Measurable.of_discrete (f := fun t : ℕ => numStates tbl t)).comp q1
    exact ((measurableSet_lt q1 measurable_const).inter ((measurableSet_lt q2 q4).inter
      ((measurableSet_le measurable_const q3).inter (measurableSet_lt q3 measurable_const))))
  · filter_upwards [hne] with r hr
    obtain ⟨⟨k, hk⟩, h1, h2⟩ := C33_mymod (x := v.2.2 + (r - 1 / 2) * step) hb
    refine ⟨hv.1, hv.2.1, ?_⟩
    show 0 ≤ mymod _ beta ∧ mymod _ beta < beta
    by_cases hx : 0 ≤ v.2.2 + (r - 1 / 2) * step
    · exact h1 hx
    · obtain ⟨h3, h4⟩ := h2 (not_le.1 hx)
      refine ⟨h3.le, lt_of_le_of_ne h4 fun e => ?_⟩
      have hs : step ≠ 0 := by
        rintro rfl
        exact hx (by simpa using hv.2.2.1)
      refine hr hs (1 - k) ?_
      push_cast
      linarith

/-! ## The way down -/

theorem moveOp_low {κ : Pt → Measure Pt} (hκ : KeepsLive beta c.tbl κ) (hp : ∀ v, IsProbabilityMeasure (κ v)) {F : List Pt → ENNReal} {n : ℕ}
    {a : ENNReal} (hF : LowOn c beta M n a F) (i : ℕ) : LowOn c beta M n a (moveOp c κ i F) := by
  intro x hx hn
  have := hp (x.getD i default)
  unfold moveOp
  have hc : ∫⁻ w, a ∂κ (x.getD i default) = a := by simp
  rw [← hc]
  refine lintegral_mono_ae ?_
  have hle : ∀ w, (wt c (x.set i w) ≠ 0 → a ≤ F (x.set i w)) →
      a ≤ accept c x (x.set i w) 1 * F (x.set i w) + (1 - accept c x (x.set i w) 1) * F x := by
    intro w hw
    by_cases h : wt c (x.set i w) = 0
    · rw [accept_zero h]
      simpa using hF x hx hn
    · calc a = (accept c x (x.set i w) 1 + (1 - accept c x (x.set i w) 1)) * a := by
            rw [add_tsub_cancel_of_le (accept_le _ _ _), one_mul]
        _ ≤ _ := by
          rw [add_mul]
          exact add_le_add (mul_le_mul_right (hw h) _) (mul_le_mul_right (hF x hx hn) _)
  by_cases hi : i < x.length
  · filter_upwards [set_live hκ hx hi] with w hw
    exact hle w fun h => hF _ (hw h) (by rw [List.length_set]; exact hn)
  · refine Filter.Eventually.of_forall fun w => hle w fun _ => ?_
    rw [List.set_eq_of_length_le (by omega)]
    exact hF x hx hn

theorem moveOps_low {κ : Pt → Measure Pt} (hκ : KeepsLive beta c.tbl κ) (hp : ∀ v, IsProbabilityMeasure (κ v)) {F : List Pt → ENNReal} {n : ℕ}
    {a : ENNReal} (hF : LowOn c beta M n a F) (l : List ℕ) : LowOn c beta M n a (moveOps c κ l F) := by
  induction l with
  | nil => exact hF
  | cons i l ih => exact moveOp_low hκ hp ih i

theorem pickMean_ge {N : ℕ} {F : List ℕ → ENNReal} {a : ENNReal} (h : ∀ L, a ≤ F L) (l : List ℕ) (n : ℕ) (h1 : l.Nodup)
    (h2 : ∀ i ∈ l, i < N) (hn : l.length + n ≤ N) : a ≤ pickMean N F l n := by
  induction n generalizing l with
  | zero => exact h l
  | succ n ih =>
    unfold pickMean
    have hcard : (Finset.range N \ l.toFinset).card = N - l.length := by
      rw [Finset.card_sdiff_of_subset, Finset.card_range, List.toFinset_card_of_nodup h1]
      intro i hi
      exact Finset.mem_range.2 (h2 i (List.mem_toFinset.1 hi))
    have hpos : 0 < N - l.length := by omega
    calc a = ∑ k ∈ Finset.range N \ l.toFinset, ENNReal.ofReal (1 / ((N - l.length : ℕ) : ℝ)) * a := by
          rw [Finset.sum_const, hcard, nsmul_eq_mul, ← mul_assoc, one_div, ENNReal.ofReal_inv_of_pos (by exact_mod_cast hpos),
            ENNReal.ofReal_natCast, ENNReal.mul_inv_cancel (by exact_mod_cast hpos.ne') (ENNReal.natCast_ne_top _), one_mul]
      _ ≤ _ := Finset.sum_le_sum fun k hk => by
        obtain ⟨q1, q2⟩ := CanPick.snoc h1 h2 hk
        exact mul_le_mul_right (ih (l ++ [k]) q1 q2 (by simp; omega)) _

theorem pickOp_low {κ : Pt → Measure Pt} (hκ : KeepsLive beta c.tbl κ) (hp : ∀ v, IsProbabilityMeasure (κ v)) {F : List Pt → ENNReal} {n : ℕ}
    {a : ENNReal} (hF : LowOn c beta M n a F) (k : ℕ) : LowOn c beta M n a (pickOp c κ k F) := by
  intro x hx hn
  exact pickMean_ge (fun L => moveOps_low hκ hp hF L x hx hn) [] _ List.nodup_nil (by simp) (by simp)

/-- From every configuration some vertex can be removed with a ratio of weights of at least `a`. -/
def Down (c : Ctx K) (beta : ℝ) (M : ℕ) (a : ℝ) : Prop :=
  ∀ x ∈ Live c beta M, x ≠ [] → ∃ i < x.length, a * ‖wt c x‖ ≤ ‖wt c (x.eraseIdx i)‖

/-- The probability of a step down. -/
noncomputable def downRate (c : Ctx K) (beta : ℝ) (M : ℕ) (a : ℝ) : ℝ := min (1 / (M + 1 : ℝ)) (a / (beta * c.tbl.length)) / 2

theorem downRate_pos (hb : 0 < beta) (hT : c.tbl ≠ []) {a : ℝ} (ha : 0 < a) : 0 < downRate c beta M a := by
  have : 0 < (c.tbl.length : ℝ) := by exact_mod_cast List.length_pos_iff.2 hT
  unfold downRate
  positivity

theorem mixOp_low (hb : 0 < beta) (hT : c.tbl ≠ []) {a : ℝ} (ha : 0 < a) (hd : Down c beta M a) {F : List Pt → ENNReal} {n : ℕ} {b : ENNReal}
    (hF : LowOn c beta M n b F) : LowOn c beta M (n + 1) (ENNReal.ofReal (downRate c beta M a) * b) (mixOp c beta M F) := by
  intro x hx hn
  have hT' : 0 < (c.tbl.length : ℝ) := by exact_mod_cast List.length_pos_iff.2 hT
  set r : ℝ := min (1 / (M + 1 : ℝ)) (a / (beta * c.tbl.length)) with hr
  have hr0 : 0 ≤ r := by positivity
  have hr1 : r ≤ 1 := (min_le_left _ _).trans (by rw [div_le_one (by positivity)]; linarith [Nat.cast_nonneg (α := ℝ) M])
  have key : ENNReal.ofReal r * b ≤ remOp c beta F x := by
    unfold remOp
    by_cases h0 : x.length = 0
    · rw [if_pos h0]
      refine le_trans ?_ (hF x hx (by omega))
      calc _ ≤ 1 * b := mul_le_mul_left (by rw [← ENNReal.ofReal_one]; exact ENNReal.ofReal_le_ofReal hr1) _
        _ = b := one_mul b
    · rw [if_neg h0]
      obtain ⟨i, hi, hle⟩ := hd x hx (by intro e; rw [e] at h0; simp at h0)
      have hwx : 0 < ‖wt c x‖ := norm_pos_iff.2 hx.2.2
      have hwy : wt c (x.eraseIdx i) ≠ 0 := by
        rw [← norm_pos_iff]
        exact lt_of_lt_of_le (mul_pos ha hwx) hle
      have hL : (0 : ℝ) < x.length := by exact_mod_cast (by omega : 0 < x.length)
      have hFy : b ≤ F (x.eraseIdx i) := hF _ (erase_live hx hi hwy) (by rw [List.length_eraseIdx_of_lt hi]; omega)
      refine le_trans ?_ (Finset.single_le_sum (f := fun i => ENNReal.ofReal (1 / (x.length : ℝ)) *
        (accept c x (x.eraseIdx i) (x.length / (beta * c.tbl.length)) * F (x.eraseIdx i) +
          (1 - accept c x (x.eraseIdx i) (x.length / (beta * c.tbl.length))) * F x)) (fun _ _ => zero_le) (Finset.mem_range.2 hi))
      refine le_trans ?_ (mul_le_mul_right (le_trans (mul_le_mul_right hFy _) le_self_add) _)
      rw [← mul_assoc]
      refine mul_le_mul_left ?_ _
      unfold accept
      rw [← ENNReal.ofReal_mul (by positivity)]
      refine ENNReal.ofReal_le_ofReal ?_
      rw [norm_mul, norm_div, RCLike.norm_ofReal, abs_of_nonneg (by positivity)]
      have hq : a ≤ ‖wt c (x.eraseIdx i)‖ / ‖wt c x‖ := by rwa [le_div_iff₀ hwx]
      have hLM : (x.length : ℝ) ≤ M + 1 := by have := hx.2.1; exact_mod_cast (by omega : x.length ≤ M + 1)
      rw [mul_min_of_nonneg _ _ (by positivity), mul_one]
      refine le_min ((min_le_left _ _).trans (one_div_le_one_div_of_le hL hLM)) ((min_le_right _ _).trans ?_)
      calc a / (beta * c.tbl.length) = 1 / x.length * (a * (x.length / (beta * c.tbl.length))) := by field_simp
        _ ≤ _ := by
          refine mul_le_mul_of_nonneg_left (mul_le_mul_of_nonneg_right hq (by positivity)) (by positivity)
  unfold mixOp
  refine le_trans ?_ (le_add_self)
  have : ENNReal.ofReal (downRate c beta M a) = 2⁻¹ * ENNReal.ofReal r := by
    unfold downRate
    rw [← hr, div_eq_mul_inv, mul_comm, ENNReal.ofReal_mul (by positivity), ENNReal.ofReal_inv_of_pos two_pos]
    simp
  rw [this, mul_assoc]
  exact mul_le_mul_right key _

theorem mixOp_iter_low (hb : 0 < beta) (hT : c.tbl ≠ []) {a : ℝ} (ha : 0 < a) (hd : Down c beta M a) {F : List Pt → ENNReal} {n : ℕ} {b : ENNReal}
    (hF : LowOn c beta M n b F) (k : ℕ) :
    LowOn c beta M (n + k) (ENNReal.ofReal (downRate c beta M a) ^ k * b) ((mixOp c beta M)^[k] F) := by
  induction k with
  | zero => simpa using hF
  | succ k ih =>
    rw [Function.iterate_succ_apply', pow_succ', mul_assoc, ← add_assoc]
    exact mixOp_low hb hT ha hd ih

/-! ## Sequences of updates -/

/-- The number of attempted insertions and removals in a sequence of updates. -/
def attempts (kIns : ℕ) : List Upd → ℕ
  | [] => 0
  | .insRem :: l => 2 * kIns + attempts kIns l
  | .shift :: l => attempts kIns l
  | .spinFlip :: l => attempts kIns l
  | .recompute :: l => attempts kIns l

theorem simUpd_low (hf : FullTerms c) (hT : c.tbl ≠ []) (hG : MeasurableG0 c.G0) (hb : 0 < beta) {kIns : ℕ} {sz : ℝ}
    {m : Mgr} (hm : m = Mgr.create beta kIns M sz c.tbl) {a : ℝ} (ha : 0 < a) (hd : Down c beta M a) (up : Upd) :
    ∃ A, Samples (simUpd m c up) A ∧ ∀ F, Nice F → Nice (A F) ∧ (Off c beta M F → Off c beta M (A F)) ∧
      ∀ n b, LowOn c beta M n b F →
        LowOn c beta M (n + attempts kIns [up]) (ENNReal.ofReal (downRate c beta M a) ^ attempts kIns [up] * b) (A F) := by
  have hs : ∀ d ∈ c.tbl, 0 < d.numAf := fun d hd => (hf d hd).1
  subst hm
  cases up with
  | insRem =>
    obtain ⟨A, h1, h2⟩ := simInsRem_law hb hT hs hG M kIns
    refine ⟨A, h1, fun F hF => ?_⟩
    rw [h2 F hF]
    refine ⟨?_, fun ho => ?_, fun n b hl => mixOp_iter_low hb hT ha hd hl (2 * kIns)⟩
    · generalize 2 * kIns = n
      induction n with
      | zero => exact hF
      | succ n ih => rw [Function.iterate_succ_apply']; exact mixOp_nice hG beta M ih
    · generalize 2 * kIns = n
      induction n with
      | zero => exact ho
      | succ n ih => rw [Function.iterate_succ_apply']; exact mixOp_off ih
  | shift =>
    obtain ⟨A, h1, h2⟩ := simShift_law (c := c) hb (beta * sz) hG kIns
    refine ⟨A, h1, fun F hF => ?_⟩
    rw [h2 F hF]
    refine ⟨pickOp_nice hG (shiftK_rev hb _ c.tbl) kIns hF, fun ho => pickOp_off (shiftK_keeps hb _ _) ho kIns, fun n b hl => ?_⟩
    have := pickOp_low (shiftK_keeps hb (beta * sz) c.tbl) (shiftK_rev hb (beta * sz) c.tbl).prob hl kIns
    simpa [attempts] using this
  | spinFlip =>
    refine ⟨_, simSpinFlip_law hG (2 * kIns), fun F hF => ⟨pickOp_nice hG (flipK_rev beta c.tbl) _ hF,
      fun ho => pickOp_off (flipK_keeps beta _) ho _, fun n b hl => ?_⟩⟩
    have := pickOp_low (flipK_keeps beta c.tbl) (flipK_rev beta c.tbl).prob hl (2 * kIns)
    simpa [attempts] using this
  | recompute => exact ⟨_, Samples.id, fun F hF => ⟨hF, id, fun n b hl => by simpa [attempts] using hl⟩⟩

theorem simRun_low (hf : FullTerms c) (hT : c.tbl ≠ []) (hG : MeasurableG0 c.G0) (hb : 0 < beta) {kIns : ℕ} {sz : ℝ}
    {m : Mgr} (hm : m = Mgr.create beta kIns M sz c.tbl) {a : ℝ} (ha : 0 < a) (hd : Down c beta M a) (l : List Upd) :
    ∃ A, Samples (simRun m c l) A ∧ ∀ F, Nice F → Nice (A F) ∧ (Off c beta M F → Off c beta M (A F)) ∧
      ∀ n b, LowOn c beta M n b F →
        LowOn c beta M (n + attempts kIns l) (ENNReal.ofReal (downRate c beta M a) ^ attempts kIns l * b) (A F) := by
  induction l with
  | nil => exact ⟨_, Samples.id, fun F hF => ⟨hF, id, fun n b hl => by simpa [attempts] using hl⟩⟩
  | cons up l ih =>
    obtain ⟨A, h1, h2⟩ := ih
    obtain ⟨B, h3, h4⟩ := simUpd_low hf hT hG hb hm ha hd up
    refine ⟨_, h1.comp h3, fun F hF => ?_⟩
    obtain ⟨q1, q2, q3⟩ := h2 F hF
    obtain ⟨r1, r2, r3⟩ := h4 _ q1
    refine ⟨r1, fun ho => r2 (q2 ho), fun n b hl => ?_⟩
    have e : attempts kIns (up :: l) = attempts kIns l + attempts kIns [up] := by cases up <;> simp [attempts]; omega
    have := r3 _ _ (q3 n b hl)
    rw [e, pow_add, mul_comm (_ ^ _) (_ ^ attempts kIns [up]), mul_assoc, ← add_assoc]
    exact this

/-! ## The repeated sequence -/

theorem live_perm {x y : List Pt} (h : x.Perm y) : x ∈ Live c beta M ↔ y ∈ Live c beta M := by
  unfold Live ValidPts
  simp only [Set.mem_setOf_eq, wt_perm c h, h.length_eq, h.mem_iff]

theorem measurable_live (hG : MeasurableG0 c.G0) : MeasurableSet (Live c beta M) := by
  refine measurableSet_list fun n => ?_
  have q0 : ∀ i : Fin n, Measurable fun x : Fin n → Pt => x i := fun i => measurable_pi_apply i
  have h1 : MeasurableSet {x : Fin n → Pt | ∀ i, ValidPt beta c.tbl (x i)} := by
    rw [Set.setOf_forall]
    refine MeasurableSet.iInter fun i => ?_
    have q1 : Measurable fun p : Pt => p.1 := measurable_fst
    have q2 : Measurable fun p : Pt => p.2.1 := measurable_fst.comp measurable_snd
    have q3 : Measurable fun p : Pt => p.2.2 := measurable_snd.comp measurable_snd
    have q4 : Measurable fun p : Pt => numStates c.tbl p.1 := (Measurable.of_discrete (f := fun t : ℕ => numStates c.tbl t)).comp q1
    have hms : MeasurableSet {p : Pt | ValidPt beta c.tbl p} :=
      ((measurableSet_lt q1 measurable_const).inter ((measurableSet_lt q2 q4).inter
        ((measurableSet_le measurable_const q3).inter (measurableSet_lt q3 measurable_const))))
    exact q0 i hms
  have h2 : MeasurableSet {x : Fin n → Pt | wt c (List.ofFn x) ≠ 0} :=
    ((measurable_wt hG).comp (measurable_ofFn n)) (measurableSet_singleton (0 : K)).compl
  have h3 : {x : Fin n → Pt | List.ofFn x ∈ Live c beta M} =
      {x : Fin n → Pt | ∀ i, ValidPt beta c.tbl (x i)} ∩ ({x | n ≤ M} ∩ {x : Fin n → Pt | wt c (List.ofFn x) ≠ 0}) := by
    ext x
    simp only [Live, Set.mem_setOf_eq, Set.mem_inter_iff, List.length_ofFn]
    refine and_congr_left fun _ => ⟨fun h i => h _ ((List.mem_ofFn' x _).2 ⟨i, rfl⟩), fun h p hp => ?_⟩
    obtain ⟨i, rfl⟩ := (List.mem_ofFn' x p).1 hp
    exact h i
  rw [h3]
  exact h1.inter ((MeasurableSet.const _).inter h2)

theorem nice_indicator {Y : Set (List Pt)} (hY : MeasurableSet Y) (hsym : ∀ x y : List Pt, x.Perm y → (x ∈ Y ↔ y ∈ Y)) :
    Nice (Y.indicator (1 : List Pt → ENNReal)) := by
  classical
  refine ⟨measurable_one.indicator hY, fun x y h => ?_⟩
  unfold Set.indicator
  by_cases hx : x ∈ Y
  · rw [if_pos hx, if_pos ((hsym x y h).1 hx)]
    rfl
  · rw [if_neg hx, if_neg fun q => hx ((hsym x y h).2 q)]

theorem measurable_empty : MeasurableSet ({[]} : Set (List Pt)) := by
  refine measurableSet_list fun n => ?_
  by_cases h : n = 0
  · subst h
    simp
  · have : {x : Fin n → Pt | List.ofFn x ∈ ({[]} : Set (List Pt))} = ∅ := by
      ext x
      simp [h]
    rw [this]
    exact MeasurableSet.empty

/-- The probability that a program on points ends in a set. -/
theorem Samples.prob {f : List Pt × (ℕ → ℝ) → List Pt × (ℕ → ℝ)} {A : (List Pt → ENNReal) → List Pt → ENNReal} (hA : Samples f A)
    {Y : Set (List Pt)} (hY : MeasurableSet Y) (x : List Pt) : streams {u | (f (x, u)).1 ∈ Y} = A (Y.indicator 1) x := by
  have hE : MeasurableSet {u : ℕ → ℝ | (f (x, u)).1 ∈ Y} := (fst_meas hA.meas x) hY
  have hI : Measurable (Y.indicator (1 : List Pt → ENNReal)) := measurable_one.indicator hY
  rw [← lintegral_indicator_one hE]
  have := hA.law (fun z => Y.indicator 1 z.1) (hI.comp measurable_fst) x
  simp only [lintegral_const, measure_univ, mul_one] at this
  rw [← this]
  rfl

theorem wt_nil (c : Ctx K) : wt c [] = 1 := weight_nil c

theorem simRun_append (m : Mgr) (c : Ctx K) (l l' : List Upd) (z : List Pt × (ℕ → ℝ)) : simRun m c (l ++ l') z = simRun m c l' (simRun m c l z) := by
  induction l generalizing z with
  | nil => rfl
  | cons a l ih => exact ih _

theorem simRun_repeat (m : Mgr) (c : Ctx K) (l : List Upd) (n : ℕ) : (simRun m c l)^[n] = simRun m c (List.replicate n l).flatten := by
  induction n with
  | zero => rfl
  | succ n ih =>
    funext z
    rw [Function.iterate_succ_apply, ih, List.replicate_succ, List.flatten_cons, simRun_append]

theorem attempts_append (k : ℕ) (l l' : List Upd) : attempts k (l ++ l') = attempts k l + attempts k l' := by
  induction l with
  | nil => simp [attempts]
  | cons a l ih => cases a <;> simp [attempts, ih] <;> omega

theorem attempts_repeat (k : ℕ) (l : List Upd) (n : ℕ) : attempts k (List.replicate n l).flatten = n * attempts k l := by
  induction n with
  | zero => simp [attempts]
  | succ n ih => rw [List.replicate_succ, List.flatten_cons, attempts_append, ih]; ring

theorem attempts_pos {k : ℕ} (hk : 0 < k) {l : List Upd} (h : Upd.insRem ∈ l) : 0 < attempts k l := by
  induction l with
  | nil => simp at h
  | cons a l ih =>
    rcases List.mem_cons.1 h with rfl | h
    · simp [attempts]; omega
    · have := ih h
      cases a <;> simp [attempts] <;> omega

theorem simRun_renews (hf : FullTerms c) (hT : c.tbl ≠ []) (hG : MeasurableG0 c.G0) (hb : 0 < beta) {kIns : ℕ} (hk : 0 < kIns) {sz : ℝ}
    {m : Mgr} (hm : m = Mgr.create beta kIns M sz c.tbl) {a : ℝ} (ha : 0 < a) (hd : Down c beta M a) {l : List Upd}
    (hl : Upd.insRem ∈ l) :
    Renews (simRun m c l) (Live c beta M) [] (M + 1) (downRate c beta M a ^ ((M + 1) * attempts kIns l)) := by
  have hp := downRate_pos (M := M) hb hT ha
  have hat := attempts_pos hk hl
  obtain ⟨A, h1, -⟩ := simRun_low hf hT hG hb hm ha hd l
  refine ⟨⟨A, h1⟩, fun n x hx => ?_, Nat.succ_pos M, pow_pos hp _, ⟨by intro p hp; simp at hp, by simp, by rw [wt_nil]; simp⟩,
    measurable_empty, fun x hx => ?_⟩
  · rw [simRun_repeat]
    obtain ⟨A, h1, h2⟩ := simRun_low hf hT hG hb hm ha hd (List.replicate n l).flatten
    have hc : MeasurableSet (Live c beta M)ᶜ := (measurable_live hG).compl
    have hn := nice_indicator hc fun x y h => not_congr (live_perm h)
    have := (h2 _ hn).2.1 (fun y hy => by simp [hy]) x hx
    rw [← h1.prob hc] at this
    exact this
  · rw [simRun_repeat]
    obtain ⟨A, h1, h2⟩ := simRun_low hf hT hG hb hm ha hd (List.replicate (M + 1) l).flatten
    have hn := nice_indicator measurable_empty fun x y h => by
      constructor
      · rintro rfl; simpa using h
      · rintro rfl; simpa using h
    have hge : M ≤ attempts kIns (List.replicate (M + 1) l).flatten := by rw [attempts_repeat]; nlinarith
    have h3 := (h2 _ hn).2.2 0 1 (fun y hy h0 => by simp [List.length_eq_zero_iff.1 (Nat.le_zero.1 h0)]) x hx
      (by have := hx.2.1; omega)
    rw [← h1.prob measurable_empty, mul_one, ← ENNReal.ofReal_pow hp.le, attempts_repeat] at h3
    exact h3

end CTInt
