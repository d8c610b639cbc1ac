import Verif.Proofs.Minor
import Verif.Proofs.RecordStep
import Verif.Proofs.EnsembleFinite
import Verif.Proofs.ErgodicProcess
import Verif.Spec.Converge
import Mathlib.MeasureTheory.Measure.WithDensity

/-!
# From almost every configuration the updates reach the empty one
-/

set_option linter.all false

namespace CTInt

open MeasureTheory Set

variable {K : Type} [RCLike K] [DecidableEq K]
variable {c : Ctx K} {beta : ℝ} {M : ℕ}

theorem stateProd_pos {x : List Pt} (h : ValidPts beta c.tbl x) : 0 < stateProd c.tbl x := by
  unfold stateProd
  apply List.prod_pos
  intro y hy
  obtain ⟨p, hp, rfl⟩ := List.mem_map.1 hy
  have := (h p hp).2.1
  have : 0 < numStates c.tbl p.1 := by omega
  positivity

theorem density_ne_zero {x : List Pt} (h : ValidPts beta c.tbl x) (hw : wt c x ≠ 0) : density c x ≠ 0 := by
  rw [density_eq]
  have := stateProd_pos h
  have := norm_pos_iff.2 hw
  rw [Ne, ENNReal.ofReal_eq_zero, not_le]
  positivity

theorem density_zero {x : List Pt} (hw : wt c x = 0) : density c x = 0 := by
  rw [density_eq, hw]; simp

/-- A function has mean zero if and only if it vanishes almost everywhere where there is weight. -/
theorem ensemble_zero_iff (hG : MeasurableG0 c.G0) {H : List Pt → ENNReal} (hH : Measurable H) :
    ensemble c beta M H = 0 ↔ ∀ n ≤ M, ∀ᵐ x ∂tupleMeasure beta c.tbl n, wt c (List.ofFn x) ≠ 0 → H (List.ofFn x) = 0 := by
  unfold ensemble
  rw [Finset.sum_eq_zero_iff]
  have hm : ∀ n, Measurable fun x : Fin n → Pt => density c (List.ofFn x) * H (List.ofFn x) := fun n =>
    ((measurable_density hG).comp (measurable_ofFn n)).mul (hH.comp (measurable_ofFn n))
  constructor
  · intro h n hn
    have h1 := h n (Finset.mem_range.2 (by omega))
    have h2 : ENNReal.ofReal (1 / (n.factorial : ℝ)) ≠ 0 := by
      rw [Ne, ENNReal.ofReal_eq_zero, not_le]
      have := n.factorial_pos
      positivity
    have h3 := (mul_eq_zero.1 h1).resolve_left h2
    rw [lintegral_eq_zero_iff (hm n)] at h3
    filter_upwards [h3, ae_validPts beta c.tbl n] with x hx hv hw
    exact (mul_eq_zero.1 (show density c (List.ofFn x) * H (List.ofFn x) = 0 from hx)).resolve_left (density_ne_zero hv hw)
  · intro h n hn
    rw [mul_eq_zero]
    right
    rw [lintegral_eq_zero_iff (hm n)]
    filter_upwards [h n (by have := Finset.mem_range.1 hn; omega)] with x hx
    by_cases hw : wt c (List.ofFn x) = 0
    · rw [density_zero hw]; simp
    · rw [hx hw]; simp

/-- `F` is positive at almost every configuration with at most `n` vertices and with weight. -/
def PosOn (c : Ctx K) (beta : ℝ) (M n : ℕ) (F : List Pt → ENNReal) : Prop :=
  ∀ l ≤ M, l ≤ n → ∀ᵐ x ∂tupleMeasure beta c.tbl l, wt c (List.ofFn x) ≠ 0 → F (List.ofFn x) ≠ 0

/-- What holds almost everywhere holds almost everywhere without one of the points. -/
theorem ae_eraseIdx {n : ℕ} {P : List Pt → Prop} (hP : MeasurableSet {x | P x}) (h : ∀ᵐ x ∂tupleMeasure beta c.tbl n, P (List.ofFn x))
    (i : Fin (n + 1)) : ∀ᵐ y ∂tupleMeasure beta c.tbl (n + 1), P ((List.ofFn y).eraseIdx i) := by
  set N : List Pt → ENNReal := {x | P x}ᶜ.indicator 1 with hN
  have hNm : Measurable N := measurable_one.indicator hP.compl
  have he : Measurable fun y : Fin (n + 1) → Pt => (List.ofFn y).eraseIdx i := (measurable_eraseIdx i).comp (measurable_ofFn (n + 1))
  have h1 := lintegral_insertNth (beta := beta) (tbl := c.tbl) i (G := fun y => N ((List.ofFn y).eraseIdx i)) (hNm.comp he)
  simp only [ofFn_insertNth_eraseIdx] at h1
  have h2 : ∫⁻ x : Fin n → Pt, N (List.ofFn x) ∂tupleMeasure beta c.tbl n = 0 := by
    have hm : Measurable fun x : Fin n → Pt => N (List.ofFn x) := hNm.comp (measurable_ofFn n)
    rw [lintegral_eq_zero_iff hm]
    filter_upwards [h] with x hx
    exact indicator_of_notMem (show List.ofFn x ∉ {x | P x}ᶜ from fun hc => hc hx) _
  rw [h2, lintegral_zero] at h1
  have hm2 : Measurable fun y : Fin (n + 1) → Pt => N ((List.ofFn y).eraseIdx i) := hNm.comp he
  rw [lintegral_eq_zero_iff hm2] at h1
  filter_upwards [h1] with y hy
  by_contra hc
  have : N ((List.ofFn y).eraseIdx i) = 1 := indicator_of_mem (show (List.ofFn y).eraseIdx i ∈ {x | P x}ᶜ from hc) _
  rw [show N ((List.ofFn y).eraseIdx i) = 0 from hy] at this
  exact zero_ne_one this

theorem accept_pos {x y : List Pt} {k : ℝ} (hx : wt c x ≠ 0) (hy : wt c y ≠ 0) (hk : 0 < k) : accept c x y k ≠ 0 := by
  unfold accept
  rw [Ne, ENNReal.ofReal_eq_zero, not_le]
  refine lt_min one_pos ?_
  rw [norm_pos_iff]
  exact mul_ne_zero (div_ne_zero hy hx) (by exact_mod_cast hk.ne')

theorem mixOp_pos (hG : MeasurableG0 c.G0) (hb : 0 < beta) (hT : c.tbl ≠ []) (hd : AlmostShrinks c beta M) {F : List Pt → ENNReal}
    (hF : Measurable F) {n : ℕ} (h : PosOn c beta M n F) : PosOn c beta M (n + 1) (mixOp c beta M F) := by
  have hT' : 0 < (c.tbl.length : ℝ) := by exact_mod_cast List.length_pos_iff.2 hT
  have key : ∀ x, remOp c beta F x ≠ 0 → mixOp c beta M F x ≠ 0 := by
    intro x hx hc
    unfold mixOp at hc
    rw [add_eq_zero] at hc
    exact hx ((mul_eq_zero.1 hc.2).resolve_left (by simp))
  intro l hl hln
  cases l with
  | zero =>
    filter_upwards [h 0 hl (Nat.zero_le n)] with x hx hw
    refine key _ ?_
    unfold remOp
    rw [if_pos (by simp)]
    exact hx hw
  | succ l =>
    have hset : MeasurableSet {x : List Pt | wt c x ≠ 0 → F x ≠ 0} := by
      have h1 : MeasurableSet {x : List Pt | wt c x = 0} := measurable_wt hG (measurableSet_singleton (0 : K))
      have h2 : MeasurableSet {x : List Pt | F x = 0} := hF (measurableSet_singleton (0 : ENNReal))
      have : {x : List Pt | wt c x ≠ 0 → F x ≠ 0} = {x | wt c x = 0} ∪ {x | F x = 0}ᶜ := by
        ext x
        simp only [mem_setOf_eq, mem_union, mem_compl_iff]
        tauto
      rw [this]
      exact h1.union h2.compl
    have h1 := fun i : Fin (l + 1) => ae_eraseIdx hset (h l (by omega) (by omega)) i
    filter_upwards [ae_all_iff.2 h1, hd l (by omega)] with x hx hs hw
    obtain ⟨i, hi, hwi⟩ := hs hw
    refine key _ ?_
    unfold remOp
    have hlen : (List.ofFn x).length = l + 1 := List.length_ofFn
    rw [if_neg (by omega), hlen]
    intro hc
    have h2 := (Finset.sum_eq_zero_iff.1 hc) i (Finset.mem_range.2 hi)
    rw [mul_eq_zero] at h2
    rcases h2 with h2 | h2
    · rw [ENNReal.ofReal_eq_zero] at h2
      have : (0 : ℝ) < 1 / ((l + 1 : ℕ) : ℝ) := by positivity
      linarith
    · rw [add_eq_zero] at h2
      have h3 := mul_eq_zero.1 h2.1
      rcases h3 with h3 | h3
      · refine accept_pos hw hwi ?_ h3
        positivity
      · exact hx ⟨i, hi⟩ hwi h3

theorem mixOp_iter_pos (hG : MeasurableG0 c.G0) (hb : 0 < beta) (hT : c.tbl ≠ []) (hd : AlmostShrinks c beta M) {F : List Pt → ENNReal}
    (hF : Nice F) {n : ℕ} (h : PosOn c beta M n F) (k : ℕ) : Nice ((mixOp c beta M)^[k] F) ∧ PosOn c beta M (n + k) ((mixOp c beta M)^[k] F) := by
  induction k with
  | zero => exact ⟨hF, h⟩
  | succ k ih =>
    rw [Function.iterate_succ_apply']
    exact ⟨mixOp_nice hG beta M ih.1, mixOp_pos hG hb hT hd ih.1.meas ih.2⟩

/-! ## Updates that keep the number of vertices -/

theorem moveOps_len {κ : Pt → Measure Pt} {F : List Pt → ENNReal} {l : ℕ} (hF : ∀ x : List Pt, x.length = l → F x = 0) (L : List ℕ) :
    ∀ x : List Pt, x.length = l → moveOps c κ L F x = 0 := by
  induction L with
  | nil => exact hF
  | cons i L ih =>
    intro x hx
    show moveOp c κ i (moveOps c κ L F) x = 0
    unfold moveOp
    have : ∀ w, moveOps c κ L F (x.set i w) = 0 := fun w => ih _ (by rw [List.length_set]; exact hx)
    simp only [this, ih x hx, mul_zero, add_zero, lintegral_zero]

theorem pickOp_len {κ : Pt → Measure Pt} {F : List Pt → ENNReal} {l : ℕ} (hF : ∀ x : List Pt, x.length = l → F x = 0) (k : ℕ) (x : List Pt)
    (hx : x.length = l) : pickOp c κ k F x = 0 :=
  pickMean_zero (fun L => moveOps_len hF L x hx) _ _

theorem keeps_pos (hG : MeasurableG0 c.G0) {f : List Pt × (ℕ → ℝ) → List Pt × (ℕ → ℝ)} {A : (List Pt → ENNReal) → List Pt → ENNReal} (hA : Samples f A)
    (hn : ∀ F, Nice F → Nice (A F) ∧ ensemble c beta M (A F) = ensemble c beta M F)
    (hl : ∀ F, Nice F → ∀ l, (∀ x : List Pt, x.length = l → F x = 0) → ∀ x : List Pt, x.length = l → A F x = 0)
    {F : List Pt → ENNReal} (hF : Nice F) {n : ℕ} (h : PosOn c beta M n F) : PosOn c beta M n (A F) := by
  have m1 : MeasurableSet {x : List Pt | F x = 0 ∧ x.length ≤ n} :=
    (hF.meas (measurableSet_singleton (0 : ENNReal))).inter (measurable_length measurableSet_Iic)
  have n1 : Nice ({x : List Pt | F x = 0 ∧ x.length ≤ n}.indicator 1) := nice_indicator m1 fun x y hxy => by
    simp only [mem_setOf_eq, hF.sym x y hxy, hxy.length_eq]
  have e0 : ensemble c beta M ({x : List Pt | F x = 0 ∧ x.length ≤ n}.indicator 1) = 0 := by
    rw [ensemble_zero_iff hG n1.meas]
    intro l hl
    by_cases hln : l ≤ n
    · filter_upwards [h l hl hln] with x hx hw
      exact indicator_of_notMem (fun hc => hx hw hc.1) _
    · refine Filter.Eventually.of_forall fun x _ => indicator_of_notMem (fun hc => hln ?_) _
      have := hc.2
      rwa [List.length_ofFn] at this
  obtain ⟨n2, e1⟩ := hn _ n1
  rw [e0, ensemble_zero_iff hG n2.meas] at e1
  intro l hlM hln
  filter_upwards [e1 l hlM] with x hx hw
  have h1 := hx hw
  rw [← hA.prob m1] at h1
  have m3 : MeasurableSet {x : List Pt | x.length ≠ l} := (measurable_length (measurableSet_singleton l)).compl
  have h2 : streams {u | (f (List.ofFn x, u)).1 ∈ {x : List Pt | x.length ≠ l}} = 0 := by
    rw [hA.prob m3]
    exact hl _ (nice_indicator m3 fun x y hxy => by simp only [mem_setOf_eq, hxy.length_eq]) l
      (fun x hx => indicator_of_notMem (show x ∉ {x : List Pt | x.length ≠ l} from fun hc => hc hx) _) _ List.length_ofFn
  rw [hA.op_eq hF.meas]
  intro hc
  have hmF : Measurable fun u => F (f (List.ofFn x, u)).1 := hF.meas.comp (fst_meas hA.meas _)
  rw [lintegral_eq_zero_iff hmF] at hc
  have h3 : ∀ᵐ u ∂streams, False := by
    have a1 : ∀ᵐ u ∂streams, ¬ (f (List.ofFn x, u)).1 ∈ {x : List Pt | F x = 0 ∧ x.length ≤ n} := by
      rw [MeasureTheory.ae_iff]; simpa only [not_not] using h1
    have a2 : ∀ᵐ u ∂streams, ¬ (f (List.ofFn x, u)).1 ∈ {x : List Pt | x.length ≠ l} := by
      rw [MeasureTheory.ae_iff]; simpa only [not_not] using h2
    filter_upwards [hc, a1, a2] with u b1 b2 b3
    have b4 : (f (List.ofFn x, u)).1.length = l := by
      by_contra hne
      exact b3 hne
    exact b2 ⟨b1, by omega⟩
  obtain ⟨u, hu⟩ := h3.exists
  exact hu

theorem simUpd_pos (hf : FullTerms c) (hT : c.tbl ≠ []) (hG : MeasurableG0 c.G0) (hb : 0 < beta) {kIns : ℕ} {sz : ℝ}
    {m : Mgr} (hm : m = Mgr.create beta kIns M sz c.tbl) (hd : AlmostShrinks c beta M) (up : Upd) :
    ∃ A, Samples (simUpd m c up) A ∧ ∀ F, Nice F → Nice (A F) ∧
      ∀ n, PosOn c beta M n F → PosOn c beta M (n + attempts kIns [up]) (A F) := by
  have hs : ∀ d ∈ c.tbl, 0 < d.numAf := fun d hd => (hf d hd).1
  subst hm
  cases up with
  | insRem =>
    obtain ⟨A, h1, h2⟩ := simInsRem_law hb hT hs hG M kIns
    refine ⟨A, h1, fun F hF => ?_⟩
    rw [h2 F hF]
    refine ⟨?_, fun n hl => (mixOp_iter_pos hG hb hT hd hF hl (2 * kIns)).2⟩
    generalize 2 * kIns = n
    induction n with
    | zero => exact hF
    | succ n ih => rw [Function.iterate_succ_apply']; exact mixOp_nice hG beta M ih
  | shift =>
    obtain ⟨A, h1, h2⟩ := simShift_law (c := c) hb (beta * sz) hG kIns
    have hn : ∀ F, Nice F → Nice (A F) := fun F hF => by
      rw [h2 F hF]; exact pickOp_nice hG (shiftK_rev hb _ c.tbl) kIns hF
    refine ⟨A, h1, fun F hF => ⟨hn F hF, fun n hl => ?_⟩⟩
    have := keeps_pos hG h1 (fun F hF => ⟨hn F hF, by
      rw [h2 F hF]; exact pickOp_stationary hG (shiftK_rev hb _ c.tbl) kIns M hF.meas⟩)
      (fun F hF l hz x hx => by rw [h2 F hF]; exact pickOp_len hz kIns x hx) hF hl
    simpa [attempts] using this
  | spinFlip =>
    refine ⟨_, simSpinFlip_law hG (2 * kIns), fun F hF => ⟨pickOp_nice hG (flipK_rev beta c.tbl) _ hF, fun n hl => ?_⟩⟩
    have := keeps_pos hG (simSpinFlip_law hG (2 * kIns)) (fun F hF => ⟨pickOp_nice hG (flipK_rev beta c.tbl) _ hF,
      pickOp_stationary hG (flipK_rev beta c.tbl) _ M hF.meas⟩)
      (fun F hF l hz x hx => pickOp_len hz _ x hx) hF hl
    simpa [attempts] using this
  | recompute => exact ⟨_, Samples.id, fun F hF => ⟨hF, fun n hl => by simpa [attempts] using hl⟩⟩

theorem simRun_pos (hf : FullTerms c) (hT : c.tbl ≠ []) (hG : MeasurableG0 c.G0) (hb : 0 < beta) {kIns : ℕ} {sz : ℝ}
    {m : Mgr} (hm : m = Mgr.create beta kIns M sz c.tbl) (hd : AlmostShrinks c beta M) (l : List Upd) :
    ∃ A, Samples (simRun m c l) A ∧ ∀ F, Nice F → Nice (A F) ∧
      ∀ n, PosOn c beta M n F → PosOn c beta M (n + attempts kIns l) (A F) := by
  induction l with
  | nil => exact ⟨_, Samples.id, fun F hF => ⟨hF, fun n hl => by simpa [attempts] using hl⟩⟩
  | cons up l ih =>
    obtain ⟨A, h1, h2⟩ := ih
    obtain ⟨B, h3, h4⟩ := simUpd_pos hf hT hG hb hm hd up
    refine ⟨_, h1.comp h3, fun F hF => ?_⟩
    obtain ⟨q1, q2⟩ := h2 F hF
    obtain ⟨r1, r2⟩ := h4 _ q1
    refine ⟨r1, fun n hl => ?_⟩
    have e : attempts kIns (up :: l) = attempts kIns l + attempts kIns [up] := by cases up <;> simp [attempts]; omega
    have := r2 _ (q2 n hl)
    rw [e, ← add_assoc]
    exact this

/-! ## The ensemble as a measure -/

/-- The normalised ensemble. -/
noncomputable def ensMeasure (c : Ctx K) (beta : ℝ) (M : ℕ) : Measure (List Pt) :=
  (ensemble c beta M 1)⁻¹ • ∑ n ∈ Finset.range (M + 1), ENNReal.ofReal (1 / (n.factorial : ℝ)) •
    ((tupleMeasure beta c.tbl n).withDensity fun x => density c (List.ofFn x)).map List.ofFn

theorem lintegral_ensMeasure (hG : MeasurableG0 c.G0) {F : List Pt → ENNReal} (hF : Measurable F) :
    ∫⁻ x, F x ∂ensMeasure c beta M = (ensemble c beta M 1)⁻¹ * ensemble c beta M F := by
  unfold ensMeasure
  rw [lintegral_smul_measure, lintegral_finset_sum_measure, smul_eq_mul]
  congr 1
  unfold ensemble
  refine Finset.sum_congr rfl fun n _ => ?_
  rw [lintegral_smul_measure, smul_eq_mul, lintegral_map hF (measurable_ofFn n)]
  congr 1
  exact lintegral_withDensity_eq_lintegral_mul _ ((measurable_density hG).comp (measurable_ofFn n)) (hF.comp (measurable_ofFn n))

theorem ensMeasure_prob {B : ℝ} (hB : ∀ a b, ‖c.G0 a b‖ ≤ B) (hG : MeasurableG0 c.G0) : IsProbabilityMeasure (ensMeasure c beta M) := by
  have hZ := ensemble_lt_top (beta := beta) hB M
  have hZ1 := one_le_ensemble c beta M
  refine ⟨?_⟩
  rw [← lintegral_one, lintegral_ensMeasure hG measurable_const]
  exact ENNReal.inv_mul_cancel (by intro h; rw [h] at hZ1; simp at hZ1) hZ.ne

theorem ae_ensMeasure (hB : ensemble c beta M 1 < ⊤) (hG : MeasurableG0 c.G0) {P : List Pt → Prop} (hP : MeasurableSet {x | P x}) 
    (h : ∀ n ≤ M, ∀ᵐ x ∂tupleMeasure beta c.tbl n, wt c (List.ofFn x) ≠ 0 → P (List.ofFn x)) : ∀ᵐ x ∂ensMeasure c beta M, P x := by
  rw [MeasureTheory.ae_iff]
  have e : {x | ¬ P x} = {x | P x}ᶜ := rfl
  rw [e, ← lintegral_indicator_one hP.compl, lintegral_ensMeasure hG (measurable_one.indicator hP.compl)]
  have : ensemble c beta M ({x | P x}ᶜ.indicator 1) = 0 := by
    rw [ensemble_zero_iff hG (measurable_one.indicator hP.compl)]
    intro n hn
    filter_upwards [h n hn] with x hx hw
    exact indicator_of_notMem (show List.ofFn x ∉ {x | P x}ᶜ from fun hc => hc (hx hw)) _
  rw [this, mul_zero]

theorem ensMeasure_empty (hB : ensemble c beta M 1 < ⊤) (hG : MeasurableG0 c.G0) : ensMeasure c beta M {[]} ≠ 0 := by
  rw [← lintegral_indicator_one measurable_empty, lintegral_ensMeasure hG (measurable_one.indicator measurable_empty)]
  rw [Ne, mul_eq_zero, not_or]
  refine ⟨by rw [ENNReal.inv_eq_zero]; exact hB.ne, ?_⟩
  intro hc
  rw [ensemble_zero_iff hG (measurable_one.indicator measurable_empty)] at hc
  have h0 := hc 0 (Nat.zero_le M)
  rw [MeasureTheory.ae_iff] at h0
  have : {a : Fin 0 → Pt | ¬ (wt c (List.ofFn a) ≠ 0 → ({[]} : Set (List Pt)).indicator (1 : List Pt → ENNReal) (List.ofFn a) = 0)} = univ := by
    ext a
    simp only [List.ofFn_zero, mem_setOf_eq, mem_univ, iff_true, wt_nil]
    simp
  rw [this] at h0
  simp [tupleMeasure] at h0

theorem ensMeasure_keeps (hG : MeasurableG0 c.G0) {f : List Pt × (ℕ → ℝ) → List Pt × (ℕ → ℝ)} (h : KeepsEnsemble c beta M f) :
    KeepsPi List.Perm (ensMeasure c beta M) f := by
  obtain ⟨A, hA, h2⟩ := h.law
  refine ⟨A, hA, fun G hg => ?_⟩
  obtain ⟨q1, q2⟩ := h2 G ⟨hg.1, hg.2⟩
  exact ⟨⟨q1.meas, q1.sym⟩, by rw [lintegral_ensMeasure hG q1.meas, lintegral_ensMeasure hG hg.1, q2]⟩

theorem passK_keeps (hG : MeasurableG0 c.G0) {f : List Pt × (ℕ → ℝ) → List Pt × (ℕ → ℝ)} (h : KeepsEnsemble c beta M f) {k : ℕ}
    {V : List Pt × (ℕ → ℝ) → ℝ} (hV : Measurable V) (hk : FirstOnly k V) (hs : ∀ x y u, x.Perm y → V (x, u) = V (y, u)) :
    KeepsRec List.Perm (ensMeasure c beta M) (passK f k V) := by
  obtain ⟨A, hA, h2⟩ := h.law
  obtain ⟨A2, hA2⟩ := recordStep_samples hV hk
  have hK : Samples (passK f k V) fun H => A (A2 H) := hA2.comp hA
  refine ⟨_, hK, fun Γ hΓ hsym x y hxy => ?_, fun G hg => ?_⟩
  · have e : A2 Γ = fun x => ∫⁻ u, Γ (x, V (x, u)) ∂streams := funext fun x => hA2.op_eq hΓ x
    have hn : Nice (A2 Γ) := by
      rw [e]
      refine ⟨Measurable.lintegral_prod_right' (f := fun p : List Pt × (ℕ → ℝ) => Γ (p.1, V p)) (hΓ.comp (measurable_fst.prodMk hV)), fun x y hxy => ?_⟩
      exact lintegral_congr fun u => by rw [hs x y u hxy, hsym x y _ hxy]
    exact (h2 _ hn).1.sym x y hxy
  · have e : A2 (fun z => G z.1) = G := by
      funext x
      have hm : Measurable fun z : List Pt × ℝ => G z.1 := hg.1.comp measurable_fst
      rw [hA2.op_eq hm x]
      show ∫⁻ u, G x ∂streams = G x
      simp
    obtain ⟨q1, q2⟩ := h2 G ⟨hg.1, hg.2⟩
    show ∫⁻ x, A (A2 fun z => G z.1) x ∂ensMeasure c beta M = _
    rw [e, lintegral_ensMeasure hG q1.meas, lintegral_ensMeasure hG hg.1, q2]

end CTInt
