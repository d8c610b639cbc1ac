import Verif.Proofs.SimCode
import Verif.Props.SpinFlip

/-!
# The law of a sequence of updates
-/

set_option linter.all false

namespace CTInt

open MeasureTheory Set

variable {K : Type} [RCLike K] [DecidableEq K]
variable {c : Ctx K}

/-- The mean after an update on points exists and leaves the ensemble invariant. -/
theorem simUpd_law (hf : FullTerms c) (hT : c.tbl ≠ []) (hG : MeasurableG0 c.G0) {beta : ℝ} (hb : 0 < beta) {kIns maxOrder : ℕ} {sz : ℝ}
    {m : Mgr} (hm : m = Mgr.create beta kIns maxOrder sz c.tbl) (up : Upd) :
    ∃ A, Samples (simUpd m c up) A ∧
      ∀ F, Nice F → Nice (A F) ∧ ensemble c beta maxOrder (A F) = ensemble c beta maxOrder F := by
  have hs : ∀ d ∈ c.tbl, 0 < d.numAf := fun d hd => (hf d hd).1
  subst hm
  cases up with
  | insRem =>
    obtain ⟨A, h1, h2⟩ := simInsRem_law hb hT hs hG maxOrder kIns
    refine ⟨A, h1, fun F hF => ?_⟩
    rw [h2 F hF]
    generalize 2 * kIns = n
    induction n with
    | zero => exact ⟨hF, rfl⟩
    | succ n ih =>
      rw [Function.iterate_succ_apply']
      exact ⟨mixOp_nice hG beta maxOrder ih.1, by rw [mixOp_stationary hG hb hT hs maxOrder ih.1, ih.2]⟩
  | shift =>
    obtain ⟨A, h1, h2⟩ := simShift_law (c := c) hb (beta * sz) hG kIns
    refine ⟨A, h1, fun F hF => ?_⟩
    rw [h2 F hF]
    exact ⟨pickOp_nice hG (shiftK_rev hb _ c.tbl) kIns hF, pickOp_stationary hG (shiftK_rev hb _ c.tbl) kIns maxOrder hF.meas⟩
  | spinFlip =>
    exact ⟨_, simSpinFlip_law hG (2 * kIns), fun F hF =>
      ⟨pickOp_nice hG (flipK_rev beta c.tbl) _ hF, pickOp_stationary hG (flipK_rev beta c.tbl) _ maxOrder hF.meas⟩⟩
  | recompute => exact ⟨_, Samples.id, fun F hF => ⟨hF, rfl⟩⟩

theorem simRun_law (hf : FullTerms c) (hT : c.tbl ≠ []) (hG : MeasurableG0 c.G0) {beta : ℝ} (hb : 0 < beta) {kIns maxOrder : ℕ} {sz : ℝ}
    {m : Mgr} (hm : m = Mgr.create beta kIns maxOrder sz c.tbl) (l : List Upd) :
    ∃ A, Samples (simRun m c l) A ∧
      ∀ F, Nice F → Nice (A F) ∧ ensemble c beta maxOrder (A F) = ensemble c beta maxOrder F := by
  induction l with
  | nil => exact ⟨_, Samples.id, fun F hF => ⟨hF, rfl⟩⟩
  | cons a l ih =>
    obtain ⟨A, h1, h2⟩ := ih
    obtain ⟨B, h3, h4⟩ := simUpd_law hf hT hG hb hm a
    refine ⟨_, h1.comp h3, fun F hF => ?_⟩
    obtain ⟨q1, q2⟩ := h2 F hF
    obtain ⟨q3, q4⟩ := h4 _ q1
    exact ⟨q3, q4.trans q2⟩

/-- The probability that the code ends in `Y` is that of the simulated updates. -/
theorem run_law_pts (ht : TblOK c.NI c.nf c.tbl) (hf : FullTerms c) (hT : c.tbl ≠ []) {beta : ℝ} {kIns maxOrder : ℕ} {sz : ℝ}
    {m : Mgr} (hm : m = Mgr.create beta kIns maxOrder sz c.tbl) {s : Sub K} {x : List Pt} (h : At c s x) (st : AccStat)
    (J : ℕ → ℕ → ℕ → ℕ → ℕ → ℕ → K) (l : List Upd) {Y : Set (List Pt)} (hY : MeasurableSet Y)
    {A : (List Pt → ENNReal) → List Pt → ENNReal} (hA : Samples (simRun m c l) A) :
    streams {u | ∃ y, Returns (fun fuel => (⟨s, st, 0⟩ : Walker K).run m c J u fuel l) y ∧ ptsOf y.s.verts ∈ Y} =
      A (Y.indicator 1) x := by
  have e : streams {u | ∃ y, Returns (fun fuel => (⟨s, st, 0⟩ : Walker K).run m c J u fuel l) y ∧ ptsOf y.s.verts ∈ Y} =
      streams {u | (simRun m c l (x, u)).1 ∈ Y} := by
    refine measure_congr ?_
    filter_upwards [ae_good] with u hu
    refine propext ?_
    obtain ⟨w', y, r1, ⟨a, a1, a2, a3⟩, e1⟩ := run_sim ht hf hT hm hu (w := ⟨s, st, 0⟩) h J l
    have e1 : simRun m c l (x, dropS 0 u) = (y, dropS w'.p u) := e1
    rw [dropS_zero] at e1
    show (∃ y, _ ∧ _) ↔ (simRun m c l (x, u)).1 ∈ Y
    rw [e1]
    constructor
    · rintro ⟨y', r2, h2⟩
      rw [← r1.unique r2, a1.cfg, a3] at h2
      exact h2
    · intro h2
      exact ⟨w', r1, by rw [a1.cfg, a3]; exact h2⟩
  have hm : Measurable fun u : ℕ → ℝ => simRun m c l (x, u) := hA.meas.comp measurable_prodMk_left
  have hE : MeasurableSet {u : ℕ → ℝ | (simRun m c l (x, u)).1 ∈ Y} := (measurable_fst.comp hm) hY
  have hI : Measurable (Y.indicator (1 : List Pt → ENNReal)) := measurable_one.indicator hY
  rw [e, ← lintegral_indicator_one hE]
  have := hA.law (fun z => Y.indicator 1 z.1) (hI.comp measurable_fst) x
  simp only [lintegral_const, measure_univ, mul_one] at this
  rw [← this]
  rfl

/-- Almost every list of points is usable. -/
theorem ae_validPts (beta : ℝ) (tbl : List (VDef K)) (n : ℕ) :
    ∀ᵐ x : Fin n → Pt ∂Measure.pi fun _ => pointMeasure beta tbl, ValidPts beta tbl (List.ofFn x) := by
  have h1 : ∀ᵐ p : Pt ∂pointMeasure beta tbl, p.1 < tbl.length ∧ p.2.1 < numStates tbl p.1 ∧ 0 ≤ p.2.2 ∧ p.2.2 < beta := by
    have hms : MeasurableSet {p : Pt | p.1 < tbl.length ∧ p.2.1 < numStates tbl p.1 ∧ 0 ≤ p.2.2 ∧ p.2.2 < beta} := by
      have q1 : Measurable fun p : Pt => p.1 := measurable_fst
      have q2 : Measurable fun p : Pt => p.2.1 := measurable_fst.comp measurable_snd
      have q3 : Measurable fun p : Pt => p.2.2 := measurable_snd.comp measurable_snd
      have q4 : Measurable fun p : Pt => numStates tbl p.1 := (Measurable.of_discrete (f := fun t : ℕ => numStates tbl t)).comp q1
      exact ((measurableSet_lt q1 measurable_const).inter ((measurableSet_lt q2 q4).inter
        ((measurableSet_le measurable_const q3).inter (measurableSet_lt q3 measurable_const))))
    rw [MeasureTheory.ae_iff]
    unfold pointMeasure
    rw [Measure.finsetSum_apply]
    refine Finset.sum_eq_zero fun t ht => ?_
    rw [Measure.finsetSum_apply]
    refine Finset.sum_eq_zero fun f hf => ?_
    have hmap : Measurable fun τ : ℝ => ((t, f, τ) : Pt) := measurable_const.prodMk (measurable_const.prodMk measurable_id)
    refine (Measure.map_apply hmap hms.compl).trans ?_
    have : (fun τ : ℝ => ((t, f, τ) : Pt)) ⁻¹' {p : Pt | ¬ (p.1 < tbl.length ∧ p.2.1 < numStates tbl p.1 ∧ 0 ≤ p.2.2 ∧ p.2.2 < beta)} =
        (Set.Ico 0 beta)ᶜ := by
      ext τ
      have a1 := Finset.mem_range.1 ht
      have a2 := Finset.mem_range.1 hf
      simp only [Set.mem_preimage, Set.mem_setOf_eq, Set.mem_compl_iff, Set.mem_Ico, a1, a2, true_and]
    refine (congrArg _ this).trans ?_
    rw [Measure.restrict_apply measurableSet_Ico.compl]
    simp
  have h2 : ∀ i : Fin n, ∀ᵐ x : Fin n → Pt ∂Measure.pi fun _ => pointMeasure beta tbl,
      (x i).1 < tbl.length ∧ (x i).2.1 < numStates tbl (x i).1 ∧ 0 ≤ (x i).2.2 ∧ (x i).2.2 < beta := fun i =>
    (Measure.tendsto_eval_ae_ae (μ := fun _ : Fin n => pointMeasure beta tbl) (i := i)).eventually h1
  filter_upwards [ae_all_iff.2 h2] with x hx
  intro p hp
  obtain ⟨i, rfl⟩ := (List.mem_ofFn' x p).1 hp
  exact hx i

end CTInt
