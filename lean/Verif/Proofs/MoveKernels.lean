import Verif.Proofs.EnsembleMove
import Verif.Props.Random
import Mathlib.MeasureTheory.Integral.IntervalIntegral.Periodic
import Mathlib.MeasureTheory.Measure.Haar.Unique

/-!
# The proposals of the spin-flip and the shift update are reversible
-/

set_option linter.all false

namespace CTInt

open MeasureTheory Set

variable {K : Type} [RCLike K] [DecidableEq K]

/-! ## Spin flips -/

/-- The other states. -/
def otherStates (m f : ℕ) : Finset ℕ := Finset.range m \ {f}

/-- The proposal of `spin_flip_step`: one of the other states. -/
noncomputable def flipK (tbl : List (VDef K)) (v : Pt) : Measure Pt :=
  if numStates tbl v.1 ≤ 1 then Measure.dirac v
  else ∑ k ∈ otherStates (numStates tbl v.1) v.2.1,
    ENNReal.ofReal (1 / ((otherStates (numStates tbl v.1) v.2.1).card : ℝ)) • Measure.dirac ((v.1, k, v.2.2) : Pt)

theorem otherStates_pos {m f : ℕ} (hm : ¬ m ≤ 1) : 0 < (otherStates m f).card := by
  unfold otherStates
  have := Finset.le_card_sdiff {f} (Finset.range m)
  rw [Finset.card_range, Finset.card_singleton] at this
  omega

theorem otherStates_card {m f : ℕ} (hf : f < m) : (otherStates m f).card = m - 1 := by
  unfold otherStates
  rw [Finset.card_sdiff_of_subset, Finset.card_range, Finset.card_singleton]
  rw [Finset.singleton_subset_iff, Finset.mem_range]
  exact hf

theorem lintegral_flipK (tbl : List (VDef K)) (v : Pt) (g : Pt → ENNReal) :
    ∫⁻ w, g w ∂flipK tbl v = if numStates tbl v.1 ≤ 1 then g v
      else ∑ k ∈ otherStates (numStates tbl v.1) v.2.1,
        ENNReal.ofReal (1 / ((otherStates (numStates tbl v.1) v.2.1).card : ℝ)) * g (v.1, k, v.2.2) := by
  unfold flipK
  split
  · rw [lintegral_dirac]
  · rw [lintegral_finsetSum_measure]
    refine Finset.sum_congr rfl fun k _ => ?_
    rw [lintegral_smul_measure, lintegral_dirac, smul_eq_mul]

theorem flipK_rev (beta : ℝ) (tbl : List (VDef K)) : Rev beta tbl (flipK tbl) := by
  have hmeas : ∀ {Z : Type} [MeasurableSpace Z] {p : Z → Pt} {g : Z × Pt → ENNReal}, Measurable p → Measurable g →
      Measurable fun z => ∫⁻ w, g (z, w) ∂flipK tbl (p z) := by
    intro Z _ p g hp hg
    simp only [lintegral_flipK]
    have : Measurable fun q : (ℕ × ℕ) × Z => if numStates tbl q.1.1 ≤ 1 then g (q.2, p q.2)
        else ∑ k ∈ otherStates (numStates tbl q.1.1) q.1.2,
          ENNReal.ofReal (1 / ((otherStates (numStates tbl q.1.1) q.1.2).card : ℝ)) * g (q.2, (q.1.1, k, (p q.2).2.2)) := by
      refine measurable_from_prod_countable_right fun tf => ?_
      simp only
      split
      · exact hg.comp (measurable_id.prodMk hp)
      · refine Finset.measurable_sum _ fun k _ => Measurable.const_mul ?_ _
        have h2 : Measurable fun z => ((tf.1, k, (p z).2.2) : Pt) :=
          measurable_const.prodMk (measurable_const.prodMk (measurable_snd.comp (measurable_snd.comp hp)))
        exact hg.comp (measurable_id.prodMk h2)
    exact this.comp (((measurable_fst.comp hp).prodMk (measurable_fst.comp (measurable_snd.comp hp))).prodMk measurable_id)
  refine ⟨?_, hmeas, ?_, ?_⟩
  · intro v
    refine ⟨?_⟩
    rw [← lintegral_one, lintegral_flipK]
    split
    · rfl
    · rename_i h
      simp only [mul_one]
      exact sum_inv _ rfl (otherStates_pos h)
  · intro v
    have hs : MeasurableSet {w : Pt | ¬ w.1 = v.1} := (measurable_fst (measurableSet_singleton v.1)).compl
    rw [MeasureTheory.ae_iff, ← lintegral_indicator_one hs, lintegral_flipK]
    split
    · simp
    · refine Finset.sum_eq_zero fun k _ => ?_
      simp
  · intro g hg
    have h1 : Measurable fun v => ∫⁻ w, g (v, w) ∂flipK tbl v := hmeas measurable_id hg
    have h2 : Measurable fun v => ∫⁻ w, g (w, v) ∂flipK tbl v := hmeas (g := fun z => g (z.2, z.1)) measurable_id (hg.comp measurable_swap)
    rw [lintegral_point h1, lintegral_point h2]
    refine Finset.sum_congr rfl fun t _ => ?_
    simp only [lintegral_flipK]
    by_cases hm : numStates tbl t ≤ 1
    · simp only [if_pos hm]
    · simp only [if_neg hm]
      have hp : ∀ (a b : ℕ), Measurable fun τ : ℝ => g ((t, a, τ), (t, b, τ)) := fun a b =>
        hg.comp ((measurable_point t a).prodMk (measurable_point t b))
      have e1 : ∀ f ∈ Finset.range (numStates tbl t), ∫⁻ τ in Ico 0 beta, ∑ k ∈ otherStates (numStates tbl t) f,
            ENNReal.ofReal (1 / ((otherStates (numStates tbl t) f).card : ℝ)) * g ((t, f, τ), (t, k, τ)) =
          ∑ k ∈ Finset.range (numStates tbl t), if f = k then 0 else
            ENNReal.ofReal (1 / ((numStates tbl t - 1 : ℕ) : ℝ)) * ∫⁻ τ in Ico 0 beta, g ((t, f, τ), (t, k, τ)) := by
        intro f hf
        rw [lintegral_finset_sum _ fun k _ => (hp f k).const_mul _, otherStates_card (Finset.mem_range.1 hf)]
        unfold otherStates
        rw [Finset.sdiff_singleton_eq_erase, ← Finset.sum_erase (s := Finset.range (numStates tbl t)) (a := f) (by simp)]
        refine Finset.sum_congr rfl fun k hk => ?_
        rw [if_neg fun q => (Finset.mem_erase.1 hk).1 q.symm, lintegral_const_mul' _ _ ENNReal.ofReal_ne_top]
      have e2 : ∀ f ∈ Finset.range (numStates tbl t), ∫⁻ τ in Ico 0 beta, ∑ k ∈ otherStates (numStates tbl t) f,
            ENNReal.ofReal (1 / ((otherStates (numStates tbl t) f).card : ℝ)) * g ((t, k, τ), (t, f, τ)) =
          ∑ k ∈ Finset.range (numStates tbl t), if k = f then 0 else
            ENNReal.ofReal (1 / ((numStates tbl t - 1 : ℕ) : ℝ)) * ∫⁻ τ in Ico 0 beta, g ((t, k, τ), (t, f, τ)) := by
        intro f hf
        rw [lintegral_finset_sum _ fun k _ => (hp k f).const_mul _, otherStates_card (Finset.mem_range.1 hf)]
        unfold otherStates
        rw [Finset.sdiff_singleton_eq_erase, ← Finset.sum_erase (s := Finset.range (numStates tbl t)) (a := f) (by simp)]
        refine Finset.sum_congr rfl fun k hk => ?_
        rw [if_neg (Finset.mem_erase.1 hk).1, lintegral_const_mul' _ _ ENNReal.ofReal_ne_top]
      rw [Finset.sum_congr rfl e1, Finset.sum_congr rfl e2, Finset.sum_comm]

/-! ## Shifts -/

/-- The proposal of `do_shift_update`: the time is displaced by up to half of `step`, periodically. -/
noncomputable def shiftK (beta step : ℝ) (v : Pt) : Measure Pt :=
  uniform01.map fun r => ((v.1, v.2.1, mymod (v.2.2 + (r - 1 / 2) * step) beta) : Pt)

theorem measurable_mymod (beta : ℝ) : Measurable fun x => mymod x beta := by
  unfold mymod
  refine Measurable.ite (measurableSet_le measurable_const measurable_id) ?_ ?_
  · exact measurable_id.sub (((measurable_from_top (f := fun n : ℕ => (n : ℝ))).comp
      (Nat.measurable_floor.comp (measurable_id.div_const beta))).const_mul beta)
  · exact measurable_id.add ((((measurable_from_top (f := fun n : ℕ => (n : ℝ))).comp
      (Nat.measurable_floor.comp (measurable_neg.div_const beta))).add_const 1).const_mul beta)

theorem measurable_shift (beta step : ℝ) : Measurable fun z : Pt × ℝ => ((z.1.1, z.1.2.1, mymod (z.1.2.2 + (z.2 - 1 / 2) * step) beta) : Pt) := by
  have h1 : Measurable fun z : Pt × ℝ => z.1.1 := measurable_fst.comp measurable_fst
  have h2 : Measurable fun z : Pt × ℝ => z.1.2.1 := measurable_fst.comp (measurable_snd.comp measurable_fst)
  have h3 : Measurable fun z : Pt × ℝ => z.1.2.2 := measurable_snd.comp (measurable_snd.comp measurable_fst)
  have h4 : Measurable fun z : Pt × ℝ => z.1.2.2 + (z.2 - 1 / 2) * step := h3.add ((measurable_snd.sub_const _).mul_const _)
  exact h1.prodMk (h2.prodMk ((measurable_mymod beta).comp h4))

theorem lintegral_shiftK (beta step : ℝ) (v : Pt) {g : Pt → ENNReal} (hg : Measurable g) :
    ∫⁻ w, g w ∂shiftK beta step v = ∫⁻ r, g (v.1, v.2.1, mymod (v.2.2 + (r - 1 / 2) * step) beta) ∂uniform01 := by
  unfold shiftK
  have h1 : Measurable fun r : ℝ => ((v.1, v.2.1, mymod (v.2.2 + (r - 1 / 2) * step) beta) : Pt) :=
    (measurable_shift beta step).comp (measurable_const.prodMk measurable_id)
  rw [lintegral_map hg h1]

theorem mymod_eq {beta : ℝ} (hb : 0 < beta) {x : ℝ} (hx : ∀ z : ℤ, x ≠ z * beta) : mymod x beta = toIcoMod hb 0 x := by
  obtain ⟨⟨k, hk⟩, h1, h2⟩ := C33_mymod (x := x) hb
  symm
  rw [toIcoMod_eq_iff]
  refine ⟨?_, -k, by rw [hk, zsmul_eq_mul]; push_cast; ring⟩
  rw [zero_add]
  rcases le_or_gt 0 x with h | h
  · exact h1 h
  · refine ⟨(h2 h).1.le, lt_of_le_of_ne (h2 h).2 fun q => hx (1 - k) ?_⟩
    push_cast
    linarith

theorem ae_not_multiple (beta d : ℝ) : ∀ᵐ τ : ℝ, ∀ z : ℤ, τ + d ≠ z * beta := by
  rw [ae_all_iff]
  intro z
  have : {τ : ℝ | ¬ (τ + d ≠ z * beta)} = {z * beta - d} := by
    ext τ
    simp only [mem_setOf_eq, not_not, mem_singleton_iff]
    exact ⟨fun h => by linarith, fun h => by linarith⟩
  rw [MeasureTheory.ae_iff, this]
  simp

theorem lintegral_period {beta : ℝ} (hb : 0 < beta) {f : ℝ → ENNReal} (hf : ∀ (x : ℝ) (z : ℤ), f (x + z * beta) = f x) (d : ℝ) :
    ∫⁻ τ in Ico 0 beta, f τ = ∫⁻ τ in Ico 0 beta, f (τ + d) := by
  have h := (isAddFundamentalDomain_Ioc hb 0).setLIntegral_eq (isAddFundamentalDomain_Ioc hb d) f (by
    rintro ⟨g, hg⟩ x
    obtain ⟨z, rfl⟩ := AddSubgroup.mem_zmultiples_iff.1 hg
    show f (z • beta + x) = f x
    rw [add_comm, zsmul_eq_mul, hf])
  rw [zero_add] at h
  have e : ∫⁻ τ in Ioc 0 beta, f (τ + d) = ∫⁻ τ in Ioc d (d + beta), f τ := by
    have := (measurePreserving_add_right volume d).setLIntegral_comp_preimage_emb (MeasurableEquiv.addRight d).measurableEmbedding f (Ioc d (d + beta))
    rw [← this]
    congr 2
    ext τ
    simp only [mem_Ioc, mem_preimage]
    constructor
    · rintro ⟨a, b⟩; exact ⟨by linarith, by linarith⟩
    · rintro ⟨a, b⟩; exact ⟨by linarith, by linarith⟩
  rw [Measure.restrict_congr_set Ico_ae_eq_Ioc, h, e]

theorem shift_swap {beta : ℝ} (hb : 0 < beta) {h : ℝ → ℝ → ENNReal} (d : ℝ) :
    ∫⁻ τ in Ico 0 beta, h τ (mymod (τ + d) beta) = ∫⁻ τ in Ico 0 beta, h (mymod (τ - d) beta) τ := by
  have hper : ∀ (x : ℝ) (z : ℤ), toIcoMod hb 0 (x + z * beta) = toIcoMod hb 0 x := by
    intro x z
    rw [← zsmul_eq_mul, toIcoMod_add_zsmul]
  have hself : ∀ x ∈ Ico 0 beta, toIcoMod hb 0 x = x := by
    intro x hx
    rw [toIcoMod_eq_self, zero_add]
    exact hx
  have e1 : ∫⁻ τ in Ico 0 beta, h τ (mymod (τ + d) beta) = ∫⁻ τ in Ico 0 beta, h (toIcoMod hb 0 τ) (toIcoMod hb 0 (τ + d)) := by
    refine setLIntegral_congr_fun_ae measurableSet_Ico ?_
    filter_upwards [ae_not_multiple beta d] with τ h1 h2
    rw [hself τ h2, mymod_eq hb h1]
  have e2 : ∫⁻ τ in Ico 0 beta, h (mymod (τ - d) beta) τ = ∫⁻ τ in Ico 0 beta, h (toIcoMod hb 0 (τ + -d)) (toIcoMod hb 0 (τ + -d + d)) := by
    refine setLIntegral_congr_fun_ae measurableSet_Ico ?_
    filter_upwards [ae_not_multiple beta (-d)] with τ h1 h2
    rw [← sub_eq_add_neg] at h1 ⊢
    rw [mymod_eq hb h1, sub_add_cancel, hself τ h2]
  rw [e1, e2]
  refine lintegral_period hb (f := fun τ => h (toIcoMod hb 0 τ) (toIcoMod hb 0 (τ + d))) ?_ (-d)
  intro x z
  rw [hper, add_right_comm, hper]

theorem uniform01_symm {f : ℝ → ENNReal} (hf : Measurable f) : ∫⁻ r, f (1 - r) ∂uniform01 = ∫⁻ r, f r ∂uniform01 := by
  unfold uniform01
  rw [Measure.restrict_congr_set (Ioo_ae_eq_Ico (a := (0 : ℝ)) (b := 1)).symm]
  have hmp : MeasurePreserving (fun r : ℝ => 1 - r) volume volume := Measure.measurePreserving_sub_left volume 1
  have := hmp.setLIntegral_comp_preimage (s := Ioo 0 1) measurableSet_Ioo hf
  rw [← this]
  congr 2
  ext r
  simp only [mem_Ioo, mem_preimage]
  constructor
  · rintro ⟨a, b⟩; exact ⟨by linarith, by linarith⟩
  · rintro ⟨a, b⟩; exact ⟨by linarith, by linarith⟩

theorem shiftK_rev {beta : ℝ} (hb : 0 < beta) (step : ℝ) (tbl : List (VDef K)) : Rev beta tbl (shiftK beta step) := by
  have hs := measurable_shift beta step
  have hmeas : ∀ {Z : Type} [MeasurableSpace Z] {p : Z → Pt} {g : Z × Pt → ENNReal}, Measurable p → Measurable g →
      Measurable fun z => ∫⁻ w, g (z, w) ∂shiftK beta step (p z) := by
    intro Z _ p g hp hg
    have e : ∀ z, ∫⁻ w, g (z, w) ∂shiftK beta step (p z) =
        ∫⁻ r, g (z, ((p z).1, (p z).2.1, mymod ((p z).2.2 + (r - 1 / 2) * step) beta)) ∂uniform01 := fun z =>
      lintegral_shiftK beta step (p z) (hg.comp measurable_prodMk_left)
    simp only [e]
    have : Measurable fun z : Z × ℝ => g (z.1, ((p z.1).1, (p z.1).2.1, mymod ((p z.1).2.2 + (z.2 - 1 / 2) * step) beta)) :=
      hg.comp (measurable_fst.prodMk (hs.comp ((hp.comp measurable_fst).prodMk measurable_snd)))
    exact this.lintegral_prod_right'
  refine ⟨?_, hmeas, ?_, ?_⟩
  · intro v
    exact Measure.isProbabilityMeasure_map (hs.comp (measurable_const.prodMk measurable_id)).aemeasurable
  · intro v
    unfold shiftK
    have hm : Measurable fun r : ℝ => ((v.1, v.2.1, mymod (v.2.2 + (r - 1 / 2) * step) beta) : Pt) :=
      hs.comp (measurable_const.prodMk measurable_id)
    have hst : MeasurableSet {w : Pt | w.1 = v.1} := measurable_fst (measurableSet_singleton v.1)
    rw [ae_map_iff hm.aemeasurable hst]
    exact Filter.Eventually.of_forall fun r => rfl
  · intro g hg
    have h1 : Measurable fun v => ∫⁻ w, g (v, w) ∂shiftK beta step v := hmeas measurable_id hg
    have h2 : Measurable fun v => ∫⁻ w, g (w, v) ∂shiftK beta step v := hmeas (g := fun z => g (z.2, z.1)) measurable_id (hg.comp measurable_swap)
    rw [lintegral_point h1, lintegral_point h2]
    refine Finset.sum_congr rfl fun t _ => Finset.sum_congr rfl fun f _ => ?_
    have e1 : ∀ τ : ℝ, ∫⁻ w, g (((t, f, τ) : Pt), w) ∂shiftK beta step ((t, f, τ) : Pt) =
        ∫⁻ r, g ((t, f, τ), (t, f, mymod (τ + (r - 1 / 2) * step) beta)) ∂uniform01 := fun τ =>
      lintegral_shiftK beta step (t, f, τ) (hg.comp measurable_prodMk_left)
    have e2 : ∀ τ : ℝ, ∫⁻ w, g (w, ((t, f, τ) : Pt)) ∂shiftK beta step ((t, f, τ) : Pt) =
        ∫⁻ r, g ((t, f, mymod (τ + (r - 1 / 2) * step) beta), (t, f, τ)) ∂uniform01 := fun τ =>
      lintegral_shiftK beta step (t, f, τ) (hg.comp measurable_prodMk_right)
    simp only [e1, e2]
    have m1 : Measurable fun z : ℝ × ℝ => mymod (z.1 + (z.2 - 1 / 2) * step) beta :=
      (measurable_mymod beta).comp (measurable_fst.add ((measurable_snd.sub_const _).mul_const _))
    have m2 : Measurable fun z : ℝ × ℝ => g ((t, f, z.1), (t, f, mymod (z.1 + (z.2 - 1 / 2) * step) beta)) :=
      hg.comp (((measurable_point t f).comp measurable_fst).prodMk ((measurable_point t f).comp m1))
    have m3 : Measurable fun z : ℝ × ℝ => g ((t, f, mymod (z.1 + (z.2 - 1 / 2) * step) beta), (t, f, z.1)) :=
      hg.comp (((measurable_point t f).comp m1).prodMk ((measurable_point t f).comp measurable_fst))
    refine (lintegral_lintegral_swap m2.aemeasurable).trans (Eq.trans ?_ (lintegral_lintegral_swap m3.aemeasurable).symm)
    have e3 : ∀ r : ℝ, ∫⁻ τ in Ico 0 beta, g ((t, f, τ), (t, f, mymod (τ + (r - 1 / 2) * step) beta)) =
        ∫⁻ τ in Ico 0 beta, g ((t, f, mymod (τ + (1 - r - 1 / 2) * step) beta), (t, f, τ)) := by
      intro r
      rw [shift_swap hb (h := fun a b => g ((t, f, a), (t, f, b))) ((r - 1 / 2) * step)]
      refine lintegral_congr fun τ => ?_
      rw [show τ - (r - 1 / 2) * step = τ + (1 - r - 1 / 2) * step by ring]
    simp only [e3]
    exact uniform01_symm (f := fun r => ∫⁻ τ in Ico 0 beta, g ((t, f, mymod (τ + (r - 1 / 2) * step) beta), (t, f, τ)))
      m3.lintegral_prod_left'

end CTInt
