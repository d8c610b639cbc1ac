import Verif.Proofs.FockSigmaMeas
import Verif.Proofs.ConfigPick

/-!
# The sum over configurations of the weights of the self-energy
-/

set_option linter.all false

namespace CTInt

open NormedSpace Matrix ComplexOrder MeasureTheory Filter

open scoped Matrix.Norms.Operator

variable {K : Type} [RCLike K] [DecidableEq K] {n : Type} [Fintype n] [DecidableEq n] {ns : ℕ} {a : ℕ → ℕ → Matrix n n K} {h : ℕ → ℕ → ℕ → K} {β : ℝ}
  {c : Ctx K} {G : ℝ → ℕ → ℕ → ℕ → K}

/-- The picked vertex and the time shift. -/
noncomputable abbrev pickMeasure (β : ℝ) (tbl : List (VDef K)) : Measure (Pt × ℝ) := (pointMeasure β tbl).prod (volume.restrict (Set.Ioc 0 β))

theorem ae_pick (β : ℝ) (tbl : List (VDef K)) : ∀ᵐ o : Pt × ℝ ∂pickMeasure β tbl,
    (o.1.1 < tbl.length ∧ o.1.2.1 < numStates tbl o.1.1 ∧ 0 ≤ o.1.2.2 ∧ o.1.2.2 < β) ∧ o.2 ∈ Set.Ioo 0 β ∧ o.1.2.2 ≠ β - o.2 := by
  have h1 : ∀ᵐ o : Pt × ℝ ∂pickMeasure β tbl, (o.1.1 < tbl.length ∧ o.1.2.1 < numStates tbl o.1.1 ∧ 0 ≤ o.1.2.2 ∧ o.1.2.2 < β) :=
    Measure.quasiMeasurePreserving_fst.ae (ae_validPt β tbl)
  have hin : ∀ᵐ τ ∂volume.restrict (Set.Ioc 0 β), τ ∈ Set.Ioo 0 β := by
    rw [← restrict_Ioo_eq_restrict_Ioc]
    exact ae_restrict_mem measurableSet_Ioo
  have h2 : ∀ᵐ o : Pt × ℝ ∂pickMeasure β tbl, o.2 ∈ Set.Ioo 0 β := Measure.quasiMeasurePreserving_snd.ae hin
  have h3 : ∀ᵐ o : Pt × ℝ ∂pickMeasure β tbl, o.1.2.2 ≠ β - o.2 := by
    have hm : MeasurableSet {o : Pt × ℝ | o.1.2.2 ≠ β - o.2} :=
      (measurableSet_eq_fun (f := fun o : Pt × ℝ => o.1.2.2) (g := fun o => β - o.2) (by fun_prop) (by fun_prop)).compl
    refine (Measure.ae_prod_iff_ae_ae hm).2 (Eventually.of_forall fun p => ?_)
    refine ae_restrict_of_ae ?_
    rw [MeasureTheory.ae_iff]
    have : {t : ℝ | ¬ p.2.2 ≠ β - t} = {β - p.2.2} := by
      ext t
      simp only [ne_eq, not_not, Set.mem_setOf_eq, Set.mem_singleton_iff]
      constructor <;> intro q <;> linarith
    show volume {t : ℝ | ¬ p.2.2 ≠ β - t} = 0
    rw [this]
    exact Real.volume_singleton
  filter_upwards [h1, h2, h3] with o a b c
  exact ⟨a, b, c⟩

theorem binF_le (hβ : 0 < β) (m i : ℕ) (v : ℝ) : 0 ≤ binF β m i v ∧ binF β m i v ≤ m / β := by
  unfold binF
  split_ifs
  · exact ⟨by positivity, le_refl _⟩
  · exact ⟨le_refl _, by positivity⟩

theorem pick_param [Nonempty n] (hβ : 0 < β) (ha : Annihilators c.nf ns a) (hh : HermitianHops c.nf ns h)
    (hG0 : ThermalG0 β c.nf ns a (bareH c.nf ns h a) c.G0) (hm : MeasurableG0 c.G0) (hG : ThermalG β c.nf ns a (bareH c.nf ns h a) G) (hGm : MeasurableG G)
    (hT : TermsOn c.nf ns c.tbl) {z A b : ℕ} (m i : ℕ) (hz : z < c.nf) (hA : A < ns) (hb : b < ns) :
    ∃ B₀, ∀ L : K →L[ℝ] ℝ, ParamHyp c β (vertexOp a (bareH c.nf ns h a) c.tbl) (L.comp (thermalCL β (bareH c.nf ns h a)))
      (pickMeasure β c.tbl) (fun o x => L (((numStates c.tbl o.1.1 : ℕ) : ℝ)⁻¹ • pickTerm c β m i G z A b o.2 o.1 x))
      (fun o => (sigOps a c β m i z A b o.1 o.2).map fun o => (o.1, atTime (bareH c.nf ns h a) o.1 o.2)) 2 B₀ := by
  set H := bareH c.nf ns h a with hH
  obtain ⟨B₁, hB₁⟩ := isCompact_Icc.exists_bound_of_continuousOn (s := Set.Icc 0 β) (atTime_continuous H (a z b)ᴴ).continuousOn
  obtain ⟨B₂, hB₂⟩ := vertex_bound (v := fun p : Pt => atTime H p.2.2 (((c.tbl.getD p.1 default).U * ((numStates c.tbl p.1 : ℕ) : K)⁻¹) • commOp a c z A p))
    (fun t f => atTime_continuous H (((c.tbl.getD t default).U * ((numStates c.tbl t : ℕ) : K)⁻¹) • commOp a c z A (t, f, 0))) c.tbl β
  have hN : Measurable fun o : Pt × ℝ => ((numStates c.tbl o.1.1 : ℕ) : ℝ)⁻¹ :=
    (Measurable.of_discrete (f := fun t : ℕ => ((numStates c.tbl t : ℕ) : ℝ)⁻¹)).comp (measurable_fst.comp measurable_fst)
  refine ⟨max B₁ (m / β * B₂), fun L => ⟨?_, ?_, ?_, ?_, ?_, ?_, ?_, ?_⟩⟩
  · exact L.continuous.measurable.comp ((hN.comp measurable_snd).smul (measurable_pickTerm hm hGm m i z A b))
  · intro o x y hxy
    show L _ = L _
    rw [pickTerm_perm c β m i G z A b o.2 o.1 hxy]
  · intro t f
    show Continuous fun τ => atTime H τ (-(c.tbl.getD t default).U • pairsOp a (c.tbl.getD t default) f)
    exact atTime_continuous _ _
  · filter_upwards [ae_pick β c.tbl] with o ho
    intro w hw
    obtain ⟨w', hw', rfl⟩ := List.mem_map.1 hw
    clear hw
    unfold sigOps at hw'
    have h1 : 0 ≤ β - o.2 ∧ β - o.2 < β := ⟨by linarith [ho.2.1.2], by linarith [ho.2.1.1]⟩
    split_ifs at hw'
    · rcases List.mem_pair.1 hw' with rfl | rfl
      · exact ⟨ho.1.2.2.1, ho.1.2.2.2⟩
      · exact h1
    · rcases List.mem_pair.1 hw' with rfl | rfl
      · exact h1
      · exact ⟨ho.1.2.2.1, ho.1.2.2.2⟩
  · filter_upwards [ae_pick β c.tbl] with o ho
    rw [List.pairwise_map]
    unfold sigOps
    split_ifs with q
    · exact List.pairwise_pair.2 q
    · exact List.pairwise_pair.2 (lt_of_le_of_ne (not_lt.1 q) ho.2.2)
  · refine Eventually.of_forall fun o => ?_
    rw [List.length_map]
    unfold sigOps
    split_ifs <;> rfl
  · filter_upwards [ae_pick β c.tbl] with o ho
    intro w hw
    obtain ⟨w', hw', rfl⟩ := List.mem_map.1 hw
    clear hw
    have h1 : ‖atTime H (β - o.2) (a z b)ᴴ‖ ≤ max B₁ (m / β * B₂) := (hB₁ _ ⟨by linarith [ho.2.1.2], by linarith [ho.2.1.1]⟩).trans (le_max_left _ _)
    have h2 : ‖atTime H o.1.2.2 (sCoef c β m i o.1 o.2 • commOp a c z A o.1)‖ ≤ max B₁ (m / β * B₂) := by
      refine le_trans ?_ (le_max_right _ _)
      have e : sCoef c β m i o.1 o.2 • commOp a c z A o.1 = ((binF β m i (foldTime β (o.1.2.2 + o.2)) : ℝ) : K) •
          (((c.tbl.getD o.1.1 default).U * ((numStates c.tbl o.1.1 : ℕ) : K)⁻¹) • commOp a c z A o.1) := by
        unfold sCoef
        rw [smul_smul, mul_comm]
      have hb2 := binF_le hβ m i (foldTime β (o.1.2.2 + o.2))
      rw [e, atTime_smul, norm_smul, RCLike.norm_ofReal, abs_of_nonneg hb2.1]
      exact mul_le_mul hb2.2 (hB₂ o.1.1 ho.1.1 o.1.2.1 ho.1.2.1 o.1.2.2 ⟨ho.1.2.2.1, ho.1.2.2.2.le⟩) (norm_nonneg _) (by positivity)
    unfold sigOps at hw'
    split_ifs at hw'
    · rcases List.mem_pair.1 hw' with rfl | rfl
      · exact h2
      · exact h1
    · rcases List.mem_pair.1 hw' with rfl | rfl
      · exact h1
      · exact h2
  · filter_upwards [ae_pick β c.tbl] with o ho
    intro x hx w hw hd
    show L _ = L _
    congr 1
    have := pick_value ha hh hG0 hG hT hz hA hb ho.2.1 (m := m) (i := i) (p := o.1) (fun q hq => by rw [List.mem_singleton.1 hq]; exact ho.1) hx ho.2.2 hw hd
    rw [RCLike.real_smul_eq_coe_mul]
    push_cast
    exact this

/-- One vertex picked out: with one vertex less. -/
theorem sigma_shift [Nonempty n] (hβ : 0 < β) (ha : Annihilators c.nf ns a) (hh : HermitianHops c.nf ns h)
    (hG0 : ThermalG0 β c.nf ns a (bareH c.nf ns h a) c.G0) (hm : MeasurableG0 c.G0) (hG : ThermalG β c.nf ns a (bareH c.nf ns h a) G) (hGm : MeasurableG G)
    (hT : TermsOn c.nf ns c.tbl) {z A b : ℕ} (m i : ℕ) (hz : z < c.nf) (hA : A < ns) (hb : b < ns) (L : K →L[ℝ] ℝ) (M : ℕ) :
    (configSum c β (M + 1) fun x => L (∫ t in (0 : ℝ)..β, binnedSum c β m i G z A b t (x.map vertAt))) =
      configSum c β M fun x => L (∫ o, ((numStates c.tbl o.1.1 : ℕ) : ℝ)⁻¹ • pickTerm c β m i G z A b o.2 o.1 x ∂pickMeasure β c.tbl) := by
  obtain ⟨B₀, hp⟩ := pick_param hβ ha hh hG0 hm hG hGm hT m i hz hA hb
  simp only [binnedSum_pick, intervalIntegral.integral_of_le hβ.le]
  refine config_pick (c := c) (β := β) (ν := volume.restrict (Set.Ioc 0 β)) (P := fun p t x => pickTerm c β m i G z A b t p x) (fun N => ?_) L M
  have h1 := (hp RCLike.reCLM).integrable N
  have h2 := (hp RCLike.imCLM).integrable N
  refine Integrable.re_im_iff.1 ⟨?_, ?_⟩
  · refine h1.congr (Eventually.of_forall fun w => ?_)
    show _ * RCLike.re _ = RCLike.re (_ • _)
    exact (RCLike.smul_re _ _).symm
  · refine h2.congr (Eventually.of_forall fun w => ?_)
    show _ * RCLike.im _ = RCLike.im (_ • _)
    exact (RCLike.smul_im _ _).symm

end CTInt
