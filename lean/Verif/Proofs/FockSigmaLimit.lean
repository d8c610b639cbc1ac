import Verif.Proofs.FockSigmaSum

/-!
# The limit of the sum over configurations of the weights of the self-energy
-/

set_option linter.all false

namespace CTInt

open NormedSpace Matrix ComplexOrder MeasureTheory Filter

open scoped Matrix.Norms.Operator

variable {K : Type} [RCLike K] [DecidableEq K] {n : Type} [Fintype n] [DecidableEq n] {ns : ℕ} {a : ℕ → ℕ → Matrix n n K} {h : ℕ → ℕ → ℕ → K} {β : ℝ}
  {c : Ctx K} {G : ℝ → ℕ → ℕ → ℕ → K}

/-- What a vertex of given type and state contributes at a time difference. -/
noncomputable def pickW (a : ℕ → ℕ → Matrix n n K) (H' : Matrix n n K) (c : Ctx K) (β : ℝ) (m i z A b : ℕ) (t f : ℕ) (u : ℝ) : K :=
  (c.tbl.getD t default).U * ((numStates c.tbl t : ℕ) : K)⁻¹ * ((binF β m i u : ℝ) : K) * thermal β H' (atTime H' u (commOp a c z A (t, f, 0)) * (a z b)ᴴ)

theorem trace_thermal {H : Matrix n n K} (hZ : (exp (-(β : K) • H)).trace ≠ 0) (X : Matrix n n K) :
    (exp (-(β : K) • H) * X).trace = (exp (-(β : K) • H)).trace * thermal β H X := by
  unfold thermal
  field_simp

theorem chain_value (H : Matrix n n K) {m i z A b : ℕ} (hZ : (exp (-(β : K) • (H + interactionH a c.tbl))).trace ≠ 0) {p : Pt} {t : ℝ}
    (hp : p.2.2 ∈ Set.Ico 0 β) (ht : t ∈ Set.Ioo 0 β) (hne : p.2.2 ≠ β - t) :
    thermalCL β H (chain (evolution H (interactionH a c.tbl)) ((sigOps a c β m i z A b p t).map fun o => (o.1, atTime H o.1 o.2)) β) =
      (exp (-(β : K) • (H + interactionH a c.tbl))).trace / (exp (-(β : K) • H)).trace *
        pickW a (H + interactionH a c.tbl) c β m i z A b p.1 p.2.1 (foldTime β (p.2.2 + t)) := by
  set H' := H + interactionH a c.tbl with hH'
  show thermal β H _ = _
  rw [thermal_chain, ← hH', trace_thermal hZ, mul_div_right_comm]
  congr 1
  have hc : commOp a c z A (p.1, p.2.1, 0) = commOp a c z A p := rfl
  unfold sigOps pickW
  rw [hc]
  rcases lt_or_gt_of_ne hne with q | q
  · rw [if_neg (not_lt.2 q.le), (foldTime_lt (β := β) (u := p.2.2 + t) ⟨by linarith [hp.1, ht.1], by linarith⟩).2]
    rw [List.map_cons, List.map_cons, List.map_nil, List.prod_cons, List.prod_cons, List.prod_nil, mul_one]
    rw [atTime_smul, Matrix.mul_smul, thermal_smul]
    have e : thermal β H' (atTime H' (β - t) (a z b)ᴴ * atTime H' p.2.2 (commOp a c z A p)) = thermal β H' (atTime H' (p.2.2 + t) (commOp a c z A p) * (a z b)ᴴ) := by
      rw [← thermal_kms, ← atTime_add, ← thermal_shift H' (atTime H' (p.2.2 + t) _ * _) (β - t), atTime_mul, ← atTime_add]
      congr 3
      ring
    unfold sCoef
    rw [(foldTime_lt (β := β) (u := p.2.2 + t) ⟨by linarith [hp.1, ht.1], by linarith⟩).2]
    rw [← e]
  · rw [if_pos q, (foldTime_ge (β := β) (u := p.2.2 + t) (by linarith) (by linarith [hp.2, ht.2])).2]
    rw [List.map_cons, List.map_cons, List.map_nil, List.prod_cons, List.prod_cons, List.prod_nil, mul_one]
    rw [atTime_smul, Matrix.smul_mul, thermal_smul]
    have e : thermal β H' (atTime H' p.2.2 (commOp a c z A p) * atTime H' (β - t) (a z b)ᴴ) = thermal β H' (atTime H' (p.2.2 + t - β) (commOp a c z A p) * (a z b)ᴴ) := by
      rw [← thermal_shift H' (atTime H' (p.2.2 + t - β) _ * _) (β - t), atTime_mul, ← atTime_add]
      congr 3
      ring
    unfold sCoef
    rw [(foldTime_ge (β := β) (u := p.2.2 + t) (by linarith) (by linarith [hp.2, ht.2])).2]
    rw [← e]

theorem foldTime_periodic (hβ : 0 < β) : Function.Periodic (foldTime β) β := by
  intro u
  unfold foldTime
  rw [add_div, div_self hβ.ne', Int.floor_add_one]
  push_cast
  ring

theorem integral_fold {E : Type} [NormedAddCommGroup E] [NormedSpace ℝ E] (hβ : 0 < β) (g : ℝ → E) (τ : ℝ) :
    ∫ t in Set.Ioc 0 β, g (foldTime β (τ + t)) = ∫ u in (0 : ℝ)..β, g u := by
  have hp : Function.Periodic (fun u => g (foldTime β u)) β := fun u => congrArg g (foldTime_periodic hβ u)
  rw [← intervalIntegral.integral_of_le hβ.le, intervalIntegral.integral_comp_add_left (fun u => g (foldTime β u)) τ, add_zero, hp.intervalIntegral_add_eq τ 0, zero_add,
    intervalIntegral.integral_of_le hβ.le, intervalIntegral.integral_of_le hβ.le, ← restrict_Ioo_eq_restrict_Ioc]
  refine setIntegral_congr_fun measurableSet_Ioo fun u hu => ?_
  show g (foldTime β u) = g u
  rw [(foldTime_lt ⟨hu.1.le, hu.2⟩).2]

theorem measurable_binF (m i : ℕ) : Measurable (binF β m i) := by
  unfold binF
  exact Measurable.ite ((measurableSet_le measurable_const measurable_id).inter (measurableSet_lt measurable_id measurable_const)) measurable_const measurable_const

theorem measurable_foldTime : Measurable (foldTime β) := by
  have hfl : Measurable fun u : ℝ => ⌊u / β⌋ := Int.measurable_floor.comp (measurable_id.div_const β)
  unfold foldTime
  have : Measurable fun k : ℤ => (k : ℝ) := measurable_from_top
  exact measurable_id.sub ((this.comp hfl).mul_const β)

theorem thermal_at_continuous (H X Y : Matrix n n K) : Continuous fun u : ℝ => thermal β H (atTime H u X * Y) :=
  (thermalCL β H).continuous.comp ((atTime_continuous H X).mul continuous_const)

/-- The bin times a continuous function. -/
theorem integrable_bin (hβ : 0 < β) (m i : ℕ) {g : ℝ → K} (hg : Continuous g) :
    IntervalIntegrable (fun u => ((binF β m i u : ℝ) : K) * g u) volume 0 β := by
  rw [intervalIntegrable_iff_integrableOn_Ioc_of_le hβ.le]
  refine Integrable.bdd_mul (c := (m / β : ℝ)) ((hg.integrableOn_Icc (a := 0) (b := β)).mono_set Set.Ioc_subset_Icc_self)
    (RCLike.measurable_ofReal.comp (measurable_binF m i)).aestronglyMeasurable (Eventually.of_forall fun u => ?_)
  have := binF_le hβ m i u
  show ‖((binF β m i u : ℝ) : K)‖ ≤ _
  rw [RCLike.norm_ofReal, abs_of_nonneg this.1]
  exact this.2

theorem integral_bin (hβ : 0 < β) {m i : ℕ} (hi : i < m) {g : ℝ → K} (hg : Continuous g) :
    ∫ u in (0 : ℝ)..β, ((binF β m i u : ℝ) : K) * g u = ((m / β : ℝ) : K) * ∫ u in (β * i / m)..(β * (i + 1) / m), g u := by
  have hm : (0 : ℝ) < m := by exact_mod_cast (Nat.zero_le i).trans_lt hi
  have h0 : 0 ≤ β * i / m := by positivity
  have h1 : β * i / m ≤ β * (i + 1) / m := by gcongr; linarith
  have h2 : β * (i + 1) / m ≤ β := by
    rw [div_le_iff₀ hm]
    have : (i : ℝ) + 1 ≤ m := by exact_mod_cast hi
    nlinarith
  have e : ∀ u, ((binF β m i u : ℝ) : K) * g u = (Set.Ico (β * i / m) (β * (i + 1) / m)).indicator (fun u => ((m / β : ℝ) : K) * g u) u := by
    intro u
    unfold binF
    by_cases q : β * i / m ≤ u ∧ u < β * (i + 1) / m
    · rw [if_pos q, Set.indicator_of_mem (show u ∈ Set.Ico (β * i / m) (β * (i + 1) / m) from q)]
    · rw [if_neg q, Set.indicator_of_notMem (show u ∉ Set.Ico (β * i / m) (β * (i + 1) / m) from q)]; simp
  simp only [e]
  rw [← intervalIntegral.integral_const_mul, intervalIntegral.integral_of_le hβ.le, intervalIntegral.integral_of_le h1, ← integral_Ico_eq_integral_Ioc, ← integral_Ico_eq_integral_Ioc,
    setIntegral_indicator measurableSet_Ico, Set.inter_eq_right.2 (Set.Ico_subset_Ico h0 h2)]

/-- The commutator with the interaction is the sum of those with the vertices. -/
theorem comm_interaction (c : Ctx K) (z A : ℕ) : a z A * interactionH a c.tbl - interactionH a c.tbl * a z A =
    ∑ t ∈ Finset.range c.tbl.length, ∑ f ∈ Finset.range (numStates c.tbl t), ((c.tbl.getD t default).U * ((numStates c.tbl t : ℕ) : K)⁻¹) • commOp a c z A (t, f, 0) := by
  rw [interactionH_eq]
  simp only [Finset.mul_sum, Finset.sum_mul, ← Finset.sum_sub_distrib]
  refine Finset.sum_congr rfl fun t _ => Finset.sum_congr rfl fun f _ => ?_
  unfold commOp
  rw [smul_sub, Matrix.mul_smul, Matrix.smul_mul, div_eq_mul_inv]

theorem thermal_sum {ι : Type} (H : Matrix n n K) (s : Finset ι) (f : ι → Matrix n n K) : thermal β H (∑ j ∈ s, f j) = ∑ j ∈ s, thermal β H (f j) :=
  map_sum (thermalCL β H) f s

theorem pickW_sum (hβ : 0 < β) (H' : Matrix n n K) {m i : ℕ} (hi : i < m) (z A b : ℕ) :
    (∑ t ∈ Finset.range c.tbl.length, ∑ f ∈ Finset.range (numStates c.tbl t), ∫ u in (0 : ℝ)..β, pickW a H' c β m i z A b t f u) =
      ((m / β : ℝ) : K) * ∫ u in (β * i / m)..(β * (i + 1) / m), thermal β H' (atTime H' u (a z A * interactionH a c.tbl - interactionH a c.tbl * a z A) * (a z b)ᴴ) := by
  set g : ℕ → ℕ → ℝ → K := fun t f u => (c.tbl.getD t default).U * ((numStates c.tbl t : ℕ) : K)⁻¹ * thermal β H' (atTime H' u (commOp a c z A (t, f, 0)) * (a z b)ᴴ) with hg
  have hgc : ∀ t f, Continuous (g t f) := fun t f => continuous_const.mul (thermal_at_continuous H' _ _)
  have e1 : ∀ t f, ∫ u in (0 : ℝ)..β, pickW a H' c β m i z A b t f u = ((m / β : ℝ) : K) * ∫ u in (β * i / m)..(β * (i + 1) / m), g t f u := by
    intro t f
    rw [← integral_bin hβ hi (hgc t f)]
    refine intervalIntegral.integral_congr fun u _ => ?_
    show pickW a H' c β m i z A b t f u = _
    unfold pickW
    rw [hg]
    ring
  simp only [e1, ← Finset.mul_sum]
  congr 1
  have e2 : ∀ t, (∑ f ∈ Finset.range (numStates c.tbl t), ∫ u in (β * i / m)..(β * (i + 1) / m), g t f u) =
      ∫ u in (β * i / m)..(β * (i + 1) / m), ∑ f ∈ Finset.range (numStates c.tbl t), g t f u := fun t =>
    (intervalIntegral.integral_finset_sum fun f _ => (hgc t f).intervalIntegrable _ _).symm
  simp only [e2]
  rw [← intervalIntegral.integral_finset_sum fun t _ => (continuous_finset_sum _ fun f _ => hgc t f).intervalIntegrable _ _]
  refine intervalIntegral.integral_congr fun u _ => ?_
  show _ = thermal β H' _
  rw [comm_interaction, atTime_sum, Finset.sum_mul, thermal_sum]
  refine Finset.sum_congr rfl fun t _ => ?_
  rw [atTime_sum, Finset.sum_mul, thermal_sum]
  refine Finset.sum_congr rfl fun f _ => ?_
  rw [atTime_smul, Matrix.smul_mul, thermal_smul]

theorem foldTime_Icc (hβ : 0 < β) {u : ℝ} (h0 : 0 ≤ u) (h2 : u < 2 * β) : foldTime β u ∈ Set.Icc 0 β := by
  rcases lt_or_ge u β with q | q
  · rw [(foldTime_lt ⟨h0, q⟩).2]; exact ⟨h0, q.le⟩
  · rw [(foldTime_ge q h2).2]; exact ⟨by linarith, by linarith⟩

theorem pickW_measurable (H' : Matrix n n K) (m i z A b t f : ℕ) : Measurable (pickW a H' c β m i z A b t f) := by
  unfold pickW
  exact (measurable_const.mul (RCLike.measurable_ofReal.comp (measurable_binF m i))).mul (thermal_at_continuous H' _ _).measurable

/-- The integral over the picked vertex and the shift, for a function of the folded sum of the times. -/
theorem integral_pick_fold (hβ : 0 < β) (tbl : List (VDef K)) {Φ : ℕ → ℕ → ℝ → ℝ} (hΦ : ∀ t f, Measurable (Φ t f)) {B : ℝ}
    (hB : ∀ t < tbl.length, ∀ f < numStates tbl t, ∀ u ∈ Set.Icc 0 β, ‖Φ t f u‖ ≤ B) :
    ∫ o, Φ o.1.1 o.1.2.1 (foldTime β (o.1.2.2 + o.2)) ∂pickMeasure β tbl =
      β * ∑ t ∈ Finset.range tbl.length, ∑ f ∈ Finset.range (numStates tbl t), ∫ u in (0 : ℝ)..β, Φ t f u := by
  have hmeas : Measurable fun o : Pt × ℝ => Φ o.1.1 o.1.2.1 (foldTime β (o.1.2.2 + o.2)) := by
    have key : Measurable fun w : ℝ × (ℕ × ℕ) => Φ w.2.1 w.2.2 w.1 := measurable_from_prod_countable_left fun g => hΦ g.1 g.2
    have hr : Measurable fun o : Pt × ℝ => (foldTime β (o.1.2.2 + o.2), (o.1.1, o.1.2.1)) := by
      have h1 : Measurable fun o : Pt × ℝ => o.1.2.2 + o.2 := by fun_prop
      have h2 : Measurable fun o : Pt × ℝ => (o.1.1, o.1.2.1) := by fun_prop
      exact (measurable_foldTime.comp h1).prodMk h2
    exact key.comp hr
  have hint : Integrable (fun o : Pt × ℝ => Φ o.1.1 o.1.2.1 (foldTime β (o.1.2.2 + o.2))) (pickMeasure β tbl) := by
    refine Integrable.of_bound hmeas.aestronglyMeasurable B ?_
    filter_upwards [ae_pick β tbl] with o ho
    exact hB o.1.1 ho.1.1 o.1.2.1 ho.1.2.1 _ (foldTime_Icc hβ (by linarith [ho.1.2.2.1, ho.2.1.1]) (by linarith [ho.1.2.2.2, ho.2.1.2]))
  rw [integral_prod _ hint]
  have e1 : ∀ p : Pt, ∫ t in Set.Ioc 0 β, Φ p.1 p.2.1 (foldTime β (p.2.2 + t)) = ∫ u in (0 : ℝ)..β, Φ p.1 p.2.1 u := fun p => integral_fold hβ (Φ p.1 p.2.1) p.2.2
  simp only [e1]
  rw [(integral_point hβ.le tbl (g := fun p : Pt => ∫ u in (0 : ℝ)..β, Φ p.1 p.2.1 u) fun t f => (continuous_const : Continuous fun _ : ℝ => ∫ u in (0 : ℝ)..β, Φ t f u)).2]
  simp only [intervalIntegral.integral_const, sub_zero, smul_eq_mul, ← Finset.mul_sum]

/-- The integral over the picked vertex and the shift. -/
theorem integral_pick (hβ : 0 < β) (H' : Matrix n n K) {m i : ℕ} (hi : i < m) (z A b : ℕ) (κ : K) (L : K →L[ℝ] ℝ) :
    ∫ o, L (κ * pickW a H' c β m i z A b o.1.1 o.1.2.1 (foldTime β (o.1.2.2 + o.2))) ∂pickMeasure β c.tbl =
      β * L (κ * (((m / β : ℝ) : K) * ∫ u in (β * i / m)..(β * (i + 1) / m), thermal β H' (atTime H' u (a z A * interactionH a c.tbl - interactionH a c.tbl * a z A) * (a z b)ᴴ))) := by
  obtain ⟨g, hg⟩ : ∃ g : ℕ → ℕ → ℝ → K, g = fun t f u => (c.tbl.getD t default).U * ((numStates c.tbl t : ℕ) : K)⁻¹ *
      thermal β H' (atTime H' u (commOp a c z A (t, f, 0)) * (a z b)ᴴ) := ⟨_, rfl⟩
  have hgc : ∀ t f, Continuous (g t f) := fun t f => by
    rw [hg]
    exact continuous_const.mul (thermal_at_continuous H' _ _)
  have hW : ∀ t f u, pickW a H' c β m i z A b t f u = ((binF β m i u : ℝ) : K) * g t f u := by
    intro t f u
    unfold pickW
    rw [hg]
    ring
  obtain ⟨B, hB⟩ := vertex_bound (A := K) (v := fun p : Pt => g p.1 p.2.1 p.2.2) (fun t f => hgc t f) c.tbl β
  have hΦm : ∀ t f, Measurable fun u => L (κ * pickW a H' c β m i z A b t f u) :=
    fun t f => L.continuous.measurable.comp (measurable_const.mul (pickW_measurable H' m i z A b t f))
  rw [integral_pick_fold hβ c.tbl (Φ := fun t f u => L (κ * pickW a H' c β m i z A b t f u)) hΦm (B := ‖L‖ * (‖κ‖ * (m / β * B)))]
  · congr 1
    have e2 : ∀ t f, ∫ u in (0 : ℝ)..β, L (κ * pickW a H' c β m i z A b t f u) = L (κ * ∫ u in (0 : ℝ)..β, pickW a H' c β m i z A b t f u) := by
      intro t f
      have hI : IntervalIntegrable (fun u => pickW a H' c β m i z A b t f u) volume 0 β := by
        simp only [hW]
        exact integrable_bin hβ m i (hgc t f)
      rw [← intervalIntegral.integral_const_mul]
      exact L.intervalIntegral_comp_comm (hI.const_mul κ)
    simp only [e2]
    simp only [← map_sum, ← Finset.mul_sum]
    rw [pickW_sum hβ H' hi z A b]
  · intro t ht f hf u hu
    refine (L.le_opNorm _).trans (mul_le_mul_of_nonneg_left ?_ (norm_nonneg _))
    have hb2 := binF_le hβ m i u
    rw [norm_mul, hW, norm_mul, RCLike.norm_ofReal, abs_of_nonneg hb2.1]
    exact mul_le_mul_of_nonneg_left (mul_le_mul hb2.2 (hB t ht f hf u hu) (norm_nonneg _) (by positivity)) (norm_nonneg _)

/-- **The sum over configurations of the weights of the self-energy.** -/
theorem sigma_limit [Nonempty n] (hβ : 0 < β) (ha : Annihilators c.nf ns a) (hh : HermitianHops c.nf ns h)
    (hG0 : ThermalG0 β c.nf ns a (bareH c.nf ns h a) c.G0) (hm : MeasurableG0 c.G0) (hG : ThermalG β c.nf ns a (bareH c.nf ns h a) G) (hGm : MeasurableG G)
    (hT : TermsOn c.nf ns c.tbl) (hZ : (exp (-(β : K) • (bareH c.nf ns h a + interactionH a c.tbl))).trace ≠ 0) {z A b m i : ℕ} (hi : i < m) (hz : z < c.nf)
    (hA : A < ns) (hb : b < ns) (L : K →L[ℝ] ℝ) :
    Tendsto (fun M => configSum c β M fun x => L (((1 / β : ℝ) : K) * ∫ t in (0 : ℝ)..β, binnedSum c β m i G z A b t (x.map vertAt))) atTop
      (nhds (L ((exp (-(β : K) • (bareH c.nf ns h a + interactionH a c.tbl))).trace / (exp (-(β : K) • bareH c.nf ns h a)).trace *
        (((m / β : ℝ) : K) * ∫ u in (β * i / m)..(β * (i + 1) / m), thermal β (bareH c.nf ns h a + interactionH a c.tbl)
          (atTime (bareH c.nf ns h a + interactionH a c.tbl) u (a z A * interactionH a c.tbl - interactionH a c.tbl * a z A) * (a z b)ᴴ))))) := by
  set H := bareH c.nf ns h a with hH
  set L' : K →L[ℝ] ℝ := (1 / β) • L with hL'
  have e0 : ∀ k : K, L (((1 / β : ℝ) : K) * k) = L' k := fun k => by
    rw [hL', ← smul_eq_mul, ← RCLike.real_smul_eq_coe_smul (K := K), map_smul]
    rfl
  obtain ⟨B₀, hp⟩ := pick_param hβ ha hh hG0 hm hG hGm hT m i hz hA hb
  have h1 := param_limit hp hβ.le (vertexSum_eq H c.tbl) L'
  rw [← tendsto_add_atTop_iff_nat 1]
  simp only [e0]
  have e3 : ∫ o, L' (thermalCL β H (chain (evolution H (interactionH a c.tbl)) ((sigOps a c β m i z A b o.1 o.2).map fun o => (o.1, atTime H o.1 o.2)) β)) ∂pickMeasure β c.tbl =
      ∫ o, L' ((exp (-(β : K) • (H + interactionH a c.tbl))).trace / (exp (-(β : K) • H)).trace *
        pickW a (H + interactionH a c.tbl) c β m i z A b o.1.1 o.1.2.1 (foldTime β (o.1.2.2 + o.2))) ∂pickMeasure β c.tbl := by
    refine integral_congr_ae ?_
    filter_upwards [ae_pick β c.tbl] with o ho
    rw [chain_value H hZ ⟨ho.1.2.2.1, ho.1.2.2.2⟩ ho.2.1 ho.2.2]
  refine Tendsto.congr (fun M => (sigma_shift hβ ha hh hG0 hm hG hGm hT m i hz hA hb L' M).symm) (h1.trans (le_of_eq (congrArg nhds (e3.trans ?_))))
  rw [integral_pick hβ _ hi, hL']
  show β * ((1 / β) * L _) = _
  field_simp

end CTInt
