import Verif.Proofs.LevelsExtra
import Verif.Props.HalfFilled

/-!
# C91: levels coupled by interactions between densities are solved exactly
-/

set_option linter.all false

namespace CTInt

open MeasureTheory Filter

variable {β U δ : ℝ} {ns : ℕ} {e : ℕ → ℕ → ℝ}

/-- **C91, weights.**  Without hopping the weight of a configuration without equal times does not depend on the times: it is the thermal
    average, over the occupied levels, of the product of the terms of its vertices, each with a minus sign. -/
theorem C91_weight {c : Ctx ℝ} (hT : ∀ d ∈ c.tbl, DensityTerm c.nf ns d) (hG : LevelsG0 β c.nf ns e c.G0) {x : List Pt} (hx : ValidPts β c.tbl x)
    (hd : x.Pairwise fun p p' => p.2.2 ≠ p'.2.2) :
    weight c.NI c.nf c.G0 c.tbl (x.map vertAt) =
      statesMean β c.nf ns (levelEnergy e) fun S => (x.map fun p => - fieldTerm S (c.tbl.getD p.1 default) p.2.1).prod :=
  levels_weight hT hG hx hd

/-- **C91, sum.**  The sum over all configurations with at most `M` vertices: in every state the series of the exponential of the
    interaction, to order `M`. -/
theorem C91_sum {c : Ctx ℝ} (hβ : 0 ≤ β) (hT : ∀ d ∈ c.tbl, DensityTerm c.nf ns d) (hG : LevelsG0 β c.nf ns e c.G0) (M : ℕ) :
    (configSum c β M fun x => weight c.NI c.nf c.G0 c.tbl (x.map vertAt)) =
      statesMean β c.nf ns (levelEnergy e) fun S => ∑ n ∈ Finset.range (M + 1), (-β * interaction c.tbl S) ^ n / n.factorial := by
  have := levels_sum hβ hT hG (fun _ => 1) M
  simp only [mul_one, one_mul] at this
  exact this

theorem exp_series (x : ℝ) : Tendsto (fun M : ℕ => ∑ n ∈ Finset.range (M + 1), x ^ n / n.factorial) atTop (nhds (Real.exp x)) := by
  have := (NormedSpace.expSeries_div_hasSum_exp x).tendsto_sum_nat
  rw [← Real.exp_eq_exp_ℝ] at this
  exact (tendsto_add_atTop_iff_nat 1).2 this

theorem exp_series_order (x : ℝ) :
    Tendsto (fun M : ℕ => ∑ n ∈ Finset.range (M + 1), (n : ℝ) * (x ^ n / n.factorial)) atTop (nhds (x * Real.exp x)) := by
  rw [← tendsto_add_atTop_iff_nat 1]
  refine ((exp_series x).const_mul x).congr fun M => ?_
  rw [Finset.sum_range_succ' (fun n : ℕ => (n : ℝ) * (x ^ n / n.factorial)) (M + 1), Nat.cast_zero, zero_mul, add_zero, Finset.mul_sum]
  refine Finset.sum_congr rfl fun n _ => ?_
  rw [Nat.factorial_succ]
  push_cast
  have : ((n : ℝ) + 1) ≠ 0 := by positivity
  have h2 : (n.factorial : ℝ) ≠ 0 := by positivity
  field_simp
  ring

/-- **C91, partition function.**  As the order grows the sum over configurations converges to the ratio of the partition functions with
    and without interaction. -/
theorem C91_limit {c : Ctx ℝ} (hβ : 0 ≤ β) (hT : ∀ d ∈ c.tbl, DensityTerm c.nf ns d) (hG : LevelsG0 β c.nf ns e c.G0) :
    Tendsto (fun M => configSum c β M fun x => weight c.NI c.nf c.G0 c.tbl (x.map vertAt)) atTop
      (nhds (statesZ β c.nf ns (fun S => levelEnergy e S + interaction c.tbl S) / statesZ β c.nf ns (levelEnergy e))) := by
  have h : ∀ S, Real.exp (-β * (levelEnergy e S + interaction c.tbl S)) = Real.exp (-β * interaction c.tbl S) * Real.exp (-β * levelEnergy e S) := by
    intro S
    rw [← Real.exp_add]
    ring_nf
  rw [show statesZ β c.nf ns (fun S => levelEnergy e S + interaction c.tbl S) =
    ∑ S ∈ states c.nf ns, Real.exp (-β * interaction c.tbl S) * Real.exp (-β * levelEnergy e S) from Finset.sum_congr rfl fun S _ => h S]
  refine Tendsto.congr (fun M => (C91_sum hβ hT hG M).symm) ?_
  unfold statesMean
  exact (tendsto_finset_sum _ fun S _ => (exp_series _).mul_const _).div_const _

/-- The mean order with at most `M` vertices. -/
noncomputable def meanOrder (β : ℝ) (nf ns : ℕ) (E V : Finset (ℕ × ℕ) → ℝ) (M : ℕ) : ℝ :=
  (∑ S ∈ states nf ns, (∑ n ∈ Finset.range (M + 1), (n : ℝ) * ((-β * V S) ^ n / n.factorial)) * Real.exp (-β * E S)) /
    ∑ S ∈ states nf ns, (∑ n ∈ Finset.range (M + 1), (-β * V S) ^ n / n.factorial) * Real.exp (-β * E S)

theorem meanOrder_limit (β : ℝ) (nf ns : ℕ) (E V : Finset (ℕ × ℕ) → ℝ) :
    Tendsto (meanOrder β nf ns E V) atTop (nhds (-β * statesMean β nf ns (fun S => E S + V S) V)) := by
  have h : ∀ S, Real.exp (-β * (E S + V S)) = Real.exp (-β * V S) * Real.exp (-β * E S) := by
    intro S
    rw [← Real.exp_add]
    ring_nf
  have e1 : ∑ S ∈ states nf ns, Real.exp (-β * V S) * Real.exp (-β * E S) = statesZ β nf ns fun S => E S + V S :=
    Finset.sum_congr rfl fun S _ => (h S).symm
  have e2 : -β * statesMean β nf ns (fun S => E S + V S) V =
      (∑ S ∈ states nf ns, (-β * V S * Real.exp (-β * V S)) * Real.exp (-β * E S)) / ∑ S ∈ states nf ns, Real.exp (-β * V S) * Real.exp (-β * E S) := by
    rw [e1]
    unfold statesMean
    rw [mul_div_assoc', Finset.mul_sum]
    congr 1
    refine Finset.sum_congr rfl fun S _ => ?_
    rw [h]
    ring
  rw [e2]
  refine (tendsto_finset_sum _ fun S _ => (exp_series_order _).mul_const _).div
    (tendsto_finset_sum _ fun S _ => (exp_series _).mul_const _) ?_
  rw [e1]
  exact (statesZ_pos _ _ _ _).ne'

theorem levels_order {c : Ctx ℝ} (hβ : 0 ≤ β) (hT : ∀ d ∈ c.tbl, DensityTerm c.nf ns d) (hG : LevelsG0 β c.nf ns e c.G0) (M : ℕ) :
    (configSum c β M fun x => weight c.NI c.nf c.G0 c.tbl (x.map vertAt) * x.length) /
      (configSum c β M fun x => weight c.NI c.nf c.G0 c.tbl (x.map vertAt)) = meanOrder β c.nf ns (levelEnergy e) (interaction c.tbl) M := by
  rw [levels_sum hβ hT hG (fun n => (n : ℝ)) M, C91_sum hβ hT hG M]
  unfold statesMean meanOrder
  rw [div_div_div_cancel_right₀ (statesZ_pos _ _ _ _).ne']

/-- **C91, order.**  The mean number of vertices converges, as the order grows, to -β times the exact thermal average of the
    interaction energy. -/
theorem C91_order {c : Ctx ℝ} (hβ : 0 ≤ β) (hT : ∀ d ∈ c.tbl, DensityTerm c.nf ns d) (hG : LevelsG0 β c.nf ns e c.G0) :
    Tendsto (fun M => (configSum c β M fun x => weight c.NI c.nf c.G0 c.tbl (x.map vertAt) * x.length) /
      configSum c β M fun x => weight c.NI c.nf c.G0 c.tbl (x.map vertAt)) atTop
      (nhds (-β * statesMean β c.nf ns (fun S => levelEnergy e S + interaction c.tbl S) (interaction c.tbl))) :=
  (meanOrder_limit β c.nf ns (levelEnergy e) (interaction c.tbl)).congr fun M => (levels_order hβ hT hG M).symm

theorem seriesMean_limit (β : ℝ) (nf ns : ℕ) (E V X : Finset (ℕ × ℕ) → ℝ) :
    Tendsto (fun M => seriesMean β nf ns E V M X) atTop (nhds (statesMean β nf ns (fun S => E S + V S) X)) := by
  have h : ∀ S, Real.exp (-β * (E S + V S)) = Real.exp (-β * V S) * Real.exp (-β * E S) := by
    intro S
    rw [← Real.exp_add]
    ring_nf
  unfold statesMean statesZ
  simp only [h, ← mul_assoc]
  refine (tendsto_finset_sum _ fun S _ => ((exp_series _).const_mul _).mul_const _).div
    (tendsto_finset_sum _ fun S _ => (exp_series _).mul_const _) ?_
  exact (Finset.sum_pos (fun S _ => mul_pos (Real.exp_pos _) (Real.exp_pos _)) ⟨∅, Finset.empty_mem_powerset _⟩).ne'

/-- What the time difference of 10⁻¹⁰ β used for equal times adds to a density. -/
noncomputable def densityError (β : ℝ) (e : ℕ → ℕ → ℝ) (z s : ℕ) : ℝ := (Real.exp (1e-10 * β * e z s) - 1) / (1 + Real.exp (β * e z s))

theorem densShift_eq {nf : ℕ} {G : ℝ → ℕ → ℕ → ℕ → ℝ} (hβ : 0 < β) (hG : LevelsG β nf ns e G) {z s : ℕ} (hz : z < nf) (hs : s < ns) :
    densShift β e G (-β * 1e-10) z s = - densityError β e z s := by
  unfold densShift densityError fermi
  rw [hG.earlier z hz s hs _ (by nlinarith) (by nlinarith), show -(e z s * (-β * 1e-10)) = 1e-10 * β * e z s by ring]
  ring

/-- **C91, densities.**  What the densities converge to with at most `M` vertices: the average of the occupation number over the states,
    with the exponential series to order `M`, except for the time difference used for equal times. -/
theorem C91_density {c : Ctx ℝ} {G : ℝ → ℕ → ℕ → ℕ → ℝ} (hβ : 0 < β) (hT : ∀ d ∈ c.tbl, DensityTerm c.nf ns d) (hG0 : LevelsG0 β c.nf ns e c.G0)
    (hG : LevelsG β c.nf ns e G) {z s : ℕ} (hz : z < c.nf) (hs : s < ns) (M : ℕ) :
    (expect c β M fun vs => (1 / β) * ∫ τ in (0 : ℝ)..β, weightExtra c G z (-β * 1e-10) τ s s vs) =
      seriesMean β c.nf ns (levelEnergy e) (interaction c.tbl) M fun S => occ S z s + densityError β e z s := by
  have hε : |-β * 1e-10| < β := abs_lt.2 ⟨by nlinarith, by nlinarith⟩
  rw [levels_expect hβ hT hG0 (fun S => occ S z s - densShift β e G (-β * 1e-10) z s)
    (w := fun τ vs => weightExtra c G z (-β * 1e-10) τ s s vs) fun x τ hx hd h0 h1 hτ => levels_extra hT hG0 hG hε h0 h1 hx hd hτ hz hs]
  simp only [densShift_eq hβ hG hz hs, sub_neg_eq_add]

/-- **C91, products of densities.** -/
theorem C91_products {c : Ctx ℝ} {G : ℝ → ℕ → ℕ → ℕ → ℝ} (hβ : 0 < β) (hT : ∀ d ∈ c.tbl, DensityTerm c.nf ns d) (hG0 : LevelsG0 β c.nf ns e c.G0)
    (hG : LevelsG β c.nf ns e G) {z s z' s' : ℕ} (hz : z < c.nf) (hs : s < ns) (hz' : z' < c.nf) (hs' : s' < ns) (M : ℕ) :
    densDens c G β M z s z' s' = seriesMean β c.nf ns (levelEnergy e) (interaction c.tbl) M fun S =>
      if (z, s) = (z', s') then occ S z s + densityError β e z s
      else (occ S z s + densityError β e z s) * (occ S z' s' + densityError β e z' s') := by
  have hε : |-β * 1e-10| < β := abs_lt.2 ⟨by nlinarith, by nlinarith⟩
  unfold densDens
  rw [levels_expect hβ hT hG0 _ (w := fun τ vs => weightTwo c G (-β * 1e-10) τ z s z' s' vs)
    fun x τ hx hd h0 h1 hτ => levels_two hT hG0 hG hε h0 h1 hx hd hτ hz hs hz' hs']
  simp only [densShift_eq hβ hG hz hs, densShift_eq hβ hG hz' hs', sub_neg_eq_add]

theorem occ_mul_self (S : Finset (ℕ × ℕ)) (z s : ℕ) : occ S z s * occ S z s = occ S z s := by
  unfold occ
  split <;> norm_num

/-- Half of the levels are occupied. -/
theorem half_filled (β U δ : ℝ) {ns : ℕ} {M z s : ℕ} (hz : z < 2) (hs : s < ns)
    (hne : ∑ S ∈ states 2 ns, (∑ n ∈ Finset.range (M + 1), (-β * onsiteEnergy U δ ns S) ^ n / n.factorial) * Real.exp (-β * 0) ≠ 0) :
    seriesMean β 2 ns (fun _ => 0) (onsiteEnergy U δ ns) M (fun S => occ S z s) = 1 / 2 := by
  set L := Finset.range 2 ×ˢ Finset.range ns with hL
  set g : Finset (ℕ × ℕ) → ℝ := fun S => (∑ n ∈ Finset.range (M + 1), (-β * onsiteEnergy U δ ns S) ^ n / n.factorial) * Real.exp (-β * 0) with hg
  have hocc : ∀ S, ∀ y < 2, ∀ r < ns, occ (L \ S) y r = 1 - occ S y r := by
    intro S y hy r hr
    have hm : (y, r) ∈ L := Finset.mem_product.2 ⟨Finset.mem_range.2 hy, Finset.mem_range.2 hr⟩
    unfold occ
    by_cases h : (y, r) ∈ S
    · rw [if_pos h, if_neg (by simp [h])]; norm_num
    · rw [if_neg h, if_pos (Finset.mem_sdiff.2 ⟨hm, h⟩)]; norm_num
  have hE : ∀ S, onsiteEnergy U δ ns (L \ S) = onsiteEnergy U δ ns S := by
    intro S
    unfold onsiteEnergy
    refine Finset.sum_congr rfl fun r hr => ?_
    rw [hocc S 0 two_pos r (Finset.mem_range.1 hr), hocc S 1 one_lt_two r (Finset.mem_range.1 hr)]
    ring
  have hflip : ∑ S ∈ states 2 ns, occ S z s * g S = ∑ S ∈ states 2 ns, (1 - occ S z s) * g S := by
    refine Finset.sum_bij' (fun S _ => L \ S) (fun S _ => L \ S) (fun S _ => Finset.mem_powerset.2 Finset.sdiff_subset)
      (fun S _ => Finset.mem_powerset.2 Finset.sdiff_subset) (fun S hS => ?_) (fun S hS => ?_) (fun S hS => ?_)
    · exact Finset.sdiff_sdiff_eq_self (Finset.mem_powerset.1 hS)
    · exact Finset.sdiff_sdiff_eq_self (Finset.mem_powerset.1 hS)
    · rw [hocc S z hz s hs, hg]
      simp only [hE]
      ring
  have hsum : ∑ S ∈ states 2 ns, (1 - occ S z s) * g S = ∑ S ∈ states 2 ns, g S - ∑ S ∈ states 2 ns, occ S z s * g S := by
    rw [← Finset.sum_sub_distrib]
    exact Finset.sum_congr rfl fun S _ => by ring
  have h2 : ∑ S ∈ states 2 ns, occ S z s * g S = (1 / 2) * ∑ S ∈ states 2 ns, g S := by linarith
  unfold seriesMean
  rw [div_eq_iff hne, ← h2]
  exact Finset.sum_congr rfl fun S _ => by rw [hg]; ring

/-- **C91, closed form.**  One site: the double occupancy of the Hubbard atom. -/
theorem C91_atom (β U δ : ℝ) : statesMean β 2 1 (onsiteEnergy U δ 1) (fun S => occ S 0 0 * occ S 1 0) = 1 / (2 * (1 + Real.exp (β * U / 2))) := by
  have hst : states 2 1 = {∅, {(0, 0)}, {(1, 0)}, {(0, 0), (1, 0)}} := by decide
  unfold statesMean statesZ
  rw [hst]
  have n1 : (∅ : Finset (ℕ × ℕ)) ∉ ({{(0, 0)}, {(1, 0)}, {(0, 0), (1, 0)}} : Finset (Finset (ℕ × ℕ))) := by decide
  have n2 : ({(0, 0)} : Finset (ℕ × ℕ)) ∉ ({{(1, 0)}, {(0, 0), (1, 0)}} : Finset (Finset (ℕ × ℕ))) := by decide
  have n3 : ({(1, 0)} : Finset (ℕ × ℕ)) ∉ ({{(0, 0), (1, 0)}} : Finset (Finset (ℕ × ℕ))) := by decide
  rw [Finset.sum_insert n1, Finset.sum_insert n2, Finset.sum_insert n3, Finset.sum_singleton, Finset.sum_insert n1, Finset.sum_insert n2,
    Finset.sum_insert n3, Finset.sum_singleton]
  have o : ∀ z, occ ∅ z 0 = 0 := fun z => by simp [occ]
  have o1 : occ {(0, 0)} 0 0 = 1 ∧ occ {(0, 0)} 1 0 = 0 := by simp [occ]
  have o2 : occ {(1, 0)} 0 0 = 0 ∧ occ {(1, 0)} 1 0 = 1 := by simp [occ]
  have o3 : occ {(0, 0), (1, 0)} 0 0 = 1 ∧ occ {(0, 0), (1, 0)} 1 0 = 1 := by simp [occ]
  unfold onsiteEnergy
  simp only [Finset.sum_range_one, o, o1.1, o1.2, o2.1, o2.2, o3.1, o3.2]
  set a := Real.exp (-β * (U * ((0 - 1 / 2) * (0 - 1 / 2) - (δ + 1 / 2) ^ 2))) with ha
  have ea : Real.exp (-β * (U * ((1 - 1 / 2) * (1 - 1 / 2) - (δ + 1 / 2) ^ 2))) = a := by rw [ha]; congr 1; ring
  have eb : Real.exp (-β * (U * ((1 - 1 / 2) * (0 - 1 / 2) - (δ + 1 / 2) ^ 2))) = a * Real.exp (β * U / 2) := by
    rw [ha, ← Real.exp_add]; congr 1; ring
  have ec : Real.exp (-β * (U * ((0 - 1 / 2) * (1 - 1 / 2) - (δ + 1 / 2) ^ 2))) = a * Real.exp (β * U / 2) := by
    rw [ha, ← Real.exp_add]; congr 1; ring
  rw [ea, eb, ec]
  have h1 : 0 < a := Real.exp_pos _
  have h2 := Real.exp_pos (β * U / 2)
  field_simp
  ring

/-- The terms made from "model.U" couple densities. -/
theorem hubbard_density {tbl : List (VDef ℝ)} (hT : IsHubbard U δ ns tbl) : ∀ d ∈ tbl, DensityTerm 2 ns d := by
  intro d hd
  obtain ⟨s, hs', e⟩ := List.getElem_of_mem hd
  obtain ⟨v, e1, hv⟩ := hT.2 s (by rw [← hT.1]; exact hs')
  rw [List.getElem?_eq_getElem hs'] at e1
  obtain rfl : d = v.d := by rw [← e]; exact Option.some.inj e1
  have hs : s < ns := by rw [← hT.1]; exact hs'
  refine ⟨by rw [hv.numAf]; norm_num, fun r hr => ?_, fun r hr => ?_, fun r hr r' hr' hne => ?_⟩ <;> rw [hv.rank] at hr
  · rw [hv.flavors, hv.sites]
    interval_cases r <;> simp [hs]
  · rw [hv.sites]
    interval_cases r <;> simp
  · rw [hv.rank] at hr'
    rw [hv.flavors, hv.sites]
    interval_cases r <;> interval_cases r' <;> simp_all

/-- The terms made from "model.U" are negative in every state. -/
theorem hubbard_terms {tbl : List (VDef ℝ)} (hT : IsHubbard U δ ns tbl) (hU : 0 < U) (hδ : 0 < δ) (S : Finset (ℕ × ℕ)) {d : VDef ℝ} (hd : d ∈ tbl)
    {a : ℕ} (ha : a < d.numAf) : fieldTerm S d a < 0 := by
  obtain ⟨s, hs', e⟩ := List.getElem_of_mem hd
  obtain ⟨v, e1, hv⟩ := hT.2 s (by rw [← hT.1]; exact hs')
  rw [List.getElem?_eq_getElem hs'] at e1
  obtain rfl : d = v.d := by rw [← e]; exact Option.some.inj e1
  rw [hv.numAf] at ha
  unfold fieldTerm
  rw [hv.rank, Finset.prod_range_succ, Finset.prod_range_one, hv.U]
  have hocc : ∀ z s, occ S z s = 0 ∨ occ S z s = 1 := fun z s => by
    unfold occ
    split
    · exact Or.inr rfl
    · exact Or.inl rfl
  generalize hx : occ S (v.d.flavors.getD 0 0) (v.d.sites.getD (2 * 0) 0) = x
  generalize hy : occ S (v.d.flavors.getD 1 0) (v.d.sites.getD (2 * 1) 0) = y
  have key : ∀ x y : ℝ, (x = 0 ∨ x = 1) → (y = 0 ∨ y = 1) → U * ((x - (1 + δ)) * (y + δ)) < 0 := by
    intro x y hx hy
    have h1 : x - (1 + δ) < 0 := by rcases hx with rfl | rfl <;> linarith
    have h2 : 0 < y + δ := by rcases hy with rfl | rfl <;> linarith
    exact mul_neg_of_pos_of_neg hU (mul_neg_of_neg_of_pos h1 h2)
  have hx' := hx ▸ hocc (v.d.flavors.getD 0 0) (v.d.sites.getD (2 * 0) 0)
  have hy' := hy ▸ hocc (v.d.flavors.getD 1 0) (v.d.sites.getD (2 * 1) 0)
  interval_cases a
  · rw [hv.up.1, hv.up.2, sub_neg_eq_add]
    exact key x y hx' hy'
  · rw [hv.down.1, hv.down.2, hv.up.1, hv.up.2, sub_neg_eq_add, mul_comm (x + δ)]
    exact key y x hy' hx'

/-- **C91, on-site repulsion.**  The interaction energy is the sum over the sites of U (n↑ - 1/2)(n↓ - 1/2), up to a constant. -/
theorem C91_onsite {tbl : List (VDef ℝ)} (hT : IsHubbard U δ ns tbl) (S : Finset (ℕ × ℕ)) : interaction tbl S = onsiteEnergy U δ ns S := by
  unfold interaction onsiteEnergy
  rw [← Fin.sum_univ_fun_getElem tbl fun d => (∑ a ∈ Finset.range d.numAf, fieldTerm S d a) / d.numAf, ← hT.1, Finset.sum_range]
  refine Finset.sum_congr rfl fun s _ => ?_
  obtain ⟨v, e1, hv⟩ := hT.2 s.val (by rw [← hT.1]; exact s.2)
  rw [List.getElem?_eq_getElem s.2] at e1
  have e1 : tbl[s.val] = v.d := Option.some.inj e1
  show (∑ a ∈ Finset.range tbl[s.val].numAf, fieldTerm S tbl[s.val] a) / (tbl[s.val].numAf : ℝ) = _
  rw [e1, ← C28_decoupling U δ hv]
  congr 1
  refine Finset.sum_congr rfl fun a _ => ?_
  unfold fieldTerm
  rw [hv.rank, Finset.prod_range_succ, Finset.prod_range_one, hv.flavors, hv.sites]
  simp [mul_assoc]

/-- **C91, no sign problem.**  On-site repulsion without hopping, whatever the energies of the levels: the weight of every configuration
    without equal times is positive. -/
theorem C91_positive {c : Ctx ℝ} (hnf : c.nf = 2) (hT : IsHubbard U δ ns c.tbl) (hU : 0 < U) (hδ : 0 < δ) (hG : LevelsG0 β c.nf ns e c.G0)
    {x : List Pt} (hx : ValidPts β c.tbl x) (hd : x.Pairwise fun p p' => p.2.2 ≠ p'.2.2) : 0 < weight c.NI c.nf c.G0 c.tbl (x.map vertAt) := by
  rw [levels_weight (by rw [hnf]; exact hubbard_density hT) hG hx hd]
  refine div_pos (Finset.sum_pos (fun S _ => mul_pos (List.prod_pos fun a ha => ?_) (Real.exp_pos _)) ⟨∅, Finset.empty_mem_powerset _⟩)
    (statesZ_pos _ _ _ _)
  obtain ⟨p, hp, rfl⟩ := List.mem_map.1 ha
  obtain ⟨h1, h2, -⟩ := hx p hp
  refine neg_pos.2 (hubbard_terms hT hU hδ S ?_ h2)
  rw [List.getD_eq_getElem?_getD, List.getElem?_eq_getElem h1]
  exact List.getElem_mem _

theorem ae_weight_pos {c : Ctx ℝ} (hnf : c.nf = 2) (hT : IsHubbard U δ ns c.tbl) (hU : 0 < U) (hδ : 0 < δ) (hG : LevelsG0 β c.nf ns e c.G0) (n : ℕ) :
    ∀ᵐ x : Fin n → Pt ∂Measure.pi fun _ => pointMeasure β c.tbl, 0 < weight c.NI c.nf c.G0 c.tbl ((List.ofFn x).map vertAt) := by
  filter_upwards [ae_distinct β c.tbl n, ae_validPts β c.tbl n] with x hx hv
  refine C91_positive hnf hT hU hδ hG hv ?_
  rw [List.pairwise_ofFn]
  intro i j hij
  exact hx i j hij.ne

/-- Sums over configurations of functions that agree almost everywhere. -/
theorem configSum_congr_ae {c : Ctx ℝ} {M : ℕ} {F F' : List Pt → ℝ}
    (h : ∀ n ≤ M, ∀ᵐ x : Fin n → Pt ∂Measure.pi fun _ => pointMeasure β c.tbl, F (List.ofFn x) = F' (List.ofFn x)) :
    configSum c β M F = configSum c β M F' := by
  unfold configSum
  refine Finset.sum_congr rfl fun n hn => ?_
  congr 1
  refine integral_congr_ae ?_
  filter_upwards [h n (Nat.lt_succ_iff.1 (Finset.mem_range.1 hn))] with x hx
  rw [hx]

section
variable {S : Type} {is : IStream S}

theorem NaturalSpline.const {file : GFile} {k : ℝ} : NaturalSpline file β (fun _ => k) fun _ => k := by
  refine ⟨⟨fun _ _ => rfl, fun i _ => ⟨Polynomial.C k, by simp, fun t _ => by simp⟩, contDiffOn_const⟩, ?_, ?_⟩ <;>
  · rw [iteratedDerivWithin_const]
    simp

/-- The functions that the updates and the measurements use, for a file with constant values. -/
theorem flat_core {dbg : Bool} {P : Params S} {j : ReadJunk} {V : FullSolver ℝ} (h : FullSolver.create is dbg P j = .ok V) (hβ : 1e-8 < P.beta)
    {file : GFile} (hfile : P.g0File = some (some file)) (hF : FlatFile P.spins file) {z s s' : ℕ} (hz : z < P.spins) (hs : s < P.sites)
    (hs' : s' < P.sites) : ∃ (F : ℝ → ℝ) (v : ℝ), v = (if s = s' then -1 / 2 else 0) ∧ (∀ t, 0 ≤ t → t < P.beta → F t = v) ∧
      (∀ t, -P.beta ≤ t → t < 0 → F t = -v) ∧
      (∀ a b : Op, a.flavor = z → b.flavor = z → a.site = s → b.site = s' →
        V.c.G0 a b = if a.time ≠ b.time then F (a.time - b.time) else if b.small < a.small then v else -v) ∧
      ∀ t, ((∀ k : ℤ, t ≠ k * P.beta) → V.q.g0 t z s s' = .ok (F t)) ∧ ∀ k : ℤ, t = k * P.beta → V.q.g0 t z s s' = .ok (F (t + 1e-8)) := by
  have hβ0 : 0 < P.beta := lt_trans (by norm_num) hβ
  have hn := hF.grid
  obtain ⟨file', g, e, hr, -⟩ := C80_green_defined h hβ
  obtain rfl : file = file' := Option.some.inj (Option.some.inj (hfile.symm.trans e))
  have hns : file.ns = P.sites := (C56_read file _ _ _ g hr).2.1
  obtain ⟨file', e, -, hall⟩ := C80_green h hβ
  obtain rfl : file = file' := Option.some.inj (Option.some.inj (hfile.symm.trans e))
  obtain ⟨⟨A, B, hA, hB⟩, hAB⟩ := hall z hz s hs s' hs'
  have e : (fun τ => (RCLike.ofReal (A τ) : ℝ) + RCLike.ofReal (B τ) * RCLike.I) = A := by
    funext τ
    simp
  have hc := contin_anti hβ0 A
  obtain ⟨q1, q2⟩ := hAB A B hA hB (contin P.beta A) (by rw [e]; exact hc)
  have hv : ∀ τ, 0 ≤ τ → τ ≤ P.beta → A τ = if s = s' then -1 / 2 else 0 := by
    intro τ h0 h1
    have hc' : NaturalSpline file P.beta (fun t => (file.value z s s' t : ℝ)) fun _ => if s = s' then (-1 / 2 : ℝ) else 0 := by
      have := NaturalSpline.const (β := P.beta) (file := file) (k := if s = s' then (-1 / 2 : ℝ) else 0)
      refine ⟨⟨fun i hi => ?_, this.spline.cubic, this.spline.smooth⟩, this.left, this.right⟩
      exact (hF.value z hz s s' i (by omega) (by omega) (by omega)).symm
    exact NaturalSpline.eq hβ0 hn hA hc' h0 h1
  refine ⟨contin P.beta A, _, rfl, fun t h0 h1 => ?_, fun t h0 h1 => ?_, fun a b a1 a2 a3 a4 => ?_, q2⟩
  · rw [hc.agree t h0 h1, hv t h0 h1.le]
  · have q := hc.anti t
    rw [hc.agree _ (by linarith) (by linarith), hv _ (by linarith) (by linarith)] at q
    linarith
  · have := q1 a b a1 a2 a3 a4
    rw [this, ← hv 0 le_rfl hβ0.le]
    have h2 : A 0 = A P.beta := by rw [hv 0 le_rfl hβ0.le, hv _ hβ0.le le_rfl]
    simp [h2]

/-- **C91, Green's function.**  With the value -1/2 on the diagonal of the file, and 0 elsewhere, the updates use the bare Green's function of
    levels at zero energy. -/
theorem C91_green {dbg : Bool} {P : Params S} {j : ReadJunk} {V : FullSolver ℝ} (h : FullSolver.create is dbg P j = .ok V) (hβ : 1e-8 < P.beta)
    {file : GFile} (hfile : P.g0File = some (some file)) (hF : FlatFile P.spins file) :
    LevelsG0 P.beta P.spins P.sites (fun _ _ => 0) V.c.G0 := by
  refine ⟨?_, ?_, ?_, ?_⟩
  · intro z hz s hs s' hs' hne t t' k k' hlt
    obtain ⟨F, v, ev, f1, f2, g, -⟩ := flat_core h hβ hfile hF hz hs hs'
    rw [if_neg hne] at ev
    subst ev
    obtain ⟨l1, l2⟩ := abs_lt.1 hlt
    rw [g _ _ rfl rfl rfl rfl]
    show (if t ≠ t' then F (t - t') else if k' < k then 0 else -0) = 0
    split
    · rcases lt_or_ge (t - t') 0 with h | h
      · rw [f2 _ (by linarith) h, neg_zero]
      · exact f1 _ h (by linarith)
    · split <;> norm_num
  · intro z hz s hs t t' k k' hl hlt
    obtain ⟨F, v, ev, f1, f2, g, -⟩ := flat_core h hβ hfile hF hz hs hs
    rw [if_pos rfl] at ev
    obtain ⟨l1, l2⟩ := abs_lt.1 hlt
    rw [g _ _ rfl rfl rfl rfl]
    show (if t ≠ t' then F (t - t') else if k' < k then v else -v) = _
    rw [if_pos hl.ne', f1 _ (by linarith) (by linarith), ev]
    norm_num
  · intro z hz s hs t t' k k' hl hlt
    obtain ⟨F, v, ev, f1, f2, g, -⟩ := flat_core h hβ hfile hF hz hs hs
    rw [if_pos rfl] at ev
    obtain ⟨l1, l2⟩ := abs_lt.1 hlt
    rw [g _ _ rfl rfl rfl rfl]
    show (if t ≠ t' then F (t - t') else if k' < k then v else -v) = _
    rw [if_pos hl.ne, f2 _ (by linarith) (by linarith), ev]
    norm_num
  · intro z hz s hs t k
    obtain ⟨F, v, ev, f1, f2, g, -⟩ := flat_core h hβ hfile hF hz hs hs
    rw [if_pos rfl] at ev
    rw [g _ _ rfl rfl rfl rfl]
    show (if t ≠ t then F (t - t) else if k < k then v else -v) = _
    rw [if_neg (by simp), if_neg (lt_irrefl k), ev]
    norm_num

/-- The same for the function that the measurements use. -/
theorem C91_green_time {dbg : Bool} {P : Params S} {j : ReadJunk} {V : FullSolver ℝ} (h : FullSolver.create is dbg P j = .ok V) (hβ : 1e-8 < P.beta)
    {file : GFile} (hfile : P.g0File = some (some file)) (hF : FlatFile P.spins file) {G : ℝ → ℕ → ℕ → ℕ → ℝ}
    (hG : ∀ t, ∀ z < P.spins, ∀ s < P.sites, ∀ s' < P.sites, V.q.g0 t z s s' = .ok (G t z s s')) :
    LevelsG P.beta P.spins P.sites (fun _ _ => 0) G := by
  have hβ0 : 0 < P.beta := lt_trans (by norm_num) hβ
  have hk : ∀ t : ℝ, |t| < P.beta → t ≠ 0 → ∀ k : ℤ, t ≠ k * P.beta := by
    rintro t ht hne k rfl
    rw [abs_mul, abs_of_pos hβ0] at ht
    have : |(k : ℝ)| < 1 := by
      by_contra hc
      nlinarith
    have : |k| < 1 := by exact_mod_cast this
    have : k = 0 := by have := abs_lt.1 this; omega
    rw [this] at hne
    simp at hne
  refine ⟨?_, ?_, ?_⟩
  · intro z hz s hs s' hs' hne t hlt
    obtain ⟨F, v, ev, f1, f2, -, g⟩ := flat_core h hβ hfile hF hz hs hs'
    rw [if_neg hne] at ev
    subst ev
    obtain ⟨l1, l2⟩ := abs_lt.1 hlt
    have e := hG t z hz s hs s' hs'
    by_cases h0 : t = 0
    · rw [(g t).2 0 (by rw [h0]; simp)] at e
      rw [← Res.ok.inj e, h0, f1 _ (by norm_num) (by rw [zero_add]; exact hβ)]
    · rw [(g t).1 (hk t hlt h0)] at e
      rw [← Res.ok.inj e]
      rcases lt_or_ge t 0 with h | h
      · rw [f2 _ (by linarith) h, neg_zero]
      · exact f1 _ h (by linarith)
  · intro z hz s hs t t0 t1
    obtain ⟨F, v, ev, f1, f2, -, g⟩ := flat_core h hβ hfile hF hz hs hs
    rw [if_pos rfl] at ev
    have e := hG t z hz s hs s hs
    rw [(g t).1 (hk t (abs_lt.2 ⟨by linarith, t1⟩) t0.ne')] at e
    rw [← Res.ok.inj e, f1 _ t0.le t1, ev]
    norm_num
  · intro z hz s hs t t0 t1
    obtain ⟨F, v, ev, f1, f2, -, g⟩ := flat_core h hβ hfile hF hz hs hs
    rw [if_pos rfl] at ev
    have e := hG t z hz s hs s hs
    rw [(g t).1 (hk t (abs_lt.2 ⟨t0, by linarith⟩) t1.ne)] at e
    rw [← Res.ok.inj e, f2 _ t0.le t1, ev]
    norm_num

/-- What the program converges to with at most `P.maxOrder` vertices. -/
theorem atom_converges {n : ℕ} {dbg : Bool} {P : Params S} {mem : Fin n → Memory ℝ} {V : FullSolver ℝ}
    (h : ∀ i, FullSolver.create is dbg P (mem i).j = .ok V) (hn : 0 < n) (hP : UsableParams P) (hc : P.config = none) (hz : P.spins = 2)
    (hs : 0 < P.sites) (hUp : P.U = some U) (hU : 0 < U) {file : GFile} (hfile : P.g0File = some (some file)) (hF : FlatFile 2 file)
    (hk : 0 < P.kIns) (hI : 0 < P.nIR) (hsm : 0 < P.nSamples)
    {sj : ℕ → ℝ → ℝ} (hsj : IsSphBessel sj) (nm : ℕ) (junkP : ℕ → ℕ → ℕ → ℝ) {μ : Measure (Fin n → ℕ → ℝ)} (hμ : EachUniform μ) :
    ∀ᵐ u ∂μ, ∀ (T : ℕ → ℕ) (k : ℕ → Fin n → ℕ), Tendsto T atTop atTop → (∀ l, Completes ⟨T l, P.therm, P.period.toNat⟩ (k l)) →
      ∃ (rs : ℕ → List Record) (ar : ℕ → Archive),
        (∀ᶠ l in atTop, Returns (fun fuel => runSimulation is dbg false { P with total := T l } nm sj mem (junkP l) u (k l) fuel)
          (fun i => if i.val = 0 then some ⟨{ P with total := T l }, rs l, ar l⟩ else none)) ∧
        Tendsto (fun l => (ar l).sign) atTop (nhds 1) ∧
        ∀ z < 2, Tendsto (fun l => (ar l).matrixSize.getD z 0) atTop
          (nhds (meanOrder P.beta 2 P.sites (fun _ => 0) (onsiteEnergy U 1e-2 P.sites) P.maxOrder)) ∧
          Tendsto (fun l => (ar l).densities.getD z 0) atTop (nhds (1 / 2)) ∧ ∀ s < P.sites, ∀ z' < 2, ∀ s' < P.sites,
            Tendsto (fun l => (ar l).ninj z s z' s') atTop (nhds ((seriesMean P.beta 2 P.sites (fun _ => 0) (onsiteEnergy U 1e-2 P.sites) P.maxOrder
              fun S => occ S z s * occ S z' s' : ℝ) : ℂ)) := by
  have h1 := h ⟨0, hn⟩
  have hp := C80_parameters h1
  have hnf : V.c.nf = 2 := hp.nf.trans hz
  have hT := create_hubbard h1 hz hUp
  have hG : LevelsG0 P.beta V.c.nf P.sites (fun _ _ => 0) V.c.G0 := by
    rw [hp.nf]
    exact C91_green h1 hP.beta hfile (by rw [hz]; exact hF)
  have hβ0 : 0 < P.beta := lt_trans (by norm_num) hP.beta
  have hpos := fun m => ae_weight_pos (β := P.beta) hnf hT hU (by norm_num : (0 : ℝ) < 1e-2) hG m
  have hden : ∀ d ∈ V.c.tbl, DensityTerm V.c.nf P.sites d := by rw [hnf]; exact hubbard_density hT
  have hsum : 0 < configSum V.c P.beta P.maxOrder fun x => weight V.c.NI V.c.nf V.c.G0 V.c.tbl (x.map vertAt) := by
    rw [C91_sum hβ0.le hden hG]
    refine div_pos (Finset.sum_pos (fun S _ => mul_pos ?_ (Real.exp_pos _)) ⟨∅, Finset.empty_mem_powerset _⟩) (statesZ_pos _ _ _ _)
    have hneg : 0 ≤ -P.beta * interaction V.c.tbl S := by
      rw [C91_onsite hT]
      refine mul_nonneg_of_nonpos_of_nonpos (by linarith) (Finset.sum_nonpos fun s _ => mul_nonpos_of_nonneg_of_nonpos hU.le ?_)
      unfold occ
      split <;> split <;> norm_num
    show 0 < ∑ n ∈ Finset.range (P.maxOrder + 1), (-P.beta * interaction V.c.tbl S) ^ n / (n.factorial : ℝ)
    rw [Finset.sum_range_succ']
    simp only [pow_zero, Nat.factorial_zero, Nat.cast_one, div_one]
    refine add_pos_of_nonneg_of_pos (Finset.sum_nonneg fun n _ => ?_) one_pos
    positivity
  have e' : levelEnergy (fun _ _ => 0) = fun _ => (0 : ℝ) := by
    funext S
    unfold levelEnergy
    simp
  have eV : interaction V.c.tbl = onsiteEnergy U 1e-2 P.sites := funext fun S => C91_onsite hT S
  obtain ⟨G, hG', hae⟩ := C89_program h hn hP (hubbard_usable h1 hz hs hUp hU.ne') hc hk hI hsm (fun m _ => (hpos m).mono fun x hx => hx.ne') hsum.ne' hsj nm
    junkP hμ
  filter_upwards [hae] with u hu T k hT' hC
  obtain ⟨rs, ar, r1, -, r3⟩ := hu T k hT' hC
  have habs : (configSum V.c P.beta P.maxOrder fun x => |weight V.c.NI V.c.nf V.c.G0 V.c.tbl (x.map vertAt)|) =
      configSum V.c P.beta P.maxOrder fun x => weight V.c.NI V.c.nf V.c.G0 V.c.tbl (x.map vertAt) :=
    configSum_congr_ae fun m _ => (hpos m).mono fun x hx => abs_of_pos hx
  have hGt : LevelsG P.beta V.c.nf P.sites (fun _ _ => 0) G := by
    rw [hp.nf]
    exact C91_green_time h1 hP.beta hfile (by rw [hz]; exact hF) hG'
  have herr : ∀ z s, densityError P.beta (fun _ _ => 0) z s = 0 := fun z s => by simp [densityError]
  refine ⟨rs, ar, r1, ?_, fun z hz' => ⟨?_, ?_, fun s hs' z' hz'' s' hs'' => ?_⟩⟩
  · have := r3.sign
    rw [hp.beta, habs, div_self hsum.ne'] at this
    exact this
  · have := r3.sizes z (by omega)
    rw [hp.beta, habs] at this
    have e : (configSum V.c P.beta P.maxOrder fun x => |weight V.c.NI V.c.nf V.c.G0 V.c.tbl (x.map vertAt)| *
        (rowsOf V.c.NI V.c.tbl (x.map vertAt) z).length) =
        configSum V.c P.beta P.maxOrder fun x => weight V.c.NI V.c.nf V.c.G0 V.c.tbl (x.map vertAt) * x.length := by
      refine configSum_congr_ae fun m _ => ?_
      filter_upwards [hpos m, ae_validPts P.beta V.c.tbl m] with x hx hv
      rw [abs_of_pos hx, hT.rows (fun v hv' => ?_) hz']
      · simp
      · obtain ⟨p, hp', rfl⟩ := List.mem_map.1 hv'
        exact (hv p hp').1
    rw [e, levels_order hβ0.le hden hG, hnf] at this
    rw [e', eV] at this
    exact this
  · have := r3.densities z (by omega)
    rw [hp.beta, hp.ns] at this
    have e : meanDensity V.c G P.beta P.maxOrder P.sites z = 1 / 2 := by
      unfold meanDensity
      rw [Finset.sum_congr rfl fun s hs' => C91_density hβ0 hden hG hGt (by omega : z < V.c.nf) (Finset.mem_range.1 hs') P.maxOrder]
      simp only [herr, add_zero]
      rw [hnf, e', eV]
      rw [C91_sum hβ0.le hden hG, hnf, e', eV] at hsum
      rw [Finset.sum_congr rfl fun s hs' => half_filled P.beta U 1e-2 hz' (Finset.mem_range.1 hs') (fun h0 => by
        rw [statesMean, h0, zero_div] at hsum
        exact lt_irrefl _ hsum)]
      rw [Finset.sum_const, Finset.card_range, nsmul_eq_mul, mul_div_assoc, mul_comm, div_mul_cancel₀ _ (by exact_mod_cast hs.ne')]
    rw [e] at this
    exact this
  · have := r3.ninj z (by omega) s (by rw [hp.ns]; exact hs') z' (by omega) s' (by rw [hp.ns]; exact hs'')
    rw [hp.beta, C91_products hβ0 hden hG hGt (by omega) hs' (by omega) hs'' P.maxOrder] at this
    simp only [herr, add_zero] at this
    rw [hnf, e', eV] at this
    have e2 : (fun S => if (z, s) = (z', s') then occ S z s else occ S z s * occ S z' s') = fun S => occ S z s * occ S z' s' := by
      funext S
      split
      · next h =>
        obtain ⟨rfl, rfl⟩ := Prod.mk.inj h
        rw [occ_mul_self]
      · rfl
    rw [e2] at this
    exact this

/-- **C91, the program.**  Isolated sites with on-site repulsion: for every tolerance there is an order such that for every run that allows
    this order, with probability one, as the requested number of steps grows, the mean sign that is written converges to 1, the
    densities to 1/2, and the mean matrix sizes come and stay within the tolerance of -β times the exact thermal average of the interaction
    energy, the products of two densities within the tolerance of their exact thermal averages. -/
theorem C91_program (hU : 0 < U) {η : ℝ} (hη : 0 < η) (β : ℝ) (ns : ℕ) : ∃ M₀ : ℕ, ∀ {n : ℕ} {dbg : Bool} {P : Params S} {mem : Fin n → Memory ℝ}
    {V : FullSolver ℝ} (h : ∀ i, FullSolver.create is dbg P (mem i).j = .ok V) (hn : 0 < n) (hP : UsableParams P) (hc : P.config = none) (hz : P.spins = 2)
    (hb : P.beta = β) (hs : P.sites = ns) (hs0 : 0 < ns) (hUp : P.U = some U) {file : GFile} (hfile : P.g0File = some (some file)) (hF : FlatFile 2 file)
    (hk : 0 < P.kIns) (hI : 0 < P.nIR) (hsm : 0 < P.nSamples) (hM : M₀ ≤ P.maxOrder)
    {sj : ℕ → ℝ → ℝ} (hsj : IsSphBessel sj) (nm : ℕ) (junkP : ℕ → ℕ → ℕ → ℝ) {μ : Measure (Fin n → ℕ → ℝ)} (hμ : EachUniform μ),
    ∀ᵐ u ∂μ, ∀ (T : ℕ → ℕ) (k : ℕ → Fin n → ℕ), Tendsto T atTop atTop → (∀ l, Completes ⟨T l, P.therm, P.period.toNat⟩ (k l)) →
      ∃ (rs : ℕ → List Record) (ar : ℕ → Archive),
        (∀ᶠ l in atTop, Returns (fun fuel => runSimulation is dbg false { P with total := T l } nm sj mem (junkP l) u (k l) fuel)
          (fun i => if i.val = 0 then some ⟨{ P with total := T l }, rs l, ar l⟩ else none)) ∧
        Tendsto (fun l => (ar l).sign) atTop (nhds 1) ∧
        (∀ z < 2, Tendsto (fun l => (ar l).densities.getD z 0) atTop (nhds (1 / 2))) ∧
        ∀ z < 2, ∀ᶠ l in atTop,
          |(ar l).matrixSize.getD z 0 - -β * statesMean β 2 ns (onsiteEnergy U 1e-2 ns) (onsiteEnergy U 1e-2 ns)| < η ∧
          ∀ s < ns, ∀ z' < 2, ∀ s' < ns,
            ‖(ar l).ninj z s z' s' - (statesMean β 2 ns (onsiteEnergy U 1e-2 ns) fun S => occ S z s * occ S z' s' : ℝ)‖ < η := by
  have hl := meanOrder_limit β 2 ns (fun _ => 0) (onsiteEnergy U 1e-2 ns)
  have hq : ∀ᶠ M in atTop, ∀ z ∈ Finset.range 2, ∀ s ∈ Finset.range ns, ∀ z' ∈ Finset.range 2, ∀ s' ∈ Finset.range ns,
      dist (seriesMean β 2 ns (fun _ => 0) (onsiteEnergy U 1e-2 ns) M fun S => occ S z s * occ S z' s')
        (statesMean β 2 ns (onsiteEnergy U 1e-2 ns) fun S => occ S z s * occ S z' s') < η / 2 := by
    simp only [Filter.eventually_all_finset]
    intro z _ s _ z' _ s' _
    have := seriesMean_limit β 2 ns (fun _ => 0) (onsiteEnergy U 1e-2 ns) fun S => occ S z s * occ S z' s'
    simp only [zero_add] at this
    exact Metric.tendsto_nhds.1 this (η / 2) (by linarith)
  simp only [zero_add] at hl
  obtain ⟨M₀, hM₀⟩ := eventually_atTop.1 ((Metric.tendsto_nhds.1 hl (η / 2) (by linarith)).and hq)
  refine ⟨M₀, ?_⟩
  intro n dbg P mem V h hn hP hc hz hb hs hs0 hUp file hfile hF hk hI hsm hM sj hsj nm junkP μ hμ
  subst hb hs
  filter_upwards [atom_converges h hn hP hc hz hs0 hUp hU hfile hF hk hI hsm hsj nm junkP hμ] with u hu T k hT hC
  obtain ⟨rs, ar, r1, r2, r3⟩ := hu T k hT hC
  refine ⟨rs, ar, r1, r2, fun z hz' => (r3 z hz').2.1, fun z hz' => ?_⟩
  obtain ⟨h2, h3⟩ := hM₀ _ hM
  have hev : ∀ᶠ l in atTop, ∀ s ∈ Finset.range P.sites, ∀ z' ∈ Finset.range 2, ∀ s' ∈ Finset.range P.sites,
      dist ((ar l).ninj z s z' s') ((seriesMean P.beta 2 P.sites (fun _ => 0) (onsiteEnergy U 1e-2 P.sites) P.maxOrder
        fun S => occ S z s * occ S z' s' : ℝ) : ℂ) < η / 2 := by
    simp only [Filter.eventually_all_finset]
    intro s hs z' hz'' s' hs'
    exact Metric.tendsto_nhds.1 ((r3 z hz').2.2 s (Finset.mem_range.1 hs) z' (Finset.mem_range.1 hz'') s' (Finset.mem_range.1 hs')) (η / 2) (by linarith)
  filter_upwards [Metric.tendsto_nhds.1 (r3 z hz').1 (η / 2) (by linarith), hev] with l hl hev
  refine ⟨?_, fun s hs z' hz'' s' hs' => ?_⟩
  · rw [Real.dist_eq] at hl h2
    have := abs_sub_le ((ar l).matrixSize.getD z 0) (meanOrder P.beta 2 P.sites (fun _ => 0) (onsiteEnergy U 1e-2 P.sites) P.maxOrder)
      (-P.beta * statesMean P.beta 2 P.sites (onsiteEnergy U 1e-2 P.sites) (onsiteEnergy U 1e-2 P.sites))
    linarith
  · have a1 := hev s (Finset.mem_range.2 hs) z' (Finset.mem_range.2 hz'') s' (Finset.mem_range.2 hs')
    have a2 := h3 z (Finset.mem_range.2 hz') s (Finset.mem_range.2 hs) z' (Finset.mem_range.2 hz'') s' (Finset.mem_range.2 hs')
    rw [← Complex.isometry_ofReal.dist_eq] at a2
    rw [← dist_eq_norm]
    exact lt_of_le_of_lt (dist_triangle _ _ _) (lt_of_lt_of_eq (add_lt_add a1 a2) (add_halves η))

/-! ### The theorems apply -/

theorem ex_flatFile : FlatFile 2 exGreenFile := by
  refine ⟨by norm_num [exGreenFile], fun f hf s s' t hs hs' ht => ?_⟩
  have e1 : exGreenFile.ns = 1 := rfl
  have e2 : exGreenFile.ntau = 3 := rfl
  obtain rfl : s = 0 := by omega
  obtain rfl : s' = 0 := by omega
  obtain rfl | rfl : f = 0 ∨ f = 1 := by omega
  all_goals
    obtain rfl | rfl | rfl : t = 0 ∨ t = 1 ∨ t = 2 := by omega
    all_goals simp [GFile.value, GFile.line, exGreenFile]

/-- The bare Green's function of levels. -/
noncomputable def exLevelsG0 (β : ℝ) (e : ℕ → ℕ → ℝ) (a b : Op) : ℝ :=
  if a.site ≠ b.site then 0 else
  if b.time < a.time then - Real.exp (-(e a.flavor a.site * (a.time - b.time))) / (1 + Real.exp (-β * e a.flavor a.site))
  else Real.exp (-(e a.flavor a.site * (a.time - b.time))) / (1 + Real.exp (β * e a.flavor a.site))

theorem ex_levels (β : ℝ) (nf ns : ℕ) (e : ℕ → ℕ → ℝ) : LevelsG0 β nf ns e (exLevelsG0 β e) := by
  refine ⟨fun z _ s _ s' _ hne t t' k k' _ => ?_, fun z _ s _ t t' k k' hl _ => ?_, fun z _ s _ t t' k k' hl _ => ?_, fun z _ s _ t k => ?_⟩
  · exact if_pos hne
  · simp [exLevelsG0, hl]
  · simp [exLevelsG0, hl.not_gt]
  · simp [exLevelsG0]

theorem ex_hubbard (ns : ℕ) (U δ : ℝ) : ∃ tbl : List (VDef ℝ), IsHubbard U δ ns tbl := by
  obtain ⟨t, h0⟩ := C28_two_flavors (K := ℝ) ns U δ
  refine ⟨t.list.map (·.d), by simpa using h0.2.1, fun s hs => ?_⟩
  obtain ⟨v, e1, e2⟩ := h0.2.2.2.2.1 s hs
  exact ⟨v, by rw [List.getElem?_map, e1]; rfl, e2⟩

/-- Any number of sites with arbitrary levels and repulsion. -/
example (β : ℝ) (hβ : 0 ≤ β) (ns : ℕ) (U δ NI : ℝ) (e : ℕ → ℕ → ℝ) : ∃ c : Ctx ℝ, c.tbl.length = ns ∧ (∀ d ∈ c.tbl, DensityTerm c.nf ns d) ∧
    LevelsG0 β c.nf ns e c.G0 ∧ ∀ M, (configSum c β M fun x => weight c.NI c.nf c.G0 c.tbl (x.map vertAt)) =
      statesMean β c.nf ns (levelEnergy e) fun S => ∑ n ∈ Finset.range (M + 1), (-β * interaction c.tbl S) ^ n / n.factorial := by
  obtain ⟨tbl, hT⟩ := ex_hubbard ns U δ
  obtain ⟨c, e1, e2, e3⟩ : ∃ c : Ctx ℝ, c.nf = 2 ∧ c.tbl = tbl ∧ c.G0 = exLevelsG0 β e := ⟨⟨NI, 2, exLevelsG0 β e, tbl⟩, rfl, rfl, rfl⟩
  have h1 : ∀ d ∈ c.tbl, DensityTerm c.nf ns d := by rw [e1, e2]; exact hubbard_density hT
  have h2 : LevelsG0 β c.nf ns e c.G0 := by rw [e3]; exact ex_levels β _ ns e
  exact ⟨c, by rw [e2]; exact hT.1, h1, h2, fun M => C91_sum hβ h1 h2 M⟩

/-- A run: one site, repulsion 1, three processes, tolerance 1/1000. -/
example (dbg : Bool) (j : ReadJunk) : ∃ (M : ℕ) (V : FullSolver ℝ),
    FullSolver.create is dbg { exParams S with maxOrder := M } j = .ok V ∧
    ∀ᵐ u ∂(Measure.pi fun _ : Fin 3 => streams), ∀ k : ℕ → Fin 3 → ℕ, (∀ l, Completes ⟨l, 10, 2⟩ (k l)) →
      ∃ (rs : ℕ → List Record) (ar : ℕ → Archive),
        (∀ᶠ l in atTop, Returns (fun fuel => runSimulation is dbg false { exParams S with maxOrder := M, total := l } 6 sphJ
          (fun _ : Fin 3 => (⟨j, fun _ _ _ _ _ _ _ => 0, fun _ _ _ => 0⟩ : Memory ℝ)) (fun _ _ => 0) u (k l) fuel)
          (fun i => if i.val = 0 then some ⟨{ exParams S with maxOrder := M, total := l }, rs l, ar l⟩ else none)) ∧
        ∀ᶠ l in atTop, |(ar l).matrixSize.getD 0 0 -
          -(exParams S).beta * statesMean (exParams S).beta 2 1 (onsiteEnergy 1 1e-2 1) (onsiteEnergy 1 1e-2 1)| < 1 / 1000 ∧
          ‖(ar l).ninj 0 0 1 0 - (1 / (2 * (1 + Real.exp ((exParams S).beta * 1 / 2))) : ℝ)‖ < 1 / 1000 := by
  obtain ⟨M, hM⟩ := C91_program (S := S) (is := is) (U := 1) one_pos (η := 1 / 1000) (by norm_num) (exParams S).beta 1
  have hQ : UsableParams (exParams S) := ex_params
  have hP : UsableParams { exParams S with maxOrder := M } := ⟨hQ.beta, hQ.step, hQ.bins, hQ.period, hQ.legendre, hQ.rates⟩
  obtain ⟨V, e, -⟩ := C80_onsite (K := ℝ) (is := is) dbg { exParams S with maxOrder := M } j exGreenFile 1 hP rfl rfl one_ne_zero
    (Or.inl ⟨rfl, by norm_num [exParams]⟩) rfl ex_greenFile rfl
  refine ⟨M, V, e, ?_⟩
  have := hM (n := 3) (mem := fun _ : Fin 3 => (⟨j, fun _ _ _ _ _ _ _ => 0, fun _ _ _ => 0⟩ : Memory ℝ)) (fun _ => e) (by norm_num) hP rfl rfl rfl rfl
    one_pos rfl rfl ex_flatFile (by norm_num [exParams]) (by norm_num [exParams]) (by norm_num [exParams]) le_rfl (sj := sphJ) (fun _ _ _ => rfl) 6
    (fun _ _ _ => 0) (ex_uniform 3)
  filter_upwards [this] with u hu k hk
  obtain ⟨rs, ar, r1, -, -, r3⟩ := hu (fun l => l) k tendsto_id hk
  refine ⟨rs, ar, r1, ?_⟩
  filter_upwards [r3 0 two_pos] with l hl
  have := hl.2 0 one_pos 1 one_lt_two 0 one_pos
  rw [C91_atom] at this
  exact ⟨hl.1, this⟩

end

end CTInt
