import Verif.Proofs.FockOrder
import Verif.Proofs.Atomic
import Verif.Props.FockDensity
import Verif.Spec.Postprocess
import Verif.Props.FockProgram

/-!
# C102: the mean size of the matrices measures the interaction energy
-/

set_option linter.all false

namespace CTInt

open NormedSpace Matrix Filter

theorem rows_count {c : Ctx ℝ} (z : ℕ) (x : List Pt) :
    ((rowsOf c.NI c.tbl (x.map vertAt) z).length : ℝ) = (x.map fun p => (pairsIn z (c.tbl.getD p.1 default) : ℝ)).sum := by
  unfold rowsOf
  rw [List.length_flatMap, List.map_map]
  induction x with
  | nil => simp
  | cons p x ih =>
    rw [List.map_cons, List.sum_cons, Nat.cast_add, ih, List.map_cons, List.sum_cons]
    congr 2
    simp only [Function.comp, rowsV, List.length_map]
    rfl

variable {n : Type} [Fintype n] [DecidableEq n] [Nonempty n] {ns : ℕ} {β : ℝ} {a : ℕ → ℕ → Matrix n n ℝ} {h : ℕ → ℕ → ℕ → ℝ} {c : Ctx ℝ}

theorem thermal_average (β : ℝ) (H V W : Matrix n n ℝ) (hZ : (exp (-β • (H + V))).trace ≠ 0) (hH : (exp (-β • H)).trace ≠ 0) :
    -β * (W * exp (-β • (H + V))).trace / (exp (-β • H)).trace / ((exp (-β • (H + V))).trace / (exp (-β • H)).trace) = -β * thermal β (H + V) W := by
  unfold thermal
  rw [trace_mul_comm W]
  have e : exp (-((β : ℝ) : ℝ) • (H + V)) = exp (-β • (H + V)) := rfl
  simp only [RCLike.ofReal_real_eq_id, id]
  field_simp

/-- **C102.**  The mean size of the matrix of flavor `z` in the sum over configurations with signs: minus β times the thermal average of the interaction, every
    term counted as often as it has operator pairs of this flavor. -/
theorem C102_size (hβ : 0 ≤ β) (ha : Annihilators c.nf ns a) (hh : HermitianHops c.nf ns h)
    (hG : ThermalG0 β c.nf ns a (bareH c.nf ns h a) c.G0) (hm : MeasurableG0 c.G0) (hT : TermsOn c.nf ns c.tbl)
    (hZ : (exp (-β • (bareH c.nf ns h a + interactionH a c.tbl))).trace ≠ 0) (z : ℕ) :
    Tendsto (fun M => (configSum c β M fun x => weight c.NI c.nf c.G0 c.tbl (x.map vertAt) * (rowsOf c.NI c.tbl (x.map vertAt) z).length) /
        configSum c β M fun x => weight c.NI c.nf c.G0 c.tbl (x.map vertAt)) atTop
      (nhds (-β * thermal β (bareH c.nf ns h a + interactionH a c.tbl) (interactionH a (multiplied (pairsIn z) c.tbl)))) := by
  have h1 := order_limit hβ ha hh hG hm hT (pairsIn z)
  have h2 := C96_partition_real hβ ha hh hG hm hT
  have h0 : (exp (-β • bareH c.nf ns h a)).trace ≠ 0 := thermal_trace_ne (K := ℝ) (bareH_hermitian hh)
  have h3 := h1.div h2 (div_ne_zero hZ h0)
  rw [thermal_average β _ _ _ hZ h0] at h3
  simp only [rows_count]
  exact h3

/-- **C102, number of vertices.** -/
theorem C102_order (hβ : 0 ≤ β) (ha : Annihilators c.nf ns a) (hh : HermitianHops c.nf ns h)
    (hG : ThermalG0 β c.nf ns a (bareH c.nf ns h a) c.G0) (hm : MeasurableG0 c.G0) (hT : TermsOn c.nf ns c.tbl)
    (hZ : (exp (-β • (bareH c.nf ns h a + interactionH a c.tbl))).trace ≠ 0) :
    Tendsto (fun M => (configSum c β M fun x => weight c.NI c.nf c.G0 c.tbl (x.map vertAt) * x.length) /
        configSum c β M fun x => weight c.NI c.nf c.G0 c.tbl (x.map vertAt)) atTop
      (nhds (-β * thermal β (bareH c.nf ns h a + interactionH a c.tbl) (interactionH a c.tbl))) := by
  have h1 := order_limit hβ ha hh hG hm hT (fun _ => 1)
  have h2 := C96_partition_real hβ ha hh hG hm hT
  have h0 : (exp (-β • bareH c.nf ns h a)).trace ≠ 0 := thermal_trace_ne (K := ℝ) (bareH_hermitian hh)
  have h3 := h1.div h2 (div_ne_zero hZ h0)
  rw [thermal_average β _ _ _ hZ h0] at h3
  have e1 : multiplied (fun _ => 1) c.tbl = c.tbl := by simp [multiplied]
  have e2 : ∀ x : List Pt, (x.map fun p => (((1 : ℕ)) : ℝ)).sum = x.length := by
    intro x
    simp
  rw [e1] at h3
  simp only [e2] at h3
  exact h3

theorem sum_abs {β : ℝ} {M : ℕ} (hpos : AlmostNonnegative c β M) (g : List Pt → ℕ) : (configSum c β M fun x => weight c.NI c.nf c.G0 c.tbl (x.map vertAt) * g x) =
    configSum c β M fun x => |weight c.NI c.nf c.G0 c.tbl (x.map vertAt)| * g x := by
  unfold configSum
  refine Finset.sum_congr rfl fun k hk => congrArg _ (MeasureTheory.integral_congr_ae ?_)
  filter_upwards [hpos k (Nat.lt_succ_iff.1 (Finset.mem_range.1 hk))] with x hx
  rw [abs_of_nonneg hx]

theorem sum_abs_one {β : ℝ} {M : ℕ} (hpos : AlmostNonnegative c β M) : (configSum c β M fun x => weight c.NI c.nf c.G0 c.tbl (x.map vertAt)) =
    configSum c β M fun x => |weight c.NI c.nf c.G0 c.tbl (x.map vertAt)| := by
  have := sum_abs hpos fun _ => 1
  simpa using this

variable {nf : ℕ} {tbl : List (VDef ℝ)}

theorem sizes_grid {B : ℝ} {g : ℕ → Op → Op → ℝ} {G : ℕ → ℝ → ℕ → ℕ → ℕ → ℝ} {G0 : ℝ → ℕ → ℕ → ℕ → ℝ} (h : Nears β c.nf ns g G c.G0 G0) (hT : TermsOn c.nf ns c.tbl)
    (hB : ∀ k, Tame (g k) (G k) B) (hβ : 0 < β) (M : ℕ) (z : ℕ)
    (hne : (configSum c β M fun x => weight c.NI c.nf c.G0 c.tbl (x.map vertAt)) ≠ 0) :
    Tendsto (fun k => (configSum c β M fun x => weight c.NI c.nf (g k) c.tbl (x.map vertAt) * (rowsOf c.NI c.tbl (x.map vertAt) z).length) /
        configSum c β M fun x => weight c.NI c.nf (g k) c.tbl (x.map vertAt)) atTop
      (nhds ((configSum c β M fun x => weight c.NI c.nf c.G0 c.tbl (x.map vertAt) * (rowsOf c.NI c.tbl (x.map vertAt) z).length) /
        configSum c β M fun x => weight c.NI c.nf c.G0 c.tbl (x.map vertAt))) := by
  have e : ∀ w : ℝ, (1 / β : ℝ) * ∫ t in (0 : ℝ)..β, w = w := by
    intro w
    rw [intervalIntegral.integral_const, sub_zero, smul_eq_mul, ← mul_assoc, one_div, inv_mul_cancel₀ hβ.ne', one_mul]
  have h1 := configSum_tendsto (c := c) hβ (W := fun k x _ => weight c.NI c.nf (g k) c.tbl (x.map vertAt) * (rowsOf c.NI c.tbl (x.map vertAt) z).length)
    (W0 := fun x _ => weight c.NI c.nf c.G0 c.tbl (x.map vertAt) * (rowsOf c.NI c.tbl (x.map vertAt) z).length)
    (fun k => by
      simp only [rows_count]
      exact ((measurable_wt (c := { c with G0 := g k }) (hB k).meas).mul (measurable_counts c (pairsIn z))).comp measurable_fst)
    (C := fun n => ((n * rankBound c.tbl).factorial * (1 + B + alphaBound c.tbl) ^ (n * rankBound c.tbl)) ^ c.nf * uBound c.tbl ^ n * (n * rankBound c.tbl : ℕ))
    (fun k x t hx => by
      have hw := wt_le (c := { c with G0 := g k }) (hB k).bound hx
      rw [norm_mul, Real.norm_of_nonneg (Nat.cast_nonneg _)]
      exact mul_le_mul hw (Nat.cast_le.2 (rowsOf_length_le hx z)) (Nat.cast_nonneg _) (le_trans (norm_nonneg _) hw))
    (fun x hx t => (weight_tendsto h hT hx).mul_const _) M (ContinuousLinearMap.id ℝ ℝ)
  have h2 := configSum_tendsto (c := c) hβ (W := fun k x _ => weight c.NI c.nf (g k) c.tbl (x.map vertAt))
    (W0 := fun x _ => weight c.NI c.nf c.G0 c.tbl (x.map vertAt))
    (fun k => (measurable_wt (c := { c with G0 := g k }) (hB k).meas).comp measurable_fst)
    (C := fun n => ((n * rankBound c.tbl).factorial * (1 + B + alphaBound c.tbl) ^ (n * rankBound c.tbl)) ^ c.nf * uBound c.tbl ^ n)
    (fun k x t hx => wt_le (c := { c with G0 := g k }) (hB k).bound hx) (fun x hx t => weight_tendsto h hT hx) M (ContinuousLinearMap.id ℝ ℝ)
  simp only [RCLike.ofReal_real_eq_id, id, ContinuousLinearMap.coe_id', e] at h1 h2
  exact h1.div h2 hne

/-- The mean size, with enough vertices and then a fine enough grid. -/
theorem C102_fine (hβ : 1e-8 < β) (ha : Annihilators nf ns a) (hh : HermitianHops nf ns h) (hT : TermsOn nf ns tbl)
    (hZ : (exp (-β • (bareH nf ns h a + interactionH a tbl))).trace ≠ 0) (z : ℕ) {ε : ℝ} (hε : 0 < ε) :
    ∀ᶠ M in atTop, ∃ δ > 0, ∃ N : ℕ, ∀ (S : Type) (is : IStream S) dbg P j' (V : FullSolver ℝ), FineRun is dbg P j' V β nf ns a (bareH nf ns h a) tbl δ N →
      |(configSum V.c β M fun x => weight V.c.NI V.c.nf V.c.G0 V.c.tbl (x.map vertAt) * (rowsOf V.c.NI V.c.tbl (x.map vertAt) z).length) /
        (configSum V.c β M fun x => weight V.c.NI V.c.nf V.c.G0 V.c.tbl (x.map vertAt)) -
        -β * thermal β (bareH nf ns h a + interactionH a tbl) (interactionH a (multiplied (pairsIn z) tbl))| < ε := by
  have hβ0 : 0 < β := lt_trans (by norm_num) hβ
  have hp := C102_size (c := exactCtx β nf ns a (bareH nf ns h a) tbl) hβ0.le ha hh (exactG0_spec hβ0 nf ns) (exactG0_measurable _ _ _) hT hZ z
  have hz' := C96_partition_real (c := exactCtx β nf ns a (bareH nf ns h a) tbl) hβ0.le ha hh (exactG0_spec hβ0 nf ns) (exactG0_measurable _ _ _) hT
  filter_upwards [hp.eventually (Metric.ball_mem_nhds _ (show 0 < ε / 2 by linarith)),
    hz'.eventually_ne (div_ne_zero hZ (thermal_trace_ne (K := ℝ) (bareH_hermitian hh)))] with M q hne
  obtain ⟨δ, hδ, N, hN⟩ := fine_limit hβ a (bareH nf ns h a) nf ns tbl
    (Φ := fun g _ => (((configSum (exactCtx β nf ns a (bareH nf ns h a) tbl) β M fun x => weight (exactCtx β nf ns a (bareH nf ns h a) tbl).NI nf g tbl (x.map vertAt) *
        (rowsOf (exactCtx β nf ns a (bareH nf ns h a) tbl).NI tbl (x.map vertAt) z).length) /
      (configSum (exactCtx β nf ns a (bareH nf ns h a) tbl) β M fun x => weight (exactCtx β nf ns a (bareH nf ns h a) tbl).NI nf g tbl (x.map vertAt)) : ℝ) : ℂ))
    (fun g G B hn ht => (Complex.continuous_ofReal.tendsto _).comp
      (sizes_grid (c := exactCtx β nf ns a (bareH nf ns h a) tbl) hn hT ht hβ0 M z hne)) (show 0 < ε / 2 by linarith)
  refine ⟨δ, hδ, N, fun S is dbg P j' V hr => ?_⟩
  obtain ⟨hc, G', e', q2⟩ := hN S is dbg P j' V hr
  rw [← Complex.ofReal_sub, Complex.norm_real, ← dist_eq_norm] at q2
  rw [hc, ← Real.dist_eq]
  exact (dist_triangle _ _ _).trans_lt ((add_lt_add q2 q).trans_eq (add_halves ε))

/-- **C102, the program.**  Given the wanted accuracy, enough vertices, then a fine enough grid: with probability one the mean size of the matrices in the archives written
    by long runs is as close as wanted to minus β times the interaction energy counted by operator pairs. -/
theorem C102_program (hβ : 1e-8 < β) (ha : Annihilators nf ns a) (hh : HermitianHops nf ns h) (hT : TermsOn nf ns tbl)
    (hZ : (exp (-β • (bareH nf ns h a + interactionH a tbl))).trace ≠ 0) {z : ℕ} (hz : z < nf) {ε : ℝ} (hε : 0 < ε) :
    ∀ᶠ M in atTop, ∃ δ > 0, ∃ N : ℕ, ∀ (S : Type) (is : IStream S) dbg P np (mem : Fin np → Memory ℝ) (V : FullSolver ℝ),
      FineProgram is dbg P mem V β nf ns a (bareH nf ns h a) tbl δ N → P.maxOrder = M → AlmostNonnegative V.c β M → ∀ nm,
      ArchivesEventually is dbg P nm mem fun ar => |ar.matrixSize.getD z 0 -
        -β * thermal β (bareH nf ns h a + interactionH a tbl) (interactionH a (multiplied (pairsIn z) tbl))| < ε := by
  filter_upwards [real_program hβ ha hh hT hZ (F := fun c G M => (configSum c β M fun x => weight c.NI c.nf c.G0 c.tbl (x.map vertAt) *
      (rowsOf c.NI c.tbl (x.map vertAt) z).length) / (configSum c β M fun x => weight c.NI c.nf c.G0 c.tbl (x.map vertAt))) (X := fun ar => ((ar.matrixSize.getD z 0 : ℝ) : ℂ))
    (w := -β * thermal β (bareH nf ns h a + interactionH a tbl) (interactionH a (multiplied (pairsIn z) tbl))) (ε := ε) (Pc := fun c M => AlmostNonnegative c β M)
    (by
      filter_upwards [C102_fine hβ ha hh hT hZ z hε] with M hM
      obtain ⟨δ, hδ, N, hN⟩ := hM
      exact ⟨δ, hδ, N, fun S is dbg P j' V hr G _ => hN S is dbg P j' V hr⟩)
    fun c q G M nl nm ar q1 q2 q3 hpos har => by
      subst q1 q2 q3
      have := har.sizes z hz
      rw [← sum_abs hpos, ← sum_abs_one hpos] at this
      exact (Complex.continuous_ofReal.tendsto _).comp this] with M hM
  obtain ⟨δ, hδ, N, hN⟩ := hM
  refine ⟨δ, hδ, N, fun S is dbg P np mem V hp hM hpos nm => ?_⟩
  have := hN S is dbg P np mem V hp hM hpos nm
  simp only [← Complex.ofReal_sub, Complex.norm_real, Real.norm_eq_abs] at this
  exact this

/-! ## The hypotheses can be met -/

theorem multiplied_one {ρ : VDef ℝ → ℕ} {tbl : List (VDef ℝ)} (hρ : ∀ d ∈ tbl, ρ d = 1) : multiplied ρ tbl = tbl := by
  unfold multiplied
  conv_rhs => rw [← List.map_id tbl]
  refine List.map_congr_left fun d hd => ?_
  rw [hρ d hd, Nat.cast_one, one_mul, id]

/-- Two-site Hubbard model: every term has one pair of each flavor, so that the mean size of either matrix and the mean number of vertices are -β⟨V⟩. -/
example : ∃ (n : Type) (_ : Fintype n) (_ : DecidableEq n) (a : ℕ → ℕ → Matrix n n ℝ) (G0 : Op → Op → ℝ), Annihilators 2 2 a ∧
    (∀ z < 2, Tendsto (fun M => (configSum ⟨1e20, 2, G0, dimerTbl⟩ 3 M fun x => weight 1e20 2 G0 dimerTbl (x.map vertAt) * (rowsOf 1e20 dimerTbl (x.map vertAt) z).length) /
        configSum ⟨1e20, 2, G0, dimerTbl⟩ 3 M fun x => weight 1e20 2 G0 dimerTbl (x.map vertAt)) atTop
      (nhds (-3 * thermal 3 (bareH 2 2 dimerHop a + interactionH a dimerTbl) (interactionH a dimerTbl)))) ∧
    Tendsto (fun M => (configSum ⟨1e20, 2, G0, dimerTbl⟩ 3 M fun x => weight 1e20 2 G0 dimerTbl (x.map vertAt) * x.length) /
        configSum ⟨1e20, 2, G0, dimerTbl⟩ 3 M fun x => weight 1e20 2 G0 dimerTbl (x.map vertAt)) atTop
      (nhds (-3 * thermal 3 (bareH 2 2 dimerHop a + interactionH a dimerTbl) (interactionH a dimerTbl))) := by
  obtain ⟨n, i1, i2, i3, a, G0, ha, hG, hm⟩ := fock_meets ℝ 2 2 dimerHop 3
  have hZ := density_terms_partition ha dimer_hops dimer_terms dimer_densities 3
  refine ⟨n, i1, i2, a, G0, ha, fun z hz => ?_, ?_⟩
  · have := C102_size (c := ⟨1e20, 2, G0, dimerTbl⟩) (β := 3) (by norm_num) ha dimer_hops hG hm dimer_terms hZ z
    rw [multiplied_one (tbl := dimerTbl) fun d hd => by
      obtain ⟨s, -, rfl⟩ := List.mem_map.1 hd
      interval_cases z <;> simp [pairsIn, List.range_succ]] at this
    exact this
  · exact C102_order (c := ⟨1e20, 2, G0, dimerTbl⟩) (β := 3) (by norm_num) ha dimer_hops hG hm dimer_terms hZ

/-- Any number of sites without hopping and any repulsion: runs of the program. -/
example {S : Type} (is : IStream S) (dbg : Bool) (j : ReadJunk) {β U ε : ℝ} (hβ : 1e-8 < β) (hU : 0 < U) (hε : 0 < ε) {ns z : ℕ} (hn : 0 < ns) (hz : z < 2) :
    ∃ (n : Type) (_ : Fintype n) (_ : DecidableEq n) (a : ℕ → ℕ → Matrix n n ℝ) (tbl : List (VDef ℝ)), Annihilators 2 ns a ∧ tbl.length = ns ∧
    ∀ᶠ M in atTop, ∃ file : GFile,
      ArchivesEventually is dbg (fineParams S ns β U file 1 1 M) 1 (fun _ : Fin 1 => (⟨j, fun _ _ _ _ _ _ _ => 0, fun _ _ _ => 0⟩ : Memory ℝ)) fun ar =>
        |ar.matrixSize.getD z 0 - -β * thermal β (bareH 2 ns (fun _ _ _ => 0) a + interactionH a tbl) (interactionH a (multiplied (pairsIn z) tbl))| < ε := by
  obtain ⟨n, i1, i2, i3, a, tbl, ha, hl, hT, -, hZ, h⟩ := atomic_programs is dbg j hβ hU.ne' hn
  refine ⟨n, i1, i2, a, tbl, ha, hl, ?_⟩
  filter_upwards [C102_program hβ ha (atomic_hops ns) hT hZ hz hε] with M p1
  obtain ⟨δ, hδ, N, hN⟩ := p1
  obtain ⟨file, -, hV⟩ := h N
  obtain ⟨V, hV, hpos⟩ := hV δ hδ.le 1 1 M one_pos one_pos
  exact ⟨file, hN S is dbg _ 1 _ V hV rfl (hpos hU) 1⟩

end CTInt
