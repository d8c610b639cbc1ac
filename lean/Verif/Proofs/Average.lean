import Verif.Spec.Average
import Verif.Props.Observables
import Verif.Props.Ensemble
import Mathlib.MeasureTheory.Integral.Prod

/-!
# Averages over the simulation
-/

set_option linter.all false

namespace CTInt

open MeasureTheory

variable {K : Type} [RCLike K] [DecidableEq K]
variable {c : Ctx K}

/-- The law of the configuration after a run together with the numbers not yet used. -/
theorem run_law_rest (ht : TblOK c.NI c.nf c.tbl) (hf : FullTerms c) (hT : c.tbl ≠ []) {beta : ℝ} {kIns maxOrder : ℕ} {sz : ℝ}
    {m : Mgr} (hm : m = Mgr.create beta kIns maxOrder sz c.tbl) {s : Sub K} {x : List Pt} (h : At c s x) (st : AccStat)
    (J : ℕ → ℕ → ℕ → ℕ → ℕ → ℕ → K) (l : List Upd) {V : List Pt × (ℕ → ℝ) → ENNReal} (hV : Measurable V)
    {A : (List Pt → ENNReal) → List Pt → ENNReal} (hA : Samples (simRun m c l) A) {R : (ℕ → ℝ) → ENNReal}
    (hR : ∀ u y, GoodS u → Returns (fun fuel => (⟨s, st, 0⟩ : Walker K).run m c J u fuel l) y →
      R u = V (ptsOf y.s.verts, dropS y.p u)) :
    ∫⁻ u, R u ∂streams = A (fun y => ∫⁻ u, V (y, u) ∂streams) x := by
  rw [← hA.law V hV x]
  refine lintegral_congr_ae ?_
  filter_upwards [ae_good] with u hu
  obtain ⟨w', y, r1, ⟨a, a1, a2, a3⟩, e1⟩ := run_sim ht hf hT hm hu (w := ⟨s, st, 0⟩) h J l
  have e1 : simRun m c l (x, dropS 0 u) = (y, dropS w'.p u) := e1
  rw [dropS_zero] at e1
  rw [e1, hR u w' hu r1, a1.cfg, a3]

/-- The mean over the ensemble of any value determined by the configuration after a run and the numbers not yet used. -/
theorem ensemble_run (ht : TblOK c.NI c.nf c.tbl) (hf : FullTerms c) (hT : c.tbl ≠ []) (hG : MeasurableG0 c.G0)
    {beta : ℝ} (hb : 0 < beta) {kIns maxOrder : ℕ} {sz : ℝ} {m : Mgr} (hm : m = Mgr.create beta kIns maxOrder sz c.tbl)
    (obj : List Pt → Sub K)
    (hobj : ∀ x, ValidPts beta c.tbl x → x.length ≤ maxOrder → weight c.NI c.nf c.G0 c.tbl (x.map vertAt) ≠ 0 →
      ReachedBy m c (obj x) ∧ ptsOf (obj x).verts = x)
    (l : List Upd) (st : AccStat) (J : ℕ → ℕ → ℕ → ℕ → ℕ → ℕ → K) {V : List Pt × (ℕ → ℝ) → ENNReal} (hV : Measurable V)
    (hsym : ∀ x y u, x.Perm y → V (x, u) = V (y, u)) {R : List Pt → (ℕ → ℝ) → ENNReal}
    (hR : ∀ x u y, ValidPts beta c.tbl x → x.length ≤ maxOrder → weight c.NI c.nf c.G0 c.tbl (x.map vertAt) ≠ 0 → GoodS u →
      Returns (fun fuel => (⟨obj x, st, 0⟩ : Walker K).run m c J u fuel l) y → R x u = V (ptsOf y.s.verts, dropS y.p u)) :
    ensemble c beta maxOrder (fun x => ∫⁻ u, R x u ∂streams) = ensemble c beta maxOrder fun x => ∫⁻ u, V (x, u) ∂streams := by
  obtain ⟨A, h1, h2⟩ := simRun_law hf hT hG hb hm l
  have hn : Nice fun x => ∫⁻ u, V (x, u) ∂streams :=
    ⟨hV.lintegral_prod_right', fun x y h => lintegral_congr fun u => hsym x y u h⟩
  rw [← (h2 _ hn).2]
  unfold ensemble
  refine Finset.sum_congr rfl fun n hnM => ?_
  congr 1
  refine lintegral_congr_ae ?_
  filter_upwards [ae_validPts beta c.tbl n] with x hx
  by_cases hw : weight c.NI c.nf c.G0 c.tbl ((List.ofFn x).map vertAt) = 0
  · have : density c (List.ofFn x) = 0 := by
      unfold density target
      rw [hw]
      simp
    rw [this, zero_mul, zero_mul]
  · have hl : (List.ofFn x).length ≤ maxOrder := by
      rw [List.length_ofFn]; have := Finset.mem_range.1 hnM; omega
    obtain ⟨q1, q2⟩ := hobj (List.ofFn x) hx hl hw
    obtain ⟨a, a1, a2⟩ := q1.means ht hf hm
    congr 1
    exact run_law_rest ht hf hT hm (x := List.ofFn x) ⟨a, a1, a2, by rw [← a1.cfg, q2]⟩ st J l hV h1
      (fun u y hu hy => hR _ u y hx hl hw hu hy)

/-- Means as integrals. -/
theorem average_eq (hG : MeasurableG0 c.G0) {beta : ℝ} {M : ℕ} {V : List Pt × (ℕ → ℝ) → ℝ} (hV : Measurable V)
    (hB : ∀ n ≤ M, ∃ C : ℝ, ∀ x, ValidPts beta c.tbl x → x.length = n → ∀ u, ‖wt c x‖ * |V (x, u)| ≤ C) :
    FiniteMeans c beta M (fun x u => V (x, u)) ∧
    (ensemble c beta M fun x => ∫⁻ u, ENNReal.ofReal (V (x, u)) ∂streams).toReal -
      (ensemble c beta M fun x => ∫⁻ u, ENNReal.ofReal (-V (x, u)) ∂streams).toReal =
    configSum c beta M fun x => ‖wt c x‖ * ∫ u, V (x, u) ∂streams := by
  -- one order
  let f : ∀ n : ℕ, (Fin n → Pt) × (ℕ → ℝ) → ℝ := fun n z =>
    ‖wt c (List.ofFn z.1)‖ * stateProd c.tbl (List.ofFn z.1) * V (List.ofFn z.1, z.2)
  have hfm : ∀ n, Measurable (f n) := by
    intro n
    have h1 : Measurable fun z : (Fin n → Pt) × (ℕ → ℝ) => List.ofFn z.1 := (measurable_ofFn n).comp measurable_fst
    exact ((((measurable_wt hG).comp h1).norm).mul ((measurable_stateProd c.tbl).comp h1)).mul
      (hV.comp (h1.prodMk measurable_snd))
  have hint : ∀ n ≤ M, Integrable (f n) ((tupleMeasure beta c.tbl n).prod streams) := by
    intro n hn
    obtain ⟨C, hC⟩ := hB n hn
    refine Integrable.of_bound (hfm n).aestronglyMeasurable C ?_
    have h1 : ∀ᵐ z ∂(tupleMeasure beta c.tbl n).prod streams, ValidPts beta c.tbl (List.ofFn z.1) :=
      Measure.quasiMeasurePreserving_fst.ae (ae_validPts beta c.tbl n)
    filter_upwards [h1] with z hz
    have h2 := hC _ hz (by simp) z.2
    have h3 := stateProd_le c.tbl (List.ofFn z.1)
    have h4 := stateProd_nonneg c.tbl (List.ofFn z.1)
    show ‖‖wt c (List.ofFn z.1)‖ * stateProd c.tbl (List.ofFn z.1) * V (List.ofFn z.1, z.2)‖ ≤ C
    rw [Real.norm_eq_abs, abs_mul, abs_mul, abs_of_nonneg (norm_nonneg _), abs_of_nonneg h4]
    have h5 : 0 ≤ ‖wt c (List.ofFn z.1)‖ * |V (List.ofFn z.1, z.2)| := by positivity
    calc _ = stateProd c.tbl (List.ofFn z.1) * (‖wt c (List.ofFn z.1)‖ * |V (List.ofFn z.1, z.2)|) := by ring
      _ ≤ 1 * (‖wt c (List.ofFn z.1)‖ * |V (List.ofFn z.1, z.2)|) := mul_le_mul_of_nonneg_right h3 h5
      _ ≤ C := by rw [one_mul]; exact h2
  have hL : ∀ (s : ℝ) (n : ℕ), (∫⁻ x : Fin n → Pt, density c (List.ofFn x) * ∫⁻ u, ENNReal.ofReal (s * V (List.ofFn x, u)) ∂streams
      ∂Measure.pi fun _ => pointMeasure beta c.tbl) = ∫⁻ z, ENNReal.ofReal (s * f n z) ∂(tupleMeasure beta c.tbl n).prod streams := by
    intro s n
    rw [lintegral_prod (fun z => ENNReal.ofReal (s * f n z)) (ENNReal.measurable_ofReal.comp ((hfm n).const_mul s)).aemeasurable]
    refine lintegral_congr fun x => ?_
    have hm : Measurable fun u : ℕ → ℝ => ENNReal.ofReal (s * V (List.ofFn x, u)) :=
      ENNReal.measurable_ofReal.comp ((hV.comp measurable_prodMk_left).const_mul s)
    rw [← lintegral_const_mul _ hm]
    refine lintegral_congr fun u => ?_
    rw [density_eq, ← ENNReal.ofReal_mul (mul_nonneg (norm_nonneg _) (stateProd_nonneg _ _))]
    congr 1
    simp only [f]
    ring
  have hfin : ∀ (s : ℝ) (n : ℕ), n ≤ M → ∫⁻ z, ENNReal.ofReal (s * f n z) ∂(tupleMeasure beta c.tbl n).prod streams < ⊤ := by
    intro s n hn
    have := ((hint n hn).const_mul s).lintegral_lt_top
    exact this
  have hL1 : ∀ n : ℕ, (∫⁻ x : Fin n → Pt, density c (List.ofFn x) * ∫⁻ u, ENNReal.ofReal (V (List.ofFn x, u)) ∂streams
      ∂Measure.pi fun _ => pointMeasure beta c.tbl) = ∫⁻ z, ENNReal.ofReal (1 * f n z) ∂(tupleMeasure beta c.tbl n).prod streams := by
    intro n; rw [← hL]; simp only [one_mul]
  have hL2 : ∀ n : ℕ, (∫⁻ x : Fin n → Pt, density c (List.ofFn x) * ∫⁻ u, ENNReal.ofReal (-V (List.ofFn x, u)) ∂streams
      ∂Measure.pi fun _ => pointMeasure beta c.tbl) = ∫⁻ z, ENNReal.ofReal (-1 * f n z) ∂(tupleMeasure beta c.tbl n).prod streams := by
    intro n; rw [← hL]; simp only [neg_one_mul]
  have t1 : ∀ n ∈ Finset.range (M + 1), ENNReal.ofReal (1 / (n.factorial : ℝ)) *
      ∫⁻ z, ENNReal.ofReal (1 * f n z) ∂(tupleMeasure beta c.tbl n).prod streams < ⊤ := fun n hn =>
    ENNReal.mul_lt_top ENNReal.ofReal_lt_top (hfin 1 n (by have := Finset.mem_range.1 hn; omega))
  have t2 : ∀ n ∈ Finset.range (M + 1), ENNReal.ofReal (1 / (n.factorial : ℝ)) *
      ∫⁻ z, ENNReal.ofReal (-1 * f n z) ∂(tupleMeasure beta c.tbl n).prod streams < ⊤ := fun n hn =>
    ENNReal.mul_lt_top ENNReal.ofReal_lt_top (hfin (-1) n (by have := Finset.mem_range.1 hn; omega))
  refine ⟨⟨?_, ?_⟩, ?_⟩
  · unfold ensemble
    simp only [hL1]
    exact ENNReal.sum_lt_top.2 t1
  · unfold ensemble
    simp only [hL2]
    exact ENNReal.sum_lt_top.2 t2
  · unfold ensemble configSum
    simp only [hL1, hL2]
    rw [ENNReal.toReal_sum fun n hn => (t1 n hn).ne, ENNReal.toReal_sum fun n hn => (t2 n hn).ne, ← Finset.sum_sub_distrib]
    refine Finset.sum_congr rfl fun n hn => ?_
    have hn' : n ≤ M := by have := Finset.mem_range.1 hn; omega
    rw [ENNReal.toReal_mul, ENNReal.toReal_mul, ← mul_sub, ENNReal.toReal_ofReal (by positivity)]
    congr 1
    have e := integral_eq_lintegral_pos_part_sub_lintegral_neg_part (hint n hn')
    simp only [one_mul, neg_one_mul]
    rw [← e, integral_prod _ (hint n hn')]
    refine integral_congr_ae (Filter.Eventually.of_forall fun x => ?_)
    simp only [f]
    rw [integral_const_mul]
    show _ = stateProd c.tbl (List.ofFn x) * _
    ring

/-- The mean of a value recorded after a run. -/
theorem average_run (ht : TblOK c.NI c.nf c.tbl) (hf : FullTerms c) (hT : c.tbl ≠ []) (hG : MeasurableG0 c.G0)
    {beta : ℝ} (hb : 0 < beta) {kIns maxOrder : ℕ} {sz : ℝ} {m : Mgr} (hm : m = Mgr.create beta kIns maxOrder sz c.tbl)
    (obj : List Pt → Sub K)
    (hobj : ∀ x, ValidPts beta c.tbl x → x.length ≤ maxOrder → weight c.NI c.nf c.G0 c.tbl (x.map vertAt) ≠ 0 →
      ReachedBy m c (obj x) ∧ ptsOf (obj x).verts = x)
    (l : List Upd) (st : AccStat) (J : ℕ → ℕ → ℕ → ℕ → ℕ → ℕ → K) {V : List Pt × (ℕ → ℝ) → ℝ} (hV : Measurable V)
    (hsym : ∀ x y u, x.Perm y → V (x, u) = V (y, u))
    (hB : ∀ n ≤ maxOrder, ∃ C : ℝ, ∀ x, ValidPts beta c.tbl x → x.length = n → ∀ u, ‖wt c x‖ * |V (x, u)| ≤ C)
    {R : List Pt → (ℕ → ℝ) → ℝ}
    (hR : ∀ x u y, ValidPts beta c.tbl x → x.length ≤ maxOrder → weight c.NI c.nf c.G0 c.tbl (x.map vertAt) ≠ 0 → GoodS u →
      Returns (fun fuel => (⟨obj x, st, 0⟩ : Walker K).run m c J u fuel l) y → R x u = V (ptsOf y.s.verts, dropS y.p u)) :
    FiniteMeans c beta maxOrder R ∧
      average c beta maxOrder R = (configSum c beta maxOrder fun x => ‖wt c x‖ * ∫ u, V (x, u) ∂streams) /
        (ensemble c beta maxOrder 1).toReal := by
  have e1 := ensemble_run ht hf hT hG hb hm obj hobj l st J (V := fun z => ENNReal.ofReal (V z)) (ENNReal.measurable_ofReal.comp hV)
    (fun x y u h => by rw [hsym x y u h]) (R := fun x u => ENNReal.ofReal (R x u))
    (fun x u y h1 h2 h3 h4 h5 => by rw [hR x u y h1 h2 h3 h4 h5])
  have e2 := ensemble_run ht hf hT hG hb hm obj hobj l st J (V := fun z => ENNReal.ofReal (-V z)) (ENNReal.measurable_ofReal.comp hV.neg)
    (fun x y u h => by rw [hsym x y u h]) (R := fun x u => ENNReal.ofReal (-R x u))
    (fun x u y h1 h2 h3 h4 h5 => by rw [hR x u y h1 h2 h3 h4 h5])
  obtain ⟨⟨q1, q2⟩, q3⟩ := average_eq hG hV hB
  refine ⟨⟨?_, ?_⟩, ?_⟩
  · rw [e1]; exact q1
  · rw [e2]; exact q2
  · unfold average
    rw [e1, e2, q3]

end CTInt
