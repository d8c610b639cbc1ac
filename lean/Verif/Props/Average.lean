import Verif.Proofs.AverageSelf

/-!
# C67: averages of the recorded values
-/

set_option linter.all false

namespace CTInt

open MeasureTheory Set

variable {K : Type} [RCLike K] [DecidableEq K]
variable {c : Ctx K}

/-- What a measurement after a run from an object for `x` finds: a closed object with times in [0,β]. -/
theorem closed_after (ht : TblOK c.NI c.nf c.tbl) (hf : FullTerms c) {beta : ℝ} (hb : 0 < beta) {kIns maxOrder : ℕ} {sz : ℝ}
    (hsz : 0 ≤ sz) {m : Mgr} (hm : m = Mgr.create beta kIns maxOrder sz c.tbl) {s : Sub K} {x : List Pt}
    (hx : ValidPts beta c.tbl x) (hs : ReachedBy m c s ∧ ptsOf s.verts = x) {u : ℕ → ℝ} (hu : GoodS u) {st : AccStat}
    {J : ℕ → ℕ → ℕ → ℕ → ℕ → ℕ → K} {l : List Upd} {y : Walker K}
    (hy : Returns (fun fuel => (⟨s, st, 0⟩ : Walker K).run m c J u fuel l) y) :
    Closed c y.s ∧ TimesIn beta y.s.verts ∧ ∀ v ∈ y.s.verts, v.nonInt = false := by
  obtain ⟨a, a1, a2⟩ := hs.1.means ht hf hm
  obtain ⟨F, hF⟩ := hy
  have e : (⟨s, st, 0⟩ : Walker K).run m c J u F l = .ok y := hF F le_rfl
  have hcl : Closed c y.s := by
    have := (run_total ht hf hm hu.2 (x := ⟨s, st, 0⟩) ⟨a, a1, a2⟩ J l).good F
    rw [e] at this
    exact this
  have hR := a1.cl a2
  have hbm : m.beta = beta := by rw [hm]; rfl
  refine ⟨hcl, ?_, ?_⟩
  · rw [← hbm]
    refine run_times hu.2 (by rw [hbm]; exact hb) (by rw [hm]; exact mul_nonneg hb.le hsz) e ⟨?_, ?_⟩
    · intro v hv
      exact ((hR.ok v hv).2 (hR.int v hv)).1
    · intro v hv
      have : ptOf v ∈ x := by rw [← hs.2]; exact List.mem_map_of_mem hv
      obtain ⟨-, -, h1, h2⟩ := hx _ this
      rw [hbm]
      exact ⟨h1, h2.le⟩
  · obtain ⟨b, b1, b2⟩ := hcl
    exact (b1.cl b2).int

/-- **C67.**  Draw a configuration from the ensemble and let any sequence of updates follow.  The configuration then present
    and the random numbers not used so far are distributed like a configuration drawn from the ensemble and fresh random
    numbers independent of it: a measurement that follows sees an unbiased configuration and independent shifts.  `Y` is any
    measurable set of pairs that does not depend on the order in which the vertices are stored. -/
theorem C67_law (ht : TblOK c.NI c.nf c.tbl) (hf : FullTerms c) (hT : c.tbl ≠ []) (hG : MeasurableG0 c.G0)
    {beta : ℝ} (hb : 0 < beta) {kIns maxOrder : ℕ} {sz : ℝ} {m : Mgr} (hm : m = Mgr.create beta kIns maxOrder sz c.tbl)
    (obj : List Pt → Sub K)
    (hobj : ∀ x, ValidPts beta c.tbl x → x.length ≤ maxOrder → weight c.NI c.nf c.G0 c.tbl (x.map vertAt) ≠ 0 →
      ReachedBy m c (obj x) ∧ ptsOf (obj x).verts = x)
    (l : List Upd) (st : AccStat) (J : ℕ → ℕ → ℕ → ℕ → ℕ → ℕ → K) {Y : Set (List Pt × (ℕ → ℝ))}
    (hY : ∀ n, MeasurableSet {z : (Fin n → Pt) × (ℕ → ℝ) | (List.ofFn z.1, z.2) ∈ Y})
    (hsym : ∀ x y u, x.Perm y → ((x, u) ∈ Y ↔ (y, u) ∈ Y)) :
    ensemble c beta maxOrder (fun x =>
        streams {u | ∃ y, Returns (fun fuel => (⟨obj x, st, 0⟩ : Walker K).run m c J u fuel l) y ∧
          (ptsOf y.s.verts, dropS y.p u) ∈ Y}) =
      ensemble c beta maxOrder fun x => streams {u | (x, u) ∈ Y} := by
  classical
  have hYm : MeasurableSet Y := by
    have : Measurable fun z : List Pt × (ℕ → ℝ) => z ∈ Y := measurable_of_length fun n => measurableSet_setOf.1 (hY n)
    exact measurableSet_setOf.2 this
  have hV : Measurable (Y.indicator (1 : List Pt × (ℕ → ℝ) → ENNReal)) := measurable_one.indicator hYm
  obtain ⟨A, h1, h2⟩ := simRun_law hf hT hG hb hm l
  have hn : Nice fun x => ∫⁻ u, Y.indicator (1 : List Pt × (ℕ → ℝ) → ENNReal) (x, u) ∂streams := by
    refine ⟨hV.lintegral_prod_right', fun x y h => lintegral_congr fun u => ?_⟩
    unfold Set.indicator
    by_cases hx : (x, u) ∈ Y
    · rw [if_pos hx, if_pos ((hsym x y u h).1 hx)]; rfl
    · rw [if_neg hx, if_neg fun q => hx ((hsym x y u h).2 q)]
  have e2 : (fun x => ∫⁻ u, Y.indicator (1 : List Pt × (ℕ → ℝ) → ENNReal) (x, u) ∂streams) = fun x => streams {u | (x, u) ∈ Y} := by
    funext x
    have hE : MeasurableSet {u : ℕ → ℝ | (x, u) ∈ Y} := measurable_prodMk_left hYm
    rw [← lintegral_indicator_one hE]
    rfl
  rw [← e2, ← (h2 _ hn).2]
  unfold ensemble
  refine Finset.sum_congr rfl fun n hnM => ?_
  congr 1
  refine lintegral_congr_ae ?_
  filter_upwards [ae_validPts beta c.tbl n] with x hx
  by_cases hw : weight c.NI c.nf c.G0 c.tbl ((List.ofFn x).map vertAt) = 0
  · have : density c (List.ofFn x) = 0 := by
      unfold density target
      rw [hw]
      simp
    rw [this, zero_mul, zero_mul]
  · have hl : (List.ofFn x).length ≤ maxOrder := by
      rw [List.length_ofFn]; have := Finset.mem_range.1 hnM; omega
    obtain ⟨q1, q2⟩ := hobj (List.ofFn x) hx hl hw
    obtain ⟨a, a1, a2⟩ := q1.means ht hf hm
    congr 1
    have hAt : At c (obj (List.ofFn x)) (List.ofFn x) := ⟨a, a1, a2, by rw [← a1.cfg, q2]⟩
    have e3 : streams {u | ∃ y, Returns (fun fuel => (⟨obj (List.ofFn x), st, 0⟩ : Walker K).run m c J u fuel l) y ∧
        (ptsOf y.s.verts, dropS y.p u) ∈ Y} = streams {u | simRun m c l (List.ofFn x, u) ∈ Y} := by
      refine measure_congr ?_
      filter_upwards [ae_good] with u hu
      refine propext ?_
      obtain ⟨w', y, r1, ⟨b, b1, b2, b3⟩, e1⟩ := run_sim ht hf hT hm hu (w := ⟨obj (List.ofFn x), st, 0⟩) hAt J l
      have e1 : simRun m c l (List.ofFn x, dropS 0 u) = (y, dropS w'.p u) := e1
      rw [dropS_zero] at e1
      show (∃ y, _ ∧ _) ↔ simRun m c l (List.ofFn x, u) ∈ Y
      rw [e1]
      constructor
      · rintro ⟨y', r2, h2⟩
        rw [← r1.unique r2, b1.cfg, b3] at h2
        exact h2
      · intro h2
        exact ⟨w', r1, by rw [b1.cfg, b3]; exact h2⟩
    have hE : MeasurableSet {u : ℕ → ℝ | simRun m c l (List.ofFn x, u) ∈ Y} :=
      (h1.meas.comp measurable_prodMk_left) hYm
    rw [e3, ← lintegral_indicator_one hE, ← h1.law _ hV]
    rfl

/-- **C67.**  The mean of the recorded sign over the simulation (configuration drawn from the ensemble, any updates, then a
    measurement) is the sum of the real parts of all weights divided by the sum of their moduli.  `R x u` is what is recorded
    when the updates start from the object for `x` and the random numbers are `u`. -/
theorem C67_sign (ht : TblOK c.NI c.nf c.tbl) (hf : FullTerms c) (hT : c.tbl ≠ []) (hG : MeasurableG0 c.G0)
    {B : ℝ} (hB : ∀ a b, ‖c.G0 a b‖ ≤ B) {q : MeasPar K} (hb : 0 < q.beta) (hnb : 0 < q.nb) (hsite : SitesIn q.ns c.tbl)
    {G : ℝ → ℕ → ℕ → ℕ → K} (hg : ∀ t z s1 s2, z < c.nf → s1 < q.ns → s2 < q.ns → q.g0 t z s1 s2 = .ok (G t z s1 s2))
    {kIns maxOrder : ℕ} {sz : ℝ} (hsz : 0 ≤ sz) {m : Mgr} (hm : m = Mgr.create q.beta kIns maxOrder sz c.tbl)
    (obj : List Pt → Sub K)
    (hobj : ∀ x, ValidPts q.beta c.tbl x → x.length ≤ maxOrder → weight c.NI c.nf c.G0 c.tbl (x.map vertAt) ≠ 0 →
      ReachedBy m c (obj x) ∧ ptsOf (obj x).verts = x)
    (l : List Upd) (st : AccStat) (J : ℕ → ℕ → ℕ → ℕ → ℕ → ℕ → K) (junk : ℕ → ℕ → K) {R : List Pt → (ℕ → ℝ) → ℝ}
    (hR : ∀ x u y r p, Returns (fun fuel => (⟨obj x, st, 0⟩ : Walker K).run m c J u fuel l) y →
      measureObservables q c junk u y.s y.p = .ok (r, p) → R x u = r.sign) :
    FiniteMeans c q.beta maxOrder R ∧
      average c q.beta maxOrder R =
        (configSum c q.beta maxOrder fun x => RCLike.re (weight c.NI c.nf c.G0 c.tbl (x.map vertAt))) /
          (ensemble c q.beta maxOrder 1).toReal := by
  have key := average_run ht hf hT hG hb hm obj hobj l st J
    (V := fun z => RCLike.re (wt c z.1 / ((‖wt c z.1‖ : ℝ) : K))) ?_ ?_ ?_ (R := R) ?_
  · refine ⟨key.1, key.2.trans ?_⟩
    congr 1
    congr 1
    funext x
    simp only [integral_const, probReal_univ, smul_eq_mul, one_mul]
    show _ = RCLike.re (wt c x)
    by_cases h0 : wt c x = 0
    · rw [h0]; simp
    · have hn : (‖wt c x‖ : ℝ) ≠ 0 := norm_ne_zero_iff.2 h0
      rw [← RCLike.re_ofReal_mul, mul_div_cancel₀ _ (by exact_mod_cast hn)]
  · have h1 : Measurable fun z : List Pt × (ℕ → ℝ) => wt c z.1 := (measurable_wt hG).comp measurable_fst
    exact RCLike.measurable_re.comp (h1.div (RCLike.measurable_ofReal.comp h1.norm))
  · intro x y u h
    simp only [wt_perm c h]
  · intro n hn
    refine ⟨((n * rankBound c.tbl).factorial * (1 + B + alphaBound c.tbl) ^ (n * rankBound c.tbl)) ^ c.nf *
      uBound c.tbl ^ n, fun x hx hxn u => ?_⟩
    have h1 := wt_le hB hx
    rw [hxn] at h1
    refine le_trans ?_ h1
    have h2 : |RCLike.re (wt c x / ((‖wt c x‖ : ℝ) : K))| ≤ 1 := by
      refine le_trans (RCLike.abs_re_le_norm _) ?_
      rw [norm_div, RCLike.norm_ofReal, abs_of_nonneg (norm_nonneg _)]
      exact div_self_le_one _
    calc ‖wt c x‖ * |RCLike.re (wt c x / ((‖wt c x‖ : ℝ) : K))| ≤ ‖wt c x‖ * 1 :=
          mul_le_mul_of_nonneg_left h2 (norm_nonneg _)
      _ = ‖wt c x‖ := mul_one _
  · intro x u y h1 h2 h3 hu hy
    obtain ⟨q1, q2, q3⟩ := closed_after ht hf hb hsz hm h1 (hobj x h1 h2 h3) hu hy
    obtain ⟨r, er, -, e, -⟩ := measureObservables_spec ht hb hnb hsite hg q1 q2 hu.2 junk y.p rfl (fun _ => rfl) rfl rfl (fun _ _ _ => rfl)
    rw [hR x u y r _ hy er, e, ← wt_ptsOf, interacting_all q3]

/-- **C67.**  With real weights: the mean of the recorded density of flavor `z` on site `a` is, for a time uniform in [0,β], the
    sum over all configurations of the weight with one more pair of operators of flavor `z` on site `a`, divided by the sum of
    the moduli of the weights.  Configurations of weight 0 do not count: the simulation never sees them.  Together with
    `C67_sign` the ratio of the two means does not depend on the moduli. -/
theorem C67_density {c : Ctx ℝ} (ht : TblOK c.NI c.nf c.tbl) (hf : FullTerms c) (hT : c.tbl ≠ []) (hG : MeasurableG0 c.G0)
    {B : ℝ} (hB : ∀ a b, ‖c.G0 a b‖ ≤ B) {q : MeasPar ℝ} (hb : 0 < q.beta) (hnb : 0 < q.nb) (hsite : SitesIn q.ns c.tbl)
    {G : ℝ → ℕ → ℕ → ℕ → ℝ} (hg : ∀ t z s1 s2, z < c.nf → s1 < q.ns → s2 < q.ns → q.g0 t z s1 s2 = .ok (G t z s1 s2))
    (hGm : ∀ z s1 s2, Measurable fun t => G t z s1 s2) (hBG : ∀ t z s1 s2, ‖G t z s1 s2‖ ≤ B)
    {kIns maxOrder : ℕ} {sz : ℝ} (hsz : 0 ≤ sz) {m : Mgr} (hm : m = Mgr.create q.beta kIns maxOrder sz c.tbl)
    (obj : List Pt → Sub ℝ)
    (hobj : ∀ x, ValidPts q.beta c.tbl x → x.length ≤ maxOrder → weight c.NI c.nf c.G0 c.tbl (x.map vertAt) ≠ 0 →
      ReachedBy m c (obj x) ∧ ptsOf (obj x).verts = x)
    (l : List Upd) (st : AccStat) (J : ℕ → ℕ → ℕ → ℕ → ℕ → ℕ → ℝ) (junk : ℕ → ℕ → ℝ) {z a : ℕ} (hz : z < c.nf) (ha : a < q.ns)
    {R : List Pt → (ℕ → ℝ) → ℝ}
    (hR : ∀ x u y r p, Returns (fun fuel => (⟨obj x, st, 0⟩ : Walker ℝ).run m c J u fuel l) y →
      measureObservables q c junk u y.s y.p = .ok (r, p) → R x u = (r.dens.site z).getD a 0) :
    FiniteMeans c q.beta maxOrder R ∧
      average c q.beta maxOrder R =
        (configSum c q.beta maxOrder fun x => if weight c.NI c.nf c.G0 c.tbl (x.map vertAt) = 0 then 0 else
          (1 / q.beta) * ∫ τ in (0 : ℝ)..q.beta, weightExtra c G z (-q.beta * 1e-10) τ a a (x.map vertAt)) /
          (ensemble c q.beta maxOrder 1).toReal := by
  have hev : ∀ k : ℕ, Measurable fun w : List Pt × (ℕ → ℝ) => (w.1, q.beta * w.2 k) := by
    intro k
    have h1 : Measurable fun w : List Pt × (ℕ → ℝ) => w.2 k := (measurable_pi_apply k).comp measurable_snd
    exact measurable_fst.prodMk (h1.const_mul q.beta)
  have hdm := measurable_densityOf (NI := c.NI) (tbl := c.tbl) z hG hGm (-q.beta * 1e-10) a a
  have habs : ∀ w r : ℝ, ‖w‖ * (w / ‖w‖ * r) = w * r := by
    intro w r
    by_cases h0 : w = 0
    · rw [h0]; simp
    · have hn : ‖w‖ ≠ 0 := norm_ne_zero_iff.2 h0
      field_simp
  have key := average_run ht hf hT hG hb hm obj hobj l st J
    (V := fun w => wt c w.1 / ‖wt c w.1‖ * densityOf c.G0 G z (rowsOf c.NI c.tbl (w.1.map vertAt) z) (-q.beta * 1e-10)
      (q.beta * w.2 q.nShifts) a a) ?_ ?_ ?_ (R := R) ?_
  · refine ⟨key.1, key.2.trans ?_⟩
    congr 1
    congr 1
    funext x
    simp only []
    rw [← integral_const_mul]
    simp only [habs, wt_mul_density hz]
    show (∫ u, (if wt c x = 0 then 0 else _) ∂streams) = if wt c x = 0 then 0 else _
    by_cases h0 : wt c x = 0
    · simp [h0]
    · simp only [if_neg h0]
      have hmp : MeasurePreserving (fun u : ℕ → ℝ => u q.nShifts) streams uniform01 :=
        measurePreserving_eval_infinitePi (fun _ : ℕ => uniform01) q.nShifts
      have hwm : Measurable fun r : ℝ => weightExtra c G z (-q.beta * 1e-10) (q.beta * r) a a (x.map vertAt) := by
        have h1 : Measurable fun r : ℝ => wt c x * densityOf c.G0 G z (rowsOf c.NI c.tbl (x.map vertAt) z) (-q.beta * 1e-10) (q.beta * r) a a := by
          have h2 : Measurable fun r : ℝ => (x, q.beta * r) := measurable_const.prodMk (measurable_id.const_mul q.beta)
          have h3 := hdm.comp h2
          simp only [Function.comp_def] at h3
          exact h3.const_mul _
        simp only [wt_mul_density hz, if_neg h0] at h1
        exact h1
      have e1 := integral_map (μ := streams) (φ := fun u : ℕ → ℝ => u q.nShifts) hmp.measurable.aemeasurable
        (f := fun r => weightExtra c G z (-q.beta * 1e-10) (q.beta * r) a a (x.map vertAt)) (by
          exact hwm.aestronglyMeasurable)
      rw [hmp.map_eq] at e1
      rw [← e1]
      unfold uniform01
      rw [integral_Ico_eq_integral_Ioc, ← intervalIntegral.integral_of_le zero_le_one,
        intervalIntegral.integral_comp_mul_left (fun τ => weightExtra c G z (-q.beta * 1e-10) τ a a (x.map vertAt)) hb.ne']
      rw [mul_zero, mul_one, smul_eq_mul, one_div]
  · have h1 : Measurable fun w : List Pt × (ℕ → ℝ) => wt c w.1 := (measurable_wt hG).comp measurable_fst
    have h2 : Measurable fun w : List Pt × (ℕ → ℝ) => densityOf c.G0 G z (rowsOf c.NI c.tbl (w.1.map vertAt) z) (-q.beta * 1e-10)
        (q.beta * w.2 q.nShifts) a a := by
      have h2 := hdm.comp (hev q.nShifts)
      simp only [Function.comp_def] at h2
      exact h2
    have h3 : Measurable fun w : List Pt × (ℕ → ℝ) => wt c w.1 / ‖wt c w.1‖ := h1.div h1.norm
    exact h3.mul h2
  · intro x y u h
    simp only [wt_perm c h]
    congr 1
    exact extraPair_perm ((h.map _).flatMap_right _) _ _ _ _
  · intro n hn
    refine ⟨detBound c B 1 n ^ c.nf * uBound c.tbl ^ n, fun x hx hxn u => ?_⟩
    have h0 : 0 ≤ detBound c B 1 n ^ c.nf * uBound c.tbl ^ n := by
      have hB0 : 0 ≤ B := le_trans (norm_nonneg _) (hB default default)
      have h1 := alphaBound_nonneg c.tbl
      have h2 := one_le_uBound c.tbl
      unfold detBound
      positivity
    have e : ‖wt c x‖ * |wt c x / ‖wt c x‖ * densityOf c.G0 G z (rowsOf c.NI c.tbl (x.map vertAt) z) (-q.beta * 1e-10)
        (q.beta * u q.nShifts) a a| = ‖wt c x * densityOf c.G0 G z (rowsOf c.NI c.tbl (x.map vertAt) z) (-q.beta * 1e-10)
        (q.beta * u q.nShifts) a a‖ := by
      generalize densityOf c.G0 G z (rowsOf c.NI c.tbl (x.map vertAt) z) (-q.beta * 1e-10) (q.beta * u q.nShifts) a a = d
      have := congrArg (fun t => ‖t‖) (habs (wt c x) d)
      simp only [norm_mul (‖wt c x‖) _, norm_norm] at this
      rw [← this, Real.norm_eq_abs (_ * _)]
    show ‖wt c x‖ * |wt c x / ‖wt c x‖ * _| ≤ _
    rw [e, wt_mul_density hz]
    split
    · rw [norm_zero]; exact h0
    · rw [← hxn]
      exact weightExtra_le hB hBG hx z _ _ a a
  · intro x u y h1 h2 h3 hu hy
    obtain ⟨q1, q2, q3⟩ := closed_after ht hf hb hsz hm h1 (hobj x h1 h2 h3) hu hy
    obtain ⟨r, er, -, e, -, e2, -⟩ := measureObservables_spec ht hb hnb hsite hg q1 q2 hu.2 junk y.p rfl (fun _ => rfl) rfl rfl (fun _ _ _ => rfl)
    rw [hR x u y r _ hy er, e2 z hz a ha, e, ← wt_ptsOf, interacting_all q3,
      ← densityOf_congr G z (rowsOf_key (same_pts q3) z)]
    rfl

theorem configSum_congr {beta : ℝ} {M : ℕ} {F F' : List Pt → ℝ} (h : ∀ x, ValidPts beta c.tbl x → F x = F' x) :
    configSum c beta M F = configSum c beta M F' := by
  unfold configSum
  refine Finset.sum_congr rfl fun n _ => ?_
  congr 1
  refine integral_congr_ae ?_
  filter_upwards [ae_validPts beta c.tbl n] with x hx
  rw [h _ hx]

theorem norm_mul_div_norm (w r : ℝ) : ‖w‖ * (w / ‖w‖ * r) = w * r := by
  by_cases h0 : w = 0
  · rw [h0]; simp
  · have hn : ‖w‖ ≠ 0 := norm_ne_zero_iff.2 h0
    field_simp

/-- The mean over one of the random numbers, scaled to [0,β). -/
theorem integral_time {β : ℝ} (hb : 0 < β) {f : ℝ → ℝ} (hf : Measurable f) (k : ℕ) :
    ∫ u, f (β * u k) ∂streams = (1 / β) * ∫ t in (0 : ℝ)..β, f t := by
  have hmp : MeasurePreserving (fun u : ℕ → ℝ => u k) streams uniform01 :=
    measurePreserving_eval_infinitePi (fun _ : ℕ => uniform01) k
  have hwm : Measurable fun r : ℝ => f (β * r) := hf.comp (measurable_id.const_mul β)
  have e1 := integral_map (μ := streams) (φ := fun u : ℕ → ℝ => u k) hmp.measurable.aemeasurable
    (f := fun r => f (β * r)) (by exact hwm.aestronglyMeasurable)
  rw [hmp.map_eq] at e1
  rw [← e1]
  unfold uniform01
  rw [integral_Ico_eq_integral_Ioc, ← intervalIntegral.integral_of_le zero_le_one,
    intervalIntegral.integral_comp_mul_left f hb.ne']
  rw [mul_zero, mul_one, smul_eq_mul, one_div]

/-- **C67.**  With real weights: the mean of the value recorded for the self-energy in bin `i` is, for a shift uniform in [0,β],
    the sum over all configurations of the weights with one creation operator replaced (`binnedWeights`), divided by the sum of
    the moduli of the weights; the recorded imaginary part is 0.  This holds for every number of shifts greater than 0.
    Configurations of weight 0 do not count: the simulation never sees them. -/
theorem C67_self_energy {c : Ctx ℝ} (ht : TblOK c.NI c.nf c.tbl) (hf : FullTerms c) (hT : c.tbl ≠ []) (hG : MeasurableG0 c.G0)
    {B : ℝ} (hB : ∀ a b, ‖c.G0 a b‖ ≤ B) {q : MeasPar ℝ} (hb : 0 < q.beta) (hnb : 0 < q.nb) (hns : 0 < q.nShifts)
    (hsite : SitesIn q.ns c.tbl)
    {G : ℝ → ℕ → ℕ → ℕ → ℝ} (hg : ∀ t z s1 s2, z < c.nf → s1 < q.ns → s2 < q.ns → q.g0 t z s1 s2 = .ok (G t z s1 s2))
    (hGm : ∀ z s1 s2, Measurable fun t => G t z s1 s2) (hBG : ∀ t z s1 s2, ‖G t z s1 s2‖ ≤ B)
    {kIns maxOrder : ℕ} {sz : ℝ} (hsz : 0 ≤ sz) {m : Mgr} (hm : m = Mgr.create q.beta kIns maxOrder sz c.tbl)
    (obj : List Pt → Sub ℝ)
    (hobj : ∀ x, ValidPts q.beta c.tbl x → x.length ≤ maxOrder → weight c.NI c.nf c.G0 c.tbl (x.map vertAt) ≠ 0 →
      ReachedBy m c (obj x) ∧ ptsOf (obj x).verts = x)
    (l : List Upd) (st : AccStat) (J : ℕ → ℕ → ℕ → ℕ → ℕ → ℕ → ℝ) (junk : ℕ → ℕ → ℝ) {z a b i : ℕ} (hz : z < c.nf)
    (ha : a < q.ns) (hb' : b < q.ns) (hi : i < q.nb) {R I : List Pt → (ℕ → ℝ) → ℝ}
    (hR : ∀ x u y r p, Returns (fun fuel => (⟨obj x, st, 0⟩ : Walker ℝ).run m c J u fuel l) y →
      measureObservables q c junk u y.s y.p = .ok (r, p) → R x u = (r.stauRe z a b).getD i 0)
    (hI : ∀ x u y r p, Returns (fun fuel => (⟨obj x, st, 0⟩ : Walker ℝ).run m c J u fuel l) y →
      measureObservables q c junk u y.s y.p = .ok (r, p) → I x u = (r.stauIm z a b).getD i 0) :
    FiniteMeans c q.beta maxOrder R ∧
      average c q.beta maxOrder R =
        (configSum c q.beta maxOrder fun x => if weight c.NI c.nf c.G0 c.tbl (x.map vertAt) = 0 then 0 else
          (1 / q.beta) * ∫ t in (0 : ℝ)..q.beta, binnedWeights c q.beta q.nb i G z a b t (x.map vertAt)) /
          (ensemble c q.beta maxOrder 1).toReal ∧
      FiniteMeans c q.beta maxOrder I ∧ average c q.beta maxOrder I = 0 := by
  set D : List Pt → ℝ → ℝ := fun x t => binnedRatios q.beta q.nb i c.G0 G z (rowsOf c.NI c.tbl (x.map vertAt) z) a b t with hD
  have hDm : Measurable fun x : List Pt × ℝ => D x.1 x.2 := measurable_binnedRatios z hG hGm q.beta q.nb i a b
  have hev : ∀ k : ℕ, Measurable fun w : List Pt × (ℕ → ℝ) => D w.1 (q.beta * w.2 k) := by
    intro k
    have h1 : Measurable fun w : List Pt × (ℕ → ℝ) => w.2 k := (measurable_pi_apply k).comp measurable_snd
    have h2 : Measurable fun w : List Pt × (ℕ → ℝ) => (w.1, q.beta * w.2 k) := measurable_fst.prodMk (h1.const_mul q.beta)
    have h3 := hDm.comp h2
    simp only [Function.comp_def] at h3
    exact h3
  have hwD : ∀ x t, wt c x * D x t = if wt c x = 0 then 0 else binnedWeights c q.beta q.nb i G z a b t (x.map vertAt) :=
    fun x t => wt_mul_ratios hz q.nb i G a b t x
  have hB0 : 0 ≤ B := le_trans (norm_nonneg _) (hB default default)
  have hbd : ∀ x, ValidPts q.beta c.tbl x → ∀ t, |wt c x * D x t| ≤ (x.length * rankBound c.tbl : ℕ) *
      (q.nb / q.beta * (detBound c B 0 x.length ^ c.nf * uBound c.tbl ^ x.length)) := by
    intro x hx t
    rw [hwD]
    split
    · have h1 := alphaBound_nonneg c.tbl
      have h2 := one_le_uBound c.tbl
      rw [abs_zero]
      unfold detBound
      positivity
    · exact binnedWeights_le hb q.nb i hB hBG hx z a b t
  have hns' : (q.nShifts : ℝ) ≠ 0 := by exact_mod_cast hns.ne'
  have hrec : ∀ x u y, ValidPts q.beta c.tbl x → x.length ≤ maxOrder → weight c.NI c.nf c.G0 c.tbl (x.map vertAt) ≠ 0 → GoodS u →
      Returns (fun fuel => (⟨obj x, st, 0⟩ : Walker ℝ).run m c J u fuel l) y →
      R x u = wt c (ptsOf y.s.verts) / ‖wt c (ptsOf y.s.verts)‖ *
        ((∑ k ∈ Finset.range q.nShifts, D (ptsOf y.s.verts) (q.beta * dropS y.p u k)) / q.nShifts) ∧ I x u = 0 := by
    intro x u y h1 h2 h3 hu hy
    obtain ⟨q1, q2, q3⟩ := closed_after ht hf hb hsz hm h1 (hobj x h1 h2 h3) hu hy
    obtain ⟨r, er, -, e, e2, -⟩ := measureObservables_spec ht hb hnb hsite hg q1 q2 hu.2 junk y.p rfl (fun _ => rfl) rfl rfl (fun _ _ _ => rfl)
    obtain ⟨-, -, e3⟩ := e2 z hz a ha b hb'
    have e3 := e3 i hi
    rw [selfEnergy_real] at e3
    have eR := congrArg Complex.re e3
    have eI := congrArg Complex.im e3
    rw [Complex.ofReal_re] at eR
    rw [Complex.ofReal_im] at eI
    refine ⟨?_, (hI x u y r _ hy er).trans eI⟩
    refine (hR x u y r _ hy er).trans (eR.trans ?_)
    rw [← wt_ptsOf, interacting_all q3, List.map_map, List.length_map, List.length_range,
      ← binnedRatios_congr (rowsOf_key (same_pts q3) z)]
    rfl
  have keyI := average_run ht hf hT hG hb hm obj hobj l st J (V := fun _ => 0) measurable_const (fun _ _ _ _ => rfl)
    (fun n hn => ⟨0, fun x _ _ u => by simp⟩) (R := I) (fun x u y h1 h2 h3 hu hy => (hrec x u y h1 h2 h3 hu hy).2)
  have key := average_run ht hf hT hG hb hm obj hobj l st J
    (V := fun w => wt c w.1 / ‖wt c w.1‖ * ((∑ k ∈ Finset.range q.nShifts, D w.1 (q.beta * w.2 k)) / q.nShifts)) ?_ ?_ ?_ (R := R)
    (fun x u y h1 h2 h3 hu hy => (hrec x u y h1 h2 h3 hu hy).1)
  · refine ⟨key.1, key.2.trans ?_, keyI.1, keyI.2.trans ?_⟩
    · congr 1
      refine configSum_congr fun x hx => ?_
      simp only []
      rw [← integral_const_mul]
      simp only [norm_mul_div_norm]
      have e1 : ∀ u : ℕ → ℝ, wt c x * ((∑ k ∈ Finset.range q.nShifts, D x (q.beta * u k)) / q.nShifts) =
          (∑ k ∈ Finset.range q.nShifts, wt c x * D x (q.beta * u k)) / q.nShifts := by
        intro u
        rw [← Finset.mul_sum]; ring
      simp only [e1]
      have hm1 : Measurable fun t => wt c x * D x t := by
        have h2 : Measurable fun t : ℝ => (x, t) := measurable_const.prodMk measurable_id
        have h3 := hDm.comp h2
        simp only [Function.comp_def] at h3
        exact h3.const_mul _
      rw [integral_div, integral_finset_sum]
      · simp only [integral_time hb hm1, Finset.sum_const, Finset.card_range, nsmul_eq_mul]
        rw [mul_div_cancel_left₀ _ hns']
        show _ = if wt c x = 0 then 0 else _
        simp only [hwD]
        by_cases h0 : wt c x = 0
        · simp [h0]
        · simp only [if_neg h0]
      · intro k _
        have hm2 : Measurable fun u : ℕ → ℝ => wt c x * D x (q.beta * u k) := by
          have h0 : Measurable fun u : ℕ → ℝ => u k := measurable_pi_apply k
          have h1 : Measurable fun u : ℕ → ℝ => q.beta * u k := h0.const_mul q.beta
          have h2 := hm1.comp h1
          simp only [Function.comp_def] at h2
          exact h2
        exact Integrable.of_bound hm2.aestronglyMeasurable _ (Filter.Eventually.of_forall fun u => hbd x hx _)
    · simp [configSum]
  · have h1 : Measurable fun w : List Pt × (ℕ → ℝ) => wt c w.1 := (measurable_wt hG).comp measurable_fst
    have h3 : Measurable fun w : List Pt × (ℕ → ℝ) => wt c w.1 / ‖wt c w.1‖ := h1.div h1.norm
    have h4 : Measurable fun w : List Pt × (ℕ → ℝ) => ∑ k ∈ Finset.range q.nShifts, D w.1 (q.beta * w.2 k) :=
      Finset.measurable_sum _ fun k _ => hev k
    exact h3.mul (h4.div_const _)
  · intro x y u h
    simp only [wt_perm c h]
    congr 2
    refine Finset.sum_congr rfl fun k _ => ?_
    exact binnedRatios_perm ((h.map _).flatMap_right _) a b _
  · intro n hn
    refine ⟨(n * rankBound c.tbl : ℕ) * (q.nb / q.beta * (detBound c B 0 n ^ c.nf * uBound c.tbl ^ n)), fun x hx hxn u => ?_⟩
    have e : ‖wt c x‖ * |wt c x / ‖wt c x‖ * ((∑ k ∈ Finset.range q.nShifts, D x (q.beta * u k)) / q.nShifts)| =
        |(∑ k ∈ Finset.range q.nShifts, wt c x * D x (q.beta * u k)) / q.nShifts| := by
      rw [← Finset.mul_sum, mul_div_assoc]
      generalize (∑ k ∈ Finset.range q.nShifts, D x (q.beta * u k)) / q.nShifts = d
      rw [← norm_mul_div_norm (wt c x) d, abs_mul (‖wt c x‖), abs_of_nonneg (norm_nonneg (wt c x))]
    show ‖wt c x‖ * |wt c x / ‖wt c x‖ * _| ≤ _
    rw [e, abs_div, Nat.abs_cast, div_le_iff₀ (by positivity)]
    refine le_trans (Finset.abs_sum_le_sum_abs _ _) ?_
    refine le_trans (Finset.sum_le_card_nsmul _ _ _ fun k _ => hbd x hx _) ?_
    rw [Finset.card_range, nsmul_eq_mul, hxn, mul_comm]

/-- **C67.**  The recorded value is a function of the first configuration and the random numbers: functions `R` as in the theorems
    above exist for every quantity `f` of the record. -/
theorem C67_recorded (q : MeasPar K) (m : Mgr) (obj : List Pt → Sub K) (l : List Upd) (st : AccStat)
    (J : ℕ → ℕ → ℕ → ℕ → ℕ → ℕ → K) (junk : ℕ → ℕ → K) (f : Record → ℝ) :
    ∃ R : List Pt → (ℕ → ℝ) → ℝ, ∀ x u y r p, Returns (fun fuel => (⟨obj x, st, 0⟩ : Walker K).run m c J u fuel l) y →
      measureObservables q c junk u y.s y.p = .ok (r, p) → R x u = f r := by
  classical
  refine ⟨fun x u => if h : ∃ r y p, Returns (fun fuel => (⟨obj x, st, 0⟩ : Walker K).run m c J u fuel l) y ∧
    measureObservables q c junk u y.s y.p = .ok (r, p) then f h.choose else 0, fun x u y r p h1 h2 => ?_⟩
  have h : ∃ r y p, Returns (fun fuel => (⟨obj x, st, 0⟩ : Walker K).run m c J u fuel l) y ∧
    measureObservables q c junk u y.s y.p = .ok (r, p) := ⟨r, y, p, h1, h2⟩
  simp only [dif_pos h]
  obtain ⟨y', p', k1, k2⟩ := h.choose_spec
  have := h1.unique k1
  subst this
  rw [h2] at k2
  injection k2 with k2
  exact congrArg f (congrArg Prod.fst k2).symm

/-- **C67.**  The estimate of the density, mean of the recorded density over mean of the recorded sign, is the sum over all
    configurations of the weights with the extra pair over the sum of the weights: the moduli and the updates drop out. -/
theorem C67_ratio {c : Ctx ℝ} (ht : TblOK c.NI c.nf c.tbl) (hf : FullTerms c) (hT : c.tbl ≠ []) (hG : MeasurableG0 c.G0)
    {B : ℝ} (hB : ∀ a b, ‖c.G0 a b‖ ≤ B) {q : MeasPar ℝ} (hb : 0 < q.beta) (hnb : 0 < q.nb) (hsite : SitesIn q.ns c.tbl)
    {G : ℝ → ℕ → ℕ → ℕ → ℝ} (hg : ∀ t z s1 s2, z < c.nf → s1 < q.ns → s2 < q.ns → q.g0 t z s1 s2 = .ok (G t z s1 s2))
    (hGm : ∀ z s1 s2, Measurable fun t => G t z s1 s2) (hBG : ∀ t z s1 s2, ‖G t z s1 s2‖ ≤ B)
    {kIns maxOrder : ℕ} {sz : ℝ} (hsz : 0 ≤ sz) {m : Mgr} (hm : m = Mgr.create q.beta kIns maxOrder sz c.tbl)
    (obj : List Pt → Sub ℝ)
    (hobj : ∀ x, ValidPts q.beta c.tbl x → x.length ≤ maxOrder → weight c.NI c.nf c.G0 c.tbl (x.map vertAt) ≠ 0 →
      ReachedBy m c (obj x) ∧ ptsOf (obj x).verts = x)
    (l : List Upd) (st : AccStat) (J : ℕ → ℕ → ℕ → ℕ → ℕ → ℕ → ℝ) (junk : ℕ → ℕ → ℝ) {z a : ℕ} (hz : z < c.nf) (ha : a < q.ns)
    {R S : List Pt → (ℕ → ℝ) → ℝ}
    (hR : ∀ x u y r p, Returns (fun fuel => (⟨obj x, st, 0⟩ : Walker ℝ).run m c J u fuel l) y →
      measureObservables q c junk u y.s y.p = .ok (r, p) → R x u = (r.dens.site z).getD a 0 ∧ S x u = r.sign) :
    average c q.beta maxOrder R / average c q.beta maxOrder S =
        (configSum c q.beta maxOrder fun x => if weight c.NI c.nf c.G0 c.tbl (x.map vertAt) = 0 then 0 else
          (1 / q.beta) * ∫ τ in (0 : ℝ)..q.beta, weightExtra c G z (-q.beta * 1e-10) τ a a (x.map vertAt)) /
        configSum c q.beta maxOrder fun x => weight c.NI c.nf c.G0 c.tbl (x.map vertAt) := by
  rw [(C67_density ht hf hT hG hB hb hnb hsite hg hGm hBG hsz hm obj hobj l st J junk hz ha
      (fun x u y r p h1 h2 => (hR x u y r p h1 h2).1)).2,
    (C67_sign ht hf hT hG hB hb hnb hsite hg hsz hm obj hobj l st J junk (fun x u y r p h1 h2 => (hR x u y r p h1 h2).2)).2]
  obtain ⟨h1, h2⟩ := C64_normalised hB q.beta maxOrder
  rw [div_div_div_cancel_right₀]
  · rfl
  · exact (ENNReal.toReal_pos (by intro h0; rw [h0] at h1; simp at h1) h2.ne).ne'

/-- **C67.**  For complex weights only this holds: the mean of the recorded density is the mean of the product of the real part of
    the phase and the real part of the ratio of determinants.  Missing is the real part of the product, see
    `C67_complex_violation`. -/
theorem C67_density_complex_partial (ht : TblOK c.NI c.nf c.tbl) (hf : FullTerms c) (hT : c.tbl ≠ []) (hG : MeasurableG0 c.G0)
    {B : ℝ} (hB : ∀ a b, ‖c.G0 a b‖ ≤ B) {q : MeasPar K} (hb : 0 < q.beta) (hnb : 0 < q.nb) (hsite : SitesIn q.ns c.tbl)
    {G : ℝ → ℕ → ℕ → ℕ → K} (hg : ∀ t z s1 s2, z < c.nf → s1 < q.ns → s2 < q.ns → q.g0 t z s1 s2 = .ok (G t z s1 s2))
    (hGm : ∀ z s1 s2, Measurable fun t => G t z s1 s2) (hBG : ∀ t z s1 s2, ‖G t z s1 s2‖ ≤ B)
    {kIns maxOrder : ℕ} {sz : ℝ} (hsz : 0 ≤ sz) {m : Mgr} (hm : m = Mgr.create q.beta kIns maxOrder sz c.tbl)
    (obj : List Pt → Sub K)
    (hobj : ∀ x, ValidPts q.beta c.tbl x → x.length ≤ maxOrder → weight c.NI c.nf c.G0 c.tbl (x.map vertAt) ≠ 0 →
      ReachedBy m c (obj x) ∧ ptsOf (obj x).verts = x)
    (l : List Upd) (st : AccStat) (J : ℕ → ℕ → ℕ → ℕ → ℕ → ℕ → K) (junk : ℕ → ℕ → K) {z a : ℕ} (hz : z < c.nf) (ha : a < q.ns)
    {R : List Pt → (ℕ → ℝ) → ℝ}
    (hR : ∀ x u y r p, Returns (fun fuel => (⟨obj x, st, 0⟩ : Walker K).run m c J u fuel l) y →
      measureObservables q c junk u y.s y.p = .ok (r, p) → R x u = (r.dens.site z).getD a 0) :
    FiniteMeans c q.beta maxOrder R ∧
      average c q.beta maxOrder R =
        (configSum c q.beta maxOrder fun x => RCLike.re (weight c.NI c.nf c.G0 c.tbl (x.map vertAt)) *
          ((1 / q.beta) * ∫ τ in (0 : ℝ)..q.beta,
            RCLike.re (densityOf c.G0 G z (rowsOf c.NI c.tbl (x.map vertAt) z) (-q.beta * 1e-10) τ a a))) /
          (ensemble c q.beta maxOrder 1).toReal := by
  have hdm := measurable_densityOf (NI := c.NI) (tbl := c.tbl) z hG hGm (-q.beta * 1e-10) a a
  have habs : ∀ w : K, ‖w‖ * RCLike.re (w / ((‖w‖ : ℝ) : K)) = RCLike.re w := by
    intro w
    by_cases h0 : w = 0
    · rw [h0]; simp
    · have hn : (‖w‖ : ℝ) ≠ 0 := norm_ne_zero_iff.2 h0
      rw [← RCLike.re_ofReal_mul, mul_div_cancel₀ _ (by exact_mod_cast hn)]
  have key := average_run ht hf hT hG hb hm obj hobj l st J
    (V := fun w => RCLike.re (wt c w.1 / ((‖wt c w.1‖ : ℝ) : K)) *
      RCLike.re (densityOf c.G0 G z (rowsOf c.NI c.tbl (w.1.map vertAt) z) (-q.beta * 1e-10) (q.beta * w.2 q.nShifts) a a))
    ?_ ?_ ?_ (R := R) ?_
  · refine ⟨key.1, key.2.trans ?_⟩
    congr 1
    congr 1
    funext x
    simp only []
    rw [integral_const_mul, ← mul_assoc, habs]
    have hwm : Measurable fun τ : ℝ => RCLike.re (densityOf c.G0 G z (rowsOf c.NI c.tbl (x.map vertAt) z) (-q.beta * 1e-10) τ a a) := by
      have h2 : Measurable fun r : ℝ => (x, r) := measurable_const.prodMk measurable_id
      have h3 := hdm.comp h2
      simp only [Function.comp_def] at h3
      exact RCLike.measurable_re.comp h3
    rw [integral_time hb hwm]
    rfl
  · have h1 : Measurable fun w : List Pt × (ℕ → ℝ) => wt c w.1 := (measurable_wt hG).comp measurable_fst
    have h2 : Measurable fun w : List Pt × (ℕ → ℝ) => densityOf c.G0 G z (rowsOf c.NI c.tbl (w.1.map vertAt) z) (-q.beta * 1e-10)
        (q.beta * w.2 q.nShifts) a a := by
      have h0 : Measurable fun w : List Pt × (ℕ → ℝ) => w.2 q.nShifts := (measurable_pi_apply q.nShifts).comp measurable_snd
      have h0' : Measurable fun w : List Pt × (ℕ → ℝ) => (w.1, q.beta * w.2 q.nShifts) :=
        measurable_fst.prodMk (h0.const_mul q.beta)
      have h2 := hdm.comp h0'
      simp only [Function.comp_def] at h2
      exact h2
    have h3 : Measurable fun w : List Pt × (ℕ → ℝ) => RCLike.re (wt c w.1 / ((‖wt c w.1‖ : ℝ) : K)) :=
      RCLike.measurable_re.comp (h1.div (RCLike.measurable_ofReal.comp h1.norm))
    exact h3.mul (RCLike.measurable_re.comp h2)
  · intro x y u h
    simp only [wt_perm c h]
    congr 2
    exact extraPair_perm ((h.map _).flatMap_right _) _ _ _ _
  · intro n hn
    refine ⟨detBound c B 1 n ^ c.nf * uBound c.tbl ^ n, fun x hx hxn u => ?_⟩
    have h0 : 0 ≤ detBound c B 1 n ^ c.nf * uBound c.tbl ^ n := by
      have hB0 : 0 ≤ B := le_trans (norm_nonneg _) (hB default default)
      have h1 := alphaBound_nonneg c.tbl
      have h2 := one_le_uBound c.tbl
      unfold detBound
      positivity
    show ‖wt c x‖ * |RCLike.re (wt c x / ((‖wt c x‖ : ℝ) : K)) * RCLike.re (densityOf c.G0 G z _ _ _ a a)| ≤ _
    have e := wt_mul_density hz G (-q.beta * 1e-10) (q.beta * u q.nShifts) a a x
    generalize densityOf c.G0 G z (rowsOf c.NI c.tbl (x.map vertAt) z) (-q.beta * 1e-10) (q.beta * u q.nShifts) a a = d at e ⊢
    rw [abs_mul]
    have k1 : |RCLike.re (wt c x / ((‖wt c x‖ : ℝ) : K))| ≤ 1 := by
      refine le_trans (RCLike.abs_re_le_norm _) ?_
      rw [norm_div, RCLike.norm_ofReal, abs_of_nonneg (norm_nonneg _)]
      exact div_self_le_one _
    have k2 : ‖wt c x‖ * (|RCLike.re (wt c x / ((‖wt c x‖ : ℝ) : K))| * |RCLike.re d|) ≤ ‖wt c x * d‖ := by
      rw [norm_mul]
      refine mul_le_mul_of_nonneg_left ?_ (norm_nonneg _)
      refine le_trans (mul_le_mul_of_nonneg_right k1 (abs_nonneg _)) ?_
      rw [one_mul]
      exact RCLike.abs_re_le_norm _
    refine le_trans k2 ?_
    rw [e]
    split
    · rw [norm_zero]; exact h0
    · rw [← hxn]
      exact weightExtra_le hB hBG hx z _ _ a a
  · intro x u y h1 h2 h3 hu hy
    obtain ⟨q1, q2, q3⟩ := closed_after ht hf hb hsz hm h1 (hobj x h1 h2 h3) hu hy
    obtain ⟨r, er, -, e, -, e2, -⟩ := measureObservables_spec ht hb hnb hsite hg q1 q2 hu.2 junk y.p rfl (fun _ => rfl) rfl rfl (fun _ _ _ => rfl)
    rw [hR x u y r _ hy er, e2 z hz a ha, e, ← wt_ptsOf, interacting_all q3,
      ← densityOf_congr G z (rowsOf_key (same_pts q3) z)]
    rfl

/-! ## Complex weights -/

/-- One term with complex fields: weight of one vertex 1 - 2i. -/
noncomputable def exTermC : VDef ℂ := ⟨2, [0, 1], [0, 0, 0, 0], 2, -4 / 3, fun _ r => if r = 0 then Complex.I else -1⟩

noncomputable def exCtxC : Ctx ℂ := ⟨100, 2, fun _ _ => 1 / 2, [exTermC]⟩

noncomputable def exMeasParC : MeasPar ℂ := ⟨1, 1, ⟨0, fun _ => 0, fun _ => 0⟩, fun _ _ _ _ => .ok (1 / 2), 2, 3⟩

theorem ex_tblC : TblOK exCtxC.NI exCtxC.nf exCtxC.tbl where
  fl := by intro d hd; simp only [exCtxC, List.mem_singleton] at hd; subst hd; rfl
  si := by intro d hd; simp only [exCtxC, List.mem_singleton] at hd; subst hd; rfl
  lt := by
    intro d hd f hf
    simp only [exCtxC, List.mem_singleton] at hd
    subst hd
    simp only [exTermC, List.mem_cons, List.not_mem_nil, or_false] at hf
    show f < 2
    omega
  U := by
    intro d hd; simp only [exCtxC, List.mem_singleton] at hd; subst hd
    show (-4 / 3 : ℂ) ≠ 0
    norm_num
  al := by
    intro d hd s _ r _
    simp only [exCtxC, List.mem_singleton] at hd
    subst hd
    show GoodAlpha (100 : ℂ) (if r = 0 then Complex.I else -1)
    unfold GoodAlpha
    split
    · refine ⟨?_, ?_, ?_⟩ <;> · intro h; have := congrArg Complex.im h; norm_num at this
    · norm_num

theorem ex_fullC : FullTerms exCtxC := by
  intro d hd
  simp only [exCtxC, List.mem_singleton] at hd
  subst hd
  refine ⟨by decide, fun fl hfl => ⟨fl, hfl, ?_⟩⟩
  have : fl < 2 := hfl
  rcases fl with _ | _ | fl
  · rfl
  · rfl
  · omega

theorem ex_rowsC {v : Vert} (h1 : v.type = 0) : rowsOf exCtxC.NI exCtxC.tbl [v] 0 = [rowOf exCtxC.NI exCtxC.tbl v 0] ∧
    rowsOf exCtxC.NI exCtxC.tbl [v] 1 = [rowOf exCtxC.NI exCtxC.tbl v 1] := by
  have ht : termOf exCtxC.tbl v = exTermC := by unfold termOf; rw [h1]; rfl
  constructor <;> simp [rowsOf, rowsV, ht, exTermC, flavorOf, List.range_succ, List.filter_cons]

theorem ex_weightC {v : Vert} (h1 : v.type = 0) (h2 : v.nonInt = false) :
    weight exCtxC.NI exCtxC.nf exCtxC.G0 exCtxC.tbl [v] = 1 - 2 * Complex.I := by
  have ht : termOf exCtxC.tbl v = exTermC := by unfold termOf; rw [h1]; rfl
  have hi : interacting [v] = [v] := by simp [interacting, h2]
  obtain ⟨r0, r1⟩ := ex_rowsC h1
  unfold weight detWeight uWeight
  rw [hi]
  show (∏ fl ∈ Finset.range 2, _) * _ = _
  rw [Finset.prod_range_succ, Finset.prod_range_succ, Finset.prod_range_zero, r0, r1]
  simp only [List.length_singleton, List.map_cons, List.map_nil, List.prod_cons, List.prod_nil, ht]
  unfold detN
  rw [Matrix.det_fin_one, Matrix.det_fin_one]
  simp only [toM_apply, rowG, specG, Fin.val_zero, if_true, List.getD_cons_zero, rowOf, fieldOf, h2, ht,
    Bool.false_eq_true, if_false, Int.toNat_zero]
  simp only [exTermC, exCtxC]
  norm_num
  ring

theorem ex_detC {v : Vert} (h1 : v.type = 0) (h2 : v.nonInt = false) (τ : ℝ) :
    detN 2 (extraPair exCtxC.G0 (fun _ _ _ _ => 1 / 2) 0 [rowOf exCtxC.NI exCtxC.tbl v 0] (-1 * 1e-10) τ 0 0) = -Complex.I / 2 ∧
    detN 1 (rowG exCtxC.G0 [rowOf exCtxC.NI exCtxC.tbl v 0]) = 1 / 2 - Complex.I ∧
    detN 1 (rowG exCtxC.G0 [rowOf exCtxC.NI exCtxC.tbl v 1]) = 3 / 2 := by
  have ht : termOf exCtxC.tbl v = exTermC := by unfold termOf; rw [h1]; rfl
  unfold detN
  rw [Matrix.det_fin_two, Matrix.det_fin_one, Matrix.det_fin_one]
  simp only [toM_apply, extraPair, rowG, specG, Fin.val_zero, Fin.val_one, if_true, List.getD_cons_zero, rowOf, fieldOf, h2, ht,
    Bool.false_eq_true, if_false, Int.toNat_zero, List.length_singleton, Nat.zero_lt_one, lt_irrefl]
  simp only [exTermC, exCtxC]
  refine ⟨?_, ?_, ?_⟩
  · norm_num; ring
  · norm_num
  · norm_num

theorem exC_sum {F : List Pt → ℝ} {f0 f1 : ℝ} (h0 : F [] = f0) (h1 : ∀ p : Pt, p.1 = 0 → F [p] = f1) :
    configSum exCtxC 1 1 F = f0 + f1 := by
  unfold configSum
  rw [Finset.sum_range_succ, Finset.sum_range_succ, Finset.sum_range_zero, zero_add]
  congr 1
  · have : ∀ x : Fin 0 → Pt, ((List.ofFn x).map fun p => ((numStates exCtxC.tbl p.1 : ℕ) : ℝ)⁻¹).prod * F (List.ofFn x) = f0 := by
      intro x
      simp [h0]
    simp only [this, integral_const]
    simp [Measure.real, Measure.pi_univ]
  · have : ∫ x : Fin 1 → Pt, ((List.ofFn x).map fun p => ((numStates exCtxC.tbl p.1 : ℕ) : ℝ)⁻¹).prod * F (List.ofFn x)
        ∂Measure.pi (fun _ => pointMeasure 1 exCtxC.tbl) =
        ∫ x : Fin 1 → Pt, 1 / 2 * f1 ∂Measure.pi (fun _ => pointMeasure 1 exCtxC.tbl) := by
      refine integral_congr_ae ?_
      filter_upwards [ae_validPts 1 exCtxC.tbl 1] with x hx
      rw [show List.ofFn x = [x 0] by simp] at hx ⊢
      obtain ⟨q1, q2, -⟩ := hx (x 0) (by simp)
      have q1 : (x 0).1 = 0 := by simpa [exCtxC] using q1
      have hn : numStates exCtxC.tbl (x 0).1 = 2 := by rw [q1]; rfl
      rw [h1 _ q1, List.map_singleton, List.prod_singleton, hn]
      norm_num
    have hp : pointMeasure 1 exCtxC.tbl Set.univ = 2 := by
      have := lintegral_point (beta := 1) (tbl := exCtxC.tbl) (g := fun _ => 1) measurable_const
      rw [lintegral_one] at this
      rw [this]
      simp [exCtxC, exTermC, numStates]
    rw [this, integral_const, Measure.real, Measure.pi_univ, Finset.prod_const, hp]
    simp

theorem exC_empty (τ : ℝ) : weight exCtxC.NI exCtxC.nf exCtxC.G0 exCtxC.tbl [] = 1 ∧
    weightExtra exCtxC (fun _ _ _ _ => 1 / 2) 0 (-1 * 1e-10) τ 0 0 [] = 1 / 2 := by
  have h0 : ∀ g : ℕ → ℕ → ℂ, detN 0 g = 1 := fun g => Matrix.det_isEmpty
  have h1 : ∀ g : ℕ → ℕ → ℂ, detN 1 g = g 0 0 := fun g => by unfold detN; rw [Matrix.det_fin_one]; rfl
  have hr : ∀ fl, rowsOf exCtxC.NI exCtxC.tbl [] fl = [] := fun _ => rfl
  constructor
  · simp [weight, detWeight, uWeight, interacting, hr, h0]
  · unfold weightExtra
    show (∏ fl ∈ Finset.range 2, _) * _ = _
    rw [Finset.prod_range_succ, Finset.prod_range_succ, Finset.prod_range_zero, if_pos rfl, if_neg Nat.one_ne_zero]
    simp [uWeight, interacting, hr, h0, h1, extraPair]

theorem exC_one {p : Pt} (hp : p.1 = 0) (τ : ℝ) :
    weightExtra exCtxC (fun _ _ _ _ => 1 / 2) 0 (-1 * 1e-10) τ 0 0 [vertAt p] = -Complex.I := by
  obtain ⟨r0, r1⟩ := ex_rowsC (v := vertAt p) hp
  obtain ⟨k1, k2, k3⟩ := ex_detC (v := vertAt p) hp rfl τ
  have ht : termOf exCtxC.tbl (vertAt p) = exTermC := by
    unfold termOf
    rw [show (vertAt p).type = 0 from hp]; rfl
  unfold weightExtra uWeight
  rw [show interacting [vertAt p] = [vertAt p] from rfl]
  show (∏ fl ∈ Finset.range 2, _) * _ = _
  rw [Finset.prod_range_succ, Finset.prod_range_succ, Finset.prod_range_zero, if_pos rfl, if_neg Nat.one_ne_zero, r0, r1]
  simp only [List.length_singleton, k1, k3, List.map_cons, List.map_nil, List.prod_cons, List.prod_nil, ht]
  simp only [exTermC]
  ring

/-- **C67 fails for complex weights**: one vertex at most, its weight is 1 - 2i.  The mean of the recorded density is not the
    real part of the sum of the weights with the extra pair over the sum of the moduli of the weights, after any updates: the
    code multiplies the real part of the phase with the real part of the ratio of determinants. -/
theorem C67_complex_violation (l : List Upd) (st : AccStat) (J : ℕ → ℕ → ℕ → ℕ → ℕ → ℕ → ℂ) :
    ∃ (obj : List Pt → Sub ℂ) (R : List Pt → (ℕ → ℝ) → ℝ),
      (∀ x, ValidPts 1 exCtxC.tbl x → weight exCtxC.NI exCtxC.nf exCtxC.G0 exCtxC.tbl (x.map vertAt) ≠ 0 →
        ReachedBy (Mgr.create 1 3 1 1 exCtxC.tbl) exCtxC (obj x) ∧ ptsOf (obj x).verts = x) ∧
      (∀ x u y r p, Returns (fun fuel => (⟨obj x, st, 0⟩ : Walker ℂ).run (Mgr.create 1 3 1 1 exCtxC.tbl) exCtxC J u fuel l) y →
        measureObservables exMeasParC exCtxC (fun _ _ => 7) u y.s y.p = .ok (r, p) → R x u = (r.dens.site 0).getD 0 0) ∧
      FiniteMeans exCtxC 1 1 R ∧
      average exCtxC 1 1 R ≠
        (configSum exCtxC 1 1 fun x => if weight exCtxC.NI exCtxC.nf exCtxC.G0 exCtxC.tbl (x.map vertAt) = 0 then 0 else
          (1 / 1) * ∫ τ in (0 : ℝ)..1, (weightExtra exCtxC (fun _ _ _ _ => 1 / 2) 0 (-1 * 1e-10) τ 0 0 (x.map vertAt)).re) /
        (ensemble exCtxC 1 1 1).toReal := by
  obtain ⟨obj, h⟩ := C64_objects ex_tblC (Mgr.create 1 3 1 1 exCtxC.tbl) 1
  have hT : exCtxC.tbl ≠ [] := by simp [exCtxC]
  have hbd : ∀ a b : Op, ‖exCtxC.G0 a b‖ ≤ 1 := by
    intro a b
    show ‖(1 / 2 : ℂ)‖ ≤ 1
    norm_num
  have hsite : SitesIn exMeasParC.ns exCtxC.tbl := by
    intro d hd s hs
    have : d = exTermC := List.mem_singleton.1 hd
    subst this
    have : s = 0 := by simpa [exTermC] using hs
    rw [this]; exact Nat.zero_lt_one
  have hg : ∀ (t : ℝ) (z s1 s2 : ℕ), z < exCtxC.nf → s1 < exMeasParC.ns → s2 < exMeasParC.ns →
      exMeasParC.g0 t z s1 s2 = .ok ((fun _ _ _ _ => 1 / 2 : ℝ → ℕ → ℕ → ℕ → ℂ) t z s1 s2) := fun _ _ _ _ _ _ _ => rfl
  have hBG : ∀ (t : ℝ) (z s1 s2 : ℕ), ‖(fun _ _ _ _ => 1 / 2 : ℝ → ℕ → ℕ → ℕ → ℂ) t z s1 s2‖ ≤ 1 := by
    intro _ _ _ _
    norm_num
  obtain ⟨R, hR⟩ := C67_recorded (c := exCtxC) exMeasParC (Mgr.create 1 3 1 1 exCtxC.tbl) obj l st J (fun _ _ => 7)
    fun r => (r.dens.site 0).getD 0 0
  have hz : 0 < exCtxC.nf := Nat.succ_pos 1
  have ha : 0 < exMeasParC.ns := Nat.succ_pos 0
  have key := C67_density_complex_partial ex_tblC ex_fullC hT (fun _ _ _ _ _ _ => measurable_const) hbd (q := exMeasParC) one_pos
    (Nat.succ_pos 2) hsite hg (fun _ _ _ => measurable_const) hBG zero_le_one rfl obj (fun x h1 _ h2 => h x h1 h2) l st J (fun _ _ => 7)
    hz ha hR
  refine ⟨obj, R, h, hR, key.1, ?_⟩
  have e1 := key.2
  have hZ : (ensemble exCtxC 1 1 1).toReal ≠ 0 := by
    obtain ⟨h1, h2⟩ := C64_normalised hbd 1 1
    exact (ENNReal.toReal_pos (by intro h0; rw [h0] at h1; simp at h1) h2.ne).ne'
  rw [show exMeasParC.beta = 1 from rfl] at e1
  rw [e1, exC_sum (f0 := 1 / 2) (f1 := 2 / 5), exC_sum (f0 := 1 / 2) (f1 := 0)]
  · intro h
    rw [div_left_inj' hZ] at h
    norm_num at h
  · have hw := (exC_empty 0).1
    simp only [List.map_nil, hw, (exC_empty _).2]
    norm_num
  · intro p hp
    obtain ⟨r0, r1⟩ := ex_rowsC (v := vertAt p) hp
    have hne : (1 - 2 * Complex.I : ℂ) ≠ 0 := by
      intro h; have := congrArg Complex.re h; norm_num at this
    have hd := exC_one hp
    simp only [List.map_cons, List.map_nil, ex_weightC (v := vertAt p) hp rfl, hd, if_neg hne]
    simp
  · have hw := (exC_empty 0).1
    have hd : ∀ τ : ℝ, densityOf exCtxC.G0 (fun _ _ _ _ => 1 / 2) 0 [] (-1 * 1e-10) τ 0 0 = 1 / 2 := by
      intro τ
      simp [densityOf, detN, extraPair, toM]
    simp only [List.map_nil, hw]
    rw [show rowsOf exCtxC.NI exCtxC.tbl [] 0 = [] from rfl]
    simp only [hd]
    norm_num
  · intro p hp
    obtain ⟨r0, r1⟩ := ex_rowsC (v := vertAt p) hp
    have hd : ∀ τ : ℝ, densityOf exCtxC.G0 (fun _ _ _ _ => 1 / 2) 0 [rowOf exCtxC.NI exCtxC.tbl (vertAt p) 0] (-1 * 1e-10) τ 0 0 =
        2 / 5 - Complex.I / 5 := by
      intro τ
      obtain ⟨k1, k2, k3⟩ := ex_detC (v := vertAt p) hp rfl τ
      unfold densityOf
      simp only [List.length_singleton]
      rw [k1, k2]
      have hne : (1 / 2 - Complex.I : ℂ) ≠ 0 := by
        intro h; have := congrArg Complex.re h; norm_num at this
      rw [div_eq_iff hne]
      apply Complex.ext <;> norm_num
    simp only [List.map_cons, List.map_nil, ex_weightC (v := vertAt p) hp rfl, r0, hd]
    norm_num

/-! Concrete cases. -/

/-- The hypotheses of `C67_sign`, `C67_density`, `C67_self_energy` and `C67_ratio` can be met together: one term, beta 1, at most 7
    vertices, three bins and two shifts, any updates. -/
example (l : List Upd) (st : AccStat) (J : ℕ → ℕ → ℕ → ℕ → ℕ → ℕ → ℝ) :
    ∃ (obj : List Pt → Sub ℝ) (R S T I : List Pt → (ℕ → ℝ) → ℝ),
      (∀ x u y r p, Returns (fun fuel => (⟨obj x, st, 0⟩ : Walker ℝ).run (Mgr.create 1 3 7 1 exCtx1.tbl) exCtx1 J u fuel l) y →
        measureObservables exMeasPar exCtx1 (fun _ _ => 7) u y.s y.p = .ok (r, p) →
          S x u = r.sign ∧ R x u = (r.dens.site 0).getD 0 0 ∧ T x u = (r.stauRe 0 0 0).getD 1 0) ∧
      FiniteMeans exCtx1 1 7 R ∧ FiniteMeans exCtx1 1 7 S ∧ FiniteMeans exCtx1 1 7 T ∧
      average exCtx1 1 7 R / average exCtx1 1 7 S =
        (configSum exCtx1 1 7 fun x => if weight exCtx1.NI exCtx1.nf exCtx1.G0 exCtx1.tbl (x.map vertAt) = 0 then 0 else
          (1 / 1) * ∫ τ in (0 : ℝ)..1, weightExtra exCtx1 (fun _ _ _ _ => 1 / 2) 0 (-1 * 1e-10) τ 0 0 (x.map vertAt)) /
        configSum exCtx1 1 7 fun x => weight exCtx1.NI exCtx1.nf exCtx1.G0 exCtx1.tbl (x.map vertAt) := by
  obtain ⟨obj, h⟩ := C64_objects ex_tbl1 (Mgr.create 1 3 7 1 exCtx1.tbl) 1
  have hT : exCtx1.tbl ≠ [] := by simp [exCtx1]
  have hb : 0 < exMeasPar.beta := one_pos
  have hnb : 0 < exMeasPar.nb := Nat.succ_pos 2
  have hns : 0 < exMeasPar.nShifts := Nat.succ_pos 1
  have hg : ∀ (t : ℝ) (z s1 s2 : ℕ), z < exCtx1.nf → s1 < exMeasPar.ns → s2 < exMeasPar.ns →
      exMeasPar.g0 t z s1 s2 = .ok ((fun _ _ _ _ => 1 / 2 : ℝ → ℕ → ℕ → ℕ → ℝ) t z s1 s2) := fun _ _ _ _ _ _ _ => rfl
  have hBG : ∀ (t : ℝ) (z s1 s2 : ℕ), ‖(fun _ _ _ _ => 1 / 2 : ℝ → ℕ → ℕ → ℕ → ℝ) t z s1 s2‖ ≤ 1 := by
    intro _ _ _ _
    norm_num
  have hobj : ∀ x, ValidPts exMeasPar.beta exCtx1.tbl x → x.length ≤ 7 →
      weight exCtx1.NI exCtx1.nf exCtx1.G0 exCtx1.tbl (x.map vertAt) ≠ 0 →
      ReachedBy (Mgr.create 1 3 7 1 exCtx1.tbl) exCtx1 (obj x) ∧ ptsOf (obj x).verts = x := fun x h1 _ h2 => h x h1 h2
  obtain ⟨S, hS⟩ := C67_recorded (c := exCtx1) exMeasPar (Mgr.create 1 3 7 1 exCtx1.tbl) obj l st J (fun _ _ => 7) fun r => r.sign
  obtain ⟨R, hR⟩ := C67_recorded (c := exCtx1) exMeasPar (Mgr.create 1 3 7 1 exCtx1.tbl) obj l st J (fun _ _ => 7)
    fun r => (r.dens.site 0).getD 0 0
  obtain ⟨T, hT'⟩ := C67_recorded (c := exCtx1) exMeasPar (Mgr.create 1 3 7 1 exCtx1.tbl) obj l st J (fun _ _ => 7)
    fun r => (r.stauRe 0 0 0).getD 1 0
  obtain ⟨I, hI⟩ := C67_recorded (c := exCtx1) exMeasPar (Mgr.create 1 3 7 1 exCtx1.tbl) obj l st J (fun _ _ => 7)
    fun r => (r.stauIm 0 0 0).getD 1 0
  have hz : 0 < exCtx1.nf := Nat.succ_pos 1
  have ha : 0 < exMeasPar.ns := Nat.succ_pos 0
  exact ⟨obj, R, S, T, I, fun x u y r p h1 h2 => ⟨hS x u y r p h1 h2, hR x u y r p h1 h2, hT' x u y r p h1 h2⟩,
    (C67_density ex_tbl1 ex_full1 hT ex_measurable1 ex_bound1 hb hnb ex_sites1 hg (fun _ _ _ => measurable_const) hBG zero_le_one rfl
      obj hobj l st J (fun _ _ => 7) hz ha hR).1,
    (C67_sign ex_tbl1 ex_full1 hT ex_measurable1 ex_bound1 hb hnb ex_sites1 hg zero_le_one rfl
      obj hobj l st J (fun _ _ => 7) hS).1,
    (C67_self_energy ex_tbl1 ex_full1 hT ex_measurable1 ex_bound1 hb hnb hns ex_sites1 hg (fun _ _ _ => measurable_const) hBG
      zero_le_one rfl obj hobj l st J (fun _ _ => 7) hz ha ha (Nat.succ_lt_succ (Nat.succ_pos 1)) hT' hI).1,
    C67_ratio ex_tbl1 ex_full1 hT ex_measurable1 ex_bound1 hb hnb ex_sites1 hg (fun _ _ _ => measurable_const) hBG zero_le_one rfl
      obj hobj l st J (fun _ _ => 7) hz ha fun x u y r p h1 h2 => ⟨hR x u y r p h1 h2, hS x u y r p h1 h2⟩⟩

end CTInt
