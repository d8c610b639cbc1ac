import Verif.Proofs.AlmostShrink
import Verif.Proofs.Settle

/-!
# Averages over one long simulation, without a bound on the weights from below
-/

set_option linter.all false

namespace CTInt

open MeasureTheory Set

variable {K : Type} [RCLike K] [DecidableEq K]
variable {c : Ctx K} {q : MeasPar K} {G : ℝ → ℕ → ℕ → ℕ → K} {m : Mgr} {kIns maxOrder : ℕ} {sz B : ℝ}

/-- Almost every configuration can lead to the empty one. -/
theorem hits_empty {beta : ℝ} {M : ℕ} (hf : FullTerms c) (hT : c.tbl ≠ []) {B : ℝ} (hB : ∀ a b, ‖c.G0 a b‖ ≤ B) (hG : MeasurableG0 c.G0) (hb : 0 < beta) (hk : 0 < kIns)
    (hm : m = Mgr.create beta kIns M sz c.tbl) (hd : AlmostShrinks c beta M) {l : List Upd} (hl : Upd.insRem ∈ l) {k : ℕ}
    {V : List Pt × (ℕ → ℝ) → ℝ} :
    ∀ᵐ x ∂ensMeasure c beta M, ∃ n, streams {u | ((stateOf (passK (simRun m c l) k V))^[n] (x, u)).1 = []} ≠ 0 := by
  have hat := attempts_pos hk hl
  obtain ⟨A0, hA0, hA0'⟩ := simRun_law hf hT hG hb hm l
  have hst := (passK_state_samples (k := k) (V := V) hA0).iterate (M + 1)
  have hst2 := hA0.iterate (M + 1)
  obtain ⟨A, hA, h2⟩ := simRun_pos hf hT hG hb hm hd (List.replicate (M + 1) l).flatten
  rw [← simRun_repeat] at hA
  have hn := nice_indicator (Y := {[]}) measurable_empty fun x y h => by
    simp only [mem_singleton_iff]
    exact ⟨fun e => by rw [e] at h; exact h.symm.eq_nil, fun e => by rw [e] at h; exact h.eq_nil⟩
  have hpos : PosOn c beta M 0 (({[]} : Set (List Pt)).indicator 1) := by
    intro l' _ hl'
    obtain rfl : l' = 0 := by omega
    refine Filter.Eventually.of_forall fun x _ => ?_
    rw [List.ofFn_zero, indicator_of_mem (mem_singleton _)]
    exact one_ne_zero
  obtain ⟨q1, q2⟩ := h2 _ hn
  have hp := q2 0 hpos
  rw [attempts_repeat] at hp
  have e : ∀ x, streams {u | ((stateOf (passK (simRun m c l) k V))^[M + 1] (x, u)).1 = []} = A (({[]} : Set (List Pt)).indicator 1) x := by
    intro x
    rw [← hA.prob measurable_empty]
    exact hst2.measure_eq hst measurable_empty x
  have hms : MeasurableSet {x : List Pt | A (({[]} : Set (List Pt)).indicator 1) x ≠ 0} := (q1.meas (measurableSet_singleton 0)).compl
  have := ae_ensMeasure (ensemble_lt_top (beta := beta) hB M) hG hms fun n hn => hp n hn (by nlinarith)
  filter_upwards [this] with x hx
  exact ⟨M + 1, by rw [e]; exact hx⟩

/-- The mean recorded, started from the ensemble. -/
theorem passK_mean {beta : ℝ} {M : ℕ} {B : ℝ} (hB : ∀ a b, ‖c.G0 a b‖ ≤ B) (hG : MeasurableG0 c.G0) {f : List Pt × (ℕ → ℝ) → List Pt × (ℕ → ℝ)}
    (hf : KeepsEnsemble c beta M f) {k : ℕ} {V : List Pt × (ℕ → ℝ) → ℝ} (hV : Measurable V) (hs : ∀ x y u, x.Perm y → V (x, u) = V (y, u))
    (hb : ∀ n ≤ M, ∃ C : ℝ, ∀ x, ValidPts beta c.tbl x → x.length = n → ∀ u, ‖wt c x‖ * |V (x, u)| ≤ C) :
    Integrable (fun p => (passK f k V p).1.2) ((ensMeasure c beta M).prod streams) ∧
    ∫ p, (passK f k V p).1.2 ∂((ensMeasure c beta M).prod streams) =
      (configSum c beta M fun x => ‖wt c x‖ * ∫ u, V (x, u) ∂streams) / (ensemble c beta M 1).toReal := by
  have := ensMeasure_prob (c := c) (beta := beta) (M := M) hB hG
  obtain ⟨⟨f1, f2⟩, e⟩ := average_eq (c := c) hG hV hb
  have hK := ensMeasure_keeps hG hf
  have hZ := ensemble_lt_top (beta := beta) hB M
  have hZ1 := one_le_ensemble c beta M
  have hZ0 : ensemble c beta M 1 ≠ 0 := by intro h; rw [h] at hZ1; simp at hZ1
  -- means of a function of the value
  have mean : ∀ g : ℝ → ENNReal, Measurable g → ∫⁻ p, g (V (f p)) ∂((ensMeasure c beta M).prod streams) =
      (ensemble c beta M 1)⁻¹ * ensemble c beta M fun x => ∫⁻ u, g (V (x, u)) ∂streams := by
    intro g hg
    have hm : Measurable fun p => g (V p) := hg.comp hV
    rw [hK.mean_prod hm fun x y hxy => lintegral_congr fun u => by rw [hs x y u hxy], lintegral_prod _ hm.aemeasurable,
      lintegral_ensMeasure hG hm.lintegral_prod_right']
  have m1 := mean (fun r => ENNReal.ofReal r) ENNReal.measurable_ofReal
  have m2 := mean (fun r => ENNReal.ofReal (-r)) (ENNReal.measurable_ofReal.comp measurable_neg)
  have hinv : (ensemble c beta M 1)⁻¹ < ⊤ := ENNReal.inv_lt_top.2 (pos_iff_ne_zero.2 hZ0)
  have l1 : ∫⁻ p, ENNReal.ofReal (V (f p)) ∂((ensMeasure c beta M).prod streams) < ⊤ := by
    rw [m1]; exact ENNReal.mul_lt_top hinv f1
  have l2 : ∫⁻ p, ENNReal.ofReal (-V (f p)) ∂((ensMeasure c beta M).prod streams) < ⊤ := by
    rw [m2]; exact ENNReal.mul_lt_top hinv f2
  have hVf : Measurable fun p => V (f p) := hV.comp hK.meas
  have hi : Integrable (fun p => V (f p)) ((ensMeasure c beta M).prod streams) := by
    refine ⟨hVf.aestronglyMeasurable, ?_⟩
    rw [hasFiniteIntegral_iff_norm]
    have : ∀ p, ENNReal.ofReal ‖V (f p)‖ = ENNReal.ofReal (V (f p)) + ENNReal.ofReal (-V (f p)) := by
      intro p
      rw [Real.norm_eq_abs]
      rcases le_total 0 (V (f p)) with h | h
      · rw [abs_of_nonneg h, ENNReal.ofReal_of_nonpos (show -V (f p) ≤ 0 by linarith), add_zero]
      · rw [abs_of_nonpos h, ENNReal.ofReal_of_nonpos h, zero_add]
    simp only [this]
    have hm1 : Measurable fun p => ENNReal.ofReal (V (f p)) := hVf.ennreal_ofReal
    rw [lintegral_add_left hm1]
    exact ENNReal.add_lt_top.2 ⟨l1, l2⟩
  refine ⟨hi, ?_⟩
  show ∫ p, V (f p) ∂((ensMeasure c beta M).prod streams) = _
  rw [integral_eq_lintegral_pos_part_sub_lintegral_neg_part hi, m1, m2, ENNReal.toReal_mul, ENNReal.toReal_mul, ← mul_sub, e, ENNReal.toReal_inv]
  rw [div_eq_inv_mul]

/-- With probability one the averages converge. -/
theorem settle_almost {val : Record → ℝ} {V : List Pt × (ℕ → ℝ) → ℝ} {T : List Pt → ℝ} (h : SimOK c q G m kIns maxOrder sz)
    (hr : Regular c G B) (hk : 0 < kIns) (hd : AlmostShrinks c q.beta maxOrder) (a : SimPar) (ha : 0 < a.nIR)
    (hp : 0 < a.steps.period) (hE : Estimates c q val V T)
    {s : Sim K} (hs : AtStart m c q.beta maxOrder s) (h0 : s.x.w.s.verts = []) (J : ℕ → ℕ → ℕ → ℕ → ℕ → ℕ → ℕ → K) (junk : ℕ → ℕ → ℕ → K) :
    ∀ᵐ u ∂streams, Settles a m q c J junk s val (configSum c q.beta maxOrder T / (ensemble c q.beta maxOrder 1).toReal) u := by
  have hG := hr.meas
  have hKE : KeepsEnsemble c q.beta maxOrder (simRun m c (callUpdates a)) := ⟨simRun_law h.hf h.hT hG h.hb h.hm _⟩
  set f := simRun m c (callUpdates a) with hf
  set k0 := a.steps.therm / a.steps.period with hk0
  have hprob := ensMeasure_prob (c := c) (beta := q.beta) (M := maxOrder) hr.bound hG
  obtain ⟨i1, i2⟩ := passK_mean (k := q.nShifts + 1) hr.bound hG hKE hE.meas hE.sym fun n _ => hE.bound n
  have hT : (configSum c q.beta maxOrder fun x => ‖wt c x‖ * ∫ u, V (x, u) ∂streams) = configSum c q.beta maxOrder T :=
    configSum_congr_live fun x hx _ => hE.mean x hx
  rw [hT] at i2
  have key := averages_from (passK_keeps hG hKE hE.meas hE.first hE.sym) i1
    (hits_empty h.hf h.hT hr.bound hG h.hb hk h.hm hd (insRem_mem_call ha hp)) ((ensMeasure_keeps hG hKE).iterate k0)
    (ensMeasure_empty (ensemble_lt_top (beta := q.beta) hr.bound maxOrder) hG)
  rw [i2] at key
  obtain ⟨hSA, hL⟩ := hs.at h
  have hpts : ptsOf s.x.w.s.verts = [] := by rw [h0]; rfl
  filter_upwards [ae_good, key] with u hu hlim
  have hex : ∀ n : ℕ, ∃ y : Sim K,
      Returns (fun fuel => s.passes a m q c J junk u fuel (a.steps.therm / a.steps.period + n)) y ∧ y.log.length = n ∧
      logMean val y.log = (∑ j ∈ Finset.range n, recorded (passK f (q.nShifts + 1) V) j (f^[k0] ([], u))) / n := by
    intro n
    have hdiv := Nat.div_add_mod a.steps.therm a.steps.period
    have hmod := Nat.mod_lt a.steps.therm hp
    rw [← hk0, Nat.mul_comm] at hdiv
    obtain ⟨y, l, t1, t2, t3, t4⟩ := passes_sim h a hu J junk k0 n hSA (by rw [hs.step]; omega) (by rw [hs.step]; omega)
    rw [hs.log, List.nil_append] at t2
    refine ⟨y, t1, by rw [t2, t3], ?_⟩
    unfold logMean
    rw [t2, t3, t4 val V hE.reads, hs.pos, dropS_zero, hpts]
    rfl
  choose y y1 y2 y3 using hex
  refine ⟨y, fun n => ⟨y1 n, y2 n⟩, ?_⟩
  simp only [y3]
  exact hlim

/-! ## Weights that vanish at most on sets of measure zero -/

theorem CanShrink.almost {beta : ℝ} {M : ℕ} {a : ℝ} (ha : 0 < a) (h : CanShrink c beta M a) : AlmostShrinks c beta M := by
  intro n hn
  filter_upwards [ae_validPts beta c.tbl (n + 1)] with x hx hw
  have hl : (List.ofFn x).length = n + 1 := List.length_ofFn
  obtain ⟨i, hi, hle⟩ := h (List.ofFn x) hx (by omega) (by intro h0; rw [h0] at hl; simp at hl) hw
  refine ⟨i, by omega, norm_pos_iff.1 (lt_of_lt_of_le ?_ hle)⟩
  have := norm_pos_iff.2 hw
  positivity

theorem AlmostNonzero.shrinks {beta : ℝ} {M : ℕ} (hG : MeasurableG0 c.G0) (h : AlmostNonzero c beta M) : AlmostShrinks c beta M := by
  intro n hn
  have hm : MeasurableSet {x : List Pt | wt c x ≠ 0} := (measurable_wt hG (measurableSet_singleton (0 : K))).compl
  filter_upwards [ae_eraseIdx hm (h n hn.le) 0] with x hx _
  exact ⟨0, Nat.succ_pos n, hx⟩

theorem AlmostNonzero.of_lower {beta : ℝ} {M : ℕ} {w : ℝ} (hw : 0 < w)
    (h : ∀ x, ValidPts beta c.tbl x → x.length ≤ M → w ≤ ‖weight c.NI c.nf c.G0 c.tbl (x.map vertAt)‖) : AlmostNonzero c beta M := by
  intro n hn
  filter_upwards [ae_validPts beta c.tbl n] with x hx
  exact norm_pos_iff.1 (hw.trans_le (h _ hx (by rw [List.length_ofFn]; exact hn)))

theorem configSum_congr_nonzero {beta : ℝ} {M : ℕ} {F F' : List Pt → ℝ} (hz : AlmostNonzero c beta M)
    (h : ∀ x, weight c.NI c.nf c.G0 c.tbl (x.map vertAt) ≠ 0 → F x = F' x) : configSum c beta M F = configSum c beta M F' := by
  unfold configSum
  refine Finset.sum_congr rfl fun n hn => ?_
  congr 1
  refine integral_congr_ae ?_
  filter_upwards [hz n (by have := Finset.mem_range.1 hn; omega)] with x hx
  rw [h _ hx]

theorem all_settle_nonzero (h : SimOK c q G m kIns maxOrder sz) (hr : Regular c G B) (hk : 0 < kIns)
    (hd : AlmostNonzero c q.beta maxOrder) (a : SimPar) (ha : 0 < a.nIR) (hp : 0 < a.steps.period)
    {s : Sim K} (hs : AtStart m c q.beta maxOrder s) (h0 : s.x.w.s.verts = []) (J : ℕ → ℕ → ℕ → ℕ → ℕ → ℕ → ℕ → K) (junk : ℕ → ℕ → ℕ → K) :
    AllSettle a m q c J junk s maxOrder := by
  intro val V T T' hE hT
  rw [← configSum_congr_nonzero hd hT]
  exact settle_almost h hr hk (hd.shrinks hr.meas) a ha hp hE hs h0 J junk

end CTInt
