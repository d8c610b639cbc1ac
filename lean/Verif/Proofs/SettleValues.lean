import Verif.Proofs.Simulate
import Verif.Props.Converge

/-!
# The recorded values as functions of the configuration and of the numbers drawn for the measurement
-/

set_option linter.all false

namespace CTInt

open MeasureTheory Set

variable {K : Type} [RCLike K] [DecidableEq K]

/-- `val` of a record is `V`; its mean, weighted with the modulus of the weight, is `T`. -/
structure Estimates (c : Ctx K) (q : MeasPar K) (val : Record → ℝ) (V : List Pt × (ℕ → ℝ) → ℝ) (T : List Pt → ℝ) : Prop where
  meas : Measurable V
  sym : ∀ x y u, x.Perm y → V (x, u) = V (y, u)
  first : FirstOnly (q.nShifts + 1) V
  reads : ReadsAs c q val V
  mean : ∀ x, ValidPts q.beta c.tbl x → ‖wt c x‖ * ∫ u, V (x, u) ∂streams = T x
  bound : ∀ n : ℕ, ∃ C, ∀ x, ValidPts q.beta c.tbl x → x.length = n → ∀ u, ‖wt c x‖ * |V (x, u)| ≤ C

/-- With weights bounded below the values are bounded. -/
theorem Estimates.bounded {c : Ctx K} {q : MeasPar K} {val : Record → ℝ} {V : List Pt × (ℕ → ℝ) → ℝ} {T : List Pt → ℝ}
    (h : Estimates c q val V T) {M : ℕ} {w : ℝ} (hw : 0 < w)
    (hlow : ∀ x, ValidPts q.beta c.tbl x → x.length ≤ M → w ≤ ‖wt c x‖) :
    ∃ C, ∀ x ∈ Live c q.beta M, ∀ u, |V (x, u)| ≤ C := by
  choose C hC using h.bound
  refine ⟨(∑ n ∈ Finset.range (M + 1), |C n|) / w, fun x hx u => ?_⟩
  rw [le_div_iff₀ hw, mul_comm]
  refine le_trans (mul_le_mul_of_nonneg_right (hlow x hx.1 hx.2.1) (abs_nonneg _)) ?_
  refine (hC _ x hx.1 rfl u).trans ((le_abs_self _).trans ?_)
  exact Finset.single_le_sum (f := fun n => |C n|) (fun _ _ => abs_nonneg _) (Finset.mem_range.2 (by have := hx.2.1; omega))

variable {c : Ctx K} {q : MeasPar K} {G : ℝ → ℕ → ℕ → ℕ → K} {m : Mgr} {kIns maxOrder : ℕ} {sz B : ℝ}

theorem At.facts {s : Sub K} {y : List Pt} (h : At c s y) : Closed c s ∧ ptsOf s.verts = y ∧ ∀ v ∈ s.verts, v.nonInt = false := by
  obtain ⟨a, a1, a2, a3⟩ := h
  exact ⟨⟨a, a1, a2⟩, by rw [a1.cfg, a3], (a1.cl a2).int⟩

/-- The sign. -/
theorem estimates_sign (h : SimOK c q G m kIns maxOrder sz) (hr : Regular c G B) :
    Estimates c q (fun r => r.sign) (fun w => RCLike.re (wt c w.1 / ((‖wt c w.1‖ : ℝ) : K))) (fun x => RCLike.re (wt c x)) ∧
      ∀ w : List Pt × (ℕ → ℝ), |RCLike.re (wt c w.1 / ((‖wt c w.1‖ : ℝ) : K))| ≤ 1 := by
  have h2 : ∀ x : List Pt, |RCLike.re (wt c x / ((‖wt c x‖ : ℝ) : K))| ≤ 1 := by
    intro x
    refine le_trans (RCLike.abs_re_le_norm _) ?_
    rw [norm_div, RCLike.norm_ofReal, abs_of_nonneg (norm_nonneg _)]
    exact div_self_le_one _
  refine ⟨⟨?_, fun x y u h => by simp only [wt_perm c h], fun z u u' _ => rfl, ?_, ?_, ?_⟩, fun w => h2 w.1⟩
  · have h1 : Measurable fun z : List Pt × (ℕ → ℝ) => wt c z.1 := (measurable_wt hr.meas).comp measurable_fst
    exact RCLike.measurable_re.comp (h1.div (RCLike.measurable_ofReal.comp h1.norm))
  · intro s y u junk p r p' h1 h2 hu e0
    obtain ⟨q1, q2, q3⟩ := h1.facts
    obtain ⟨r', er, -, e, -⟩ := measureObservables_spec h.ht h.hb h.hnb h.hsite h.hg q1 h2 hu.2 junk p rfl (fun _ => rfl) rfl rfl (fun _ _ _ => rfl)
    rw [er] at e0
    injection e0 with e0
    injection e0 with e0
    subst e0
    show r'.sign = _
    rw [e, ← q2, ← wt_ptsOf, interacting_all q3]
  · intro x hx
    simp only [integral_const, probReal_univ, smul_eq_mul, one_mul]
    by_cases h0 : wt c x = 0
    · rw [h0]; simp
    · have hn : (‖wt c x‖ : ℝ) ≠ 0 := norm_ne_zero_iff.2 h0
      rw [← RCLike.re_ofReal_mul, mul_div_cancel₀ _ (by exact_mod_cast hn)]
  · intro n
    refine ⟨((n * rankBound c.tbl).factorial * (1 + B + alphaBound c.tbl) ^ (n * rankBound c.tbl)) ^ c.nf *
      uBound c.tbl ^ n, fun x hx hxn u => ?_⟩
    have h1 := wt_le hr.bound hx
    rw [hxn] at h1
    refine le_trans ?_ h1
    calc ‖wt c x‖ * |RCLike.re (wt c x / ((‖wt c x‖ : ℝ) : K))| ≤ ‖wt c x‖ * 1 :=
          mul_le_mul_of_nonneg_left (h2 x) (norm_nonneg _)
      _ = ‖wt c x‖ := mul_one _

end CTInt

namespace CTInt

open MeasureTheory Set

variable {c : Ctx ℝ} {q : MeasPar ℝ} {G : ℝ → ℕ → ℕ → ℕ → ℝ} {m : Mgr} {kIns maxOrder : ℕ} {sz B : ℝ}

theorem norm_mul_abs (w d : ℝ) : ‖w‖ * |w / ‖w‖ * d| = |w * d| := by
  rw [← norm_mul_div_norm w d, abs_mul (‖w‖), abs_of_nonneg (norm_nonneg w)]

/-- The density. -/
theorem estimates_density (h : SimOK c q G m kIns maxOrder sz) (hr : Regular c G B) {z a : ℕ} (hz : z < c.nf) (ha : a < q.ns) :
    Estimates c q (fun r => (r.dens.site z).getD a 0) (fun w => wt c w.1 / ‖wt c w.1‖ *
        densityOf c.G0 G z (rowsOf c.NI c.tbl (w.1.map vertAt) z) (-q.beta * 1e-10) (q.beta * w.2 q.nShifts) a a)
      (fun x => if weight c.NI c.nf c.G0 c.tbl (x.map vertAt) = 0 then 0 else
          (1 / q.beta) * ∫ τ in (0 : ℝ)..q.beta, weightExtra c G z (-q.beta * 1e-10) τ a a (x.map vertAt)) := by
  have hdm := measurable_densityOf (NI := c.NI) (tbl := c.tbl) z hr.meas hr.measG (-q.beta * 1e-10) a a
  refine ⟨?_, ?_, ?_, ?_, ?_, ?_⟩
  · have h1 : Measurable fun w : List Pt × (ℕ → ℝ) => wt c w.1 := (measurable_wt hr.meas).comp measurable_fst
    have h0 : Measurable fun w : List Pt × (ℕ → ℝ) => w.2 q.nShifts := (measurable_pi_apply _).comp measurable_snd
    have h2 : Measurable fun w : List Pt × (ℕ → ℝ) => densityOf c.G0 G z (rowsOf c.NI c.tbl (w.1.map vertAt) z) (-q.beta * 1e-10)
        (q.beta * w.2 q.nShifts) a a := by
      have h2 := hdm.comp (measurable_fst.prodMk (h0.const_mul q.beta))
      simp only [Function.comp_def] at h2
      exact h2
    have h3 : Measurable fun w : List Pt × (ℕ → ℝ) => wt c w.1 / ‖wt c w.1‖ := h1.div h1.norm
    exact h3.mul h2
  · intro x y u h
    simp only [wt_perm c h]
    congr 1
    exact extraPair_perm ((h.map _).flatMap_right _) _ _ _ _
  · intro x u u' hu
    simp only [hu q.nShifts (Nat.lt_succ_self _)]
  · intro s y u junk p r p' h1 h2 hu e0
    obtain ⟨q1, q2, q3⟩ := h1.facts
    obtain ⟨r', er, -, e, -, e2, -⟩ := measureObservables_spec h.ht h.hb h.hnb h.hsite h.hg q1 h2 hu.2 junk p rfl (fun _ => rfl) rfl rfl (fun _ _ _ => rfl)
    rw [er] at e0
    injection e0 with e0
    injection e0 with e0
    subst e0
    show (r'.dens.site z).getD a 0 = _
    rw [e2 z hz a ha, e, ← q2, ← wt_ptsOf, interacting_all q3, ← densityOf_congr G z (rowsOf_key (same_pts q3) z)]
    rfl
  · intro x hx
    simp only []
    rw [← integral_const_mul]
    simp only [norm_mul_div_norm, wt_mul_density hz]
    show (∫ u, (if wt c x = 0 then 0 else _) ∂streams) = if wt c x = 0 then 0 else _
    by_cases h0 : wt c x = 0
    · simp [h0]
    · simp only [if_neg h0]
      have hwm : Measurable fun τ : ℝ => weightExtra c G z (-q.beta * 1e-10) τ a a (x.map vertAt) := by
        have h1 : Measurable fun τ : ℝ => wt c x * densityOf c.G0 G z (rowsOf c.NI c.tbl (x.map vertAt) z) (-q.beta * 1e-10) τ a a := by
          have h2 : Measurable fun τ : ℝ => (x, τ) := measurable_const.prodMk measurable_id
          have h3 := hdm.comp h2
          simp only [Function.comp_def] at h3
          exact h3.const_mul _
        simp only [wt_mul_density hz, if_neg h0] at h1
        exact h1
      exact integral_time h.hb hwm q.nShifts
  · intro n
    refine ⟨detBound c B 1 n ^ c.nf * uBound c.tbl ^ n, fun x hx hxn u => ?_⟩
    have h0 : 0 ≤ detBound c B 1 n ^ c.nf * uBound c.tbl ^ n := by
      have hB0 : 0 ≤ B := le_trans (norm_nonneg _) (hr.bound default default)
      have h1 := alphaBound_nonneg c.tbl
      have h2 := one_le_uBound c.tbl
      unfold detBound
      positivity
    show ‖wt c x‖ * |wt c x / ‖wt c x‖ * _| ≤ _
    rw [norm_mul_abs, wt_mul_density hz]
    split
    · rw [abs_zero]; exact h0
    · rw [← hxn]
      exact weightExtra_le hr.bound hr.boundG hx z _ _ a a

/-- The self-energy in a bin. -/
theorem estimates_self_energy (h : SimOK c q G m kIns maxOrder sz) (hr : Regular c G B) (hns : 0 < q.nShifts) {z a b i : ℕ} (hz : z < c.nf)
    (ha : a < q.ns) (hb' : b < q.ns) (hi : i < q.nb) :
    Estimates c q (fun r => (r.stauRe z a b).getD i 0) (fun w => wt c w.1 / ‖wt c w.1‖ *
        ((∑ k ∈ Finset.range q.nShifts, binnedRatios q.beta q.nb i c.G0 G z (rowsOf c.NI c.tbl (w.1.map vertAt) z) a b (q.beta * w.2 k)) / q.nShifts))
      (fun x => if weight c.NI c.nf c.G0 c.tbl (x.map vertAt) = 0 then 0 else
          (1 / q.beta) * ∫ t in (0 : ℝ)..q.beta, binnedWeights c q.beta q.nb i G z a b t (x.map vertAt)) := by
  set D : List Pt → ℝ → ℝ := fun x t => binnedRatios q.beta q.nb i c.G0 G z (rowsOf c.NI c.tbl (x.map vertAt) z) a b t with hD
  have hDm : Measurable fun x : List Pt × ℝ => D x.1 x.2 := measurable_binnedRatios z hr.meas hr.measG q.beta q.nb i a b
  have hev : ∀ k : ℕ, Measurable fun w : List Pt × (ℕ → ℝ) => D w.1 (q.beta * w.2 k) := by
    intro k
    have h1 : Measurable fun w : List Pt × (ℕ → ℝ) => w.2 k := (measurable_pi_apply k).comp measurable_snd
    have h2 : Measurable fun w : List Pt × (ℕ → ℝ) => (w.1, q.beta * w.2 k) := measurable_fst.prodMk (h1.const_mul q.beta)
    have h3 := hDm.comp h2
    simp only [Function.comp_def] at h3
    exact h3
  have hwD : ∀ x t, wt c x * D x t = if wt c x = 0 then 0 else binnedWeights c q.beta q.nb i G z a b t (x.map vertAt) :=
    fun x t => wt_mul_ratios hz q.nb i G a b t x
  have hB0 : 0 ≤ B := le_trans (norm_nonneg _) (hr.bound default default)
  have hbd : ∀ x, ValidPts q.beta c.tbl x → ∀ t, |wt c x * D x t| ≤ (x.length * rankBound c.tbl : ℕ) *
      (q.nb / q.beta * (detBound c B 0 x.length ^ c.nf * uBound c.tbl ^ x.length)) := by
    intro x hx t
    rw [hwD]
    split
    · have h1 := alphaBound_nonneg c.tbl
      have h2 := one_le_uBound c.tbl
      have h3 := h.hb
      rw [abs_zero]
      unfold detBound
      positivity
    · exact binnedWeights_le h.hb q.nb i hr.bound hr.boundG hx z a b t
  have hns' : (q.nShifts : ℝ) ≠ 0 := by exact_mod_cast hns.ne'
  refine ⟨?_, ?_, ?_, ?_, ?_, ?_⟩
  · have h1 : Measurable fun w : List Pt × (ℕ → ℝ) => wt c w.1 := (measurable_wt hr.meas).comp measurable_fst
    have h3 : Measurable fun w : List Pt × (ℕ → ℝ) => wt c w.1 / ‖wt c w.1‖ := h1.div h1.norm
    have h4 : Measurable fun w : List Pt × (ℕ → ℝ) => ∑ k ∈ Finset.range q.nShifts, D w.1 (q.beta * w.2 k) :=
      Finset.measurable_sum _ fun k _ => hev k
    exact h3.mul (h4.div_const _)
  · intro x y u h
    simp only [wt_perm c h]
    congr 2
    refine Finset.sum_congr rfl fun k _ => ?_
    exact binnedRatios_perm ((h.map _).flatMap_right _) a b _
  · intro x u u' hu
    have : ∑ k ∈ Finset.range q.nShifts, D x (q.beta * u k) = ∑ k ∈ Finset.range q.nShifts, D x (q.beta * u' k) :=
      Finset.sum_congr rfl fun k hk => by rw [hu k (by have := Finset.mem_range.1 hk; omega)]
    show wt c x / ‖wt c x‖ * ((∑ k ∈ Finset.range q.nShifts, D x (q.beta * u k)) / q.nShifts) =
      wt c x / ‖wt c x‖ * ((∑ k ∈ Finset.range q.nShifts, D x (q.beta * u' k)) / q.nShifts)
    rw [this]
  · intro s y u junk p r p' h1 h2 hu e0
    obtain ⟨q1, q2, q3⟩ := h1.facts
    obtain ⟨r', er, -, e, e2, -⟩ := measureObservables_spec h.ht h.hb h.hnb h.hsite h.hg q1 h2 hu.2 junk p rfl (fun _ => rfl) rfl rfl (fun _ _ _ => rfl)
    rw [er] at e0
    injection e0 with e0
    injection e0 with e0
    subst e0
    show (r'.stauRe z a b).getD i 0 = _
    obtain ⟨-, -, e3⟩ := e2 z hz a ha b hb'
    have e3 := e3 i hi
    rw [selfEnergy_real] at e3
    have eR := congrArg Complex.re e3
    rw [Complex.ofReal_re] at eR
    refine eR.trans ?_
    rw [← q2, ← wt_ptsOf, interacting_all q3, List.map_map, List.length_map, List.length_range,
      ← binnedRatios_congr (rowsOf_key (same_pts q3) z)]
    rfl
  · intro x hx
    simp only []
    rw [← integral_const_mul]
    simp only [norm_mul_div_norm]
    have e1 : ∀ u : ℕ → ℝ, wt c x * ((∑ k ∈ Finset.range q.nShifts, D x (q.beta * u k)) / q.nShifts) =
        (∑ k ∈ Finset.range q.nShifts, wt c x * D x (q.beta * u k)) / q.nShifts := by
      intro u
      rw [← Finset.mul_sum]; ring
    show (∫ u : ℕ → ℝ, wt c x * ((∑ k ∈ Finset.range q.nShifts, D x (q.beta * u k)) / q.nShifts) ∂streams) = _
    simp only [e1]
    have hm1 : Measurable fun t => wt c x * D x t := by
      have h2 : Measurable fun t : ℝ => (x, t) := measurable_const.prodMk measurable_id
      have h3 := hDm.comp h2
      simp only [Function.comp_def] at h3
      exact h3.const_mul _
    rw [integral_div, integral_finset_sum]
    · simp only [integral_time h.hb hm1, Finset.sum_const, Finset.card_range, nsmul_eq_mul]
      rw [mul_div_cancel_left₀ _ hns']
      show _ = if wt c x = 0 then 0 else _
      simp only [hwD]
      by_cases h0 : wt c x = 0
      · simp [h0]
      · simp only [if_neg h0]
    · intro k _
      have hm2 : Measurable fun u : ℕ → ℝ => wt c x * D x (q.beta * u k) := by
        have h0 : Measurable fun u : ℕ → ℝ => u k := measurable_pi_apply k
        have h1 : Measurable fun u : ℕ → ℝ => q.beta * u k := h0.const_mul q.beta
        have h2 := hm1.comp h1
        simp only [Function.comp_def] at h2
        exact h2
      exact Integrable.of_bound hm2.aestronglyMeasurable _ (Filter.Eventually.of_forall fun u => hbd x hx _)
  · intro n
    refine ⟨(n * rankBound c.tbl : ℕ) * (q.nb / q.beta * (detBound c B 0 n ^ c.nf * uBound c.tbl ^ n)), fun x hx hxn u => ?_⟩
    show ‖wt c x‖ * |wt c x / ‖wt c x‖ * ((∑ k ∈ Finset.range q.nShifts, D x (q.beta * u k)) / q.nShifts)| ≤ _
    rw [norm_mul_abs, ← mul_div_assoc, Finset.mul_sum, abs_div, Nat.abs_cast, div_le_iff₀ (by positivity)]
    refine le_trans (Finset.abs_sum_le_sum_abs _ _) ?_
    refine le_trans (Finset.sum_le_card_nsmul _ _ _ fun k _ => hbd x hx _) ?_
    rw [Finset.card_range, nsmul_eq_mul, hxn, mul_comm]

end CTInt
