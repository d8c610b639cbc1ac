import Verif.Proofs.Postprocess
import Verif.Props.Settle
import Verif.Spec.SelfComplex

/-!
# The recorded self-energy for real or complex weights
-/

set_option linter.all false

namespace CTInt

open MeasureTheory

variable {K : Type} [RCLike K] [DecidableEq K]

/-- The ratios of determinants recorded in bin `i` for one shift. -/
noncomputable def ratioSum (β : ℝ) (n i : ℕ) (G0 : Op → Op → K) (G : ℝ → ℕ → ℕ → ℕ → K) (z : ℕ) (l : List (OpRow K)) (a b : ℕ)
    (t : ℝ) : K :=
  ∑ q ∈ Finset.range l.length,
    if (l.getD q default).cr.site = a then
      (((-1) ^ ⌊((l.getD q default).cr.time + t) / β⌋ *
        (if β * i / n ≤ foldTime β ((l.getD q default).cr.time + t) ∧
          foldTime β ((l.getD q default).cr.time + t) < β * (i + 1) / n then n / β else 0) : ℝ) : K) *
        (detN l.length (otherCreator G0 G z l q b t) / detN l.length (rowG G0 l))
    else 0

theorem toC_inj {x y : K} (h : toC x = toC y) : x = y := by
  have h1 : RCLike.re x = RCLike.re y := congrArg Complex.re h
  have h2 : RCLike.im x = RCLike.im y := congrArg Complex.im h
  exact RCLike.ext h1 h2

theorem selfEnergy_toC (β : ℝ) (n i : ℕ) (G0 : Op → Op → K) (G : ℝ → ℕ → ℕ → ℕ → K) (z : ℕ) (l : List (OpRow K)) (sign : K)
    (shifts : List ℝ) (a b : ℕ) : selfEnergy β G0 G z l sign shifts (binWeight β n i) a b =
      toC (sign * ((shifts.map (ratioSum β n i G0 G z l a b)).sum / (shifts.length : K))) := by
  unfold selfEnergy
  have h : (shifts.map fun t => ∑ q ∈ Finset.range l.length,
      if (l.getD q default).cr.site = a then
        foldSign β ((l.getD q default).cr.time + t) * toC sign * binWeight β n i (foldTime β ((l.getD q default).cr.time + t)) *
          toC (detN l.length (otherCreator G0 G z l q b t) / detN l.length (rowG G0 l))
      else 0).sum = toC (sign * (shifts.map (ratioSum β n i G0 G z l a b)).sum) := by
    induction shifts with
    | nil => simp [toC_zero]
    | cons t shifts ih =>
      rw [List.map_cons, List.sum_cons, ih, List.map_cons, List.sum_cons, mul_add, toC_add]
      congr 1
      unfold ratioSum
      rw [Finset.mul_sum, toC_sum]
      refine Finset.sum_congr rfl fun q _ => ?_
      by_cases hs : (l.getD q default).cr.site = a
      · rw [if_pos hs, if_pos hs, toC_mul, toC_mul, toC_ofReal]
        unfold foldSign binWeight
        by_cases hb : β * i / n ≤ foldTime β ((l.getD q default).cr.time + t) ∧
            foldTime β ((l.getD q default).cr.time + t) < β * (i + 1) / n
        · rw [if_pos hb, if_pos hb]; push_cast; ring
        · rw [if_neg hb, if_neg hb]; push_cast; ring
      · rw [if_neg hs, if_neg hs, mul_zero, toC_zero]
  rw [h, toC_mul, toC_mul, toC_div, toC_natCast, mul_div_assoc]

theorem ratioSum_perm {β : ℝ} {n i : ℕ} {G0 : Op → Op → K} {G : ℝ → ℕ → ℕ → ℕ → K} {z : ℕ} {l l' : List (OpRow K)}
    (h : l.Perm l') (a b : ℕ) (t : ℝ) : ratioSum β n i G0 G z l a b t = ratioSum β n i G0 G z l' a b t := by
  have := selfEnergy_perm (β := β) (G0 := G0) (G := G) (z := z) h 1 [t] (binWeight β n i) a b
  rw [selfEnergy_toC, selfEnergy_toC] at this
  have := toC_inj this
  simpa using this

theorem ratioSum_congr {β : ℝ} {n i : ℕ} {G0 : Op → Op → K} {G : ℝ → ℕ → ℕ → ℕ → K} {z : ℕ} {l l' : List (OpRow K)}
    (h : l.map opKey = l'.map opKey) (a b : ℕ) : ratioSum β n i G0 G z l a b = ratioSum β n i G0 G z l' a b := by
  funext t
  have hlen : l.length = l'.length := by simpa using congrArg List.length h
  unfold ratioSum
  rw [rowG_congr h, hlen]
  refine Finset.sum_congr rfl fun q hq => ?_
  have hq := Finset.mem_range.1 hq
  rw [(getD_key h hq).1]
  have : detN l'.length (otherCreator G0 G z l q b t) = detN l'.length (otherCreator G0 G z l' q b t) := by
    refine detN_congr fun i hi j hj => ?_
    obtain ⟨-, i2, -⟩ := getD_key h hi
    obtain ⟨j1, -, j3⟩ := getD_key h hj
    unfold otherCreator withCol rowG specG
    simp only [i2, j1, j3]
  rw [this]

theorem measurable_ratioSum {NI : K} {tbl : List (VDef K)} (z : ℕ) {G0 : Op → Op → K} (hG : MeasurableG0 G0)
    {G : ℝ → ℕ → ℕ → ℕ → K} (hGm : MeasurableG G) (β : ℝ) (n i a b : ℕ) :
    Measurable fun x : List Pt × ℝ => ratioSum β n i G0 G z (rowsOf NI tbl (x.1.map vertAt) z) a b x.2 := by
  refine measurable_rows (f := fun l τ => ratioSum β n i G0 G z l a b τ) fun N k => ?_
  unfold ratioSum
  simp only [List.length_map]
  refine Finset.measurable_sum _ fun q hq => ?_
  have hq := Finset.mem_range.1 hq
  obtain ⟨zq, f, s1, s2, e, al, h⟩ := getD_pairs (NI := NI) q hq
  simp only [h]
  split
  · have ht : Measurable fun τ : (Fin N → ℝ) × ℝ => τ.1 zq.1 + τ.2 :=
      ((measurable_pi_apply zq.1).comp measurable_fst).add measurable_snd
    have hfl : Measurable fun τ : (Fin N → ℝ) × ℝ => ⌊(τ.1 zq.1 + τ.2) / β⌋ := Int.measurable_floor.comp (ht.div_const β)
    have hft : Measurable fun τ : (Fin N → ℝ) × ℝ => foldTime β (τ.1 zq.1 + τ.2) := by
      unfold foldTime
      have : Measurable fun k : ℤ => (k : ℝ) := measurable_from_top
      exact ht.sub ((this.comp hfl).mul_const β)
    have h1 : Measurable fun τ : (Fin N → ℝ) × ℝ => ((-1 : ℝ)) ^ ⌊(τ.1 zq.1 + τ.2) / β⌋ := measurable_zpow_neg_one.comp hfl
    have h2 : Measurable fun τ : (Fin N → ℝ) × ℝ => (if β * i / n ≤ foldTime β (τ.1 zq.1 + τ.2) ∧
        foldTime β (τ.1 zq.1 + τ.2) < β * (i + 1) / n then (n : ℝ) / β else 0) :=
      Measurable.ite ((measurableSet_le measurable_const hft).inter (measurableSet_lt hft measurable_const)) measurable_const measurable_const
    refine (RCLike.measurable_ofReal.comp (h1.mul h2)).mul (Measurable.div ?_ (measurable_detN fun i hi j hj => measurable_rowG hG hi hj))
    refine measurable_detN fun i' hi j hj => ?_
    unfold otherCreator withCol
    split
    · obtain ⟨zi, f', s1', s2', e', al', h'⟩ := getD_pairs (NI := NI) i' hi
      simp only [h']
      have : Measurable fun τ : (Fin N → ℝ) × ℝ => τ.1 zi.1 + τ.2 :=
        ((measurable_pi_apply zi.1).comp measurable_fst).add measurable_snd
      exact (hGm z s2' b).comp this
    · exact measurable_rowG hG hi hj
  · exact measurable_const

variable {c : Ctx K} {beta B : ℝ}

theorem binnedSum_le (hb : 0 < beta) (n i : ℕ) (hB : ∀ a b, ‖c.G0 a b‖ ≤ B) {G : ℝ → ℕ → ℕ → ℕ → K}
    (hBG : ∀ t z s1 s2, ‖G t z s1 s2‖ ≤ B) {x : List Pt}
    (hx : ValidPts beta c.tbl x) (z a b : ℕ) (t : ℝ) :
    ‖binnedSum c beta n i G z a b t (x.map vertAt)‖ ≤ (x.length * rankBound c.tbl : ℕ) *
      (n / beta * (detBound c B 0 x.length ^ c.nf * uBound c.tbl ^ x.length)) := by
  have hB0 : 0 ≤ B := le_trans (norm_nonneg _) (hB default default)
  have h0 := alphaBound_nonneg c.tbl
  have h2 := one_le_uBound c.tbl
  have hD : 0 ≤ detBound c B 0 x.length ^ c.nf * uBound c.tbl ^ x.length := by unfold detBound; positivity
  unfold binnedSum
  rw [interacting_vertAt]
  refine le_trans (norm_sum_le _ _) ?_
  have hl := rowsOf_length_le hx z
  refine le_trans (Finset.sum_le_card_nsmul _ _ (n / beta * (detBound c B 0 x.length ^ c.nf * uBound c.tbl ^ x.length)) fun q _ => ?_) ?_
  · have hw := weightOther_le hB hBG hx z q b t
    split
    · rw [norm_mul, RCLike.norm_ofReal, abs_mul, abs_zpow, abs_neg, abs_one, one_zpow, one_mul]
      refine mul_le_mul ?_ hw (norm_nonneg _) (by positivity)
      split
      · rw [abs_of_nonneg (by positivity)]
      · rw [abs_zero]; positivity
    · rw [norm_zero]; positivity
  · rw [Finset.card_range, nsmul_eq_mul]
    exact mul_le_mul_of_nonneg_right (by exact_mod_cast hl) (by positivity)

/-- The weight times the ratios of determinants. -/
theorem wt_mul_ratioSum {z : ℕ} (hz : z < c.nf) (n i : ℕ) (G : ℝ → ℕ → ℕ → ℕ → K) (a b : ℕ) (t : ℝ) (x : List Pt) :
    wt c x * ratioSum beta n i c.G0 G z (rowsOf c.NI c.tbl (x.map vertAt) z) a b t =
      if wt c x = 0 then 0 else binnedSum c beta n i G z a b t (x.map vertAt) := by
  split
  · rename_i h; rw [h, zero_mul]
  · rename_i h
    have hw : wt c x = detN (rowsOf c.NI c.tbl (x.map vertAt) z).length (rowG c.G0 (rowsOf c.NI c.tbl (x.map vertAt) z)) *
        (∏ fl ∈ (Finset.range c.nf).erase z, detN (rowsOf c.NI c.tbl (x.map vertAt) fl).length
          (rowG c.G0 (rowsOf c.NI c.tbl (x.map vertAt) fl))) * uWeight c.tbl (x.map vertAt) := by
      unfold wt weight detWeight
      rw [interacting_vertAt, ← Finset.mul_prod_erase _ _ (Finset.mem_range.2 hz)]
    have hd : detN (rowsOf c.NI c.tbl (x.map vertAt) z).length (rowG c.G0 (rowsOf c.NI c.tbl (x.map vertAt) z)) ≠ 0 := by
      intro h0
      rw [h0] at hw
      apply h
      rw [hw]; ring
    have he : ∀ q, weightOther c G z q b t (x.map vertAt) =
        detN (rowsOf c.NI c.tbl (x.map vertAt) z).length (otherCreator c.G0 G z (rowsOf c.NI c.tbl (x.map vertAt) z) q b t) *
        (∏ fl ∈ (Finset.range c.nf).erase z, detN (rowsOf c.NI c.tbl (x.map vertAt) fl).length
          (rowG c.G0 (rowsOf c.NI c.tbl (x.map vertAt) fl))) * uWeight c.tbl (x.map vertAt) := by
      intro q
      unfold weightOther
      rw [interacting_vertAt, ← Finset.mul_prod_erase _ _ (Finset.mem_range.2 hz), if_pos rfl]
      congr 2
      refine Finset.prod_congr rfl fun fl hfl => ?_
      rw [if_neg (Finset.ne_of_mem_erase hfl)]
    unfold ratioSum binnedSum
    rw [interacting_vertAt, Finset.mul_sum]
    refine Finset.sum_congr rfl fun q _ => ?_
    by_cases hs : ((rowsOf c.NI c.tbl (x.map vertAt) z).getD q default).cr.site = a
    · rw [if_pos hs, if_pos hs, hw, he]
      generalize (-1 : ℝ) ^ ⌊(((rowsOf c.NI c.tbl (x.map vertAt) z).getD q default).cr.time + t) / beta⌋ *
        (if beta * i / n ≤ foldTime beta (((rowsOf c.NI c.tbl (x.map vertAt) z).getD q default).cr.time + t) ∧
          foldTime beta (((rowsOf c.NI c.tbl (x.map vertAt) z).getD q default).cr.time + t) < beta * (i + 1) / n then (n : ℝ) / beta else 0) = g
      field_simp
    · rw [if_neg hs, if_neg hs, mul_zero]

variable {q : MeasPar K} {G : ℝ → ℕ → ℕ → ℕ → K} {m : Mgr} {kIns maxOrder : ℕ} {sz w : ℝ}

theorem norm_mul_phase (w r : K) : ((‖w‖ : ℝ) : K) * (w / ((‖w‖ : ℝ) : K) * r) = w * r := by
  by_cases h0 : w = 0
  · rw [h0]; simp
  · have hn : ((‖w‖ : ℝ) : K) ≠ 0 := by exact_mod_cast norm_ne_zero_iff.2 h0
    field_simp

/-- Real and imaginary part of the self-energy in a bin; `f` is one of the two. -/
theorem estimates_self_part (h : SimOK c q G m kIns maxOrder sz) (hr : Regular c G B) (hns : 0 < q.nShifts) {z a b i : ℕ} (hz : z < c.nf)
    (ha : a < q.ns) (hb' : b < q.ns) (hi : i < q.nb) (f : K →L[ℝ] ℝ) (hf : ∀ x, |f x| ≤ ‖x‖) {val : Record → ℝ}
    (hval : ∀ (r : Record) (x : K), (⟨(r.stauRe z a b).getD i 0, (r.stauIm z a b).getD i 0⟩ : ℂ) = toC x → val r = f x) :
    Estimates c q val (fun w => f (wt c w.1 / ((‖wt c w.1‖ : ℝ) : K) *
        ((∑ k ∈ Finset.range q.nShifts, ratioSum q.beta q.nb i c.G0 G z (rowsOf c.NI c.tbl (w.1.map vertAt) z) a b (q.beta * w.2 k)) / (q.nShifts : K))))
      (fun x => if weight c.NI c.nf c.G0 c.tbl (x.map vertAt) = 0 then 0 else
          f (((1 / q.beta : ℝ) : K) * ∫ t in (0 : ℝ)..q.beta, binnedSum c q.beta q.nb i G z a b t (x.map vertAt))) := by
  set D : List Pt → ℝ → K := fun x t => ratioSum q.beta q.nb i c.G0 G z (rowsOf c.NI c.tbl (x.map vertAt) z) a b t with hD
  have hfr : ∀ (r : ℝ) (x : K), f ((r : K) * x) = r * f x := by
    intro r x
    rw [← RCLike.real_smul_eq_coe_mul, map_smul, smul_eq_mul]
  have hfm : Measurable f := f.continuous.measurable
  have hDm : Measurable fun x : List Pt × ℝ => D x.1 x.2 := measurable_ratioSum z hr.meas hr.measG q.beta q.nb i a b
  have hev : ∀ k : ℕ, Measurable fun w : List Pt × (ℕ → ℝ) => D w.1 (q.beta * w.2 k) := by
    intro k
    have h1 : Measurable fun w : List Pt × (ℕ → ℝ) => w.2 k := (measurable_pi_apply k).comp measurable_snd
    have h2 : Measurable fun w : List Pt × (ℕ → ℝ) => (w.1, q.beta * w.2 k) := measurable_fst.prodMk (h1.const_mul q.beta)
    have h3 := hDm.comp h2
    simp only [Function.comp_def] at h3
    exact h3
  have hwD : ∀ x t, wt c x * D x t = if wt c x = 0 then 0 else binnedSum c q.beta q.nb i G z a b t (x.map vertAt) :=
    fun x t => wt_mul_ratioSum hz q.nb i G a b t x
  have hB0 : 0 ≤ B := le_trans (norm_nonneg _) (hr.bound default default)
  have hbd : ∀ x, ValidPts q.beta c.tbl x → ∀ t, ‖wt c x * D x t‖ ≤ (x.length * rankBound c.tbl : ℕ) *
      (q.nb / q.beta * (detBound c B 0 x.length ^ c.nf * uBound c.tbl ^ x.length)) := by
    intro x hx t
    rw [hwD]
    split
    · have h1 := alphaBound_nonneg c.tbl
      have h2 := one_le_uBound c.tbl
      have h3 := h.hb
      rw [norm_zero]
      unfold detBound
      positivity
    · exact binnedSum_le h.hb q.nb i hr.bound hr.boundG hx z a b t
  have hns' : (q.nShifts : ℝ) ≠ 0 := by exact_mod_cast hns.ne'
  have e1 : ∀ (x : List Pt) (u : ℕ → ℝ), ‖wt c x‖ * f (wt c x / ((‖wt c x‖ : ℝ) : K) * ((∑ k ∈ Finset.range q.nShifts, D x (q.beta * u k)) / (q.nShifts : K))) =
      (∑ k ∈ Finset.range q.nShifts, f (wt c x * D x (q.beta * u k))) / q.nShifts := by
    intro x u
    rw [← hfr, norm_mul_phase, ← mul_div_assoc, div_eq_inv_mul, Finset.mul_sum]
    have : ((q.nShifts : K))⁻¹ = (((q.nShifts : ℝ)⁻¹ : ℝ) : K) := by push_cast; rfl
    rw [this, hfr, map_sum, div_eq_inv_mul]
  have hxm : ∀ x : List Pt, Measurable fun t : ℝ => wt c x * D x t := by
    intro x
    have h2 : Measurable fun t : ℝ => (x, t) := measurable_const.prodMk measurable_id
    have h3 := hDm.comp h2
    simp only [Function.comp_def] at h3
    exact h3.const_mul _
  refine ⟨?_, ?_, ?_, ?_, ?_, ?_⟩
  · have h1 : Measurable fun w : List Pt × (ℕ → ℝ) => wt c w.1 := (measurable_wt hr.meas).comp measurable_fst
    have h3 : Measurable fun w : List Pt × (ℕ → ℝ) => wt c w.1 / ((‖wt c w.1‖ : ℝ) : K) := h1.div (RCLike.measurable_ofReal.comp h1.norm)
    have h4 : Measurable fun w : List Pt × (ℕ → ℝ) => ∑ k ∈ Finset.range q.nShifts, D w.1 (q.beta * w.2 k) :=
      Finset.measurable_sum _ fun k _ => hev k
    exact hfm.comp (h3.mul (h4.div_const _))
  · intro x y u h
    simp only [wt_perm c h]
    congr 3
    refine Finset.sum_congr rfl fun k _ => ?_
    exact ratioSum_perm ((h.map _).flatMap_right _) a b _
  · intro x u u' hu
    have : ∑ k ∈ Finset.range q.nShifts, D x (q.beta * u k) = ∑ k ∈ Finset.range q.nShifts, D x (q.beta * u' k) :=
      Finset.sum_congr rfl fun k hk => by rw [hu k (by have := Finset.mem_range.1 hk; omega)]
    show f (wt c x / ((‖wt c x‖ : ℝ) : K) * ((∑ k ∈ Finset.range q.nShifts, D x (q.beta * u k)) / (q.nShifts : K))) =
      f (wt c x / ((‖wt c x‖ : ℝ) : K) * ((∑ k ∈ Finset.range q.nShifts, D x (q.beta * u' k)) / (q.nShifts : K)))
    rw [this]
  · intro s y u junk p r p' h1 h2 hu e0
    obtain ⟨q1, q2, q3⟩ := h1.facts
    obtain ⟨r', er, -, e, e2, -⟩ := measureObservables_spec h.ht h.hb h.hnb h.hsite h.hg q1 h2 hu.2 junk p rfl (fun _ => rfl) rfl rfl (fun _ _ _ => rfl)
    rw [er] at e0
    injection e0 with e0
    injection e0 with e0
    subst e0
    obtain ⟨-, -, e3⟩ := e2 z hz a ha b hb'
    have e3 := e3 i hi
    rw [selfEnergy_toC] at e3
    refine (hval _ _ e3).trans ?_
    rw [← q2, ← wt_ptsOf, interacting_all q3, List.map_map, List.length_map, List.length_range,
      ← ratioSum_congr (rowsOf_key (same_pts q3) z)]
    rfl
  · intro x hx
    simp only []
    rw [← integral_const_mul]
    show (∫ u : ℕ → ℝ, ‖wt c x‖ * f (wt c x / ((‖wt c x‖ : ℝ) : K) * ((∑ k ∈ Finset.range q.nShifts, D x (q.beta * u k)) / (q.nShifts : K))) ∂streams) = _
    simp only [e1]
    have hm1 : Measurable fun t => f (wt c x * D x t) := hfm.comp (hxm x)
    rw [integral_div, integral_finset_sum]
    · simp only [integral_time h.hb hm1, Finset.sum_const, Finset.card_range, nsmul_eq_mul]
      rw [mul_div_cancel_left₀ _ hns']
      show _ = if wt c x = 0 then 0 else _
      simp only [hwD]
      by_cases h0 : wt c x = 0
      · simp [h0]
      · simp only [if_neg h0]
        have hint : IntervalIntegrable (fun t => binnedSum c q.beta q.nb i G z a b t (x.map vertAt)) volume 0 q.beta := by
          have hm := hxm x
          simp only [hwD, if_neg h0] at hm
          rw [intervalIntegrable_iff]
          exact Measure.integrableOn_of_bounded (by simp) hm.aestronglyMeasurable
            (Filter.Eventually.of_forall fun t => binnedSum_le h.hb q.nb i hr.bound hr.boundG hx z a b t)
        rw [hfr, f.intervalIntegral_comp_comm hint]
    · intro k _
      have hm2 : Measurable fun u : ℕ → ℝ => f (wt c x * D x (q.beta * u k)) := by
        have h0 : Measurable fun u : ℕ → ℝ => u k := measurable_pi_apply k
        have h1 : Measurable fun u : ℕ → ℝ => q.beta * u k := h0.const_mul q.beta
        have h2 := hm1.comp h1
        simp only [Function.comp_def] at h2
        exact h2
      exact Integrable.of_bound hm2.aestronglyMeasurable _ (Filter.Eventually.of_forall fun u => (hf _).trans (hbd x hx _))
  · intro n
    refine ⟨(n * rankBound c.tbl : ℕ) * (q.nb / q.beta * (detBound c B 0 n ^ c.nf * uBound c.tbl ^ n)), fun x hx hxn u => ?_⟩
    have e2 := congrArg abs (e1 x u)
    rw [abs_mul, abs_of_nonneg (norm_nonneg _)] at e2
    refine e2.le.trans ?_
    rw [abs_div, Nat.abs_cast, div_le_iff₀ (by positivity)]
    refine le_trans (Finset.abs_sum_le_sum_abs _ _) ?_
    refine le_trans (Finset.sum_le_card_nsmul _ _ _ fun k _ => (hf _).trans (hbd x hx _)) ?_
    rw [Finset.card_range, nsmul_eq_mul, hxn, mul_comm]

/-- With weights bounded below averages converge. -/
theorem settle_gen {val : Record → ℝ} {V : List Pt × (ℕ → ℝ) → ℝ} {T T' : List Pt → ℝ} (h : SimOK c q G m kIns maxOrder sz)
    (hr : Regular c G B) (hk : 0 < kIns) (hw : 0 < w)
    (hlow : ∀ x, ValidPts q.beta c.tbl x → x.length ≤ maxOrder → w ≤ ‖weight c.NI c.nf c.G0 c.tbl (x.map vertAt)‖)
    (a : SimPar) (ha : 0 < a.nIR) (hp : 0 < a.steps.period) (hE : Estimates c q val V T)
    (hT : ∀ x, weight c.NI c.nf c.G0 c.tbl (x.map vertAt) ≠ 0 → T x = T' x)
    {s : Sim K} (hs : AtStart m c q.beta maxOrder s) (J : ℕ → ℕ → ℕ → ℕ → ℕ → ℕ → ℕ → K) (junk : ℕ → ℕ → ℕ → K) :
    ∀ᵐ u ∂streams, Settles a m q c J junk s val (configSum c q.beta maxOrder T' / (ensemble c q.beta maxOrder 1).toReal) u := by
  obtain ⟨b, hb, hd⟩ := C72_bounded_below hr.bound q.beta maxOrder hw fun x hx hn => hlow x hx hn.le
  have := settle_strong h hr hk hb hd a ha hp hE (hE.bounded hw hlow) hs J junk
  rwa [configSum_congr_live (F' := T') fun x hx hn => hT x fun h0 => by
    have := hlow x hx hn
    rw [h0] at this
    simp at this
    linarith] at this

end CTInt
