import Verif.Proofs.AverageValues
import Mathlib.MeasureTheory.Function.Floor

/-!
# The recorded self-energy as a measurable function of configuration and shifts
-/

set_option linter.all false

namespace CTInt

open MeasureTheory

/-- The ratios of determinants recorded in bin `i` for one shift. -/
noncomputable def binnedRatios (β : ℝ) (n i : ℕ) (G0 : Op → Op → ℝ) (G : ℝ → ℕ → ℕ → ℕ → ℝ) (z : ℕ) (l : List (OpRow ℝ)) (a b : ℕ)
    (t : ℝ) : ℝ :=
  ∑ q ∈ Finset.range l.length,
    if (l.getD q default).cr.site = a then
      (-1) ^ ⌊((l.getD q default).cr.time + t) / β⌋ *
        (if β * i / n ≤ foldTime β ((l.getD q default).cr.time + t) ∧
          foldTime β ((l.getD q default).cr.time + t) < β * (i + 1) / n then n / β else 0) *
        (detN l.length (otherCreator G0 G z l q b t) / detN l.length (rowG G0 l))
    else 0

theorem toC_real (x : ℝ) : toC x = (x : ℂ) := by
  unfold toC
  apply Complex.ext <;> simp

theorem selfEnergy_real (β : ℝ) (n i : ℕ) (G0 : Op → Op → ℝ) (G : ℝ → ℕ → ℕ → ℕ → ℝ) (z : ℕ) (l : List (OpRow ℝ)) (sign : ℝ)
    (shifts : List ℝ) (a b : ℕ) : selfEnergy β G0 G z l sign shifts (binWeight β n i) a b =
      ((sign * ((shifts.map (binnedRatios β n i G0 G z l a b)).sum / shifts.length) : ℝ) : ℂ) := by
  unfold selfEnergy
  have h : (shifts.map fun t => ∑ q ∈ Finset.range l.length,
      if (l.getD q default).cr.site = a then
        foldSign β ((l.getD q default).cr.time + t) * toC sign * binWeight β n i (foldTime β ((l.getD q default).cr.time + t)) *
          toC (detN l.length (otherCreator G0 G z l q b t) / detN l.length (rowG G0 l))
      else 0).sum = ((sign * (shifts.map (binnedRatios β n i G0 G z l a b)).sum : ℝ) : ℂ) := by
    induction shifts with
    | nil => simp
    | cons t shifts ih =>
      rw [List.map_cons, List.sum_cons, ih, List.map_cons, List.sum_cons, mul_add]
      push_cast
      congr 1
      unfold binnedRatios
      push_cast
      rw [Finset.mul_sum]
      refine Finset.sum_congr rfl fun q _ => ?_
      by_cases hs : (l.getD q default).cr.site = a
      · rw [if_pos hs, if_pos hs]
        unfold foldSign binWeight
        rw [toC_real, toC_real]
        by_cases hb : β * i / n ≤ foldTime β ((l.getD q default).cr.time + t) ∧
            foldTime β ((l.getD q default).cr.time + t) < β * (i + 1) / n
        · rw [if_pos hb, if_pos hb]; push_cast; ring
        · rw [if_neg hb, if_neg hb]; push_cast; ring
      · rw [if_neg hs, if_neg hs, Complex.ofReal_zero, mul_zero]
  rw [h]
  push_cast
  ring

theorem binnedRatios_perm {β : ℝ} {n i : ℕ} {G0 : Op → Op → ℝ} {G : ℝ → ℕ → ℕ → ℕ → ℝ} {z : ℕ} {l l' : List (OpRow ℝ)}
    (h : l.Perm l') (a b : ℕ) (t : ℝ) : binnedRatios β n i G0 G z l a b t = binnedRatios β n i G0 G z l' a b t := by
  have := selfEnergy_perm (β := β) (G0 := G0) (G := G) (z := z) h 1 [t] (binWeight β n i) a b
  rw [selfEnergy_real, selfEnergy_real] at this
  have := Complex.ofReal_injective this
  simpa using this

theorem binnedRatios_congr {β : ℝ} {n i : ℕ} {G0 : Op → Op → ℝ} {G : ℝ → ℕ → ℕ → ℕ → ℝ} {z : ℕ} {l l' : List (OpRow ℝ)}
    (h : l.map opKey = l'.map opKey) (a b : ℕ) : binnedRatios β n i G0 G z l a b = binnedRatios β n i G0 G z l' a b := by
  funext t
  have hlen : l.length = l'.length := by simpa using congrArg List.length h
  unfold binnedRatios
  rw [rowG_congr h, hlen]
  refine Finset.sum_congr rfl fun q hq => ?_
  have hq := Finset.mem_range.1 hq
  rw [(getD_key h hq).1]
  have : detN l'.length (otherCreator G0 G z l q b t) = detN l'.length (otherCreator G0 G z l' q b t) := by
    refine detN_congr fun i hi j hj => ?_
    obtain ⟨-, i2, -⟩ := getD_key h hi
    obtain ⟨j1, -, j3⟩ := getD_key h hj
    unfold otherCreator withCol rowG specG
    simp only [i2, j1, j3]
  rw [this]

theorem measurable_zpow_neg_one : Measurable fun k : ℤ => ((-1 : ℝ)) ^ k := measurable_from_top

theorem measurable_binnedRatios {NI : ℝ} {tbl : List (VDef ℝ)} (z : ℕ) {G0 : Op → Op → ℝ} (hG : MeasurableG0 G0)
    {G : ℝ → ℕ → ℕ → ℕ → ℝ} (hGm : MeasurableG G) (β : ℝ) (n i a b : ℕ) :
    Measurable fun x : List Pt × ℝ => binnedRatios β n i G0 G z (rowsOf NI tbl (x.1.map vertAt) z) a b x.2 := by
  refine measurable_rows (f := fun l τ => binnedRatios β n i G0 G z l a b τ) fun N k => ?_
  unfold binnedRatios
  simp only [List.length_map]
  refine Finset.measurable_sum _ fun q hq => ?_
  have hq := Finset.mem_range.1 hq
  obtain ⟨zq, f, s1, s2, e, al, h⟩ := getD_pairs (NI := NI) q hq
  simp only [h]
  split
  · have ht : Measurable fun τ : (Fin N → ℝ) × ℝ => τ.1 zq.1 + τ.2 :=
      ((measurable_pi_apply zq.1).comp measurable_fst).add measurable_snd
    have hfl : Measurable fun τ : (Fin N → ℝ) × ℝ => ⌊(τ.1 zq.1 + τ.2) / β⌋ := Int.measurable_floor.comp (ht.div_const β)
    have hft : Measurable fun τ : (Fin N → ℝ) × ℝ => foldTime β (τ.1 zq.1 + τ.2) := by
      unfold foldTime
      have : Measurable fun k : ℤ => (k : ℝ) := measurable_from_top
      exact ht.sub ((this.comp hfl).mul_const β)
    have h1 : Measurable fun τ : (Fin N → ℝ) × ℝ => ((-1 : ℝ)) ^ ⌊(τ.1 zq.1 + τ.2) / β⌋ := measurable_zpow_neg_one.comp hfl
    have h2 : Measurable fun τ : (Fin N → ℝ) × ℝ => (if β * i / n ≤ foldTime β (τ.1 zq.1 + τ.2) ∧
        foldTime β (τ.1 zq.1 + τ.2) < β * (i + 1) / n then (n : ℝ) / β else 0) :=
      Measurable.ite ((measurableSet_le measurable_const hft).inter (measurableSet_lt hft measurable_const)) measurable_const measurable_const
    refine (h1.mul h2).mul (Measurable.div ?_ (measurable_detN fun i hi j hj => measurable_rowG hG hi hj))
    refine measurable_detN fun i' hi j hj => ?_
    unfold otherCreator withCol
    split
    · obtain ⟨zi, f', s1', s2', e', al', h'⟩ := getD_pairs (NI := NI) i' hi
      simp only [h']
      have : Measurable fun τ : (Fin N → ℝ) × ℝ => τ.1 zi.1 + τ.2 :=
        ((measurable_pi_apply zi.1).comp measurable_fst).add measurable_snd
      exact (hGm z s2' b).comp this
    · exact measurable_rowG hG hi hj
  · exact measurable_const

section

variable {K : Type} [RCLike K] [DecidableEq K] {c : Ctx K} {beta B : ℝ}

theorem otherCreator_le (hB : ∀ a b, ‖c.G0 a b‖ ≤ B) {G : ℝ → ℕ → ℕ → ℕ → K} (hBG : ∀ t z s1 s2, ‖G t z s1 s2‖ ≤ B) {x : List Pt}
    (hx : ValidPts beta c.tbl x) (z q b : ℕ) (t : ℝ) (i : ℕ) {j : ℕ} (hj : j < (rowsOf c.NI c.tbl (x.map vertAt) z).length) :
    ‖otherCreator c.G0 G z (rowsOf c.NI c.tbl (x.map vertAt) z) q b t i j‖ ≤ 1 + B + alphaBound c.tbl := by
  have h0 := alphaBound_nonneg c.tbl
  unfold otherCreator withCol
  split
  · linarith [hBG ((List.getD (rowsOf c.NI c.tbl (x.map vertAt) z) i default).an.time + t) z
      ((List.getD (rowsOf c.NI c.tbl (x.map vertAt) z) i default).an.site) b]
  · exact rowG_le hB hx z i hj

theorem weightOther_le (hB : ∀ a b, ‖c.G0 a b‖ ≤ B) {G : ℝ → ℕ → ℕ → ℕ → K} (hBG : ∀ t z s1 s2, ‖G t z s1 s2‖ ≤ B) {x : List Pt}
    (hx : ValidPts beta c.tbl x) (z q b : ℕ) (t : ℝ) :
    ‖weightOther c G z q b t (x.map vertAt)‖ ≤ detBound c B 0 x.length ^ c.nf * uBound c.tbl ^ x.length := by
  have hB0 : 0 ≤ B := le_trans (norm_nonneg _) (hB default default)
  have h0 := alphaBound_nonneg c.tbl
  unfold weightOther
  rw [norm_mul, interacting_vertAt, norm_prod]
  refine mul_le_mul ?_ (uWeight_le hx) (norm_nonneg _) (by unfold detBound; positivity)
  refine le_trans (Finset.prod_le_prod (fun _ _ => norm_nonneg _) fun fl _ => ?_) (le_of_eq (by rw [Finset.prod_const, Finset.card_range]))
  split
  · rename_i h
    subst h
    exact det_le_bound (e := 0) hB0 hx fl le_rfl fun i _ j hj => otherCreator_le hB hBG hx fl q b t i hj
  · exact det_le_bound (e := 0) hB0 hx fl le_rfl fun i _ j hj => rowG_le hB hx fl i hj

end

variable {c : Ctx ℝ} {beta B : ℝ}

theorem binnedWeights_le (hb : 0 < beta) (n i : ℕ) (hB : ∀ a b, ‖c.G0 a b‖ ≤ B) {G : ℝ → ℕ → ℕ → ℕ → ℝ}
    (hBG : ∀ t z s1 s2, ‖G t z s1 s2‖ ≤ B) {x : List Pt}
    (hx : ValidPts beta c.tbl x) (z a b : ℕ) (t : ℝ) :
    ‖binnedWeights c beta n i G z a b t (x.map vertAt)‖ ≤ (x.length * rankBound c.tbl : ℕ) *
      (n / beta * (detBound c B 0 x.length ^ c.nf * uBound c.tbl ^ x.length)) := by
  have hB0 : 0 ≤ B := le_trans (norm_nonneg _) (hB default default)
  have h0 := alphaBound_nonneg c.tbl
  have h2 := one_le_uBound c.tbl
  have hD : 0 ≤ detBound c B 0 x.length ^ c.nf * uBound c.tbl ^ x.length := by unfold detBound; positivity
  unfold binnedWeights
  rw [interacting_vertAt]
  refine le_trans (norm_sum_le _ _) ?_
  have hl := rowsOf_length_le hx z
  refine le_trans (Finset.sum_le_card_nsmul _ _ (n / beta * (detBound c B 0 x.length ^ c.nf * uBound c.tbl ^ x.length)) fun q _ => ?_) ?_
  · have hw := weightOther_le hB hBG hx z q b t
    split
    · rw [norm_mul, norm_mul, norm_zpow, norm_neg, norm_one, one_zpow, one_mul]
      refine mul_le_mul ?_ hw (norm_nonneg _) (by positivity)
      split
      · rw [Real.norm_of_nonneg (by positivity)]
      · rw [norm_zero]; positivity
    · rw [norm_zero]; positivity
  · rw [Finset.card_range, nsmul_eq_mul]
    exact mul_le_mul_of_nonneg_right (by exact_mod_cast hl) (by positivity)

/-- The weight times the ratios of determinants. -/
theorem wt_mul_ratios {z : ℕ} (hz : z < c.nf) (n i : ℕ) (G : ℝ → ℕ → ℕ → ℕ → ℝ) (a b : ℕ) (t : ℝ) (x : List Pt) :
    wt c x * binnedRatios beta n i c.G0 G z (rowsOf c.NI c.tbl (x.map vertAt) z) a b t =
      if wt c x = 0 then 0 else binnedWeights c beta n i G z a b t (x.map vertAt) := by
  split
  · rename_i h; rw [h, zero_mul]
  · rename_i h
    have hw : wt c x = detN (rowsOf c.NI c.tbl (x.map vertAt) z).length (rowG c.G0 (rowsOf c.NI c.tbl (x.map vertAt) z)) *
        (∏ fl ∈ (Finset.range c.nf).erase z, detN (rowsOf c.NI c.tbl (x.map vertAt) fl).length
          (rowG c.G0 (rowsOf c.NI c.tbl (x.map vertAt) fl))) * uWeight c.tbl (x.map vertAt) := by
      unfold wt weight detWeight
      rw [interacting_vertAt, ← Finset.mul_prod_erase _ _ (Finset.mem_range.2 hz)]
    have hd : detN (rowsOf c.NI c.tbl (x.map vertAt) z).length (rowG c.G0 (rowsOf c.NI c.tbl (x.map vertAt) z)) ≠ 0 := by
      intro h0
      rw [h0] at hw
      apply h
      rw [hw]; ring
    have he : ∀ q, weightOther c G z q b t (x.map vertAt) =
        detN (rowsOf c.NI c.tbl (x.map vertAt) z).length (otherCreator c.G0 G z (rowsOf c.NI c.tbl (x.map vertAt) z) q b t) *
        (∏ fl ∈ (Finset.range c.nf).erase z, detN (rowsOf c.NI c.tbl (x.map vertAt) fl).length
          (rowG c.G0 (rowsOf c.NI c.tbl (x.map vertAt) fl))) * uWeight c.tbl (x.map vertAt) := by
      intro q
      unfold weightOther
      rw [interacting_vertAt, ← Finset.mul_prod_erase _ _ (Finset.mem_range.2 hz), if_pos rfl]
      congr 2
      refine Finset.prod_congr rfl fun fl hfl => ?_
      rw [if_neg (Finset.ne_of_mem_erase hfl)]
    unfold binnedRatios binnedWeights
    rw [interacting_vertAt, Finset.mul_sum]
    refine Finset.sum_congr rfl fun q _ => ?_
    by_cases hs : ((rowsOf c.NI c.tbl (x.map vertAt) z).getD q default).cr.site = a
    · rw [if_pos hs, if_pos hs, hw, he]
      generalize ((-1 : ℝ) ^ ⌊(((rowsOf c.NI c.tbl (x.map vertAt) z).getD q default).cr.time + t) / beta⌋) = g1
      generalize (if beta * i / n ≤ foldTime beta (((rowsOf c.NI c.tbl (x.map vertAt) z).getD q default).cr.time + t) ∧
          foldTime beta (((rowsOf c.NI c.tbl (x.map vertAt) z).getD q default).cr.time + t) < beta * (i + 1) / n then (n : ℝ) / beta else 0) = g2
      field_simp
    · rw [if_neg hs, if_neg hs, mul_zero]

end CTInt
