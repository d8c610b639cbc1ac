import Verif.Proofs.FockSigmaLimit
import Verif.Proofs.SelfComplex
import Verif.Proofs.BinLimit
import Verif.Spec.FockMotion

/-!
# The sums over configurations depend continuously on the Green's functions
-/

set_option linter.all false

namespace CTInt

open MeasureTheory Filter Matrix

variable {K : Type} [RCLike K] [DecidableEq K]

/-! ## Sums over configurations -/

/-- Dominated convergence for the sum over configurations of an average over a time. -/
theorem configSum_tendsto {c : Ctx K} {β : ℝ} (hβ : 0 < β) {W : ℕ → List Pt → ℝ → K} {W0 : List Pt → ℝ → K}
    (hm : ∀ k, Measurable fun p : List Pt × ℝ => W k p.1 p.2) {C : ℕ → ℝ}
    (hb : ∀ k x t, ValidPts β c.tbl x → ‖W k x t‖ ≤ C x.length)
    (hl : ∀ x, ValidPts β c.tbl x → ∀ t, Tendsto (fun k => W k x t) atTop (nhds (W0 x t))) (M : ℕ) (L : K →L[ℝ] ℝ) :
    Tendsto (fun k => configSum c β M fun x => L (((1 / β : ℝ) : K) * ∫ t in (0 : ℝ)..β, W k x t)) atTop
      (nhds (configSum c β M fun x => L (((1 / β : ℝ) : K) * ∫ t in (0 : ℝ)..β, W0 x t))) := by
  unfold configSum
  refine tendsto_finset_sum _ fun n _ => Tendsto.const_mul _ ?_
  have hI : ∀ k x, ValidPts β c.tbl x → ‖∫ t in (0 : ℝ)..β, W k x t‖ ≤ C x.length * |β - 0| := fun k x hx =>
    intervalIntegral.norm_integral_le_of_norm_le_const fun t _ => hb k x t hx
  refine tendsto_integral_of_dominated_convergence (fun _ => ‖L‖ * (1 / β * (C n * |β - 0|))) (fun k => ?_) (integrable_const _) (fun k => ?_) ?_
  · have h1 : Measurable fun x : Fin n → Pt => stateProd c.tbl (List.ofFn x) := (measurable_stateProd c.tbl).comp (measurable_ofFn n)
    have h2 : StronglyMeasurable fun x : List Pt => ∫ t in Set.Ioc 0 β, W k x t :=
      StronglyMeasurable.integral_prod_right (f := fun x t => W k x t) (hm k).stronglyMeasurable
    have h3 : Measurable fun x : Fin n → Pt => L (((1 / β : ℝ) : K) * ∫ t in (0 : ℝ)..β, W k (List.ofFn x) t) := by
      simp only [intervalIntegral.integral_of_le hβ.le]
      exact L.continuous.measurable.comp ((h2.measurable.comp (measurable_ofFn n)).const_mul _)
    exact (h1.mul h3).aestronglyMeasurable
  · filter_upwards [ae_validPts β c.tbl n] with x hx
    have h0 := stateProd_nonneg c.tbl (List.ofFn x)
    have h1 := stateProd_le c.tbl (List.ofFn x)
    have hlen : (List.ofFn x).length = n := List.length_ofFn
    have h2 := hI k _ hx
    rw [hlen] at h2
    show ‖stateProd c.tbl (List.ofFn x) * _‖ ≤ _
    rw [norm_mul, Real.norm_of_nonneg h0]
    refine (mul_le_of_le_one_left (norm_nonneg _) h1).trans ((L.le_opNorm _).trans (mul_le_mul_of_nonneg_left ?_ (norm_nonneg _)))
    rw [norm_mul, RCLike.norm_ofReal, abs_of_pos (by positivity)]
    exact mul_le_mul_of_nonneg_left h2 (by positivity)
  · filter_upwards [ae_validPts β c.tbl n] with x hx
    refine Tendsto.const_mul _ ((L.continuous.tendsto _).comp (Tendsto.const_mul _ ?_))
    refine intervalIntegral.tendsto_integral_filter_of_dominated_convergence (fun _ => C (List.ofFn x).length) (Eventually.of_forall fun k => ?_)
      (Eventually.of_forall fun k => Eventually.of_forall fun t _ => hb k _ t hx) (by simp) (Eventually.of_forall fun t _ => hl _ hx t)
    exact ((hm k).comp (measurable_const.prodMk measurable_id)).aestronglyMeasurable

/-! ## Determinants -/

theorem detN_tendsto {n : ℕ} {g : ℕ → ℕ → ℕ → K} {g0 : ℕ → ℕ → K} (h : ∀ i < n, ∀ j < n, Tendsto (fun k => g k i j) atTop (nhds (g0 i j))) :
    Tendsto (fun k => detN n (g k)) atTop (nhds (detN n g0)) := by
  unfold detN
  have hc : Continuous fun A : Matrix (Fin n) (Fin n) K => A.det := Continuous.matrix_det continuous_id
  refine (hc.tendsto _).comp ?_
  refine tendsto_pi_nhds.2 fun i => tendsto_pi_nhds.2 fun j => ?_
  exact h i i.2 j j.2

/-- The Green's functions of a sequence of runs approach a limit, for all operators that occur. -/
structure Nears (β : ℝ) (nf ns : ℕ) (g : ℕ → Op → Op → K) (G : ℕ → ℝ → ℕ → ℕ → ℕ → K) (g0 : Op → Op → K) (G0 : ℝ → ℕ → ℕ → ℕ → K) : Prop where
  lim : ∀ a b : Op, a.flavor = b.flavor → a.flavor < nf → a.site < ns → b.site < ns → a.time ∈ Set.Ico 0 β → b.time ∈ Set.Ico 0 β →
    Tendsto (fun k => g k a b) atTop (nhds (g0 a b))
  limG : ∀ t, ∀ z < nf, ∀ s < ns, ∀ s' < ns, Tendsto (fun k => G k t z s s') atTop (nhds (G0 t z s s'))

/-- They are measurable and bounded. -/
structure Tame (g : Op → Op → K) (G : ℝ → ℕ → ℕ → ℕ → K) (B : ℝ) : Prop where
  meas : MeasurableG0 g
  measG : MeasurableG G
  bound : ∀ a b, ‖g a b‖ ≤ B
  boundG : ∀ t z s s', ‖G t z s s'‖ ≤ B

section

variable {c : Ctx K} {β B : ℝ} {ns : ℕ} {g : ℕ → Op → Op → K} {G : ℕ → ℝ → ℕ → ℕ → ℕ → K} {G0 : ℝ → ℕ → ℕ → ℕ → K}

theorem rowsOf_at (hT : TermsOn c.nf ns c.tbl) {x : List Pt} (hx : ValidPts β c.tbl x) {z i : ℕ} (hi : i < (rowsOf c.NI c.tbl (x.map vertAt) z).length) :
    RowAt β c.nf ns ((rowsOf c.NI c.tbl (x.map vertAt) z).getD i default) ∧ ((rowsOf c.NI c.tbl (x.map vertAt) z).getD i default).cr.flavor = z := by
  have hm : (rowsOf c.NI c.tbl (x.map vertAt) z).getD i default ∈ rowsOf c.NI c.tbl (x.map vertAt) z := by
    rw [List.getD_eq_getElem _ _ hi]
    exact List.getElem_mem hi
  rw [rowsOf_filter c.NI c.tbl (x.map vertAt) z, List.mem_filter, List.flatMap_map] at hm
  rw [rowsOf_filter c.NI c.tbl (x.map vertAt) z, List.flatMap_map]
  exact ⟨(allRows_at hT hx hm.1).1, of_decide_eq_true hm.2⟩

variable (h : Nears β c.nf ns g G c.G0 G0) (hT : TermsOn c.nf ns c.tbl)
include h hT

theorem rowG_tendsto {x : List Pt} (hx : ValidPts β c.tbl x) {z i j : ℕ} (hi : i < (rowsOf c.NI c.tbl (x.map vertAt) z).length)
    (hj : j < (rowsOf c.NI c.tbl (x.map vertAt) z).length) :
    Tendsto (fun k => rowG (g k) (rowsOf c.NI c.tbl (x.map vertAt) z) i j) atTop (nhds (rowG c.G0 (rowsOf c.NI c.tbl (x.map vertAt) z) i j)) := by
  obtain ⟨ri, fi⟩ := rowsOf_at hT hx hi
  obtain ⟨rj, fj⟩ := rowsOf_at hT hx hj
  unfold rowG specG
  beta_reduce
  refine Tendsto.sub_const (h.lim _ _ ?_ ?_ ri.an rj.cr ?_ rj.time) _
  · rw [ri.same, fi, fj]
  · rw [ri.same]; exact ri.flavor
  · rw [ri.time']; exact ri.time

theorem weight_tendsto {x : List Pt} (hx : ValidPts β c.tbl x) :
    Tendsto (fun k => weight c.NI c.nf (g k) c.tbl (x.map vertAt)) atTop (nhds (weight c.NI c.nf c.G0 c.tbl (x.map vertAt))) := by
  unfold weight detWeight
  rw [interacting_vertAt]
  refine Tendsto.mul_const _ (tendsto_finset_prod _ fun fl _ => ?_)
  exact detN_tendsto fun i hi j hj => rowG_tendsto h hT hx hi hj

theorem extra_tendsto {x : List Pt} (hx : ValidPts β c.tbl x) {z s s2 : ℕ} (hz : z < c.nf) (hs : s < ns) (hs2 : s2 < ns) (ε τ : ℝ) :
    Tendsto (fun k => weightExtra { c with G0 := g k } (G k) z ε τ s s2 (x.map vertAt)) atTop (nhds (weightExtra c G0 z ε τ s s2 (x.map vertAt))) := by
  unfold weightExtra
  simp only [interacting_vertAt]
  refine Tendsto.mul_const _ (tendsto_finset_prod _ fun fl _ => ?_)
  by_cases e : fl = z
  · subst e
    simp only [if_true]
    refine detN_tendsto fun i hi j hj => ?_
    unfold extraPair
    by_cases h1 : i < (rowsOf c.NI c.tbl (x.map vertAt) fl).length <;> by_cases h2 : j < (rowsOf c.NI c.tbl (x.map vertAt) fl).length
    · simp only [if_pos h1, if_pos h2]
      exact rowG_tendsto h hT hx h1 h2
    · simp only [if_pos h1, if_neg h2]
      exact h.limG _ _ hz _ (rowsOf_at hT hx h1).1.an _ hs
    · simp only [if_neg h1, if_pos h2]
      exact h.limG _ _ hz _ hs2 _ (rowsOf_at hT hx h2).1.cr
    · simp only [if_neg h1, if_neg h2]
      exact h.limG _ _ hz _ hs2 _ hs
  · simp only [if_neg e]
    exact detN_tendsto fun i hi j hj => rowG_tendsto h hT hx hi hj

theorem other_tendsto {x : List Pt} (hx : ValidPts β c.tbl x) {z q b : ℕ} (hz : z < c.nf) (hb : b < ns) (t : ℝ) :
    Tendsto (fun k => weightOther { c with G0 := g k } (G k) z q b t (x.map vertAt)) atTop (nhds (weightOther c G0 z q b t (x.map vertAt))) := by
  unfold weightOther
  simp only [interacting_vertAt]
  refine Tendsto.mul_const _ (tendsto_finset_prod _ fun fl _ => ?_)
  by_cases e : fl = z
  · subst e
    simp only [if_true]
    refine detN_tendsto fun i hi j hj => ?_
    unfold otherCreator withCol
    by_cases h1 : j = q
    · simp only [if_pos h1]
      exact h.limG _ _ hz _ (rowsOf_at hT hx hi).1.an _ hb
    · simp only [if_neg h1]
      exact rowG_tendsto h hT hx hi hj
  · simp only [if_neg e]
    exact detN_tendsto fun i hi j hj => rowG_tendsto h hT hx hi hj

theorem binned_tendsto {x : List Pt} (hx : ValidPts β c.tbl x) {z a b : ℕ} (hz : z < c.nf) (hb : b < ns) (m i : ℕ) (t : ℝ) :
    Tendsto (fun k => binnedSum { c with G0 := g k } β m i (G k) z a b t (x.map vertAt)) atTop (nhds (binnedSum c β m i G0 z a b t (x.map vertAt))) := by
  unfold binnedSum
  simp only [interacting_vertAt]
  refine tendsto_finset_sum _ fun q _ => ?_
  by_cases e : ((rowsOf c.NI c.tbl (x.map vertAt) z).getD q default).cr.site = a
  · simp only [if_pos e]
    exact Tendsto.const_mul _ (other_tendsto h hT hx hz hb t)
  · simp only [if_neg e]
    exact tendsto_const_nhds

/-! ## Partition function, densities, self-energy -/

omit h hT in
theorem complex_tendsto {x y : ℕ → ℝ} {a b : ℝ} (h1 : Tendsto x atTop (nhds a)) (h2 : Tendsto y atTop (nhds b)) :
    Tendsto (fun k => (⟨x k, y k⟩ : ℂ)) atTop (nhds ⟨a, b⟩) :=
  (Complex.equivRealProdCLM.symm.continuous.tendsto (a, b)).comp (h1.prodMk_nhds h2)

theorem partition_tendsto (hB : ∀ k, Tame (g k) (G k) B) (hβ : 0 < β) (M : ℕ) :
    Tendsto (fun k => partitionC { c with G0 := g k } β M) atTop (nhds (partitionC c β M)) := by
  have e : ∀ w : K, ((1 / β : ℝ) : K) * ∫ t in (0 : ℝ)..β, w = w := by
    intro w
    rw [intervalIntegral.integral_const, sub_zero, RCLike.real_smul_eq_coe_mul, ← mul_assoc, ← RCLike.ofReal_mul, one_div, inv_mul_cancel₀ hβ.ne', RCLike.ofReal_one, one_mul]
  have key : ∀ L : K →L[ℝ] ℝ, _ := fun L => configSum_tendsto (c := c) hβ (W := fun k x _ => weight c.NI c.nf (g k) c.tbl (x.map vertAt))
    (W0 := fun x _ => weight c.NI c.nf c.G0 c.tbl (x.map vertAt))
    (fun k => (measurable_wt (c := { c with G0 := g k }) (hB k).meas).comp measurable_fst)
    (C := fun n => ((n * rankBound c.tbl).factorial * (1 + B + alphaBound c.tbl) ^ (n * rankBound c.tbl)) ^ c.nf * uBound c.tbl ^ n)
    (fun k x t hx => wt_le (c := { c with G0 := g k }) (hB k).bound hx) (fun x hx t => weight_tendsto h hT hx) M L
  simp only [e] at key
  exact complex_tendsto (key RCLike.reCLM) (key RCLike.imCLM)

omit h hT in
theorem measurable_extra {c : Ctx K} {G : ℝ → ℕ → ℕ → ℕ → K} (hG0 : MeasurableG0 c.G0) (hGm : MeasurableG G) (z : ℕ) (ε : ℝ) (s s2 : ℕ) :
    Measurable fun p : List Pt × ℝ => weightExtra c G z ε p.2 s s2 (p.1.map vertAt) := by
  simp only [weightExtra_opt]
  exact measurable_optWeight hG0 hGm ε _

theorem density_tendsto (hB : ∀ k, Tame (g k) (G k) B) (hβ : 0 < β) (M : ℕ) {z s s2 : ℕ} (hz : z < c.nf) (hs : s < ns) (hs2 : s2 < ns) (ε : ℝ) :
    Tendsto (fun k => configSumC { c with G0 := g k } β M fun vs => ((1 / β : ℝ) : K) * ∫ τ in (0 : ℝ)..β, weightExtra { c with G0 := g k } (G k) z ε τ s s2 vs)
      atTop (nhds (configSumC c β M fun vs => ((1 / β : ℝ) : K) * ∫ τ in (0 : ℝ)..β, weightExtra c G0 z ε τ s s2 vs)) := by
  have key : ∀ L : K →L[ℝ] ℝ, _ := fun L => configSum_tendsto (c := c) hβ (W := fun k x τ => weightExtra { c with G0 := g k } (G k) z ε τ s s2 (x.map vertAt))
    (W0 := fun x τ => weightExtra c G0 z ε τ s s2 (x.map vertAt))
    (fun k => measurable_extra (c := { c with G0 := g k }) (hB k).meas (hB k).measG z ε s s2) (C := fun n => detBound c B 1 n ^ c.nf * uBound c.tbl ^ n)
    (fun k x t hx => weightExtra_le (c := { c with G0 := g k }) (hB k).bound (hB k).boundG hx z ε t s s2)
    (fun x hx τ => extra_tendsto h hT hx hz hs hs2 ε τ) M L
  exact complex_tendsto (key RCLike.reCLM) (key RCLike.imCLM)

omit h hT in
/-- The part of flavor `z` in the sum over the creators. -/
noncomputable def binnedDets (β : ℝ) (n i : ℕ) (G0 : Op → Op → K) (G : ℝ → ℕ → ℕ → ℕ → K) (z : ℕ) (l : List (OpRow K)) (a b : ℕ) (t : ℝ) : K :=
  ∑ q ∈ Finset.range l.length, if (l.getD q default).cr.site = a then
    (((-1) ^ ⌊((l.getD q default).cr.time + t) / β⌋ * (if β * i / n ≤ foldTime β ((l.getD q default).cr.time + t) ∧
      foldTime β ((l.getD q default).cr.time + t) < β * (i + 1) / n then n / β else 0) : ℝ) : K) * detN l.length (otherCreator G0 G z l q b t)
  else 0

omit h hT in
theorem measurable_binnedDets {NI : K} {tbl : List (VDef K)} (z : ℕ) {G0 : Op → Op → K} (hG : MeasurableG0 G0)
    {G : ℝ → ℕ → ℕ → ℕ → K} (hGm : MeasurableG G) (β : ℝ) (n i a b : ℕ) :
    Measurable fun x : List Pt × ℝ => binnedDets β n i G0 G z (rowsOf NI tbl (x.1.map vertAt) z) a b x.2 := by
  refine measurable_rows (f := fun l τ => binnedDets β n i G0 G z l a b τ) fun N k => ?_
  unfold binnedDets
  simp only [List.length_map]
  refine Finset.measurable_sum _ fun q hq => ?_
  have hq := Finset.mem_range.1 hq
  obtain ⟨zq, f, s1, s2, e, al, h⟩ := getD_pairs (NI := NI) q hq
  simp only [h]
  split
  · have ht : Measurable fun τ : (Fin N → ℝ) × ℝ => τ.1 zq.1 + τ.2 :=
      ((measurable_pi_apply zq.1).comp measurable_fst).add measurable_snd
    have hfl : Measurable fun τ : (Fin N → ℝ) × ℝ => ⌊(τ.1 zq.1 + τ.2) / β⌋ := Int.measurable_floor.comp (ht.div_const β)
    have hft : Measurable fun τ : (Fin N → ℝ) × ℝ => foldTime β (τ.1 zq.1 + τ.2) := by
      unfold foldTime
      have : Measurable fun k : ℤ => (k : ℝ) := measurable_from_top
      exact ht.sub ((this.comp hfl).mul_const β)
    have h1 : Measurable fun τ : (Fin N → ℝ) × ℝ => ((-1 : ℝ)) ^ ⌊(τ.1 zq.1 + τ.2) / β⌋ := measurable_zpow_neg_one.comp hfl
    have h2 : Measurable fun τ : (Fin N → ℝ) × ℝ => (if β * i / n ≤ foldTime β (τ.1 zq.1 + τ.2) ∧
        foldTime β (τ.1 zq.1 + τ.2) < β * (i + 1) / n then (n : ℝ) / β else 0) :=
      Measurable.ite ((measurableSet_le measurable_const hft).inter (measurableSet_lt hft measurable_const)) measurable_const measurable_const
    refine (RCLike.measurable_ofReal.comp (h1.mul h2)).mul ?_
    refine measurable_detN fun i' hi j hj => ?_
    unfold otherCreator withCol
    split
    · obtain ⟨zi, f', s1', s2', e', al', h'⟩ := getD_pairs (NI := NI) i' hi
      simp only [h']
      have : Measurable fun τ : (Fin N → ℝ) × ℝ => τ.1 zi.1 + τ.2 :=
        ((measurable_pi_apply zi.1).comp measurable_fst).add measurable_snd
      exact (hGm z s2' b).comp this
    · exact measurable_rowG hG hi hj
  · exact measurable_const

omit h hT in
theorem measurable_binned {c : Ctx K} {G : ℝ → ℕ → ℕ → ℕ → K} (hG0 : MeasurableG0 c.G0) (hGm : MeasurableG G) (β : ℝ) (n i : ℕ) {z : ℕ} (hz : z < c.nf) (a b : ℕ) :
    Measurable fun p : List Pt × ℝ => binnedSum c β n i G z a b p.2 (p.1.map vertAt) := by
  have e : ∀ p : List Pt × ℝ, binnedSum c β n i G z a b p.2 (p.1.map vertAt) =
      binnedDets β n i c.G0 G z (rowsOf c.NI c.tbl (p.1.map vertAt) z) a b p.2 *
        ((∏ fl ∈ (Finset.range c.nf).erase z, detN (rowsOf c.NI c.tbl (p.1.map vertAt) fl).length (rowG c.G0 (rowsOf c.NI c.tbl (p.1.map vertAt) fl))) *
          uWeight c.tbl (p.1.map vertAt)) := by
    intro p
    unfold binnedSum binnedDets weightOther
    simp only [interacting_vertAt]
    rw [Finset.sum_mul]
    refine Finset.sum_congr rfl fun q _ => ?_
    split
    · rw [← Finset.mul_prod_erase _ _ (Finset.mem_range.2 hz), if_pos rfl]
      have : ∀ fl ∈ (Finset.range c.nf).erase z, (if fl = z then
          detN (rowsOf c.NI c.tbl (p.1.map vertAt) fl).length (otherCreator c.G0 G z (rowsOf c.NI c.tbl (p.1.map vertAt) fl) q b p.2)
          else detN (rowsOf c.NI c.tbl (p.1.map vertAt) fl).length (rowG c.G0 (rowsOf c.NI c.tbl (p.1.map vertAt) fl))) =
          detN (rowsOf c.NI c.tbl (p.1.map vertAt) fl).length (rowG c.G0 (rowsOf c.NI c.tbl (p.1.map vertAt) fl)) :=
        fun fl hfl => if_neg (Finset.ne_of_mem_erase hfl)
      rw [Finset.prod_congr rfl this]
      ring
    · rw [zero_mul]
  simp only [e]
  refine (measurable_binnedDets z hG0 hGm β n i a b).mul (Measurable.mul (Finset.measurable_prod _ fun fl _ => ?_) ((measurable_uWeight c).comp measurable_fst))
  refine measurable_rows (f := fun l (_ : ℝ) => detN l.length (rowG c.G0 l)) fun N k => ?_
  simp only [List.length_map]
  exact measurable_detN fun i hi j hj => measurable_rowG hG0 hi hj

theorem sigma_tendsto (hB : ∀ k, Tame (g k) (G k) B) (hβ : 0 < β) (M m : ℕ) {z A b : ℕ} (hz : z < c.nf) (hb : b < ns) (i : ℕ) :
    Tendsto (fun k => sigmaSum { c with G0 := g k } (G k) β M m z A b i) atTop (nhds (sigmaSum c G0 β M m z A b i)) := by
  have key : ∀ L : K →L[ℝ] ℝ, _ := fun L => configSum_tendsto (c := c) hβ (W := fun k x t => binnedSum { c with G0 := g k } β m i (G k) z A b t (x.map vertAt))
    (W0 := fun x t => binnedSum c β m i G0 z A b t (x.map vertAt))
    (fun k => measurable_binned (c := { c with G0 := g k }) (hB k).meas (hB k).measG β m i hz A b)
    (C := fun n => (n * rankBound c.tbl : ℕ) * (m / β * (detBound c B 0 n ^ c.nf * uBound c.tbl ^ n)))
    (fun k x t hx => binnedSum_le (c := { c with G0 := g k }) hβ m i (hB k).bound (hB k).boundG hx z A b t)
    (fun x hx t => binned_tendsto h hT hx hz hb m i t) M L
  exact complex_tendsto (key RCLike.reCLM) (key RCLike.imCLM)

theorem written_tendsto (hB : ∀ k, Tame (g k) (G k) B) (hβ : 0 < β) (M m nl : ℕ) (hZ : partitionC c β M ≠ 0) {z A b : ℕ} (hz : z < c.nf) (hb : b < ns) (j : ℕ) :
    Tendsto (fun k => writtenOmega { c with G0 := g k } (G k) β M m nl z A b j) atTop (nhds (writtenOmega c G0 β M m nl z A b j)) := by
  refine fourier_expansion_coeffs nl j fun l _ => ?_
  refine Tendsto.div ?_ (partition_tendsto h hT hB hβ M) hZ
  exact tendsto_finset_sum _ fun i _ => ((sigma_tendsto h hT hB hβ M m hz hb i).const_mul _).mul_const _

omit h hT in
theorem configSumC_congr {F F' : List Vert → K} (M : ℕ) (e : ∀ x, ValidPts β c.tbl x → F (x.map vertAt) = F' (x.map vertAt)) :
    configSumC c β M F = configSumC c β M F' := by
  have key : ∀ L : K →L[ℝ] ℝ, (configSum c β M fun x => L (F (x.map vertAt))) = configSum c β M fun x => L (F' (x.map vertAt)) := by
    intro L
    unfold configSum
    refine Finset.sum_congr rfl fun n _ => congrArg _ (integral_congr_ae ?_)
    filter_upwards [ae_validPts β c.tbl n] with x hx
    rw [e _ hx]
  exact Complex.ext (key RCLike.reCLM) (key RCLike.imCLM)

section
omit h

variable {G1 : ℝ → ℕ → ℕ → ℕ → K} (e : ∀ t, ∀ z < c.nf, ∀ s < ns, ∀ s' < ns, G1 t z s s' = G0 t z s s')
include e

omit hT in
theorem nears_const : Nears β c.nf ns (fun _ => c.G0) (fun _ => G1) c.G0 G0 :=
  ⟨fun _ _ _ _ _ _ _ _ => tendsto_const_nhds, fun t z hz s hs s' hs' => by rw [← e t z hz s hs s' hs']; exact tendsto_const_nhds⟩

theorem density_congr (M : ℕ) {z s s2 : ℕ} (hz : z < c.nf) (hs : s < ns) (hs2 : s2 < ns) (ε : ℝ) :
    (configSumC c β M fun vs => ((1 / β : ℝ) : K) * ∫ τ in (0 : ℝ)..β, weightExtra c G1 z ε τ s s2 vs) =
      configSumC c β M fun vs => ((1 / β : ℝ) : K) * ∫ τ in (0 : ℝ)..β, weightExtra c G0 z ε τ s s2 vs := by
  refine configSumC_congr M fun x hx => congrArg _ (intervalIntegral.integral_congr fun τ _ => ?_)
  exact tendsto_nhds_unique tendsto_const_nhds (extra_tendsto (nears_const e) hT hx hz hs hs2 ε τ)

theorem written_congr (M m nl : ℕ) {z A b : ℕ} (hz : z < c.nf) (hb : b < ns) (j : ℕ) :
    writtenOmega c G1 β M m nl z A b j = writtenOmega c G0 β M m nl z A b j := by
  have es : ∀ i, sigmaSum c G1 β M m z A b i = sigmaSum c G0 β M m z A b i := by
    intro i
    refine configSumC_congr M fun x hx => congrArg _ (intervalIntegral.integral_congr fun t _ => ?_)
    exact tendsto_nhds_unique tendsto_const_nhds (binned_tendsto (nears_const e) hT hx hz hb m i t)
  unfold writtenOmega sigmaSumLegendre
  simp only [es]

end

/-! ## Closeness -/

end

/-- Two pairs of Green's functions differ by at most `ε` for all operators that occur. -/
structure Within (ε β : ℝ) (nf ns : ℕ) (g : Op → Op → K) (G : ℝ → ℕ → ℕ → ℕ → K) (g0 : Op → Op → K) (G0 : ℝ → ℕ → ℕ → ℕ → K) : Prop where
  ops : ∀ a b : Op, a.flavor = b.flavor → a.flavor < nf → a.site < ns → b.site < ns → a.time ∈ Set.Ico 0 β → b.time ∈ Set.Ico 0 β →
    ‖g a b - g0 a b‖ ≤ ε
  time : ∀ t, ∀ z < nf, ∀ s < ns, ∀ s' < ns, ‖G t z s s' - G0 t z s s'‖ ≤ ε

/-- What is continuous along sequences is so uniformly. -/
theorem within_of_tendsto {β B : ℝ} {nf ns : ℕ} {g0 : Op → Op → K} {G0 : ℝ → ℕ → ℕ → ℕ → K} {Φ : (Op → Op → K) → (ℝ → ℕ → ℕ → ℕ → K) → ℂ} {w : ℂ}
    (h : ∀ g G, Nears β nf ns g G g0 G0 → (∀ k, Tame (g k) (G k) B) → Tendsto (fun k => Φ (g k) (G k)) atTop (nhds w)) {ε : ℝ} (hε : 0 < ε) :
    ∃ δ > 0, ∀ g G, Tame g G B → Within δ β nf ns g G g0 G0 → ‖Φ g G - w‖ < ε := by
  by_contra hc
  push Not at hc
  have hk : ∀ k : ℕ, (0 : ℝ) < 1 / ((k : ℝ) + 1) := fun k => by positivity
  choose g G hB hw hbad using fun k => hc _ (hk k)
  have hn : Nears β nf ns g G g0 G0 := by
    constructor
    · intro a b h1 h2 h3 h4 h5 h6
      rw [tendsto_iff_norm_sub_tendsto_zero]
      exact squeeze_zero (fun _ => norm_nonneg _) (fun k => (hw k).ops a b h1 h2 h3 h4 h5 h6) tendsto_one_div_add_atTop_nhds_zero_nat
    · intro t z hz s hs s' hs'
      rw [tendsto_iff_norm_sub_tendsto_zero]
      exact squeeze_zero (fun _ => norm_nonneg _) (fun k => (hw k).time t z hz s hs s' hs') tendsto_one_div_add_atTop_nhds_zero_nat
  have h1 := h g G hn hB
  rw [tendsto_iff_norm_sub_tendsto_zero] at h1
  have h2 := h1.eventually (gt_mem_nhds hε)
  obtain ⟨k, hk⟩ := h2.exists
  exact absurd hk (not_lt.2 (hbad k))

end CTInt
