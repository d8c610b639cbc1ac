import Verif.Props.FockGrid
import Verif.Props.FockPair
import Verif.Proofs.TwoDensities

/-!
# C100: products of densities
-/

set_option linter.all false

namespace CTInt

open NormedSpace Matrix Filter

section
variable {K : Type} [RCLike K] [DecidableEq K] {c : Ctx K} {β B : ℝ} {ns : ℕ} {g : ℕ → Op → Op → K} {G : ℕ → ℝ → ℕ → ℕ → ℕ → K} {G0 : ℝ → ℕ → ℕ → ℕ → K}

theorem extraDet_tendsto (h : Nears β c.nf ns g G c.G0 G0) (hT : TermsOn c.nf ns c.tbl) {x : List Pt} (hx : ValidPts β c.tbl x) {z s s2 : ℕ} (hz : z < c.nf)
    (hs : s < ns) (hs2 : s2 < ns) (ε τ : ℝ) :
    Tendsto (fun k => detN ((rowsOf c.NI c.tbl (x.map vertAt) z).length + 1) (extraPair (g k) (G k) z (rowsOf c.NI c.tbl (x.map vertAt) z) ε τ s s2)) atTop
      (nhds (detN ((rowsOf c.NI c.tbl (x.map vertAt) z).length + 1) (extraPair c.G0 G0 z (rowsOf c.NI c.tbl (x.map vertAt) z) ε τ s s2))) := by
  refine detN_tendsto fun i hi j hj => ?_
  unfold extraPair
  by_cases h1 : i < (rowsOf c.NI c.tbl (x.map vertAt) z).length <;> by_cases h2 : j < (rowsOf c.NI c.tbl (x.map vertAt) z).length
  · simp only [if_pos h1, if_pos h2]
    exact rowG_tendsto h hT hx h1 h2
  · simp only [if_pos h1, if_neg h2]
    exact h.limG _ _ hz _ (rowsOf_at hT hx h1).1.an _ hs
  · simp only [if_neg h1, if_pos h2]
    exact h.limG _ _ hz _ hs2 _ (rowsOf_at hT hx h2).1.cr
  · simp only [if_neg h1, if_neg h2]
    exact h.limG _ _ hz _ hs2 _ hs

theorem two_tendsto (h : Nears β c.nf ns g G c.G0 G0) (hT : TermsOn c.nf ns c.tbl) {x : List Pt} (hx : ValidPts β c.tbl x) {f1 i f2 j : ℕ} (h1 : f1 < c.nf)
    (hi : i < ns) (h2 : f2 < c.nf) (hj : j < ns) (ε τ : ℝ) :
    Tendsto (fun k => weightTwo { c with G0 := g k } (G k) ε τ f1 i f2 j (x.map vertAt)) atTop (nhds (weightTwo c G0 ε τ f1 i f2 j (x.map vertAt))) := by
  unfold weightTwo
  simp only [interacting_vertAt]
  refine Tendsto.mul_const _ (tendsto_finset_prod _ fun fl _ => ?_)
  have hpl : Tendsto (fun k => detN (rowsOf c.NI c.tbl (x.map vertAt) fl).length (rowG (g k) (rowsOf c.NI c.tbl (x.map vertAt) fl))) atTop
      (nhds (detN (rowsOf c.NI c.tbl (x.map vertAt) fl).length (rowG c.G0 (rowsOf c.NI c.tbl (x.map vertAt) fl)))) :=
    detN_tendsto fun i hi j hj => rowG_tendsto h hT hx hi hj
  by_cases e : f1 = f2
  · simp only [if_pos e]
    by_cases e1 : fl = f1
    · subst e1
      simp only [if_true]
      by_cases e2 : i = j
      · simp only [if_pos e2]
        exact extraDet_tendsto h hT hx h1 hi hi ε τ
      · simp only [if_neg e2]
        refine detN_tendsto fun p hp q hq => ?_
        have hs : ∀ k, (if k = (rowsOf c.NI c.tbl (x.map vertAt) fl).length then i else j) < ns := fun k => by split <;> assumption
        unfold twoPairs
        by_cases h1' : p < (rowsOf c.NI c.tbl (x.map vertAt) fl).length <;> by_cases h2' : q < (rowsOf c.NI c.tbl (x.map vertAt) fl).length
        · simp only [if_pos h1', if_pos h2']
          exact rowG_tendsto h hT hx h1' h2'
        · simp only [if_pos h1', if_neg h2']
          exact h.limG _ _ h1 _ (rowsOf_at hT hx h1').1.an _ (hs _)
        · simp only [if_neg h1', if_pos h2']
          exact h.limG _ _ h1 _ (hs _) _ (rowsOf_at hT hx h2').1.cr
        · simp only [if_neg h1', if_neg h2']
          exact h.limG _ _ h1 _ (hs _) _ (hs _)
    · simp only [if_neg e1]
      exact hpl
  · simp only [if_neg e]
    by_cases e1 : fl = f1
    · subst e1
      simp only [if_true]
      exact extraDet_tendsto h hT hx h1 hi hi ε τ
    · simp only [if_neg e1]
      by_cases e2 : fl = f2
      · subst e2
        simp only [if_true]
        exact extraDet_tendsto h hT hx h2 hj hj ε τ
      · simp only [if_neg e2]
        exact hpl

end

theorem weightTwo_square (c : Ctx ℝ) (G : ℝ → ℕ → ℕ → ℕ → ℝ) (ε τ : ℝ) (z s : ℕ) (vs : List Vert) : weightTwo c G ε τ z s z s vs = weightExtra c G z ε τ s s vs := by
  unfold weightExtra weightTwo
  congr 1
  refine Finset.prod_congr rfl fun fl _ => ?_
  rw [if_pos rfl, if_pos rfl]
  by_cases q : fl = z
  · subst q
    rw [if_pos rfl]
  · rw [if_neg q, if_neg q]

theorem measurable_two {c : Ctx ℝ} {G : ℝ → ℕ → ℕ → ℕ → ℝ} (hG0 : MeasurableG0 c.G0) (hGm : MeasurableG G) (ε : ℝ) (f1 i f2 j : ℕ) :
    Measurable fun p : List Pt × ℝ => weightTwo c G ε p.2 f1 i f2 j (p.1.map vertAt) := by
  by_cases e : f1 = f2
  · subst e
    by_cases e2 : i = j
    · subst e2
      simp only [weightTwo_square]
      exact measurable_extra hG0 hGm f1 ε i i
    · simp only [weightTwo_pair c G ε _ f1 e2]
      exact measurable_pairWeight hG0 hGm ε f1 i j
  · simp only [weightTwo_opt c G ε _ e]
    exact measurable_optWeight hG0 hGm ε _

theorem densDens_grid {c : Ctx ℝ} {β B : ℝ} {ns : ℕ} {g : ℕ → Op → Op → ℝ} {G : ℕ → ℝ → ℕ → ℕ → ℕ → ℝ} {G0 : ℝ → ℕ → ℕ → ℕ → ℝ}
    (h : Nears β c.nf ns g G c.G0 G0) (hT : TermsOn c.nf ns c.tbl) (hB : ∀ k, Tame (g k) (G k) B) (hβ : 0 < β) (M : ℕ) (hZ : (configSum c β M fun x => weight c.NI c.nf c.G0 c.tbl (x.map vertAt)) ≠ 0)
    {f1 i f2 j : ℕ} (h1 : f1 < c.nf) (hi : i < ns) (h2 : f2 < c.nf) (hj : j < ns) :
    Tendsto (fun k => densDens { c with G0 := g k } (G k) β M f1 i f2 j) atTop (nhds (densDens c G0 β M f1 i f2 j)) := by
  have key := configSum_tendsto (c := c) hβ (W := fun k x τ => weightTwo { c with G0 := g k } (G k) (-β * 1e-10) τ f1 i f2 j (x.map vertAt))
    (W0 := fun x τ => weightTwo c G0 (-β * 1e-10) τ f1 i f2 j (x.map vertAt))
    (fun k => measurable_two (c := { c with G0 := g k }) (hB k).meas (hB k).measG _ f1 i f2 j) (C := fun n => detBound c B 2 n ^ c.nf * uBound c.tbl ^ n)
    (fun k x t hx => weightTwo_le (c := { c with G0 := g k }) (hB k).bound (hB k).boundG hx _ t f1 i f2 j)
    (fun x hx τ => two_tendsto h hT hx h1 hi h2 hj _ τ) M (ContinuousLinearMap.id ℝ ℝ)
  have er : ∀ c : Ctx ℝ, (partitionC c β M).re = configSum c β M fun x => weight c.NI c.nf c.G0 c.tbl (x.map vertAt) := fun c => rfl
  have hp : Tendsto (fun k => (partitionC { c with G0 := g k } β M).re) atTop (nhds (partitionC c β M).re) :=
    (Complex.continuous_re.tendsto _).comp (partition_tendsto h hT hB hβ M)
  simp only [er] at hp
  simp only [RCLike.ofReal_real_eq_id, id, ContinuousLinearMap.coe_id'] at key
  unfold densDens expect
  refine Tendsto.div ?_ ?_ hZ
  · exact key
  · exact hp

theorem densDens_congr {c : Ctx ℝ} {β : ℝ} {ns : ℕ} {G0 G1 : ℝ → ℕ → ℕ → ℕ → ℝ} (hT : TermsOn c.nf ns c.tbl)
    (e : ∀ t, ∀ z < c.nf, ∀ s < ns, ∀ s' < ns, G1 t z s s' = G0 t z s s') (M : ℕ) {f1 i f2 j : ℕ} (h1 : f1 < c.nf) (hi : i < ns) (h2 : f2 < c.nf) (hj : j < ns) :
    densDens c G1 β M f1 i f2 j = densDens c G0 β M f1 i f2 j := by
  have key : (configSum c β M fun x => (1 / β) * ∫ τ in (0 : ℝ)..β, weightTwo c G1 (-β * 1e-10) τ f1 i f2 j (x.map vertAt)) =
      configSum c β M fun x => (1 / β) * ∫ τ in (0 : ℝ)..β, weightTwo c G0 (-β * 1e-10) τ f1 i f2 j (x.map vertAt) := by
    unfold configSum
    refine Finset.sum_congr rfl fun n _ => congrArg _ (MeasureTheory.integral_congr_ae ?_)
    filter_upwards [ae_validPts β c.tbl n] with x hx
    refine congrArg _ (congrArg _ (intervalIntegral.integral_congr fun τ _ => ?_))
    exact tendsto_nhds_unique tendsto_const_nhds (two_tendsto (nears_const e) hT hx h1 hi h2 hj _ τ)
  unfold densDens expect
  rw [key]

variable {n : Type} [Fintype n] [DecidableEq n] [Nonempty n] {nf ns : ℕ} {β : ℝ} {a : ℕ → ℕ → Matrix n n ℝ} {h : ℕ → ℕ → ℕ → ℝ} {tbl : List (VDef ℝ)}

theorem densDens_fine (hβ : 1e-8 < β) (ha : Annihilators nf ns a) (hh : HermitianHops nf ns h) (hT : TermsOn nf ns tbl)
    (hZ : (exp (-β • (bareH nf ns h a + interactionH a tbl))).trace ≠ 0) {f1 i f2 j : ℕ} (h1 : f1 < nf) (hi : i < ns) (h2 : f2 < nf) (hj : j < ns) {w : ℝ}
    (hp : Tendsto (fun M => densDens (exactCtx β nf ns a (bareH nf ns h a) tbl) (exactG β a (bareH nf ns h a)) β M f1 i f2 j) atTop (nhds w)) {ε : ℝ} (hε : 0 < ε) :
    ∀ᶠ M in atTop, ∃ δ > 0, ∃ N : ℕ, ∀ (S : Type) (is : IStream S) dbg P j' (V : FullSolver ℝ), FineRun is dbg P j' V β nf ns a (bareH nf ns h a) tbl δ N →
      ∀ G, (∀ t, ∀ z < nf, ∀ s < ns, ∀ s' < ns, V.q.g0 t z s s' = .ok (G t z s s')) → |densDens V.c G β M f1 i f2 j - w| < ε := by
  have hβ0 : 0 < β := lt_trans (by norm_num) hβ
  have hz := C96_partition_real (c := exactCtx β nf ns a (bareH nf ns h a) tbl) hβ0.le ha hh (exactG0_spec hβ0 nf ns) (exactG0_measurable _ _ _) hT
  filter_upwards [hp.eventually (Metric.ball_mem_nhds _ (show 0 < ε / 2 by linarith)),
    hz.eventually_ne (div_ne_zero hZ (thermal_trace_ne (K := ℝ) (bareH_hermitian hh)))] with M q hne
  obtain ⟨δ, hδ, N, hN⟩ := fine_limit hβ a (bareH nf ns h a) nf ns tbl
    (Φ := fun g G => ((densDens { exactCtx β nf ns a (bareH nf ns h a) tbl with G0 := g } G β M f1 i f2 j : ℝ) : ℂ))
    (fun g G B hn ht => (Complex.continuous_ofReal.tendsto _).comp
      (densDens_grid (c := exactCtx β nf ns a (bareH nf ns h a) tbl) hn hT ht hβ0 M hne h1 hi h2 hj)) (show 0 < ε / 2 by linarith)
  refine ⟨δ, hδ, N, fun S is dbg P j' V hr G e => ?_⟩
  obtain ⟨hc, G', e', q2⟩ := hN S is dbg P j' V hr
  have eG : ∀ t, ∀ z < nf, ∀ s < ns, ∀ s' < ns, G t z s s' = G' t z s s' := fun t z hz s hs s' hs' =>
    Res.ok.inj ((e t z hz s hs s' hs').symm.trans (e' t z hz s hs s' hs'))
  have hcg := densDens_congr (c := { exactCtx β nf ns a (bareH nf ns h a) tbl with G0 := V.c.G0 }) (β := β) (ns := ns) hT eG M h1 hi h2 hj
  rw [← Complex.ofReal_sub, Complex.norm_real, ← dist_eq_norm] at q2
  rw [hc, hcg, ← Real.dist_eq]
  exact (dist_triangle _ _ _).trans_lt ((add_lt_add q2 q).trans_eq (add_halves ε))

/-- **C100, products of densities of two flavors.**  For instance the double occupancy. -/
theorem C100_product (hβ : 1e-8 < β) (ha : Annihilators nf ns a) (hh : HermitianHops nf ns h) (hT : TermsOn nf ns tbl)
    (hZ : (exp (-β • (bareH nf ns h a + interactionH a tbl))).trace ≠ 0) {f1 i f2 j : ℕ} (h1 : f1 < nf) (hi : i < ns) (h2 : f2 < nf) (hj : j < ns)
    (hne : f1 ≠ f2) {ε : ℝ} (hε : 0 < ε) :
    ∀ᶠ M in atTop, ∃ δ > 0, ∃ N : ℕ, ∀ (S : Type) (is : IStream S) dbg P j' (V : FullSolver ℝ), FineRun is dbg P j' V β nf ns a (bareH nf ns h a) tbl δ N →
      ∀ G, (∀ t, ∀ z < nf, ∀ s < ns, ∀ s' < ns, V.q.g0 t z s s' = .ok (G t z s s')) →
      |densDens V.c G β M f1 i f2 j - thermal β (bareH nf ns h a + interactionH a tbl)
        (((a f1 i)ᴴ * a f1 i + equalTimeError β a (bareH nf ns h a) f1 i i • 1) *
          ((a f2 j)ᴴ * a f2 j + equalTimeError β a (bareH nf ns h a) f2 j j • 1))| < ε := by
  have hβ0 : 0 < β := lt_trans (by norm_num) hβ
  exact densDens_fine hβ ha hh hT hZ h1 hi h2 hj (C97_product (c := exactCtx β nf ns a (bareH nf ns h a) tbl) hβ0 ha hh (exactG0_spec hβ0 nf ns)
    (exactG0_measurable _ _ _) (exactG_spec hβ0 nf ns) (exactG_measurable _ _ _) hT hZ h1 hi h2 hj hne) hε

/-- **C100, products of densities of one flavor on two sites.** -/
theorem C100_product_same (hβ : 1e-8 < β) (ha : Annihilators nf ns a) (hh : HermitianHops nf ns h) (hT : TermsOn nf ns tbl)
    (hZ : (exp (-β • (bareH nf ns h a + interactionH a tbl))).trace ≠ 0) {z i j : ℕ} (hz : z < nf) (hi : i < ns) (hj : j < ns) (hij : i ≠ j) {ε : ℝ} (hε : 0 < ε) :
    ∀ᶠ M in atTop, ∃ δ > 0, ∃ N : ℕ, ∀ (S : Type) (is : IStream S) dbg P j' (V : FullSolver ℝ), FineRun is dbg P j' V β nf ns a (bareH nf ns h a) tbl δ N →
      ∀ G, (∀ t, ∀ z < nf, ∀ s < ns, ∀ s' < ns, V.q.g0 t z s s' = .ok (G t z s s')) →
      |densDens V.c G β M z i z j - thermal β (bareH nf ns h a + interactionH a tbl)
        (((a z i)ᴴ * a z i + equalTimeError β a (bareH nf ns h a) z i i • 1) * ((a z j)ᴴ * a z j + equalTimeError β a (bareH nf ns h a) z j j • 1) -
          equalTimeError β a (bareH nf ns h a) z i j • ((a z j)ᴴ * a z i) - equalTimeError β a (bareH nf ns h a) z j i • ((a z i)ᴴ * a z j) -
          (equalTimeError β a (bareH nf ns h a) z i j * equalTimeError β a (bareH nf ns h a) z j i) • 1)| < ε := by
  have hβ0 : 0 < β := lt_trans (by norm_num) hβ
  exact densDens_fine hβ ha hh hT hZ hz hi hz hj (C97_product_same (c := exactCtx β nf ns a (bareH nf ns h a) tbl) hβ0 ha hh (exactG0_spec hβ0 nf ns)
    (exactG0_measurable _ _ _) (exactG_spec hβ0 nf ns) (exactG_measurable _ _ _) hT hZ hz hi hj hij) hε

/-- **C100, a density squared.** -/
theorem C100_square (hβ : 1e-8 < β) (ha : Annihilators nf ns a) (hh : HermitianHops nf ns h) (hT : TermsOn nf ns tbl)
    (hZ : (exp (-β • (bareH nf ns h a + interactionH a tbl))).trace ≠ 0) {z s : ℕ} (hz : z < nf) (hs : s < ns) {ε : ℝ} (hε : 0 < ε) :
    ∀ᶠ M in atTop, ∃ δ > 0, ∃ N : ℕ, ∀ (S : Type) (is : IStream S) dbg P j' (V : FullSolver ℝ), FineRun is dbg P j' V β nf ns a (bareH nf ns h a) tbl δ N →
      ∀ G, (∀ t, ∀ z < nf, ∀ s < ns, ∀ s' < ns, V.q.g0 t z s s' = .ok (G t z s s')) →
      |densDens V.c G β M z s z s - (thermal β (bareH nf ns h a + interactionH a tbl) ((a z s)ᴴ * a z s) + equalTimeError β a (bareH nf ns h a) z s s)| < ε := by
  have hβ0 : 0 < β := lt_trans (by norm_num) hβ
  exact densDens_fine hβ ha hh hT hZ hz hs hz hs (C97_square (c := exactCtx β nf ns a (bareH nf ns h a) tbl) hβ0 ha hh (exactG0_spec hβ0 nf ns)
    (exactG0_measurable _ _ _) (exactG_spec hβ0 nf ns) (exactG_measurable _ _ _) hT hZ hz hs) hε

/-- Double occupancy of the two-site Hubbard model: for every U ≠ 0 and every accuracy there are runs. -/
example (S : Type) (is : IStream S) (dbg : Bool) (j : ReadJunk) {β U ε : ℝ} (hβ : 1e-8 < β) (hU : U ≠ 0) (hε : 0 < ε) :
    ∃ (n : Type) (_ : Fintype n) (_ : DecidableEq n) (_ : Nonempty n) (a : ℕ → ℕ → Matrix n n ℝ) (tbl : List (VDef ℝ)), Annihilators 2 2 a ∧ tbl.length = 2 ∧
    ∀ᶠ M in atTop, ∃ (P : Params S) (V : FullSolver ℝ), FullSolver.create is dbg P j = .ok V ∧
      ∀ G, (∀ t, ∀ z < 2, ∀ s < 2, ∀ s' < 2, V.q.g0 t z s s' = .ok (G t z s s')) →
      |densDens V.c G β M 0 1 1 1 - thermal β (bareH 2 2 dimerHop a + interactionH a tbl)
        (((a 0 1)ᴴ * a 0 1 + equalTimeError β a (bareH 2 2 dimerHop a) 0 1 1 • 1) *
          ((a 1 1)ᴴ * a 1 1 + equalTimeError β a (bareH 2 2 dimerHop a) 1 1 1 • 1))| < ε := by
  obtain ⟨n, i1, i2, i3, a, ha⟩ := annihilators_exist ℝ 2 2
  obtain ⟨tbl, t1, -, t2, t3, t4⟩ := fine_runs (K := ℝ) (n := n) hβ (ns := 2) (by norm_num) hU
  refine ⟨n, i1, i2, i3, a, tbl, ha, t1, ?_⟩
  filter_upwards [C100_product hβ ha dimer_hops t2 (density_terms_partition ha dimer_hops t2 t3 β) (f1 := 0) (i := 1) (f2 := 1) (j := 1) (by norm_num) (by norm_num)
    (by norm_num) (by norm_num) (by norm_num) hε] with M hM
  obtain ⟨δ, hδ, N, hN⟩ := hM
  obtain ⟨file, -, t5⟩ := t4 a (bareH 2 2 dimerHop a) (bareH_hermitian dimer_hops) N
  obtain ⟨V, hV, hr⟩ := t5 S is dbg j δ hδ.le 1 1 M one_pos one_pos
  exact ⟨_, V, hV.made, hN S _ _ _ _ V hV⟩

end CTInt
