import Verif.Spec.FockProgram
import Verif.Props.FockGridPair
import Verif.Props.Hermitian
import Verif.Proofs.Atomic

/-!
# C101: what the program writes for the Green's function file of a Hamiltonian
-/

set_option linter.all false

namespace CTInt

open NormedSpace Matrix Filter

section
variable {K : Type} [RCLike K] [DecidableEq K] {n : Type} [Fintype n] [DecidableEq n] {nf ns : ℕ} {β : ℝ}
  {a : ℕ → ℕ → Matrix n n K} {h : ℕ → ℕ → ℕ → K} {tbl : List (VDef K)}

theorem FineRun.mono {S : Type} {is : IStream S} {dbg : Bool} {P : Params S} {j : ReadJunk} {V : FullSolver K} {H : Matrix n n K} {δ δ' : ℝ} {N N' : ℕ}
    (hr : FineRun is dbg P j V β nf ns a H tbl δ N) (hδ : δ ≤ δ') (hN : N' ≤ N) : FineRun is dbg P j V β nf ns a H tbl δ' N' := by
  obtain ⟨h1, h2, h3, h4, h5, file, h6, h7, h8⟩ := hr
  exact ⟨h1, h2, h3, h4, h5, file, h6, le_trans (by exact_mod_cast hN) h7, fun z hz s hs s' hs' i hi => (h8 z hz s hs s' hs' i hi).trans hδ⟩

variable [Nonempty n]

/-- With enough vertices and a fine enough grid the partition function does not vanish. -/
theorem fine_partition_ne (hβ : 1e-8 < β) (ha : Annihilators nf ns a) (hh : HermitianHops nf ns h) (hT : TermsOn nf ns tbl)
    (hZ : (exp (-(β : K) • (bareH nf ns h a + interactionH a tbl))).trace ≠ 0) :
    ∀ᶠ M in atTop, ∃ δ > 0, ∃ N : ℕ, ∀ (S : Type) (is : IStream S) dbg P j (V : FullSolver K), FineRun is dbg P j V β nf ns a (bareH nf ns h a) tbl δ N →
      partitionC V.c β M ≠ 0 := by
  have h0 : toC ((exp (-(β : K) • (bareH nf ns h a + interactionH a tbl))).trace / (exp (-(β : K) • bareH nf ns h a)).trace) ≠ 0 := by
    intro hc
    have := (map_eq_zero (toCHom K)).1 (show toCHom K _ = 0 from hc)
    exact (div_ne_zero hZ (thermal_trace_ne (bareH_hermitian hh))) this
  filter_upwards [C100_partition hβ ha hh hT (norm_pos_iff.2 h0)] with M hM
  obtain ⟨δ, hδ, N, hN⟩ := hM
  refine ⟨δ, hδ, N, fun S is dbg P j V hr hc => ?_⟩
  have := hN S is dbg P j V hr
  rw [hc, zero_sub, norm_neg] at this
  exact lt_irrefl _ this

/-- **C101, Green's function.**  Real or complex amplitudes, Hermitian interaction and file: with probability one the archives of long runs give, together with the
    bare Green's function of H, a Green's function as close as wanted to that of H + V. -/
theorem C101_green (hβ : 1e-8 < β) (ha : Annihilators nf ns a) (hh : HermitianHops nf ns h) (hT : TermsOn nf ns tbl)
    {σ : ℕ → ℕ} {π : ℕ → ℕ → ℕ} (hH : HermitianTerms ns σ π tbl)
    (hZ : (exp (-(β : K) • (bareH nf ns h a + interactionH a tbl))).trace ≠ 0) {z A b : ℕ} (hz : z < nf) (hA : A < ns) (hb : b < ns) (k : ℕ) {ε : ℝ} (hε : 0 < ε) :
    ∀ᶠ nl in atTop, ∀ᶠ m in atTop, ∀ᶠ M in atTop, ∃ δ > 0, ∃ N : ℕ, ∀ (S : Type) (is : IStream S) dbg P np (mem : Fin np → Memory K) (V : FullSolver K),
      FineProgram is dbg P mem V β nf ns a (bareH nf ns h a) tbl δ N → P.nLegendre = nl → P.nBin = m → P.maxOrder = M →
      (∀ file, P.g0File = some (some file) → HermitianFile K file nf ns) → ∀ nm > k,
      ArchivesEventually is dbg P nm mem fun ar =>
        ‖(fourier β (fun u => toC (greenOf β a (bareH nf ns h a) z A b u)) k - ∑ s ∈ Finset.range ns,
            fourier β (fun u => toC (greenOf β a (bareH nf ns h a) z A s u)) k * ar.omega (off4 ns ns nf k s b z)) -
          fourier β (fun u => toC (greenOf β a (bareH nf ns h a + interactionH a tbl) z A b u)) k‖ < ε := by
  filter_upwards [C100_archive hβ ha hh hT hZ hz hA hb k hε] with nl p1
  filter_upwards [p1] with m p2
  filter_upwards [p2, fine_partition_ne hβ ha hh hT hZ] with M p3 p4
  obtain ⟨δ, hδ, N, hN⟩ := p3
  obtain ⟨δ', hδ', N', hN'⟩ := p4
  refine ⟨min δ δ', lt_min hδ hδ', max N N', fun S is dbg P np mem V hp hl hm hM hf nm hk => ?_⟩
  have hr := hp.runs ⟨0, hp.procs⟩
  have hr1 := hr.mono (min_le_left _ _) (le_max_left _ _)
  have hne := hN' S is dbg P _ V (hr.mono (min_le_right _ _) (le_max_right _ _))
  obtain ⟨file, hfile, -⟩ := hr.file
  have e1 := hr.beta
  have e2 := hr.spins
  have e3 := hr.sites
  have e4 := hr.terms
  intro sj hsj junkP μ hμ
  obtain ⟨G, hG, hae⟩ := C94_program (mem := mem) (fun i => (hp.runs i).made) hp.procs hp.params (by rw [e2, e4]; exact hp.usable) hp.fresh hp.inserts hp.sweeps hp.samples
    (by rw [e3, e4]; exact hH) hfile (by rw [e2, e3]; exact hf file hfile) (by rw [e1]; exact hp.nonzero) (by rw [e1, hM]; exact hne) hsj nm junkP hμ
  filter_upwards [hae] with u hu T k' hT' hC
  obtain ⟨rs, ar, r1, -, r3⟩ := hu T k' hT' hC
  refine ⟨rs, ar, r1, ?_⟩
  rw [hM, hl, e1] at r3
  exact hN S is dbg P _ V hr1 hm G (by rw [← e2, ← e3]; exact hG) nm ar hk r3

end

variable {n : Type} [Fintype n] [DecidableEq n] [Nonempty n] {nf ns : ℕ} {β : ℝ} {a : ℕ → ℕ → Matrix n n ℝ} {h : ℕ → ℕ → ℕ → ℝ} {tbl : List (VDef ℝ)}

/-- What the program writes follows the sums over configurations. -/
theorem real_program (hβ : 1e-8 < β) (ha : Annihilators nf ns a) (hh : HermitianHops nf ns h) (hT : TermsOn nf ns tbl)
    (hZ : (exp (-β • (bareH nf ns h a + interactionH a tbl))).trace ≠ 0) {F : Ctx ℝ → (ℝ → ℕ → ℕ → ℕ → ℝ) → ℕ → ℝ} {w ε : ℝ} {X : Archive → ℂ} {Pc : Ctx ℝ → ℕ → Prop}
    (hF : ∀ᶠ M in atTop, ∃ δ > 0, ∃ N : ℕ, ∀ (S : Type) (is : IStream S) dbg P j' (V : FullSolver ℝ), FineRun is dbg P j' V β nf ns a (bareH nf ns h a) tbl δ N →
      ∀ G, (∀ t, ∀ z < nf, ∀ s < ns, ∀ s' < ns, V.q.g0 t z s s' = .ok (G t z s s')) → |F V.c G M - w| < ε)
    (hX : ∀ (c : Ctx ℝ) (q : MeasPar ℝ) G M nl nm ar, c.nf = nf → q.ns = ns → q.beta = β → Pc c M → ArchiveTo c q G M nl nm ar →
      Tendsto (fun l => X (ar l)) atTop (nhds ((F c G M : ℝ) : ℂ))) :
    ∀ᶠ M in atTop, ∃ δ > 0, ∃ N : ℕ, ∀ (S : Type) (is : IStream S) dbg P np (mem : Fin np → Memory ℝ) (V : FullSolver ℝ),
      FineProgram is dbg P mem V β nf ns a (bareH nf ns h a) tbl δ N → P.maxOrder = M → Pc V.c M → ∀ nm,
      ArchivesEventually is dbg P nm mem fun ar => ‖X ar - (w : ℂ)‖ < ε := by
  filter_upwards [hF, fine_partition_ne hβ ha hh hT hZ] with M p3 p4
  obtain ⟨δ, hδ, N, hN⟩ := p3
  obtain ⟨δ', hδ', N', hN'⟩ := p4
  refine ⟨min δ δ', lt_min hδ hδ', max N N', fun S is dbg P np mem V hp hM hPc nm => ?_⟩
  have hr := hp.runs ⟨0, hp.procs⟩
  have hr1 := hr.mono (min_le_left _ _) (le_max_left _ _)
  have hne := hN' S is dbg P _ V (hr.mono (min_le_right _ _) (le_max_right _ _))
  have e1 := hr.beta
  have e2 := hr.spins
  have e3 := hr.sites
  have e4 := hr.terms
  have er : ∀ c : Ctx ℝ, (partitionC c β M).re = configSum c β M fun x => weight c.NI c.nf c.G0 c.tbl (x.map vertAt) := fun c => rfl
  have ei : ∀ c : Ctx ℝ, (partitionC c β M).im = 0 := by
    intro c
    have : (partitionC c β M).im = configSum c β M fun x => RCLike.im (weight c.NI c.nf c.G0 c.tbl (x.map vertAt)) := rfl
    rw [this]
    simp [configSum]
  have hS : (configSum V.c β M fun x => weight V.c.NI V.c.nf V.c.G0 V.c.tbl (x.map vertAt)) ≠ 0 := by
    rw [← er]
    intro hc
    exact hne (Complex.ext hc (ei _))
  intro sj hsj junkP μ hμ
  obtain ⟨G, hG, hae⟩ := C89_program (mem := mem) (fun i => (hp.runs i).made) hp.procs hp.params (by rw [e2, e4]; exact hp.usable) hp.fresh hp.inserts hp.sweeps hp.samples
    (by rw [e1]; exact hp.nonzero) (by rw [e1, hM]; exact hS) hsj nm junkP hμ
  filter_upwards [hae] with u hu T k' hT' hC
  obtain ⟨rs, ar, r1, -, r3⟩ := hu T k' hT' hC
  refine ⟨rs, ar, r1, ?_⟩
  have hq := C80_parameters hr.made
  rw [hM] at r3
  have ht := hX V.c V.q G M _ nm ar (by rw [hq.nf, e2]) (by rw [hq.ns, e3]) (by rw [hq.beta, e1]) hPc r3
  have hc := hN S is dbg P _ V hr1 G (by rw [← e2, ← e3]; exact hG)
  have hl := (ht.sub_const (w : ℂ)).norm
  rw [← Complex.ofReal_sub, Complex.norm_real] at hl
  exact hl.eventually (gt_mem_nhds hc)

/-- **C101, products of densities of two flavors.** -/
theorem C101_product (hβ : 1e-8 < β) (ha : Annihilators nf ns a) (hh : HermitianHops nf ns h) (hT : TermsOn nf ns tbl)
    (hZ : (exp (-β • (bareH nf ns h a + interactionH a tbl))).trace ≠ 0) {f1 i f2 j : ℕ} (h1 : f1 < nf) (hi : i < ns) (h2 : f2 < nf) (hj : j < ns)
    (hne : f1 ≠ f2) {ε : ℝ} (hε : 0 < ε) :
    ∀ᶠ M in atTop, ∃ δ > 0, ∃ N : ℕ, ∀ (S : Type) (is : IStream S) dbg P np (mem : Fin np → Memory ℝ) (V : FullSolver ℝ),
      FineProgram is dbg P mem V β nf ns a (bareH nf ns h a) tbl δ N → P.maxOrder = M → ∀ nm,
      ArchivesEventually is dbg P nm mem fun ar => ‖ar.ninj f1 i f2 j - ((thermal β (bareH nf ns h a + interactionH a tbl)
        (((a f1 i)ᴴ * a f1 i + equalTimeError β a (bareH nf ns h a) f1 i i • 1) *
          ((a f2 j)ᴴ * a f2 j + equalTimeError β a (bareH nf ns h a) f2 j j • 1)) : ℝ) : ℂ)‖ < ε := by
  filter_upwards [real_program hβ ha hh hT hZ (F := fun c G M => densDens c G β M f1 i f2 j) (X := fun ar => ar.ninj f1 i f2 j) (C100_product hβ ha hh hT hZ h1 hi h2 hj hne hε)
    (Pc := fun _ _ => True) fun c q G M nl nm ar q1 q2 q3 _ har => by
      subst q1 q2 q3
      exact har.ninj f1 h1 i hi f2 h2 j hj] with M hM
  obtain ⟨δ, hδ, N, hN⟩ := hM
  exact ⟨δ, hδ, N, fun S is dbg P np mem V hp hM nm => hN S is dbg P np mem V hp hM trivial nm⟩

/-- **C101, products of densities of one flavor on two sites.** -/
theorem C101_product_same (hβ : 1e-8 < β) (ha : Annihilators nf ns a) (hh : HermitianHops nf ns h) (hT : TermsOn nf ns tbl)
    (hZ : (exp (-β • (bareH nf ns h a + interactionH a tbl))).trace ≠ 0) {z i j : ℕ} (hz : z < nf) (hi : i < ns) (hj : j < ns) (hij : i ≠ j) {ε : ℝ} (hε : 0 < ε) :
    ∀ᶠ M in atTop, ∃ δ > 0, ∃ N : ℕ, ∀ (S : Type) (is : IStream S) dbg P np (mem : Fin np → Memory ℝ) (V : FullSolver ℝ),
      FineProgram is dbg P mem V β nf ns a (bareH nf ns h a) tbl δ N → P.maxOrder = M → ∀ nm,
      ArchivesEventually is dbg P nm mem fun ar => ‖ar.ninj z i z j - ((thermal β (bareH nf ns h a + interactionH a tbl)
        (((a z i)ᴴ * a z i + equalTimeError β a (bareH nf ns h a) z i i • 1) * ((a z j)ᴴ * a z j + equalTimeError β a (bareH nf ns h a) z j j • 1) -
          equalTimeError β a (bareH nf ns h a) z i j • ((a z j)ᴴ * a z i) - equalTimeError β a (bareH nf ns h a) z j i • ((a z i)ᴴ * a z j) -
          (equalTimeError β a (bareH nf ns h a) z i j * equalTimeError β a (bareH nf ns h a) z j i) • 1) : ℝ) : ℂ)‖ < ε := by
  filter_upwards [real_program hβ ha hh hT hZ (F := fun c G M => densDens c G β M z i z j) (X := fun ar => ar.ninj z i z j) (C100_product_same hβ ha hh hT hZ hz hi hj hij hε)
    (Pc := fun _ _ => True) fun c q G M nl nm ar q1 q2 q3 _ har => by
      subst q1 q2 q3
      exact har.ninj z hz i hi z hz j hj] with M hM
  obtain ⟨δ, hδ, N, hN⟩ := hM
  exact ⟨δ, hδ, N, fun S is dbg P np mem V hp hM nm => hN S is dbg P np mem V hp hM trivial nm⟩

theorem meanDensity_eq (c : Ctx ℝ) (G : ℝ → ℕ → ℕ → ℕ → ℝ) (β : ℝ) (M ns z : ℕ) :
    meanDensity c G β M ns z = (∑ s ∈ Finset.range ns, densDens c G β M z s z s) / ns := by
  unfold meanDensity densDens
  simp only [weightTwo_square]

/-- The mean density of a flavor. -/
theorem C100_mean (hβ : 1e-8 < β) (ha : Annihilators nf ns a) (hh : HermitianHops nf ns h) (hT : TermsOn nf ns tbl)
    (hZ : (exp (-β • (bareH nf ns h a + interactionH a tbl))).trace ≠ 0) {z : ℕ} (hz : z < nf) {ε : ℝ} (hε : 0 < ε) :
    ∀ᶠ M in atTop, ∃ δ > 0, ∃ N : ℕ, ∀ (S : Type) (is : IStream S) dbg P j' (V : FullSolver ℝ), FineRun is dbg P j' V β nf ns a (bareH nf ns h a) tbl δ N →
      ∀ G, (∀ t, ∀ z < nf, ∀ s < ns, ∀ s' < ns, V.q.g0 t z s s' = .ok (G t z s s')) →
      |meanDensity V.c G β M ns z - (∑ s ∈ Finset.range ns, (thermal β (bareH nf ns h a + interactionH a tbl) ((a z s)ᴴ * a z s) +
        equalTimeError β a (bareH nf ns h a) z s s)) / ns| < ε := by
  have hβ0 : 0 < β := lt_trans (by norm_num) hβ
  have hp := C97_mean (c := exactCtx β nf ns a (bareH nf ns h a) tbl) (ns := ns) hβ0 ha hh (exactG0_spec hβ0 nf ns)
    (exactG0_measurable _ _ _) (exactG_spec hβ0 nf ns) (exactG_measurable _ _ _) hT hZ hz
  have hz' := C96_partition_real (c := exactCtx β nf ns a (bareH nf ns h a) tbl) hβ0.le ha hh (exactG0_spec hβ0 nf ns) (exactG0_measurable _ _ _) hT
  filter_upwards [hp.eventually (Metric.ball_mem_nhds _ (show 0 < ε / 2 by linarith)),
    hz'.eventually_ne (div_ne_zero hZ (thermal_trace_ne (K := ℝ) (bareH_hermitian hh)))] with M q hne
  obtain ⟨δ, hδ, N, hN⟩ := fine_limit hβ a (bareH nf ns h a) nf ns tbl
    (Φ := fun g G => ((meanDensity { exactCtx β nf ns a (bareH nf ns h a) tbl with G0 := g } G β M ns z : ℝ) : ℂ))
    (w := ((meanDensity (exactCtx β nf ns a (bareH nf ns h a) tbl) (exactG β a (bareH nf ns h a)) β M ns z : ℝ) : ℂ))
    (fun g G B hn ht => (Complex.continuous_ofReal.tendsto _).comp (by
      simp only [meanDensity_eq]
      exact (tendsto_finset_sum _ fun s hs => densDens_grid (c := exactCtx β nf ns a (bareH nf ns h a) tbl) hn hT ht hβ0 M hne hz (Finset.mem_range.1 hs) hz
        (Finset.mem_range.1 hs)).div_const _)) (show 0 < ε / 2 by linarith)
  refine ⟨δ, hδ, N, fun S is dbg P j' V hr G e => ?_⟩
  obtain ⟨hc, G', e', q2⟩ := hN S is dbg P j' V hr
  have eG : ∀ t, ∀ z < nf, ∀ s < ns, ∀ s' < ns, G t z s s' = G' t z s s' := fun t z hz s hs s' hs' =>
    Res.ok.inj ((e t z hz s hs s' hs').symm.trans (e' t z hz s hs s' hs'))
  have hcg : meanDensity { exactCtx β nf ns a (bareH nf ns h a) tbl with G0 := V.c.G0 } G β M ns z =
      meanDensity { exactCtx β nf ns a (bareH nf ns h a) tbl with G0 := V.c.G0 } G' β M ns z := by
    rw [meanDensity_eq, meanDensity_eq]
    refine congrArg (· / (ns : ℝ)) (Finset.sum_congr rfl fun s hs => ?_)
    exact densDens_congr (c := { exactCtx β nf ns a (bareH nf ns h a) tbl with G0 := V.c.G0 }) (β := β) (ns := ns) hT eG M hz (Finset.mem_range.1 hs) hz
      (Finset.mem_range.1 hs)
  rw [← Complex.ofReal_sub, Complex.norm_real, ← dist_eq_norm] at q2
  rw [hc, hcg, ← Real.dist_eq]
  exact (dist_triangle _ _ _).trans_lt ((add_lt_add q2 q).trans_eq (add_halves ε))

/-- **C101, densities.** -/
theorem C101_densities (hβ : 1e-8 < β) (ha : Annihilators nf ns a) (hh : HermitianHops nf ns h) (hT : TermsOn nf ns tbl)
    (hZ : (exp (-β • (bareH nf ns h a + interactionH a tbl))).trace ≠ 0) {z : ℕ} (hz : z < nf) {ε : ℝ} (hε : 0 < ε) :
    ∀ᶠ M in atTop, ∃ δ > 0, ∃ N : ℕ, ∀ (S : Type) (is : IStream S) dbg P np (mem : Fin np → Memory ℝ) (V : FullSolver ℝ),
      FineProgram is dbg P mem V β nf ns a (bareH nf ns h a) tbl δ N → P.maxOrder = M → ∀ nm,
      ArchivesEventually is dbg P nm mem fun ar => ‖((ar.densities.getD z 0 : ℝ) : ℂ) -
        (((∑ s ∈ Finset.range ns, (thermal β (bareH nf ns h a + interactionH a tbl) ((a z s)ᴴ * a z s) +
          equalTimeError β a (bareH nf ns h a) z s s)) / ns : ℝ) : ℂ)‖ < ε := by
  filter_upwards [real_program hβ ha hh hT hZ (F := fun c G M => meanDensity c G β M ns z) (X := fun ar => ((ar.densities.getD z 0 : ℝ) : ℂ)) (C100_mean hβ ha hh hT hZ hz hε)
    (Pc := fun _ _ => True) fun c q G M nl nm ar q1 q2 q3 _ har => by
      subst q1 q2 q3
      exact (Complex.continuous_ofReal.tendsto _).comp (har.densities z hz)] with M hM
  obtain ⟨δ, hδ, N, hN⟩ := hM
  exact ⟨δ, hδ, N, fun S is dbg P np mem V hp hM nm => hN S is dbg P np mem V hp hM trivial nm⟩

/-! ### The theorems apply -/

/-- Any number of sites without hopping, any U ≠ 0: there are programs whose archives give the Green's function at the first Matsubara frequencies. -/
example {S : Type} (is : IStream S) (dbg : Bool) (j : ReadJunk) {β U ε : ℝ} (hβ : 1e-8 < β) (hU : U ≠ 0) (hε : 0 < ε) {ns z A b : ℕ} (hz : z < 2) (hA : A < ns) (hb : b < ns) (k : ℕ) :
    ∃ (n : Type) (_ : Fintype n) (_ : DecidableEq n) (a : ℕ → ℕ → Matrix n n ℝ) (tbl : List (VDef ℝ)), Annihilators 2 ns a ∧ tbl.length = ns ∧
    ∀ᶠ nl in atTop, ∀ᶠ m in atTop, ∀ᶠ M in atTop, ∃ (file : GFile), ArchivesEventually is dbg (fineParams S ns β U file m nl M) (k + 1)
      (fun _ : Fin 1 => (⟨j, fun _ _ _ _ _ _ _ => 0, fun _ _ _ => 0⟩ : Memory ℝ)) fun ar =>
        ‖(fourier β (fun u => toC (greenOf β a (bareH 2 ns (fun _ _ _ => 0) a) z A b u)) k - ∑ s ∈ Finset.range ns,
            fourier β (fun u => toC (greenOf β a (bareH 2 ns (fun _ _ _ => 0) a) z A s u)) k * ar.omega (off4 ns ns 2 k s b z)) -
          fourier β (fun u => toC (greenOf β a (bareH 2 ns (fun _ _ _ => 0) a + interactionH a tbl) z A b u)) k‖ < ε := by
  obtain ⟨n, i1, i2, i3, a, tbl, ha, hl, hT, ⟨σ, π, hH⟩, hZ, h⟩ := atomic_programs is dbg j hβ hU (ns := ns) (by omega)
  refine ⟨n, i1, i2, a, tbl, ha, hl, ?_⟩
  filter_upwards [C101_green hβ ha (atomic_hops ns) hT hH hZ hz hA hb k hε, eventually_gt_atTop 0] with nl p1 hnl
  filter_upwards [p1, eventually_gt_atTop 0] with m p2 hm
  filter_upwards [p2] with M p3
  obtain ⟨δ, hδ, N, hN⟩ := p3
  obtain ⟨file, hf, hV⟩ := h N
  obtain ⟨V, hV, -⟩ := hV δ hδ.le m nl M hm hnl
  exact ⟨file, hN S is dbg _ 1 _ V hV rfl rfl rfl (fun file' e => by
    obtain rfl : file = file' := Option.some.inj (Option.some.inj e)
    exact hf) (k + 1) (Nat.lt_succ_self k)⟩

/-- Densities, products of densities of both flavors and of one flavor. -/
example {S : Type} (is : IStream S) (dbg : Bool) (j : ReadJunk) {β U ε : ℝ} (hβ : 1e-8 < β) (hU : U ≠ 0) (hε : 0 < ε) {ns z i k : ℕ} (hz : z < 2) (hi : i < ns) (hk : k < ns) (hne : i ≠ k) :
    ∃ (n : Type) (_ : Fintype n) (_ : DecidableEq n) (a : ℕ → ℕ → Matrix n n ℝ) (tbl : List (VDef ℝ)), Annihilators 2 ns a ∧ tbl.length = ns ∧
    ∀ᶠ M in atTop, ∃ (file file' file'' : GFile),
      (ArchivesEventually is dbg (fineParams S ns β U file 1 1 M) 1 (fun _ : Fin 1 => (⟨j, fun _ _ _ _ _ _ _ => 0, fun _ _ _ => 0⟩ : Memory ℝ)) fun ar =>
        ‖((ar.densities.getD z 0 : ℝ) : ℂ) - (((∑ s ∈ Finset.range ns, (thermal β (bareH 2 ns (fun _ _ _ => 0) a + interactionH a tbl) ((a z s)ᴴ * a z s) +
          equalTimeError β a (bareH 2 ns (fun _ _ _ => 0) a) z s s)) / ns : ℝ) : ℂ)‖ < ε) ∧
      (ArchivesEventually is dbg (fineParams S ns β U file' 1 1 M) 1 (fun _ : Fin 1 => (⟨j, fun _ _ _ _ _ _ _ => 0, fun _ _ _ => 0⟩ : Memory ℝ)) fun ar =>
        ‖ar.ninj 0 i 1 k - ((thermal β (bareH 2 ns (fun _ _ _ => 0) a + interactionH a tbl)
          (((a 0 i)ᴴ * a 0 i + equalTimeError β a (bareH 2 ns (fun _ _ _ => 0) a) 0 i i • 1) *
            ((a 1 k)ᴴ * a 1 k + equalTimeError β a (bareH 2 ns (fun _ _ _ => 0) a) 1 k k • 1)) : ℝ) : ℂ)‖ < ε) ∧
      (ArchivesEventually is dbg (fineParams S ns β U file'' 1 1 M) 1 (fun _ : Fin 1 => (⟨j, fun _ _ _ _ _ _ _ => 0, fun _ _ _ => 0⟩ : Memory ℝ)) fun ar =>
        ‖ar.ninj z i z k - ((thermal β (bareH 2 ns (fun _ _ _ => 0) a + interactionH a tbl)
          (((a z i)ᴴ * a z i + equalTimeError β a (bareH 2 ns (fun _ _ _ => 0) a) z i i • 1) *
              ((a z k)ᴴ * a z k + equalTimeError β a (bareH 2 ns (fun _ _ _ => 0) a) z k k • 1) -
            equalTimeError β a (bareH 2 ns (fun _ _ _ => 0) a) z i k • ((a z k)ᴴ * a z i) - equalTimeError β a (bareH 2 ns (fun _ _ _ => 0) a) z k i • ((a z i)ᴴ * a z k) -
            (equalTimeError β a (bareH 2 ns (fun _ _ _ => 0) a) z i k * equalTimeError β a (bareH 2 ns (fun _ _ _ => 0) a) z k i) • 1) : ℝ) : ℂ)‖ < ε) := by
  obtain ⟨n, i1, i2, i3, a, tbl, ha, hl, hT, -, hZ, h⟩ := atomic_programs is dbg j hβ hU (ns := ns) (by omega)
  refine ⟨n, i1, i2, a, tbl, ha, hl, ?_⟩
  filter_upwards [C101_densities hβ ha (atomic_hops ns) hT hZ hz hε,
    C101_product hβ ha (atomic_hops ns) hT hZ (f1 := 0) (i := i) (f2 := 1) (j := k) (by norm_num) hi (by norm_num) hk (by norm_num) hε,
    C101_product_same hβ ha (atomic_hops ns) hT hZ hz hi hk hne hε] with M p1 p2 p3
  obtain ⟨δ, hδ, N, hN⟩ := p1
  obtain ⟨δ', hδ', N', hN'⟩ := p2
  obtain ⟨δ2, hδ2, N2, hN2⟩ := p3
  obtain ⟨file, -, hV⟩ := h N
  obtain ⟨V, hV, -⟩ := hV δ hδ.le 1 1 M one_pos one_pos
  obtain ⟨file', -, hV'⟩ := h N'
  obtain ⟨V', hV', -⟩ := hV' δ' hδ'.le 1 1 M one_pos one_pos
  obtain ⟨file2, -, hV2⟩ := h N2
  obtain ⟨V2, hV2, -⟩ := hV2 δ2 hδ2.le 1 1 M one_pos one_pos
  exact ⟨file, file', file2, hN S is dbg _ 1 _ V hV rfl 1, hN' S is dbg _ 1 _ V' hV' rfl 1, hN2 S is dbg _ 1 _ V2 hV2 rfl 1⟩

end CTInt
