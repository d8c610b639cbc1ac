import Verif.Proofs.GridGreen
import Verif.Props.FockMotion
import Verif.Props.FockDensity
import Verif.Proofs.GridFile

/-!
# C100: a fine enough grid
-/

set_option linter.all false

namespace CTInt

open NormedSpace Matrix Filter

variable {K : Type} [RCLike K] [DecidableEq K] {n : Type} [Fintype n] [DecidableEq n] {nf ns : ℕ} {β : ℝ}
  {a : ℕ → ℕ → Matrix n n K} {h : ℕ → ℕ → ℕ → K} {tbl : List (VDef K)}

/-- **C100, Green's function.**  With enough grid points and small enough errors of the values in the file, the Green's function of the updates and that of the
    measurements are as close as wanted to that of the Hamiltonian, for all operators. -/
theorem C100_green (hβ : 1e-8 < β) (a : ℕ → ℕ → Matrix n n K) (H : Matrix n n K) (nf ns : ℕ) (tbl : List (VDef K)) {ε : ℝ} (hε : 0 < ε) :
    ∃ δ > 0, ∃ N : ℕ, ∀ (S : Type) (is : IStream S) dbg P j (V : FullSolver K), FineRun is dbg P j V β nf ns a H tbl δ N →
      (∀ G0, ThermalG0 β nf ns a H G0 → ∀ z < nf, ∀ s < ns, ∀ s' < ns, ∀ t ∈ Set.Ico 0 β, ∀ t' ∈ Set.Ico 0 β, ∀ k k' : ℤ,
        ‖V.c.G0 ⟨z, s, t, k⟩ ⟨z, s', t', k'⟩ - G0 ⟨z, s, t, k⟩ ⟨z, s', t', k'⟩‖ ≤ ε) ∧
      ∀ G, ThermalG β nf ns a H G → ∀ z < nf, ∀ s < ns, ∀ s' < ns, ∀ t ∈ Set.Ioo 0 β, ∀ k : ℤ,
        ∃ v, V.q.g0 (t + k * β) z s s' = .ok v ∧ ‖v - G (t + k * β) z s s'‖ ≤ ε := by
  have hβ0 : 0 < β := lt_trans (by norm_num) hβ
  obtain ⟨B, hB0, hB⟩ := greenOf_bound β a H nf ns
  obtain ⟨δ, hδ, N, hN⟩ := fine_green hβ a H nf ns tbl hε hB0 hB
  refine ⟨δ, hδ, N, fun S is dbg P j V hr => ?_⟩
  obtain ⟨G', e, -, hw⟩ := hN S is dbg P j V hr
  refine ⟨fun G0 hG0 z hz s hs s' hs' t ht t' ht' k k' => ?_, fun G hG z hz s hs s' hs' t ht k => ?_⟩
  · have e1 := hG0 z hz s hs s' hs' t ht t' ht' k k'
    have e2 := exactG0_spec (a := a) (H := H) hβ0 nf ns z hz s hs s' hs' t ht t' ht' k k'
    have : G0 ⟨z, s, t, k⟩ ⟨z, s', t', k'⟩ = exactG0 β a H ⟨z, s, t, k⟩ ⟨z, s', t', k'⟩ := by
      by_cases q : t' < t ∨ t = t' ∧ k' < k
      · rw [e1.1 q, e2.1 q]
      · rw [e1.2 q, e2.2 q]
    rw [this]
    exact hw.ops _ _ rfl hz hs hs' ht ht'
  · refine ⟨_, e _ z hz s hs s' hs', ?_⟩
    rw [hG z hz s hs s' hs' t ht k, ← exactG_spec (a := a) (H := H) hβ0 nf ns z hz s hs s' hs' t ht k]
    exact hw.time _ z hz s hs s' hs'

/-- The context of the expansion with the exact Green's function. -/
noncomputable def exactCtx (β : ℝ) (nf ns : ℕ) (a : ℕ → ℕ → Matrix n n K) (H : Matrix n n K) (tbl : List (VDef K)) : Ctx K :=
  ⟨((10 ^ 100 : ℝ) : K), nf, exactG0 β a H, tbl⟩

/-- A quantity that depends continuously on the Green's functions. -/
theorem fine_limit (hβ : 1e-8 < β) (a : ℕ → ℕ → Matrix n n K) (H : Matrix n n K) (nf ns : ℕ) (tbl : List (VDef K))
    {Φ : (Op → Op → K) → (ℝ → ℕ → ℕ → ℕ → K) → ℂ} {w : ℂ}
    (hΦ : ∀ g G B, Nears β nf ns g G (exactG0 β a H) (exactG β a H) → (∀ k, Tame (g k) (G k) B) → Tendsto (fun k => Φ (g k) (G k)) atTop (nhds w))
    {ε : ℝ} (hε : 0 < ε) :
    ∃ δ > 0, ∃ N : ℕ, ∀ (S : Type) (is : IStream S) dbg P j (V : FullSolver K), FineRun is dbg P j V β nf ns a H tbl δ N →
      V.c = { exactCtx β nf ns a H tbl with G0 := V.c.G0 } ∧
      ∃ G, (∀ t, ∀ z < nf, ∀ s < ns, ∀ s' < ns, V.q.g0 t z s s' = .ok (G t z s s')) ∧ ‖Φ V.c.G0 G - w‖ < ε := by
  obtain ⟨B, hB0, hB⟩ := greenOf_bound β a H nf ns
  obtain ⟨η, hη, h1⟩ := within_of_tendsto (B := B + 1) (fun g G hn ht => hΦ g G (B + 1) hn ht) hε
  obtain ⟨δ, hδ, N, hN⟩ := fine_green hβ a H nf ns tbl (lt_min hη zero_lt_one) hB0 hB
  refine ⟨δ, hδ, N, fun S is dbg P j V hr => ⟨?_, ?_⟩⟩
  · obtain ⟨t, leg, file, g, sub, et, -, -, -, -, -, -, -, hc, -, -, -, -⟩ := create_inv hr.made
    have e1 : V.c.nf = nf := by rw [← hr.spins, hc]; rfl
    have e2 : V.c.NI = ((10 ^ 100 : ℝ) : K) := by rw [hc]; rfl
    have e3 := hr.terms
    unfold exactCtx
    cases hV : V.c with
    | mk NI nf' G0 tbl' =>
      rw [hV] at e1 e2 e3
      simp only at e1 e2 e3
      rw [e1, e2, e3]
  · obtain ⟨G, e, hB', hw⟩ := hN S is dbg P j V hr
    have m1 := min_le_left η (1 : ℝ)
    have m2 := min_le_right η (1 : ℝ)
    exact ⟨G, e, h1 _ _ ⟨hB'.meas, hB'.measG, fun p q => (hB'.bound p q).trans (by linarith), fun t z s s' => (hB'.boundG t z s s').trans (by linarith)⟩
      ⟨fun p q r1 r2 r3 r4 r5 r6 => (hw.ops p q r1 r2 r3 r4 r5 r6).trans m1, fun t z hz s hs s' hs' => (hw.time t z hz s hs s' hs').trans m1⟩⟩

variable [Nonempty n]

/-- **C100, partition function.**  With enough vertices, then a fine enough grid, the sum of the weights is as close as wanted to the partition function of H + V
    divided by that of H. -/
theorem C100_partition (hβ : 1e-8 < β) (ha : Annihilators nf ns a) (hh : HermitianHops nf ns h) (hT : TermsOn nf ns tbl) {ε : ℝ} (hε : 0 < ε) :
    ∀ᶠ M in atTop, ∃ δ > 0, ∃ N : ℕ, ∀ (S : Type) (is : IStream S) dbg P j (V : FullSolver K), FineRun is dbg P j V β nf ns a (bareH nf ns h a) tbl δ N →
      ‖partitionC V.c β M - toC ((exp (-(β : K) • (bareH nf ns h a + interactionH a tbl))).trace / (exp (-(β : K) • bareH nf ns h a)).trace)‖ < ε := by
  have hβ0 : 0 < β := lt_trans (by norm_num) hβ
  obtain ⟨_, rfl, hp⟩ := C96_partition (c := exactCtx β nf ns a (bareH nf ns h a) tbl) hβ0.le ha hh (exactG0_spec hβ0 nf ns) (exactG0_measurable _ _ _) hT
  filter_upwards [hp.eventually (Metric.ball_mem_nhds _ (show 0 < ε / 2 by linarith))] with M q
  obtain ⟨δ, hδ, N, hN⟩ := fine_limit hβ a (bareH nf ns h a) nf ns tbl
    (Φ := fun g _ => partitionC { exactCtx β nf ns a (bareH nf ns h a) tbl with G0 := g } β M)
    (fun g G B hn ht => partition_tendsto (c := exactCtx β nf ns a (bareH nf ns h a) tbl) hn hT ht hβ0 M) (show 0 < ε / 2 by linarith)
  refine ⟨δ, hδ, N, fun S is dbg P j V hr => ?_⟩
  obtain ⟨hc, G, -, q2⟩ := hN S is dbg P j V hr
  rw [hc]
  rw [← dist_eq_norm] at q2 ⊢
  exact (dist_triangle _ _ _).trans_lt ((add_lt_add q2 q).trans_eq (add_halves ε))

/-- The partition function of the expansion with the exact Green's function is not zero if there are enough vertices. -/
theorem exact_partition_ne (hβ : 0 < β) (ha : Annihilators nf ns a) (hh : HermitianHops nf ns h) (hT : TermsOn nf ns tbl)
    (hZ : (exp (-(β : K) • (bareH nf ns h a + interactionH a tbl))).trace ≠ 0) :
    ∀ᶠ M in atTop, partitionC (exactCtx β nf ns a (bareH nf ns h a) tbl) β M ≠ 0 := by
  obtain ⟨_, rfl, hp⟩ := C96_partition (c := exactCtx β nf ns a (bareH nf ns h a) tbl) hβ.le ha hh (exactG0_spec hβ nf ns) (exactG0_measurable _ _ _) hT
  refine hp.eventually_ne fun hc => ?_
  have := (map_eq_zero (toCHom K)).1 (show toCHom K _ = 0 from hc)
  exact (div_ne_zero hZ (thermal_trace_ne (bareH_hermitian hh))) this

/-- **C100, densities.**  With enough vertices, then a fine enough grid, the density matrix the program measures is as close as wanted to the thermal average for H + V,
    up to the error from the time difference taken for equal times. -/
theorem C100_density (hβ : 1e-8 < β) (ha : Annihilators nf ns a) (hh : HermitianHops nf ns h) (hT : TermsOn nf ns tbl)
    (hZ : (exp (-(β : K) • (bareH nf ns h a + interactionH a tbl))).trace ≠ 0) {z s s2 : ℕ} (hz : z < nf) (hs : s < ns) (hs2 : s2 < ns) {ε : ℝ} (hε : 0 < ε) :
    ∀ᶠ M in atTop, ∃ δ > 0, ∃ N : ℕ, ∀ (S : Type) (is : IStream S) dbg P j (V : FullSolver K), FineRun is dbg P j V β nf ns a (bareH nf ns h a) tbl δ N →
      ∀ G, (∀ t, ∀ z < nf, ∀ s < ns, ∀ s' < ns, V.q.g0 t z s s' = .ok (G t z s s')) →
      ‖configSumC V.c β M (fun vs => ((1 / β : ℝ) : K) * ∫ τ in (0 : ℝ)..β, weightExtra V.c G z (-β * 1e-10) τ s s2 vs) / partitionC V.c β M -
        toC (thermal β (bareH nf ns h a + interactionH a tbl) ((a z s)ᴴ * a z s2) + equalTimeError β a (bareH nf ns h a) z s s2)‖ < ε := by
  have hβ0 : 0 < β := lt_trans (by norm_num) hβ
  have hp := C97_density (c := exactCtx β nf ns a (bareH nf ns h a) tbl) hβ0 ha hh (exactG0_spec hβ0 nf ns) (exactG0_measurable _ _ _) (exactG_spec hβ0 nf ns)
    (exactG_measurable _ _ _) hT hZ hz hs hs2
  filter_upwards [hp.eventually (Metric.ball_mem_nhds _ (show 0 < ε / 2 by linarith)), exact_partition_ne hβ0 ha hh hT hZ] with M q hne
  obtain ⟨δ, hδ, N, hN⟩ := fine_limit hβ a (bareH nf ns h a) nf ns tbl
    (Φ := fun g G => configSumC { exactCtx β nf ns a (bareH nf ns h a) tbl with G0 := g } β M (fun vs => ((1 / β : ℝ) : K) * ∫ τ in (0 : ℝ)..β,
      weightExtra { exactCtx β nf ns a (bareH nf ns h a) tbl with G0 := g } G z (-β * 1e-10) τ s s2 vs) /
        partitionC { exactCtx β nf ns a (bareH nf ns h a) tbl with G0 := g } β M)
    (fun g G B hn ht => (density_tendsto (c := exactCtx β nf ns a (bareH nf ns h a) tbl) hn hT ht hβ0 M hz hs hs2 (-β * 1e-10)).div
      (partition_tendsto (c := exactCtx β nf ns a (bareH nf ns h a) tbl) hn hT ht hβ0 M) hne) (show 0 < ε / 2 by linarith)
  refine ⟨δ, hδ, N, fun S is dbg P j V hr G e => ?_⟩
  obtain ⟨hc, G', e', q2⟩ := hN S is dbg P j V hr
  have eG : ∀ t, ∀ z < nf, ∀ s < ns, ∀ s' < ns, G t z s s' = G' t z s s' := fun t z hz s hs s' hs' =>
    Res.ok.inj ((e t z hz s hs s' hs').symm.trans (e' t z hz s hs s' hs'))
  have hcg := density_congr (c := { exactCtx β nf ns a (bareH nf ns h a) tbl with G0 := V.c.G0 }) (β := β) (ns := ns) hT eG M hz hs hs2 (-β * 1e-10)
  rw [hc, hcg, ← dist_eq_norm]
  rw [← dist_eq_norm] at q2
  exact (dist_triangle _ _ _).trans_lt ((add_lt_add q2 q).trans_eq (add_halves ε))

/-- The Fourier transforms of the two forms of the bare Green's function. -/
theorem fourier_exact (hβ : 0 < β) (H : Matrix n n K) {z A b : ℕ} (k : ℕ) :
    fourier β (fun u => toC (exactG β a H u z A b)) k = fourier β (fun u => toC (greenOf β a H z A b u)) k := by
  unfold fourier
  refine intervalIntegral.integral_congr_ae ?_
  have hne : ∀ᵐ u : ℝ, u ≠ β := by simp [MeasureTheory.ae_iff]
  filter_upwards [hne] with u hu hm
  rw [Set.uIoc_of_le hβ.le] at hm
  have := exactG_spec (a := a) (H := H) hβ (z + 1) (A + b + 1) z (by omega) A (by omega) b (by omega) u ⟨hm.1, lt_of_le_of_ne hm.2 hu⟩ 0
  rw [Int.cast_zero, zero_mul, add_zero, zpow_zero, one_mul] at this
  rw [this]
  rfl

/-- **C100, Green's function of the interacting Hamiltonian.**  With enough Legendre polynomials, bins, vertices and a fine enough grid, the bare Green's function of H and
    the self-energy from the program give a Green's function as close as wanted to that of H + V. -/
theorem C100_reconstructed (hβ : 1e-8 < β) (ha : Annihilators nf ns a) (hh : HermitianHops nf ns h) (hT : TermsOn nf ns tbl)
    (hZ : (exp (-(β : K) • (bareH nf ns h a + interactionH a tbl))).trace ≠ 0) {z A b : ℕ} (hz : z < nf) (hA : A < ns) (hb : b < ns) (k : ℕ) {ε : ℝ} (hε : 0 < ε) :
    ∀ᶠ nl in atTop, ∀ᶠ m in atTop, ∀ᶠ M in atTop, ∃ δ > 0, ∃ N : ℕ, ∀ (S : Type) (is : IStream S) dbg P j (V : FullSolver K),
      FineRun is dbg P j V β nf ns a (bareH nf ns h a) tbl δ N →
      ∀ G, (∀ t, ∀ z < nf, ∀ s < ns, ∀ s' < ns, V.q.g0 t z s s' = .ok (G t z s s')) →
      ‖(fourier β (fun u => toC (greenOf β a (bareH nf ns h a) z A b u)) k - ∑ s ∈ Finset.range ns,
          fourier β (fun u => toC (greenOf β a (bareH nf ns h a) z A s u)) k * writtenOmega V.c G β M m nl z s b k) -
        fourier β (fun u => toC (greenOf β a (bareH nf ns h a + interactionH a tbl) z A b u)) k‖ < ε := by
  have hβ0 : 0 < β := lt_trans (by norm_num) hβ
  have hp := C99_reconstructed (c := exactCtx β nf ns a (bareH nf ns h a) tbl) hβ0 ha hh (exactG0_spec hβ0 nf ns) (exactG0_measurable _ _ _) (exactG_spec hβ0 nf ns)
    (exactG_measurable _ _ _) hT hZ hz hA hb k (show 0 < ε / 2 by linarith)
  simp only [fourier_exact hβ0] at hp
  filter_upwards [hp] with nl p1
  filter_upwards [p1] with m p2
  filter_upwards [p2, exact_partition_ne hβ0 ha hh hT hZ] with M q hne
  obtain ⟨f, hf⟩ : ∃ f : ℕ → ℂ, f = fun s => fourier β (fun u => toC (greenOf β a (bareH nf ns h a) z A s u)) k := ⟨_, rfl⟩
  obtain ⟨δ, hδ, N, hN⟩ := fine_limit hβ a (bareH nf ns h a) nf ns tbl
    (Φ := fun g G => f b - ∑ s ∈ Finset.range ns, f s * writtenOmega { exactCtx β nf ns a (bareH nf ns h a) tbl with G0 := g } G β M m nl z s b k)
    (fun g G B hn ht => (tendsto_finset_sum (Finset.range ns) fun s _ =>
      (written_tendsto (c := exactCtx β nf ns a (bareH nf ns h a) tbl) (A := s) hn hT ht hβ0 M m nl hne hz hb k).const_mul (f s)).const_sub (f b))
    (show 0 < ε / 2 by linarith)
  refine ⟨δ, hδ, N, fun S is dbg P j V hr G e => ?_⟩
  obtain ⟨hc, G', e', q2⟩ := hN S is dbg P j V hr
  have eG : ∀ t, ∀ z < nf, ∀ s < ns, ∀ s' < ns, G t z s s' = G' t z s s' := fun t z hz s hs s' hs' =>
    Res.ok.inj ((e t z hz s hs s' hs').symm.trans (e' t z hz s hs s' hs'))
  have hcg : ∀ s, writtenOmega { exactCtx β nf ns a (bareH nf ns h a) tbl with G0 := V.c.G0 } G β M m nl z s b k =
      writtenOmega { exactCtx β nf ns a (bareH nf ns h a) tbl with G0 := V.c.G0 } G' β M m nl z s b k := fun s =>
    written_congr (c := { exactCtx β nf ns a (bareH nf ns h a) tbl with G0 := V.c.G0 }) (β := β) (ns := ns) hT eG M m nl hz hb k
  have ef : ∀ s, fourier β (fun u => toC (greenOf β a (bareH nf ns h a) z A s u)) k = f s := fun s => by rw [hf]
  have ef' : ∀ s, fourier β (fun u => toC (greenOf β a (bareH (exactCtx β nf ns a (bareH nf ns h a) tbl).nf ns h a) z A s u)) k = f s := ef
  simp only [ef'] at q
  simp only [ef]
  rw [hc]
  simp only [hcg]
  rw [← dist_eq_norm] at q q2 ⊢
  exact (dist_triangle _ _ _).trans_lt ((add_lt_add q2 q).trans_eq (add_halves ε))

/-- **C100, archive.**  The same for the numbers a long run writes. -/
theorem C100_archive (hβ : 1e-8 < β) (ha : Annihilators nf ns a) (hh : HermitianHops nf ns h) (hT : TermsOn nf ns tbl)
    (hZ : (exp (-(β : K) • (bareH nf ns h a + interactionH a tbl))).trace ≠ 0) {z A b : ℕ} (hz : z < nf) (hA : A < ns) (hb : b < ns) (k : ℕ) {ε : ℝ} (hε : 0 < ε) :
    ∀ᶠ nl in atTop, ∀ᶠ m in atTop, ∀ᶠ M in atTop, ∃ δ > 0, ∃ N : ℕ, ∀ (S : Type) (is : IStream S) dbg P j (V : FullSolver K),
      FineRun is dbg P j V β nf ns a (bareH nf ns h a) tbl δ N → P.nBin = m →
      ∀ G, (∀ t, ∀ z < nf, ∀ s < ns, ∀ s' < ns, V.q.g0 t z s s' = .ok (G t z s s')) →
      ∀ (nm : ℕ) (ar : ℕ → Archive), k < nm → SelfTo V.c V.q G M nl nm (partitionC V.c β M) ar →
      ∀ᶠ l in atTop, ‖(fourier β (fun u => toC (greenOf β a (bareH nf ns h a) z A b u)) k - ∑ s ∈ Finset.range ns,
          fourier β (fun u => toC (greenOf β a (bareH nf ns h a) z A s u)) k * (ar l).omega (off4 ns ns nf k s b z)) -
        fourier β (fun u => toC (greenOf β a (bareH nf ns h a + interactionH a tbl) z A b u)) k‖ < ε := by
  filter_upwards [C100_reconstructed hβ ha hh hT hZ hz hA hb k hε] with nl p1
  filter_upwards [p1] with m p2
  filter_upwards [p2] with M p3
  obtain ⟨δ, hδ, N, hN⟩ := p3
  refine ⟨δ, hδ, N, fun S is dbg P j V hr hnb G e nm ar hk har => ?_⟩
  have q3 := hN S is dbg P j V hr G e
  have hp := C80_parameters hr.made
  have e1 : V.q.beta = β := by rw [hp.beta, hr.beta]
  have e2 : V.q.ns = ns := by rw [hp.ns, hr.sites]
  have e3 : V.c.nf = nf := by rw [hp.nf, hr.spins]
  have e4 : V.q.nb = m := by rw [hp.bins, hnb]
  have ho : ∀ s < ns, Tendsto (fun l => (ar l).omega (off4 ns ns nf k s b z)) atTop (nhds (writtenOmega V.c G β M m nl z s b k)) := by
    intro s hs
    have := har.omega z (by rw [e3]; exact hz) s (by rw [e2]; exact hs) b (by rw [e2]; exact hb) k hk
    rw [e1, e2, e3, e4] at this
    exact this
  have ht := (((tendsto_finset_sum (Finset.range ns) fun s hs =>
    (ho s (Finset.mem_range.1 hs)).const_mul (fourier β (fun u => toC (greenOf β a (bareH nf ns h a) z A s u)) k)).const_sub
      (fourier β (fun u => toC (greenOf β a (bareH nf ns h a) z A b u)) k)).sub_const
      (fourier β (fun u => toC (greenOf β a (bareH nf ns h a + interactionH a tbl) z A b u)) k)).norm
  exact ht.eventually (gt_mem_nhds q3)

/-! ### The theorems apply -/

/-- Parameters of the Hubbard model. -/
noncomputable def fineParams (S : Type) (ns : ℕ) (β U : ℝ) (file : GFile) (m nl M : ℕ) : Params S :=
  { exParams S with sites := ns, beta := β, U := some U, g0File := some (some file), nBin := m, nLegendre := nl, maxOrder := M }

theorem fineParams_usable {S : Type} {ns : ℕ} {β U : ℝ} {file : GFile} {m nl M : ℕ} (hβ : 1e-8 < β) (hm : 0 < m) (hl : 0 < nl) :
    UsableParams (fineParams S ns β U file m nl M) :=
  ⟨hβ, by norm_num [fineParams, exParams], hm, by norm_num [fineParams, exParams], hl, Or.inl rfl⟩

/-- For the Hubbard model on any sites, with any Hermitian hopping and any U ≠ 0, there are runs with as many grid points as wanted and with the exact values in
    the file. -/
theorem fine_runs (hβ : 1e-8 < β) {ns : ℕ} (hn : 0 < ns) {U : ℝ} (hU : U ≠ 0) :
    ∃ tbl : List (VDef K), tbl.length = ns ∧
      (∀ d ∈ tbl, ∃ s < ns, ∃ v : UDef K, v.d = d ∧ OnsiteTerm (U : K) ((1e-2 : ℝ) : K) s [s, s, s, s] [0, 1] v) ∧ TermsOn 2 ns tbl ∧
      (∀ d ∈ tbl, ∀ r < d.rank, d.sites.getD (2 * r) 0 = d.sites.getD (2 * r + 1) 0) ∧
      ∀ (a : ℕ → ℕ → Matrix n n K) (H : Matrix n n K), H.IsHermitian → ∀ N : ℕ, ∃ file : GFile, UsableGreen K file β 2 ns ∧
      ∀ (S : Type) (is : IStream S) (dbg : Bool) (j : ReadJunk) (δ : ℝ), 0 ≤ δ → ∀ m nl M : ℕ, 0 < m → 0 < nl →
        ∃ V : FullSolver K, FineRun is dbg (fineParams S ns β U file m nl M) j V β 2 ns a H tbl δ N ∧ Ready (fineParams S ns β U file m nl M) V := by
  obtain ⟨t, et, hl, -, -, hv, -⟩ := C28_two_flavors ns (U : K) ((1e-2 : ℝ) : K)
  have hm : ∀ d ∈ t.list.map (·.d), ∃ s < ns, ∃ v : UDef K, v.d = d ∧ OnsiteTerm (U : K) ((1e-2 : ℝ) : K) s [s, s, s, s] [0, 1] v := by
    intro d hd
    obtain ⟨v, hv', rfl⟩ := List.mem_map.1 hd
    obtain ⟨i, hi, e⟩ := List.mem_iff_getElem.1 hv'
    have hi' : i < ns := by omega
    obtain ⟨w, ew, hw⟩ := hv i hi'
    rw [List.getElem?_eq_getElem hi, e] at ew
    exact ⟨i, hi', v, rfl, by rw [Option.some.inj ew]; exact hw⟩
  refine ⟨t.list.map (·.d), by simpa using hl, hm, fun d hd r hr => ?_, fun d hd r hr => ?_, fun a H hH N => ?_⟩
  · obtain ⟨s, hs, v, rfl, h⟩ := hm d hd
    rw [h.rank] at hr
    rw [h.sites, h.flavors]
    obtain rfl | rfl : r = 0 ∨ r = 1 := by omega
    all_goals simp [hs]
  · obtain ⟨s, hs, v, rfl, h⟩ := hm d hd
    rw [h.rank] at hr
    rw [h.sites]
    obtain rfl | rfl : r = 0 ∨ r = 1 := by omega
    all_goals simp
  · obtain ⟨file, e1, e2, e3⟩ := fileOf_usable (a := a) (nf := 2) (ns := ns) hH (nt := N + 3) (by omega) β
    refine ⟨file, e3, fun S is dbg j δ hδ m nl M hm0 hl0 => ?_⟩
    obtain ⟨V, hV, hr⟩ := C80_onsite (K := K) (is := is) dbg (fineParams S ns β U file m nl M) j file U (fineParams_usable hβ hm0 hl0) rfl rfl hU (Or.inl ⟨rfl, hn⟩) rfl e3 rfl
    refine ⟨V, ⟨hV, rfl, rfl, rfl, ?_, file, rfl, by rw [e1]; push_cast; omega, fun z hz s hs s' hs' i hi => (e2 z hz s hs s' hs' i hi).trans hδ⟩, hr⟩
    obtain ⟨t', leg, file', g, sub, et', -, -, -, -, -, -, -, hc, -⟩ := create_inv hV
    have htbl : V.c.tbl = t'.list.map (·.d) := by rw [hc]; rfl
    have et' : UTable.onsite ns 2 (U : K) ((1e-2 : ℝ) : K) = .ok t' := by
      unfold UTable.create at et'
      exact et'
    rw [et] at et'
    rw [htbl, Res.ok.inj et']

/-- The two-site Hubbard model: for every U ≠ 0 there are runs whose partition function is as close as wanted to that of the interacting Hamiltonian. -/
example (S : Type) (is : IStream S) (dbg : Bool) (j : ReadJunk) {β U ε : ℝ} (hβ : 1e-8 < β) (hU : U ≠ 0) (hε : 0 < ε) : ∃ (n : Type) (_ : Fintype n) (_ : DecidableEq n) (_ : Nonempty n)
    (a : ℕ → ℕ → Matrix n n ℝ) (tbl : List (VDef ℝ)), Annihilators 2 2 a ∧ tbl.length = 2 ∧
    (exp (-β • (bareH 2 2 dimerHop a + interactionH a tbl))).trace ≠ 0 ∧
    ∀ᶠ M in atTop, ∃ (P : Params S) (V : FullSolver ℝ), FullSolver.create is dbg P j = .ok V ∧ Ready P V ∧
      ‖partitionC V.c β M - toC ((exp (-β • (bareH 2 2 dimerHop a + interactionH a tbl))).trace / (exp (-β • bareH 2 2 dimerHop a)).trace)‖ < ε := by
  obtain ⟨n, i1, i2, i3, a, ha⟩ := annihilators_exist ℝ 2 2
  obtain ⟨tbl, t1, -, t2, t3, t4⟩ := fine_runs (K := ℝ) (n := n) hβ (ns := 2) (by norm_num) hU
  refine ⟨n, i1, i2, i3, a, tbl, ha, t1, density_terms_partition ha dimer_hops t2 t3 β, ?_⟩
  filter_upwards [C100_partition hβ ha dimer_hops t2 hε] with M hM
  obtain ⟨δ, hδ, N, hN⟩ := hM
  obtain ⟨file, -, t5⟩ := t4 a (bareH 2 2 dimerHop a) (bareH_hermitian dimer_hops) N
  obtain ⟨V, hV, hr⟩ := t5 S is dbg j δ hδ.le 1 1 M one_pos one_pos
  exact ⟨_, V, hV.made, hr, hN S _ _ _ _ V hV⟩

end CTInt
