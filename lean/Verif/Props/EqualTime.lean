import Verif.Proofs.EqualTime
import Verif.Props.Bipartite

/-!
# C107: how far the written densities are from those of the Hamiltonian
-/

set_option linter.all false

namespace CTInt

open NormedSpace Matrix Filter

section

variable {K : Type} [RCLike K] [DecidableEq K] {n : Type} [Fintype n] [DecidableEq n] [Nonempty n] {nf ns : ℕ} {β : ℝ} {a : ℕ → ℕ → Matrix n n K} {h : ℕ → ℕ → ℕ → K}

/-- **C107, the error.**  The measurements take 10⁻¹⁰ β for the time difference zero (`measure_densities`, /repo/src/measurement.ipp:530, 536).  What this adds to
    c†_s c_s2 is at most 10⁻¹⁰ β times the sum of the hopping amplitudes from s2. -/
theorem C107_error (hβ : 0 ≤ β) (ha : Annihilators nf ns a) (hh : HermitianHops nf ns h) {z s s2 : ℕ} (hz : z < nf) (hs : s < ns) (hs2 : s2 < ns) :
    ‖equalTimeError β a (bareH nf ns h a) z s s2‖ ≤ 1e-10 * β * ∑ s' ∈ Finset.range ns, ‖h z s2 s'‖ := by
  have e0 : thermal β (bareH nf ns h a) ((a z s)ᴴ * a z s2) = greenP β a (bareH nf ns h a) z s2 s (β - 0) := by
    rw [← equal_time_green, atTime_zero]
  unfold equalTimeError
  rw [e0, equal_time_green]
  refine (greenP_lipschitz ha hh hz hs2 hs (u := β - 0) (v := β - β * 1e-10) ⟨by linarith, by linarith⟩ ⟨by nlinarith, by nlinarith⟩).trans_eq ?_
  rw [show β - β * 1e-10 - (β - 0) = -(β * 1e-10) by ring, norm_neg, Real.norm_of_nonneg (by positivity)]
  ring

/-- **C107, the Green's function.**  That of any Hermitian matrix is at most one between 0 and β. -/
theorem C107_green (hβ : 0 ≤ β) (ha : Annihilators nf ns a) {H : Matrix n n K} (hH : H.IsHermitian) {z s s' : ℕ} (hz : z < nf) (hs : s < ns) (hs' : s' < ns) {t : ℝ}
    (ht : t ∈ Set.Icc 0 β) : ‖thermal β H (atTime H t (a z s) * (a z s')ᴴ)‖ ≤ 1 :=
  greenP_le_one ha hH hz hs hs' ht.1 ht.2

end

variable {n : Type} [Fintype n] [DecidableEq n] [Nonempty n] {nf ns : ℕ} {β : ℝ} {a : ℕ → ℕ → Matrix n n ℝ} {h : ℕ → ℕ → ℕ → ℝ} {sgn : ℕ → ℝ} {tbl : List (VDef ℝ)}

theorem ArchivesEventually.mono {S : Type} {is : IStream S} {dbg : Bool} {P : Params S} {nm np : ℕ} {mem : Fin np → Memory ℝ} {Q Q' : Archive → Prop}
    (hq : ArchivesEventually is dbg P nm mem Q) (hi : ∀ ar, Q ar → Q' ar) : ArchivesEventually is dbg P nm mem Q' := by
  intro sj hsj jp μ hμ
  filter_upwards [hq sj hsj jp μ hμ] with u hu
  intro T k hT hk
  obtain ⟨rs, ar, h1, h2⟩ := hu T k hT hk
  exact ⟨rs, ar, h1, h2.mono fun l hl => hi _ hl⟩

/-- The errors of all sites together. -/
theorem mean_error (hβ : 0 ≤ β) (ha : Annihilators nf ns a) (hh : HermitianHops nf ns h) {z : ℕ} (hz : z < nf) :
    |(∑ s ∈ Finset.range ns, equalTimeError β a (bareH nf ns h a) z s s) / ns| ≤ 1e-10 * β * (∑ s ∈ Finset.range ns, ∑ s' ∈ Finset.range ns, |h z s s'|) / ns := by
  rw [abs_div, Nat.abs_cast]
  refine div_le_div_of_nonneg_right ?_ (Nat.cast_nonneg _)
  rw [Finset.mul_sum]
  exact (Finset.abs_sum_le_sum_abs _ _).trans (Finset.sum_le_sum fun s hs => C107_error hβ ha hh hz (Finset.mem_range.1 hs) (Finset.mem_range.1 hs))

/-- **C107, densities.**  The densities in the archives of long runs are those of the interacting Hamiltonian up to 10⁻¹⁰ β times the average over the sites of the sum of the
    hopping amplitudes, and any ε. -/
theorem C107_densities (hβ : 1e-8 < β) (ha : Annihilators nf ns a) (hh : HermitianHops nf ns h) (hT : TermsOn nf ns tbl)
    (hZ : (exp (-β • (bareH nf ns h a + interactionH a tbl))).trace ≠ 0) {z : ℕ} (hz : z < nf) {ε : ℝ} (hε : 0 < ε) :
    ∀ᶠ M in atTop, ∃ δ > 0, ∃ N : ℕ, ∀ (S : Type) (is : IStream S) dbg P np (mem : Fin np → Memory ℝ) (V : FullSolver ℝ),
      FineProgram is dbg P mem V β nf ns a (bareH nf ns h a) tbl δ N → P.maxOrder = M → ∀ nm,
      ArchivesEventually is dbg P nm mem fun ar =>
        |ar.densities.getD z 0 - (∑ s ∈ Finset.range ns, thermal β (bareH nf ns h a + interactionH a tbl) ((a z s)ᴴ * a z s)) / ns| <
          1e-10 * β * (∑ s ∈ Finset.range ns, ∑ s' ∈ Finset.range ns, |h z s s'|) / ns + ε := by
  have b0 : (0 : ℝ) ≤ β := le_trans (by norm_num) hβ.le
  filter_upwards [C101_densities hβ ha hh hT hZ hz hε] with M hM
  obtain ⟨δ, hδ, N, hN⟩ := hM
  refine ⟨δ, hδ, N, fun S is dbg P np mem V hp hM nm => (hN S is dbg P np mem V hp hM nm).mono fun ar q => ?_⟩
  rw [← Complex.ofReal_sub, Complex.norm_real, Real.norm_eq_abs, Finset.sum_add_distrib, add_div] at q
  have := mean_error b0 ha hh hz
  rw [abs_lt] at q ⊢
  rw [abs_le] at this
  constructor <;> linarith

/-- **C107, half filling.**  Any U: the densities of a bipartite Hubbard model in the archives of long runs are 1/2 up to the same error. -/
theorem C107_half (hβ : 1e-8 < β) (ha : Annihilators 2 ns a) (hh : HermitianHops 2 ns h) (hb : BipartiteHops ns sgn h) (hn : 0 < ns) (U : ℝ) {z : ℕ} (hz : z < 2) {ε : ℝ}
    (hε : 0 < ε) : ∀ᶠ M in atTop, ∃ δ > 0, ∃ N : ℕ, ∀ (S : Type) (is : IStream S) dbg P np (mem : Fin np → Memory ℝ) (V : FullSolver ℝ),
      FineProgram is dbg P mem V β 2 ns a (bareH 2 ns h a) V.c.tbl δ N → P.U = some U → P.maxOrder = M → ∀ nm,
      ArchivesEventually is dbg P nm mem fun ar =>
        |ar.densities.getD z 0 - 1 / 2| < 1e-10 * β * (∑ s ∈ Finset.range ns, ∑ s' ∈ Finset.range ns, |h z s s'|) / ns + ε := by
  have b0 : (0 : ℝ) ≤ β := le_trans (by norm_num) hβ.le
  filter_upwards [C105_density hβ ha hh hb hn U hz hε] with M hM
  obtain ⟨δ, hδ, N, hN⟩ := hM
  refine ⟨δ, hδ, N, fun S is dbg P np mem V hp hU hM nm => (hN S is dbg P np mem V hp hU hM nm).mono fun ar q => ?_⟩
  have := mean_error b0 ha hh hz
  rw [abs_lt] at q ⊢
  rw [abs_le] at this
  constructor <;> linarith

theorem hubbardV_hermitian (ha : Annihilators 2 ns a) (U : ℝ) : (hubbardV U ns a).IsHermitian := by
  obtain ⟨tbl, hT, _⟩ := hubbard_table U ns
  have h2 := hubbard_on hT
  have h3 := density_terms_hermitian ha h2.1 h2.2
  rw [C103_terms hT a] at h3
  have h4 : ((U * ns * (1 / 2 + 1e-2) ^ 2 : ℝ) • (1 : Matrix n n ℝ)).IsHermitian := by
    unfold IsHermitian
    rw [conjTranspose_smul, conjTranspose_one, star_trivial]
  have h5 := h3.add h4
  rwa [sub_add_cancel] at h5

/-- Densities of the Hubbard model are at most one. -/
theorem hubbard_density_le (hβ : 0 ≤ β) (ha : Annihilators 2 ns a) (hh : HermitianHops 2 ns h) (U : ℝ) {z s : ℕ} (hz : z < 2) (hs : s < ns) :
    |thermal β (bareH 2 ns h a + hubbardV U ns a) ((a z s)ᴴ * a z s)| ≤ 1 := by
  have := greenP_le_one ha ((bareH_hermitian (c := a) hh).add (hubbardV_hermitian ha U)) hz hs hs (u := β - 0) (β := β) (by linarith) (by linarith)
  rw [← equal_time_green, atTime_zero] at this
  exact this

/-- **C107, double occupancy.**  Any U: the products n↑ n↓ in the archives of long runs are those of the Hubbard model, up to the sum and the product of the bounds for the two
    sites, and any ε. -/
theorem C107_product (hβ : 1e-8 < β) (ha : Annihilators 2 ns a) (hh : HermitianHops 2 ns h) (U : ℝ) {i j : ℕ} (hi : i < ns) (hj : j < ns) {ε : ℝ} (hε : 0 < ε) :
    ∀ᶠ M in atTop, ∃ δ > 0, ∃ N : ℕ, ∀ (S : Type) (is : IStream S) dbg P np (mem : Fin np → Memory ℝ) (V : FullSolver ℝ),
      FineProgram is dbg P mem V β 2 ns a (bareH 2 ns h a) V.c.tbl δ N → P.U = some U → P.maxOrder = M → ∀ nm,
      ArchivesEventually is dbg P nm mem fun ar =>
        ‖ar.ninj 0 i 1 j - ((thermal β (bareH 2 ns h a + hubbardV U ns a) ((a 0 i)ᴴ * a 0 i * ((a 1 j)ᴴ * a 1 j)) : ℝ) : ℂ)‖ <
          1e-10 * β * ∑ s ∈ Finset.range ns, |h 0 i s| + 1e-10 * β * ∑ s ∈ Finset.range ns, |h 1 j s| +
            (1e-10 * β * ∑ s ∈ Finset.range ns, |h 0 i s|) * (1e-10 * β * ∑ s ∈ Finset.range ns, |h 1 j s|) + ε := by
  have b0 : (0 : ℝ) ≤ β := le_trans (by norm_num) hβ.le
  have hZ : (exp (-β • (bareH 2 ns h a + hubbardV U ns a))).trace ≠ 0 := by
    refine thermal_trace_ne (K := ℝ) ((bareH_hermitian hh).add ?_)
    exact hubbardV_hermitian ha U
  obtain ⟨x, hx⟩ : ∃ x, x = equalTimeError β a (bareH 2 ns h a) 0 i i := ⟨_, rfl⟩
  obtain ⟨y, hy⟩ : ∃ y, y = equalTimeError β a (bareH 2 ns h a) 1 j j := ⟨_, rfl⟩
  have hx1 : |x| ≤ 1e-10 * β * ∑ s ∈ Finset.range ns, |h 0 i s| := hx ▸ C107_error b0 ha hh (by norm_num) hi hi
  have hy1 : |y| ≤ 1e-10 * β * ∑ s ∈ Finset.range ns, |h 1 j s| := hy ▸ C107_error b0 ha hh (by norm_num) hj hj
  have hX := hubbard_density_le b0 ha hh U (z := 0) (by norm_num) hi
  have hY := hubbard_density_le b0 ha hh U (z := 1) (by norm_num) hj
  have e : thermal β (bareH 2 ns h a + hubbardV U ns a) (((a 0 i)ᴴ * a 0 i + x • 1) * ((a 1 j)ᴴ * a 1 j + y • 1)) =
      thermal β (bareH 2 ns h a + hubbardV U ns a) ((a 0 i)ᴴ * a 0 i * ((a 1 j)ᴴ * a 1 j)) + (y * thermal β (bareH 2 ns h a + hubbardV U ns a) ((a 0 i)ᴴ * a 0 i) +
        x * thermal β (bareH 2 ns h a + hubbardV U ns a) ((a 1 j)ᴴ * a 1 j) + x * y) := by
    have e1 : thermal β (bareH 2 ns h a + hubbardV U ns a) 1 = 1 := by
      unfold thermal
      rw [mul_one]
      exact div_self hZ
    have e2 : ((a 0 i)ᴴ * a 0 i + x • 1) * ((a 1 j)ᴴ * a 1 j + y • 1) =
        (a 0 i)ᴴ * a 0 i * ((a 1 j)ᴴ * a 1 j) + (y • ((a 0 i)ᴴ * a 0 i) + x • ((a 1 j)ᴴ * a 1 j) + (x * y) • (1 : Matrix n n ℝ)) := by
      rw [add_mul, mul_add, mul_add, mul_smul_comm, mul_one, smul_mul_assoc, one_mul, smul_mul_assoc, one_mul, smul_smul]
      abel
    rw [e2, thermal_eq, map_add, map_add, map_add, ← thermal_eq, ← thermal_eq, ← thermal_eq, ← thermal_eq, thermal_smul, thermal_smul, thermal_smul, e1, mul_one]
  filter_upwards [C103_product hβ ha hh U hi hj hε] with M hM
  obtain ⟨δ, hδ, N, hN⟩ := hM
  refine ⟨δ, hδ, N, fun S is dbg P np mem V hp hU hM nm => (hN S is dbg P np mem V hp hU hM nm).mono fun ar q => ?_⟩
  rw [← hx, ← hy, e] at q
  generalize thermal β (bareH 2 ns h a + hubbardV U ns a) ((a 0 i)ᴴ * a 0 i * ((a 1 j)ᴴ * a 1 j)) = w at q ⊢
  generalize thermal β (bareH 2 ns h a + hubbardV U ns a) ((a 0 i)ᴴ * a 0 i) = X at q hX
  generalize thermal β (bareH 2 ns h a + hubbardV U ns a) ((a 1 j)ᴴ * a 1 j) = Y at q hY
  generalize 1e-10 * β * ∑ s ∈ Finset.range ns, |h 0 i s| = E at hx1 ⊢
  generalize 1e-10 * β * ∑ s ∈ Finset.range ns, |h 1 j s| = F at hy1 ⊢
  have hr : |y * X + x * Y + x * y| ≤ E + F + E * F := by
    refine (abs_add_three _ _ _).trans ?_
    rw [abs_mul, abs_mul, abs_mul]
    have p1 := mul_le_mul hy1 hX (abs_nonneg _) ((abs_nonneg _).trans hy1)
    have p2 := mul_le_mul hx1 hY (abs_nonneg _) ((abs_nonneg _).trans hx1)
    have p3 := mul_le_mul hx1 hy1 (abs_nonneg _) ((abs_nonneg _).trans hx1)
    linarith
  have t : ar.ninj 0 i 1 j - (w : ℂ) = (ar.ninj 0 i 1 j - ((w + (y * X + x * Y + x * y) : ℝ) : ℂ)) + ((y * X + x * Y + x * y : ℝ) : ℂ) := by
    push_cast
    ring
  rw [t]
  refine (norm_add_le _ _).trans_lt ?_
  rw [Complex.norm_real, Real.norm_eq_abs]
  linarith

/-! ## The hypotheses can be met -/

/-- Two sites with hopping -1 at β = 10: the error is at most 10⁻⁹. -/
example : ∃ (n : Type) (_ : Fintype n) (_ : DecidableEq n) (a : ℕ → ℕ → Matrix n n ℝ), Annihilators 2 2 a ∧
    ∀ z < 2, ∀ s < 2, ∀ s2 < 2, ‖equalTimeError 10 a (bareH 2 2 dimerHop a) z s s2‖ ≤ 1e-9 := by
  obtain ⟨n, i1, i2, i3, a, ha⟩ := annihilators_exist ℝ 2 2
  refine ⟨n, i1, i2, a, ha, fun z hz s hs s2 hs2 => (C107_error (by norm_num) ha dimer_hops hz hs hs2).trans ?_⟩
  unfold dimerHop
  interval_cases s2 <;> norm_num [Finset.sum_range_succ]

/-- The Green's function of an interacting chain is at most one. -/
example (U : ℝ) (t : ℕ → ℕ → ℝ) {z s s' : ℕ} (hz : z < 2) (hs : s < ns) (hs' : s' < ns) : ∃ (n : Type) (_ : Fintype n) (_ : DecidableEq n) (a : ℕ → ℕ → Matrix n n ℝ),
    Annihilators 2 ns a ∧ ∀ τ ∈ Set.Icc (0 : ℝ) 5,
      ‖thermal 5 (bareH 2 ns (fun z s s' => if s' = s + 1 then t z s else if s = s' + 1 then t z s' else 0) a + hubbardV U ns a)
        (atTime (bareH 2 ns (fun z s s' => if s' = s + 1 then t z s else if s = s' + 1 then t z s' else 0) a + hubbardV U ns a) τ (a z s) * (a z s')ᴴ)‖ ≤ 1 := by
  obtain ⟨n, i1, i2, i3, a, ha⟩ := annihilators_exist ℝ 2 ns
  exact ⟨n, i1, i2, a, ha, fun τ hτ => C107_green (by norm_num) ha ((bareH_hermitian (chain_bipartite t).2).add (hubbardV_hermitian ha U)) hz hs hs' hτ⟩

/-- A program for sites without hopping. -/
example {S : Type} (is : IStream S) (dbg : Bool) (j : ReadJunk) {β U ε : ℝ} (hβ : 1e-8 < β) (hU : U ≠ 0) (hε : 0 < ε) {z : ℕ} (hn : 0 < ns) (hz : z < 2) :
    ∀ᶠ M in atTop, ∃ file : GFile,
      ArchivesEventually is dbg (fineParams S ns β U file 1 1 M) 1 (fun _ : Fin 1 => (⟨j, fun _ _ _ _ _ _ _ => 0, fun _ _ _ => 0⟩ : Memory ℝ)) fun ar =>
        |ar.densities.getD z 0 - 1 / 2| < ε := by
  obtain ⟨n, i1, i2, i3, a, ha⟩ := annihilators_exist ℝ 2 ns
  have hb : BipartiteHops ns (fun _ => 1) (fun _ _ _ => (0 : ℝ)) := ⟨fun _ => Or.inl rfl, fun _ _ _ _ _ _ _ => rfl⟩
  filter_upwards [C107_half hβ ha (atomic_hops ns) hb hn U hz hε] with M h1
  obtain ⟨δ1, d1, N1, h1⟩ := h1
  obtain ⟨f1, V1, p1⟩ := isolated_exist is dbg j hβ hU hn (max N1 4) M one_pos one_pos
  refine ⟨f1, (h1 S is dbg _ 1 _ V1 (isolated_fine hβ ha hn hU p1 d1.le) rfl rfl 1).mono fun ar q => ?_⟩
  simpa using q

example {S : Type} (is : IStream S) (dbg : Bool) (j : ReadJunk) {β U ε : ℝ} (hβ : 1e-8 < β) (hU : U ≠ 0) (hε : 0 < ε) {s : ℕ} (hs : s < ns) :
    ∃ (n : Type) (_ : Fintype n) (_ : DecidableEq n) (a : ℕ → ℕ → Matrix n n ℝ), Annihilators 2 ns a ∧ ∀ᶠ M in atTop, ∃ file : GFile,
      ArchivesEventually is dbg (fineParams S ns β U file 1 1 M) 1 (fun _ : Fin 1 => (⟨j, fun _ _ _ _ _ _ _ => 0, fun _ _ _ => 0⟩ : Memory ℝ)) fun ar =>
        ‖ar.ninj 0 s 1 s - ((thermal β (bareH 2 ns (fun _ _ _ => 0) a + hubbardV U ns a) ((a 0 s)ᴴ * a 0 s * ((a 1 s)ᴴ * a 1 s)) : ℝ) : ℂ)‖ < ε := by
  obtain ⟨n, i1, i2, i3, a, ha⟩ := annihilators_exist ℝ 2 ns
  have hn : 0 < ns := by omega
  refine ⟨n, i1, i2, a, ha, ?_⟩
  filter_upwards [C107_product hβ ha (atomic_hops ns) U hs hs hε] with M h1
  obtain ⟨δ1, d1, N1, h1⟩ := h1
  obtain ⟨f1, V1, p1⟩ := isolated_exist is dbg j hβ hU hn (max N1 4) M one_pos one_pos
  refine ⟨f1, (h1 S is dbg _ 1 _ V1 (isolated_fine hβ ha hn hU p1 d1.le) rfl rfl 1).mono fun ar q => ?_⟩
  simpa using q

end CTInt
