import Verif.Proofs.Bipartite
import Verif.Props.HubbardAtom

/-!
# C105: half filling on bipartite lattices
-/

set_option linter.all false

namespace CTInt

open NormedSpace Matrix Filter

variable {n : Type} [Fintype n] [DecidableEq n] [Nonempty n] {ns : ℕ} {β U : ℝ} {a : ℕ → ℕ → Matrix n n ℝ} {h : ℕ → ℕ → ℕ → ℝ} {sgn : ℕ → ℝ}

theorem hubbard_partition (ha : Annihilators 2 ns a) (hh : HermitianHops 2 ns h) (β U : ℝ) : (exp (-β • (bareH 2 ns h a + hubbardV U ns a))).trace ≠ 0 := by
  obtain ⟨tbl, hT, -⟩ := hubbard_table U ns
  have h2 := hubbard_on hT
  have h := density_terms_partition ha hh h2.1 h2.2 β
  rw [C103_terms hT a, ← add_sub_assoc] at h
  generalize bareH 2 ns _ a + hubbardV U ns a = H at h ⊢
  rw [show -β • (H - (U * ns * (1 / 2 + 1e-2 : ℝ) ^ 2) • (1 : Matrix n n ℝ)) = -β • H + (β * (U * ns * (1 / 2 + 1e-2 : ℝ) ^ 2)) • 1 by module,
    Matrix.exp_add_of_commute _ _ ((Commute.one_right _).smul_right _), exp_constant, mul_smul_comm, mul_one, trace_smul] at h
  exact fun e => h (by rw [e, smul_zero])

theorem hubbard_one (ha : Annihilators 2 ns a) (hh : HermitianHops 2 ns h) (β U : ℝ) : thermal β (bareH 2 ns h a + hubbardV U ns a) 1 = 1 := by
  unfold thermal
  rw [mul_one]
  exact div_self (hubbard_partition ha hh β U)

/-- **C105, the model.**  On a bipartite lattice all sites are half filled. -/
theorem C105_half (ha : Annihilators 2 ns a) (hh : HermitianHops 2 ns h) (hb : BipartiteHops ns sgn h) {z s : ℕ} (hz : z < 2) (hs : s < ns) (β U : ℝ) :
    thermal β (bareH 2 ns h a + hubbardV U ns a) ((a z s)ᴴ * a z s) = 1 / 2 := by
  rw [show (a z s)ᴴ * a z s = halfOcc a z s + (1 / 2 : ℝ) • 1 by unfold halfOcc; module, thermal_eq, map_add, map_smul, ← thermal_eq, ← thermal_eq, bipartite_half ha hh hb hz hs,
    hubbard_one ha hh]
  norm_num

/-- The interaction energy of a site follows from the double occupancy. -/
theorem bipartite_pair (ha : Annihilators 2 ns a) (hh : HermitianHops 2 ns h) (hb : BipartiteHops ns sgn h) {s : ℕ} (hs : s < ns) (β U : ℝ) :
    thermal β (bareH 2 ns h a + hubbardV U ns a) (pairOn a s) =
      thermal β (bareH 2 ns h a + hubbardV U ns a) ((a 0 s)ᴴ * a 0 s * ((a 1 s)ᴴ * a 1 s)) - 1 / 4 := by
  have e2 : ∀ z, (a z s)ᴴ * a z s = halfOcc a z s + (1 / 2 : ℝ) • 1 := fun z => by unfold halfOcc; module
  rw [show (a 0 s)ᴴ * a 0 s * ((a 1 s)ᴴ * a 1 s) = pairOn a s + (1 / 2 : ℝ) • halfOcc a 0 s + (1 / 2 : ℝ) • halfOcc a 1 s + (1 / 4 : ℝ) • 1 by
        rw [e2 0, e2 1, pairOn_half, add_mul, mul_add, mul_add, smul_mul_assoc, mul_smul_comm, one_mul, mul_one, smul_mul_assoc, one_mul, smul_smul]; module]
  have h0 := bipartite_half ha hh hb (z := 0) (by norm_num) hs β U
  have h1 := bipartite_half ha hh hb (z := 1) (by norm_num) hs β U
  have h2 := hubbard_one ha hh β U
  generalize bareH 2 ns h a + hubbardV U ns a = H at h0 h1 h2 ⊢
  rw [thermal_eq β H (_ + _), map_add, map_add, map_add, map_smul, map_smul, map_smul, ← thermal_eq, ← thermal_eq, ← thermal_eq, ← thermal_eq, h0, h1, h2]
  simp

/-- **C105, densities.**  Any U: for a file that lists the Green's function of a bipartite lattice the densities in the archives of long runs are as close as wanted to 1/2,
    up to the error from the time difference taken for equal times. -/
theorem C105_density (hβ : 1e-8 < β) (ha : Annihilators 2 ns a) (hh : HermitianHops 2 ns h) (hb : BipartiteHops ns sgn h) (hn : 0 < ns) (U : ℝ) {z : ℕ} (hz : z < 2) {ε : ℝ}
    (hε : 0 < ε) : ∀ᶠ M in atTop, ∃ δ > 0, ∃ N : ℕ, ∀ (S : Type) (is : IStream S) dbg P np (mem : Fin np → Memory ℝ) (V : FullSolver ℝ),
      FineProgram is dbg P mem V β 2 ns a (bareH 2 ns h a) V.c.tbl δ N → P.U = some U → P.maxOrder = M → ∀ nm,
      ArchivesEventually is dbg P nm mem fun ar =>
        |ar.densities.getD z 0 - (1 / 2 + (∑ s ∈ Finset.range ns, equalTimeError β a (bareH 2 ns h a) z s s) / ns)| < ε := by
  obtain ⟨tbl, hT, htbl⟩ := hubbard_table U ns
  have h2 := hubbard_on hT
  filter_upwards [C101_densities hβ ha hh h2.1 (density_terms_partition ha hh h2.1 h2.2 β) hz hε] with M hM
  obtain ⟨δ, hδ, N, hN⟩ := hM
  refine ⟨δ, hδ, N, fun S is dbg P np mem V hp hPU hM nm => ?_⟩
  have hr := hp.runs ⟨0, hp.procs⟩
  rw [htbl S is dbg P _ V hr.made hr.spins hr.sites hPU] at hp
  have key := hN S is dbg P np mem V hp hM nm
  have e : ((∑ s ∈ Finset.range ns, (thermal β (bareH 2 ns h a + interactionH a tbl) ((a z s)ᴴ * a z s) + equalTimeError β a (bareH 2 ns h a) z s s)) / ns : ℝ) =
      1 / 2 + (∑ s ∈ Finset.range ns, equalTimeError β a (bareH 2 ns h a) z s s) / ns := by
    have hn' : (ns : ℝ) ≠ 0 := by exact_mod_cast hn.ne'
    rw [Finset.sum_add_distrib, Finset.sum_congr rfl (g := fun _ => (1 / 2 : ℝ)) fun s hs => by
      rw [C103_average hT, C105_half ha hh hb hz (Finset.mem_range.1 hs)]]
    rw [Finset.sum_const, Finset.card_range, nsmul_eq_mul]
    field_simp
  rw [e] at key
  simp only [← Complex.ofReal_sub, Complex.norm_real, Real.norm_eq_abs] at key
  exact key

/-- **C105, matrix sizes.**  U > 0: the average matrix sizes tell the double occupancy of the model, summed over the sites. -/
theorem C105_order (hβ : 1e-8 < β) (ha : Annihilators 2 ns a) (hh : HermitianHops 2 ns h) (hb : BipartiteHops ns sgn h) (hU : 0 < U) {z : ℕ} (hz : z < 2) {ε : ℝ} (hε : 0 < ε) :
    ∀ᶠ M in atTop, ∃ δ > 0, ∃ N : ℕ, ∀ (S : Type) (is : IStream S) dbg P np (mem : Fin np → Memory ℝ) (V : FullSolver ℝ),
      FineProgram is dbg P mem V β 2 ns a (bareH 2 ns h a) V.c.tbl δ N → P.U = some U → P.maxOrder = M →
      (∃ sgn file, P.g0File = some (some file) ∧ PHFile sgn file) → ∀ nm,
      ArchivesEventually is dbg P nm mem fun ar => |ar.matrixSize.getD z 0 - β * U * (ns * 0.5101 -
        ∑ s ∈ Finset.range ns, thermal β (bareH 2 ns h a + hubbardV U ns a) ((a 0 s)ᴴ * a 0 s * ((a 1 s)ᴴ * a 1 s)))| < ε := by
  filter_upwards [C103_program hβ ha hh hU hz hε] with M hM
  obtain ⟨δ, hδ, N, hN⟩ := hM
  refine ⟨δ, hδ, N, fun S is dbg P np mem V hp hPU hM hF nm => ?_⟩
  have key := hN S is dbg P np mem V hp hPU hM hF nm
  have e : ∀ W : Matrix n n ℝ, thermal β W (hubbardV U ns a) = U * ∑ s ∈ Finset.range ns, thermal β W (pairOn a s) := fun W => by
    unfold hubbardV
    rw [thermal_eq, map_smul, map_sum, smul_eq_mul]
    rfl
  rw [e, Finset.sum_congr rfl fun s hs => bipartite_pair ha hh hb (Finset.mem_range.1 hs) β U, Finset.sum_sub_distrib, Finset.sum_const, Finset.card_range, nsmul_eq_mul,
    show ∀ D : ℝ, β * (U * ns * 0.51 ^ 2 - U * (D - ns * (1 / 4))) = β * U * (ns * 0.5101 - D) by intro D; ring] at key
  exact key

/-! ## The hypotheses can be met -/

/-- Two sites with hopping. -/
theorem dimer_bipartite : BipartiteHops 2 (fun s => if s = 0 then 1 else -1) dimerHop := by
  refine ⟨fun s => ?_, fun z _ s hs s' hs' e => ?_⟩
  · by_cases q : s = 0
    · exact Or.inl (if_pos q)
    · exact Or.inr (if_neg q)
  · unfold dimerHop
    refine if_pos ?_
    by_contra hne
    obtain ⟨rfl, rfl⟩ | ⟨rfl, rfl⟩ : (s = 0 ∧ s' = 1) ∨ (s = 1 ∧ s' = 0) := by omega
    all_goals norm_num at e

/-- A chain of any length, with any hopping amplitudes between neighbours. -/
theorem chain_bipartite (t : ℕ → ℕ → ℝ) : BipartiteHops ns (fun s => if s % 2 = 0 then 1 else -1)
    (fun z s s' => if s' = s + 1 then t z s else if s = s' + 1 then t z s' else 0) ∧
    HermitianHops 2 ns (fun z s s' => if s' = s + 1 then t z s else if s = s' + 1 then t z s' else 0) := by
  refine ⟨⟨fun s => ?_, fun z _ s hs s' hs' e => ?_⟩, fun z _ s _ s' _ => ?_⟩
  · by_cases q : s % 2 = 0
    · exact Or.inl (if_pos q)
    · exact Or.inr (if_neg q)
  · have : s % 2 = 0 ↔ s' % 2 = 0 := by
      by_cases q : s % 2 = 0 <;> by_cases q' : s' % 2 = 0 <;> simp only [q, q', if_true, if_false] at e ⊢ <;> norm_num at e
    exact (if_neg (by omega)).trans (if_neg (by omega))
  · show (if s' = s + 1 then t z s else if s = s' + 1 then t z s' else 0) = if s = s' + 1 then t z s' else if s' = s + 1 then t z s else 0
    split_ifs <;> first | rfl | omega

example (β U : ℝ) (t : ℕ → ℕ → ℝ) {z s : ℕ} (hz : z < 2) (hs : s < ns) : ∃ (n : Type) (_ : Fintype n) (_ : DecidableEq n) (a : ℕ → ℕ → Matrix n n ℝ), Annihilators 2 ns a ∧
    thermal β (bareH 2 ns (fun z s s' => if s' = s + 1 then t z s else if s = s' + 1 then t z s' else 0) a + hubbardV U ns a) ((a z s)ᴴ * a z s) = 1 / 2 := by
  obtain ⟨n, i1, i2, i3, a, ha⟩ := annihilators_exist ℝ 2 ns
  exact ⟨n, i1, i2, a, ha, C105_half ha (chain_bipartite t).2 (chain_bipartite t).1 hz hs β U⟩

/-- Programs for sites without hopping. -/
example {S : Type} (is : IStream S) (dbg : Bool) (j : ReadJunk) {β U ε : ℝ} (hβ : 1e-8 < β) (hU : 0 < U) (hε : 0 < ε) {z : ℕ} (hn : 0 < ns) (hz : z < 2) :
    ∃ (n : Type) (_ : Fintype n) (_ : DecidableEq n) (a : ℕ → ℕ → Matrix n n ℝ), Annihilators 2 ns a ∧ ∀ᶠ M in atTop, (∃ file : GFile,
      ArchivesEventually is dbg (fineParams S ns β U file 1 1 M) 1 (fun _ : Fin 1 => (⟨j, fun _ _ _ _ _ _ _ => 0, fun _ _ _ => 0⟩ : Memory ℝ)) fun ar =>
        |ar.densities.getD z 0 - (1 / 2 + (∑ s ∈ Finset.range ns, equalTimeError β a (bareH 2 ns (fun _ _ _ => 0) a) z s s) / ns)| < ε) ∧ ∃ file : GFile,
      ArchivesEventually is dbg (fineParams S ns β U file 1 1 M) 1 (fun _ : Fin 1 => (⟨j, fun _ _ _ _ _ _ _ => 0, fun _ _ _ => 0⟩ : Memory ℝ)) fun ar =>
        |ar.matrixSize.getD z 0 - β * U * (ns * 0.5101 - ∑ s ∈ Finset.range ns, thermal β (bareH 2 ns (fun _ _ _ => 0) a + hubbardV U ns a)
          ((a 0 s)ᴴ * a 0 s * ((a 1 s)ᴴ * a 1 s)))| < ε := by
  obtain ⟨n, i1, i2, i3, a, ha⟩ := annihilators_exist ℝ 2 ns
  have hb : BipartiteHops ns (fun _ => 1) (fun _ _ _ => (0 : ℝ)) := ⟨fun _ => Or.inl rfl, fun _ _ _ _ _ _ _ => rfl⟩
  refine ⟨n, i1, i2, a, ha, ?_⟩
  filter_upwards [C105_density hβ ha (atomic_hops ns) hb hn U hz hε, C105_order hβ ha (atomic_hops ns) hb hU hz hε] with M h1 h2
  obtain ⟨δ1, d1, N1, h1⟩ := h1
  obtain ⟨δ2, d2, N2, h2⟩ := h2
  obtain ⟨f1, V1, p1⟩ := isolated_exist is dbg j hβ hU.ne' hn (max N1 4) M one_pos one_pos
  obtain ⟨f2, V2, p2⟩ := isolated_exist is dbg j hβ hU.ne' hn (max N2 4) M one_pos one_pos
  exact ⟨⟨f1, h1 S is dbg _ 1 _ V1 (isolated_fine hβ ha hn hU.ne' p1 d1.le) rfl rfl 1⟩, f2,
    h2 S is dbg _ 1 _ V2 (isolated_fine hβ ha hn hU.ne' p2 d2.le) rfl rfl (isolated_ph hβ p2) 1⟩

end CTInt
