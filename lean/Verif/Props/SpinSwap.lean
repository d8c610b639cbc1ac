import Verif.Proofs.SpinSwap
import Verif.Props.Bipartite

/-!
# C106: symmetry between the flavors
-/

set_option linter.all false

namespace CTInt

open NormedSpace Matrix Filter

variable {n : Type} [Fintype n] [DecidableEq n] [Nonempty n] {ns : ℕ} {β U : ℝ} {a : ℕ → ℕ → Matrix n n ℝ} {h : ℕ → ℕ → ℕ → ℝ}

/-- **C106, the model.**  With the same hopping for both flavors, densities and Green's functions of the Hubbard model do not depend on the flavor. -/
theorem C106_model (ha : Annihilators 2 ns a) (hh : ∀ s < ns, ∀ s' < ns, h 0 s s' = h 1 s s') {z A b : ℕ} (hz : z < 2) (hA : A < ns) (hb : b < ns) (β U : ℝ) :
    thermal β (bareH 2 ns h a + hubbardV U ns a) ((a z A)ᴴ * a z b) = thermal β (bareH 2 ns h a + hubbardV U ns a) ((a 0 A)ᴴ * a 0 b) ∧
    ∀ u, greenOf β a (bareH 2 ns h a + hubbardV U ns a) z A b u = greenOf β a (bareH 2 ns h a + hubbardV U ns a) 0 A b u := by
  obtain ⟨W, W', h1, hW⟩ := swaps_exist ha
  have hH : Commute W (bareH 2 ns h a + hubbardV U ns a) := (swaps_bare hW hh).add_right (swaps_hubbard ha hW U)
  obtain rfl | rfl : z = 0 ∨ z = 1 := by omega
  · exact ⟨rfl, fun _ => rfl⟩
  · refine ⟨thermal_symmetry h1 hH (swaps_pair hW hz hA hb) β, fun u => ?_⟩
    unfold greenOf
    rw [thermal_symmetry h1 hH (Y := atTime (bareH 2 ns h a + hubbardV U ns a) u (a 0 A) * (a 0 b)ᴴ) _ β]
    rw [← mul_assoc, atTime_symmetry hH (hW 1 hz A hA).1, mul_assoc, (hW 1 hz b hb).2, mul_assoc]

theorem hubbardV_zero (ns : ℕ) (a : ℕ → ℕ → Matrix n n ℝ) : hubbardV 0 ns a = 0 := by
  unfold hubbardV
  rw [zero_smul]

theorem swap_equalTime (ha : Annihilators 2 ns a) (hh : ∀ s < ns, ∀ s' < ns, h 0 s s' = h 1 s s') {z A b : ℕ} (hz : z < 2) (hA : A < ns) (hb : b < ns) (β : ℝ) :
    equalTimeError β a (bareH 2 ns h a) z A b = equalTimeError β a (bareH 2 ns h a) 0 A b := by
  obtain ⟨W, W', h1, hW⟩ := swaps_exist ha
  have hH : Commute W (bareH 2 ns h a) := swaps_bare hW hh
  obtain rfl | rfl : z = 0 ∨ z = 1 := by omega
  · rfl
  · unfold equalTimeError
    rw [thermal_symmetry h1 hH (swaps_pair hW hz hA hb) β,
      thermal_symmetry h1 hH (Y := atTime (bareH 2 ns h a) (β * 1e-10) (a 0 A)ᴴ * a 0 b) _ β]
    rw [← mul_assoc, atTime_symmetry hH (hW 1 hz A hA).2, mul_assoc, (hW 1 hz b hb).1, mul_assoc]

/-- **C106, densities.**  Any U and any hopping that is the same for both flavors: the densities of both flavors in the archives of long runs are as close as wanted to one
    number, the density of flavor 0 of the model with the error from the time difference taken for equal times. -/
theorem C106_density (hβ : 1e-8 < β) (ha : Annihilators 2 ns a) (hH : HermitianHops 2 ns h) (hh : ∀ s < ns, ∀ s' < ns, h 0 s s' = h 1 s s') (U : ℝ) {z : ℕ} (hz : z < 2) {ε : ℝ}
    (hε : 0 < ε) : ∀ᶠ M in atTop, ∃ δ > 0, ∃ N : ℕ, ∀ (S : Type) (is : IStream S) dbg P np (mem : Fin np → Memory ℝ) (V : FullSolver ℝ),
      FineProgram is dbg P mem V β 2 ns a (bareH 2 ns h a) V.c.tbl δ N → P.U = some U → P.maxOrder = M → ∀ nm,
      ArchivesEventually is dbg P nm mem fun ar => |ar.densities.getD z 0 -
        (∑ s ∈ Finset.range ns, (thermal β (bareH 2 ns h a + hubbardV U ns a) ((a 0 s)ᴴ * a 0 s) + equalTimeError β a (bareH 2 ns h a) 0 s s)) / ns| < ε := by
  obtain ⟨tbl, hT, htbl⟩ := hubbard_table U ns
  have h2 := hubbard_on hT
  filter_upwards [C101_densities hβ ha hH h2.1 (density_terms_partition ha hH h2.1 h2.2 β) hz hε] with M hM
  obtain ⟨δ, hδ, N, hN⟩ := hM
  refine ⟨δ, hδ, N, fun S is dbg P np mem V hp hPU hM nm => ?_⟩
  have hr := hp.runs ⟨0, hp.procs⟩
  rw [htbl S is dbg P _ V hr.made hr.spins hr.sites hPU] at hp
  have key := hN S is dbg P np mem V hp hM nm
  rw [Finset.sum_congr rfl (g := fun s => thermal β (bareH 2 ns h a + hubbardV U ns a) ((a 0 s)ᴴ * a 0 s) + equalTimeError β a (bareH 2 ns h a) 0 s s) fun s hs => by
    have hs := Finset.mem_range.1 hs
    rw [C103_average hT, (C106_model ha hh hz hs hs β U).1, swap_equalTime ha hh hz hs hs]] at key
  simp only [← Complex.ofReal_sub, Complex.norm_real, Real.norm_eq_abs] at key
  exact key

/-- **C106, Green's function.**  The Green's functions reconstructed from SigmaG_omega of either flavor tend to the same function. -/
theorem C106_green (hβ : 1e-8 < β) (ha : Annihilators 2 ns a) (hH : HermitianHops 2 ns h) (hh : ∀ s < ns, ∀ s' < ns, h 0 s s' = h 1 s s') (U : ℝ) {z A b : ℕ} (hz : z < 2)
    (hA : A < ns) (hb : b < ns) (k : ℕ) {ε : ℝ} (hε : 0 < ε) :
    ∀ᶠ nl in atTop, ∀ᶠ m in atTop, ∀ᶠ M in atTop, ∃ δ > 0, ∃ N : ℕ, ∀ (S : Type) (is : IStream S) dbg P np (mem : Fin np → Memory ℝ) (V : FullSolver ℝ),
      FineProgram is dbg P mem V β 2 ns a (bareH 2 ns h a) V.c.tbl δ N → P.U = some U → P.nLegendre = nl → P.nBin = m → P.maxOrder = M →
      (∀ file, P.g0File = some (some file) → HermitianFile ℝ file 2 ns) → ∀ nm > k,
      ArchivesEventually is dbg P nm mem fun ar =>
        ‖(fourier β (fun u => toC (greenOf β a (bareH 2 ns h a) 0 A b u)) k - ∑ s ∈ Finset.range ns,
            fourier β (fun u => toC (greenOf β a (bareH 2 ns h a) 0 A s u)) k * ar.omega (off4 ns ns 2 k s b z)) -
          fourier β (fun u => toC (greenOf β a (bareH 2 ns h a + hubbardV U ns a) 0 A b u)) k‖ < ε := by
  have e1 := (C106_model ha hh hz hA hb β U).2
  have e0 : ∀ s < ns, ∀ u, greenOf β a (bareH 2 ns h a) z A s u = greenOf β a (bareH 2 ns h a) 0 A s u := fun s hs u => by
    have := (C106_model ha hh hz hA hs β 0).2 u
    rwa [hubbardV_zero, add_zero] at this
  have e2 : ∀ ar : Archive, ∑ s ∈ Finset.range ns, fourier β (fun u => toC (greenOf β a (bareH 2 ns h a) z A s u)) k * ar.omega (off4 ns ns 2 k s b z) =
      ∑ s ∈ Finset.range ns, fourier β (fun u => toC (greenOf β a (bareH 2 ns h a) 0 A s u)) k * ar.omega (off4 ns ns 2 k s b z) := fun ar =>
    Finset.sum_congr rfl fun s hs => by simp only [e0 s (Finset.mem_range.1 hs)]
  have key := C103_green hβ ha hH U hz hA hb k hε
  simp only [e2, e0 b hb, e1] at key
  exact key

/-! ## The hypotheses can be met -/

/-- Any hopping that does not depend on the flavor, on any number of sites. -/
example (t : ℕ → ℕ → ℝ) (β U : ℝ) {s : ℕ} (hs : s < ns) : ∃ (n : Type) (_ : Fintype n) (_ : DecidableEq n) (a : ℕ → ℕ → Matrix n n ℝ), Annihilators 2 ns a ∧
    thermal β (bareH 2 ns (fun _ => t) a + hubbardV U ns a) ((a 1 s)ᴴ * a 1 s) = thermal β (bareH 2 ns (fun _ => t) a + hubbardV U ns a) ((a 0 s)ᴴ * a 0 s) := by
  obtain ⟨n, i1, i2, i3, a, ha⟩ := annihilators_exist ℝ 2 ns
  exact ⟨n, i1, i2, a, ha, (C106_model ha (h := fun _ => t) (fun _ _ _ _ => rfl) (z := 1) (by norm_num) hs hs β U).1⟩

/-- Programs for sites without hopping. -/
example {S : Type} (is : IStream S) (dbg : Bool) (j : ReadJunk) {β U ε : ℝ} (hβ : 1e-8 < β) (hU : U ≠ 0) (hε : 0 < ε) {z s : ℕ} (hs : s < ns) (hz : z < 2) (k : ℕ) :
    ∃ (n : Type) (_ : Fintype n) (_ : DecidableEq n) (a : ℕ → ℕ → Matrix n n ℝ), Annihilators 2 ns a ∧ (∀ᶠ M in atTop, ∃ file : GFile,
      ArchivesEventually is dbg (fineParams S ns β U file 1 1 M) 1 (fun _ : Fin 1 => (⟨j, fun _ _ _ _ _ _ _ => 0, fun _ _ _ => 0⟩ : Memory ℝ)) fun ar => |ar.densities.getD z 0 -
        (∑ s ∈ Finset.range ns, (thermal β (bareH 2 ns (fun _ _ _ => 0) a + hubbardV U ns a) ((a 0 s)ᴴ * a 0 s) +
          equalTimeError β a (bareH 2 ns (fun _ _ _ => 0) a) 0 s s)) / ns| < ε) ∧
    ∀ᶠ nl in atTop, ∀ᶠ m in atTop, ∀ᶠ M in atTop, ∃ file : GFile,
      ArchivesEventually is dbg (fineParams S ns β U file m nl M) (k + 1) (fun _ : Fin 1 => (⟨j, fun _ _ _ _ _ _ _ => 0, fun _ _ _ => 0⟩ : Memory ℝ)) fun ar =>
        ‖(fourier β (fun u => toC (greenOf β a (bareH 2 ns (fun _ _ _ => 0) a) 0 s s u)) k - ∑ s' ∈ Finset.range ns,
            fourier β (fun u => toC (greenOf β a (bareH 2 ns (fun _ _ _ => 0) a) 0 s s' u)) k * ar.omega (off4 ns ns 2 k s' s z)) -
          fourier β (fun u => toC (greenOf β a (bareH 2 ns (fun _ _ _ => 0) a + hubbardV U ns a) 0 s s u)) k‖ < ε := by
  obtain ⟨n, i1, i2, i3, a, ha⟩ := annihilators_exist ℝ 2 ns
  have hn : 0 < ns := by omega
  refine ⟨n, i1, i2, a, ha, ?_, ?_⟩
  · filter_upwards [C106_density hβ ha (atomic_hops ns) (fun _ _ _ _ => rfl) U hz hε] with M h1
    obtain ⟨δ, hδ, N, h1⟩ := h1
    obtain ⟨file, V, hp⟩ := isolated_exist is dbg j hβ hU hn (max N 4) M one_pos one_pos
    exact ⟨file, h1 S is dbg _ 1 _ V (isolated_fine hβ ha hn hU hp hδ.le) rfl rfl 1⟩
  · filter_upwards [C106_green hβ ha (atomic_hops ns) (fun _ _ _ _ => rfl) U hz hs hs k hε, eventually_gt_atTop 0] with nl p1 hnl
    filter_upwards [p1, eventually_gt_atTop 0] with m p2 hm
    filter_upwards [p2] with M hM
    obtain ⟨δ, hδ, N, hN⟩ := hM
    obtain ⟨file, V, hp⟩ := isolated_exist is dbg j hβ hU hn (max N 4) M hm hnl
    refine ⟨file, hN S is dbg _ 1 _ V (isolated_fine hβ ha hn hU hp hδ.le) rfl rfl rfl rfl (fun file' e => ?_) (k + 1) (Nat.lt_succ_self k)⟩
    obtain ⟨file2, e2, hlarge, hval⟩ := hp.file
    obtain rfl : file2 = file' := Option.some.inj (Option.some.inj (e2.symm.trans e))
    exact isolated_hermitian hlarge hval

end CTInt
