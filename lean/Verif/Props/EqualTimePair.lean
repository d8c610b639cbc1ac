import Verif.Props.Physical

/-!
# C107: products of densities for any table of densities
-/

set_option linter.all false

namespace CTInt

open NormedSpace Matrix Filter

variable {n : Type} [Fintype n] [DecidableEq n] [Nonempty n] {nf ns : ℕ} {β : ℝ} {a : ℕ → ℕ → Matrix n n ℝ} {h : ℕ → ℕ → ℕ → ℝ} {tbl : List (VDef ℝ)}

theorem thermal_plus (H X Y : Matrix n n ℝ) : thermal β H (X + Y) = thermal β H X + thermal β H Y := by
  rw [thermal_eq, map_add, ← thermal_eq, ← thermal_eq]

theorem hop_le_one (hβ : 0 ≤ β) (ha : Annihilators nf ns a) {H : Matrix n n ℝ} (hH : H.IsHermitian) {z s s' : ℕ} (hz : z < nf) (hs : s < ns) (hs' : s' < ns) :
    |thermal β H ((a z s)ᴴ * a z s')| ≤ 1 := by
  have := greenP_le_one ha hH hz hs' hs (u := β - 0) (β := β) (by linarith) (by linarith)
  rw [← equal_time_green, atTime_zero] at this
  exact this

theorem shifted_product {H : Matrix n n ℝ} (hH : H.IsHermitian) (X Y : Matrix n n ℝ) (x y : ℝ) :
    thermal β H ((X + x • 1) * (Y + y • 1)) = thermal β H (X * Y) + (y * thermal β H X + x * thermal β H Y + x * y) := by
  have e2 : (X + x • 1) * (Y + y • 1) = X * Y + (y • X + x • Y + (x * y) • (1 : Matrix n n ℝ)) := by
    rw [add_mul, mul_add, mul_add, mul_smul_comm, mul_one, smul_mul_assoc, one_mul, smul_mul_assoc, one_mul, smul_smul]
    abel
  rw [e2, thermal_plus, thermal_plus, thermal_plus, thermal_smul, thermal_smul, thermal_smul, thermal_one hH, mul_one]

theorem product_error {x y X Y E F : ℝ} (hx : |x| ≤ E) (hy : |y| ≤ F) (hX : |X| ≤ 1) (hY : |Y| ≤ 1) : |y * X + x * Y + x * y| ≤ E + F + E * F := by
  refine (abs_add_three _ _ _).trans ?_
  rw [abs_mul, abs_mul, abs_mul]
  have p1 := mul_le_mul hy hX (abs_nonneg _) ((abs_nonneg _).trans hy)
  have p2 := mul_le_mul hx hY (abs_nonneg _) ((abs_nonneg _).trans hx)
  have p3 := mul_le_mul hx hy (abs_nonneg _) ((abs_nonneg _).trans hx)
  linarith

theorem norm_shift {c : ℂ} {w r ε B : ℝ} (h1 : ‖c - ((w + r : ℝ) : ℂ)‖ < ε) (h2 : |r| ≤ B) : ‖c - (w : ℂ)‖ < B + ε := by
  have t : c - (w : ℂ) = (c - ((w + r : ℝ) : ℂ)) + (r : ℂ) := by
    push_cast
    ring
  rw [t]
  refine (norm_add_le _ _).trans_lt ?_
  rw [Complex.norm_real, Real.norm_eq_abs]
  linarith

/-- **C107, products of densities of two flavors.**  Any table of products of densities: the products in the archives of long runs are those of the interacting Hamiltonian, up to
    the sum and the product of the bounds for the two sites, and any ε. -/
theorem C107_product_table (hβ : 1e-8 < β) (ha : Annihilators nf ns a) (hh : HermitianHops nf ns h) (hT : TermsOn nf ns tbl)
    (hd : ∀ d ∈ tbl, ∀ r < d.rank, d.sites.getD (2 * r) 0 = d.sites.getD (2 * r + 1) 0) {f1 i f2 j : ℕ} (h1 : f1 < nf) (hi : i < ns) (h2 : f2 < nf) (hj : j < ns)
    (hne : f1 ≠ f2) {ε : ℝ} (hε : 0 < ε) :
    ∀ᶠ M in atTop, ∃ δ > 0, ∃ N : ℕ, ∀ (S : Type) (is : IStream S) dbg P np (mem : Fin np → Memory ℝ) (V : FullSolver ℝ),
      FineProgram is dbg P mem V β nf ns a (bareH nf ns h a) tbl δ N → P.maxOrder = M → ∀ nm,
      ArchivesEventually is dbg P nm mem fun ar =>
        ‖ar.ninj f1 i f2 j - ((thermal β (bareH nf ns h a + interactionH a tbl) ((a f1 i)ᴴ * a f1 i * ((a f2 j)ᴴ * a f2 j)) : ℝ) : ℂ)‖ <
          1e-10 * β * ∑ s ∈ Finset.range ns, |h f1 i s| + 1e-10 * β * ∑ s ∈ Finset.range ns, |h f2 j s| +
            (1e-10 * β * ∑ s ∈ Finset.range ns, |h f1 i s|) * (1e-10 * β * ∑ s ∈ Finset.range ns, |h f2 j s|) + ε := by
  have b0 : (0 : ℝ) ≤ β := le_trans (by norm_num) hβ.le
  have hH := (bareH_hermitian (c := a) hh).add (density_terms_hermitian ha hT hd)
  filter_upwards [C101_product hβ ha hh hT (density_terms_partition ha hh hT hd β) h1 hi h2 hj hne hε] with M hM
  obtain ⟨δ, hδ, N, hN⟩ := hM
  refine ⟨δ, hδ, N, fun S is dbg P np mem V hp hM nm => (hN S is dbg P np mem V hp hM nm).mono fun ar q => ?_⟩
  rw [shifted_product hH] at q
  exact norm_shift q (product_error (C107_error b0 ha hh h1 hi hi) (C107_error b0 ha hh h2 hj hj) (hop_le_one b0 ha hH h1 hi hi) (hop_le_one b0 ha hH h2 hj hj))

/-- **C107, products of densities of one flavor on two sites.**  Here the exchange term has the same error again. -/
theorem C107_product_same (hβ : 1e-8 < β) (ha : Annihilators nf ns a) (hh : HermitianHops nf ns h) (hT : TermsOn nf ns tbl)
    (hd : ∀ d ∈ tbl, ∀ r < d.rank, d.sites.getD (2 * r) 0 = d.sites.getD (2 * r + 1) 0) {z i j : ℕ} (hz : z < nf) (hi : i < ns) (hj : j < ns) (hij : i ≠ j) {ε : ℝ}
    (hε : 0 < ε) :
    ∀ᶠ M in atTop, ∃ δ > 0, ∃ N : ℕ, ∀ (S : Type) (is : IStream S) dbg P np (mem : Fin np → Memory ℝ) (V : FullSolver ℝ),
      FineProgram is dbg P mem V β nf ns a (bareH nf ns h a) tbl δ N → P.maxOrder = M → ∀ nm,
      ArchivesEventually is dbg P nm mem fun ar =>
        ‖ar.ninj z i z j - ((thermal β (bareH nf ns h a + interactionH a tbl) ((a z i)ᴴ * a z i * ((a z j)ᴴ * a z j)) : ℝ) : ℂ)‖ <
          2 * (1e-10 * β * ∑ s ∈ Finset.range ns, |h z i s| + 1e-10 * β * ∑ s ∈ Finset.range ns, |h z j s| +
            (1e-10 * β * ∑ s ∈ Finset.range ns, |h z i s|) * (1e-10 * β * ∑ s ∈ Finset.range ns, |h z j s|)) + ε := by
  have b0 : (0 : ℝ) ≤ β := le_trans (by norm_num) hβ.le
  have hH := (bareH_hermitian (c := a) hh).add (density_terms_hermitian ha hT hd)
  filter_upwards [C101_product_same hβ ha hh hT (density_terms_partition ha hh hT hd β) hz hi hj hij hε] with M hM
  obtain ⟨δ, hδ, N, hN⟩ := hM
  refine ⟨δ, hδ, N, fun S is dbg P np mem V hp hM nm => (hN S is dbg P np mem V hp hM nm).mono fun ar q => ?_⟩
  have p1 := product_error (C107_error b0 ha hh hz hi hi) (C107_error b0 ha hh hz hj hj) (hop_le_one b0 ha hH hz hi hi) (hop_le_one b0 ha hH hz hj hj)
  have p2 := product_error (C107_error b0 ha hh hz hj hi) (C107_error b0 ha hh hz hi hj) (hop_le_one b0 ha hH hz hj hi) (hop_le_one b0 ha hH hz hi hj)
  rw [thermal_sub, thermal_sub, thermal_sub, shifted_product hH, thermal_smul, thermal_smul, thermal_smul, thermal_one hH] at q
  refine norm_shift (w := thermal β (bareH nf ns h a + interactionH a tbl) ((a z i)ᴴ * a z i * ((a z j)ᴴ * a z j))) (r := _ - _) ?_
    ((abs_sub _ _).trans ((add_le_add p1 p2).trans_eq ?_))
  · refine lt_of_eq_of_lt ?_ q
    congr 3
    ring
  · simp only [Real.norm_eq_abs]
    ring

/-! ## The hypotheses can be met -/

/-- Programs for sites without hopping: products on two sites. -/
example {S : Type} (is : IStream S) (dbg : Bool) (m : ReadJunk) {β U ε : ℝ} (hβ : 1e-8 < β) (hU : U ≠ 0) (hε : 0 < ε) {z i j : ℕ} (hz : z < 2) (hi : i < ns) (hj : j < ns)
    (hij : i ≠ j) : ∃ (n : Type) (_ : Fintype n) (_ : DecidableEq n) (a : ℕ → ℕ → Matrix n n ℝ), Annihilators 2 ns a ∧ ∀ᶠ M in atTop, ∃ file : GFile,
      ArchivesEventually is dbg (fineParams S ns β U file 1 1 M) 1 (fun _ : Fin 1 => (⟨m, fun _ _ _ _ _ _ _ => 0, fun _ _ _ => 0⟩ : Memory ℝ)) fun ar =>
        ‖ar.ninj z i z j - ((thermal β (bareH 2 ns (fun _ _ _ => 0) a + hubbardV U ns a) ((a z i)ᴴ * a z i * ((a z j)ᴴ * a z j)) : ℝ) : ℂ)‖ < ε := by
  obtain ⟨n, i1, i2, i3, a, ha⟩ := annihilators_exist ℝ 2 ns
  have hn : 0 < ns := by omega
  obtain ⟨tbl, hT, htbl⟩ := hubbard_table U ns
  have h2 := hubbard_on hT
  refine ⟨n, i1, i2, a, ha, ?_⟩
  filter_upwards [C107_product_same hβ ha (atomic_hops ns) h2.1 h2.2 hz hi hj hij hε] with M h1
  obtain ⟨δ1, d1, N1, h1⟩ := h1
  obtain ⟨f1, V1, p1⟩ := isolated_exist is dbg m hβ hU hn (max N1 4) M one_pos one_pos
  have hp := isolated_fine hβ ha hn hU p1 d1.le
  have hr := hp.runs ⟨0, hp.procs⟩
  rw [htbl S is dbg _ _ V1 hr.made hr.spins hr.sites rfl] at hp
  refine ⟨f1, (h1 S is dbg _ 1 _ V1 hp rfl 1).mono fun ar q => ?_⟩
  rw [C103_average hT] at q
  simpa using q

end CTInt
