import Verif.Props.EqualTime

/-!
# C108: the written densities are those of a probability distribution
-/

set_option linter.all false

namespace CTInt

open NormedSpace Matrix Filter

variable {n : Type} [Fintype n] [DecidableEq n] [Nonempty n] {nf ns : ℕ} {β : ℝ} {a : ℕ → ℕ → Matrix n n ℝ} {h : ℕ → ℕ → ℕ → ℝ} {tbl : List (VDef ℝ)}

theorem thermal_nonneg {H : Matrix n n ℝ} (hH : H.IsHermitian) (X : Matrix n n ℝ) : 0 ≤ thermal β H (X * Xᴴ) := by
  obtain ⟨U, l, hs⟩ := green_spectral (β := β) hH
  have h1 : ∀ Y : Matrix n n ℝ, 0 ≤ (exp (-β • H) * (Y * Yᴴ)).trace := by
    intro Y
    have e := hs Y Y 0
    rw [atTime_zero] at e
    refine le_of_le_of_eq ?_ e.symm
    exact Finset.sum_nonneg fun i _ => Finset.sum_nonneg fun j _ => mul_nonneg (Real.exp_pos _).le (mul_self_nonneg _)
  have h2 := h1 1
  rw [conjTranspose_one, mul_one, mul_one] at h2
  exact div_nonneg (h1 X) h2

theorem thermal_one {H : Matrix n n ℝ} (hH : H.IsHermitian) : thermal β H 1 = 1 := by
  unfold thermal
  rw [mul_one]
  exact div_self (thermal_trace_ne (K := ℝ) hH)

/-- A projection has an average between 0 and 1. -/
theorem thermal_projection {H : Matrix n n ℝ} (hH : H.IsHermitian) {P : Matrix n n ℝ} (h1 : P * P = P) (h2 : P.IsHermitian) : 0 ≤ thermal β H P := by
  have := thermal_nonneg (β := β) hH P
  rwa [h2.eq, h1] at this

theorem thermal_sub (H X Y : Matrix n n ℝ) : thermal β H (X - Y) = thermal β H X - thermal β H Y := by
  rw [thermal_eq, map_sub, ← thermal_eq, ← thermal_eq]

theorem one_sub_projection {P : Matrix n n ℝ} (h1 : P * P = P) (h2 : P.IsHermitian) : (1 - P) * (1 - P) = 1 - P ∧ (1 - P).IsHermitian := by
  refine ⟨?_, Matrix.isHermitian_one.sub h2⟩
  rw [mul_sub, sub_mul, sub_mul, h1]
  simp

theorem mul_projection {P Q : Matrix n n ℝ} (h1 : P * P = P) (h2 : P.IsHermitian) (h3 : Q * Q = Q) (h4 : Q.IsHermitian) (hc : Commute P Q) :
    P * Q * (P * Q) = P * Q ∧ (P * Q).IsHermitian := by
  refine ⟨?_, (IsHermitian.commute_iff h2 h4).1 hc⟩
  calc P * Q * (P * Q) = P * (Q * P) * Q := by noncomm_ring
    _ = P * P * (Q * Q) := by rw [← hc.eq]; noncomm_ring
    _ = P * Q := by rw [h1, h3]

/-- **C108, one density.**  For any Hermitian Hamiltonian a density is between 0 and 1. -/
theorem C108_density (ha : Annihilators nf ns a) {H : Matrix n n ℝ} (hH : H.IsHermitian) {z s : ℕ} (hz : z < nf) (hs : s < ns) :
    thermal β H ((a z s)ᴴ * a z s) ∈ Set.Icc 0 1 := by
  have i := density_idem ha hz hs
  have j := density_hermitian (a := a) z s
  have k := one_sub_projection i j
  have p := thermal_projection (β := β) hH k.1 k.2
  rw [thermal_sub, thermal_one hH] at p
  exact ⟨thermal_projection hH i j, by linarith⟩

/-- **C108, two densities.**  The average of the product of two densities is at least 0 and at least their sum minus 1, and at most either of them. -/
theorem C108_pair (ha : Annihilators nf ns a) {H : Matrix n n ℝ} (hH : H.IsHermitian) {z s z' s' : ℕ} (hz : z < nf) (hs : s < ns) (hz' : z' < nf) (hs' : s' < ns)
    (hne : ¬ (z = z' ∧ s = s')) : thermal β H ((a z s)ᴴ * a z s * ((a z' s')ᴴ * a z' s')) ∈
      Set.Icc (max 0 (thermal β H ((a z s)ᴴ * a z s) + thermal β H ((a z' s')ᴴ * a z' s') - 1)) (min (thermal β H ((a z s)ᴴ * a z s)) (thermal β H ((a z' s')ᴴ * a z' s'))) := by
  have i := density_idem ha hz hs
  have j := density_hermitian (a := a) z s
  have i' := density_idem ha hz' hs'
  have j' := density_hermitian (a := a) z' s'
  have c : Commute ((a z s)ᴴ * a z s) ((a z' s')ᴴ * a z' s') := density_commute ha hz hs hz' hs' hne
  generalize (a z s)ᴴ * a z s = P at *
  generalize (a z' s')ᴴ * a z' s' = Q at *
  have k := one_sub_projection i j
  have k' := one_sub_projection i' j'
  have c1 : Commute P (1 - Q) := (Commute.one_right _).sub_right c
  have c2 : Commute (1 - P) Q := (Commute.one_left _).sub_left c
  have c3 : Commute (1 - P) (1 - Q) := (Commute.one_left _).sub_left c1
  have p0 := mul_projection i j i' j' c
  have p1 := mul_projection i j k'.1 k'.2 c1
  have p2 := mul_projection k.1 k.2 i' j' c2
  have p3 := mul_projection k.1 k.2 k'.1 k'.2 c3
  have q0 := thermal_projection (β := β) hH p0.1 p0.2
  have q1 := thermal_projection (β := β) hH p1.1 p1.2
  have q2 := thermal_projection (β := β) hH p2.1 p2.2
  have q3 := thermal_projection (β := β) hH p3.1 p3.2
  rw [mul_sub, mul_one, thermal_sub] at q1
  rw [sub_mul, one_mul, thermal_sub] at q2
  rw [mul_sub, mul_one, sub_mul, one_mul, thermal_sub, thermal_sub, thermal_sub, thermal_one hH] at q3
  exact ⟨max_le q0 (by linarith), le_min (by linarith) (by linarith)⟩

/-- **C108, written densities.**  Any U and any hopping: the densities in the archives of long runs are between 0 and 1, up to the error of C107 and any ε. -/
theorem C108_written (hβ : 1e-8 < β) (ha : Annihilators 2 ns a) (hh : HermitianHops 2 ns h) (hn : 0 < ns) (U : ℝ) {z : ℕ} (hz : z < 2) {ε : ℝ} (hε : 0 < ε) :
    ∀ᶠ M in atTop, ∃ δ > 0, ∃ N : ℕ, ∀ (S : Type) (is : IStream S) dbg P np (mem : Fin np → Memory ℝ) (V : FullSolver ℝ),
      FineProgram is dbg P mem V β 2 ns a (bareH 2 ns h a) V.c.tbl δ N → P.U = some U → P.maxOrder = M → ∀ nm,
      ArchivesEventually is dbg P nm mem fun ar =>
        -(1e-10 * β * (∑ s ∈ Finset.range ns, ∑ s' ∈ Finset.range ns, |h z s s'|) / ns + ε) < ar.densities.getD z 0 ∧
        ar.densities.getD z 0 < 1 + (1e-10 * β * (∑ s ∈ Finset.range ns, ∑ s' ∈ Finset.range ns, |h z s s'|) / ns + ε) := by
  obtain ⟨tbl, hT, htbl⟩ := hubbard_table U ns
  have h2 := hubbard_on hT
  have hH := (bareH_hermitian (c := a) hh).add (density_terms_hermitian ha h2.1 h2.2)
  have hn' : (0 : ℝ) < ns := by exact_mod_cast hn
  have b1 : 0 ≤ (∑ s ∈ Finset.range ns, thermal β (bareH 2 ns h a + interactionH a tbl) ((a z s)ᴴ * a z s)) / ns :=
    div_nonneg (Finset.sum_nonneg fun s hs => (C108_density ha hH hz (Finset.mem_range.1 hs)).1) hn'.le
  have b2 : (∑ s ∈ Finset.range ns, thermal β (bareH 2 ns h a + interactionH a tbl) ((a z s)ᴴ * a z s)) / ns ≤ 1 := by
    rw [div_le_one hn']
    refine (Finset.sum_le_sum fun s hs => (C108_density ha hH hz (Finset.mem_range.1 hs)).2).trans_eq ?_
    simp
  filter_upwards [C107_densities hβ ha hh h2.1 (density_terms_partition ha hh h2.1 h2.2 β) hz hε] with M hM
  obtain ⟨δ, hδ, N, hN⟩ := hM
  refine ⟨δ, hδ, N, fun S is dbg P np mem V hp hPU hM nm => ?_⟩
  have hr := hp.runs ⟨0, hp.procs⟩
  rw [htbl S is dbg P _ V hr.made hr.spins hr.sites hPU] at hp
  refine (hN S is dbg P np mem V hp hM nm).mono fun ar q => ?_
  rw [abs_lt] at q
  constructor <;> linarith

/-- **C108, written products.**  The products n↑ n↓ in the archives of long runs are between 0 and the densities of either site in the Hubbard model, up to the error of C107 and
    any ε. -/
theorem C108_product (hβ : 1e-8 < β) (ha : Annihilators 2 ns a) (hh : HermitianHops 2 ns h) (U : ℝ) {i j : ℕ} (hi : i < ns) (hj : j < ns) {ε : ℝ} (hε : 0 < ε) :
    ∃ B : ℝ, B = 1e-10 * β * ∑ s ∈ Finset.range ns, |h 0 i s| + 1e-10 * β * ∑ s ∈ Finset.range ns, |h 1 j s| +
        (1e-10 * β * ∑ s ∈ Finset.range ns, |h 0 i s|) * (1e-10 * β * ∑ s ∈ Finset.range ns, |h 1 j s|) + ε ∧
    ∀ᶠ M in atTop, ∃ δ > 0, ∃ N : ℕ, ∀ (S : Type) (is : IStream S) dbg P np (mem : Fin np → Memory ℝ) (V : FullSolver ℝ),
      FineProgram is dbg P mem V β 2 ns a (bareH 2 ns h a) V.c.tbl δ N → P.U = some U → P.maxOrder = M → ∀ nm,
      ArchivesEventually is dbg P nm mem fun ar => -B < (ar.ninj 0 i 1 j).re ∧ |(ar.ninj 0 i 1 j).im| < B ∧
        (ar.ninj 0 i 1 j).re < min (thermal β (bareH 2 ns h a + hubbardV U ns a) ((a 0 i)ᴴ * a 0 i)) (thermal β (bareH 2 ns h a + hubbardV U ns a) ((a 1 j)ᴴ * a 1 j)) + B := by
  refine ⟨_, rfl, ?_⟩
  have p := C108_pair (β := β) ha ((bareH_hermitian (c := a) hh).add (hubbardV_hermitian ha U)) (z := 0) (z' := 1) (by norm_num) hi (by norm_num) hj (by norm_num)
  have p1 := (le_max_left _ _).trans p.1
  have p2 := p.2
  filter_upwards [C107_product hβ ha hh U hi hj hε] with M hM
  obtain ⟨δ, hδ, N, hN⟩ := hM
  refine ⟨δ, hδ, N, fun S is dbg P np mem V hp hU hM nm => (hN S is dbg P np mem V hp hU hM nm).mono fun ar q => ?_⟩
  have q1 := (Complex.abs_re_le_norm _).trans_lt q
  have q2 := (Complex.abs_im_le_norm _).trans_lt q
  rw [Complex.sub_re, Complex.ofReal_re, abs_lt] at q1
  rw [Complex.sub_im, Complex.ofReal_im, sub_zero] at q2
  exact ⟨by linarith, q2, by linarith⟩

/-! ## The hypotheses can be met -/

/-- An interacting chain. -/
example (U : ℝ) (t : ℕ → ℕ → ℝ) {s : ℕ} (hs : s < ns) : ∃ (n : Type) (_ : Fintype n) (_ : DecidableEq n) (a : ℕ → ℕ → Matrix n n ℝ), Annihilators 2 ns a ∧
    thermal 5 (bareH 2 ns (fun z s s' => if s' = s + 1 then t z s else if s = s' + 1 then t z s' else 0) a + hubbardV U ns a)
      ((a 0 s)ᴴ * a 0 s * ((a 1 s)ᴴ * a 1 s)) ∈ Set.Icc 0 (1 / 2) := by
  obtain ⟨n, i1, i2, i3, a, ha⟩ := annihilators_exist ℝ 2 ns
  have hc := chain_bipartite (ns := ns) t
  have p := C108_pair (β := 5) ha ((bareH_hermitian (c := a) hc.2).add (hubbardV_hermitian ha U)) (z := 0) (z' := 1) (by norm_num) hs (by norm_num) hs (by norm_num)
  rw [C105_half ha hc.2 hc.1 (by norm_num) hs, C105_half ha hc.2 hc.1 (by norm_num) hs] at p
  exact ⟨n, i1, i2, a, ha, (le_max_left _ _).trans p.1, p.2.trans (min_le_left _ _)⟩

/-- A program for sites without hopping. -/
example {S : Type} (is : IStream S) (dbg : Bool) (j : ReadJunk) {β U ε : ℝ} (hβ : 1e-8 < β) (hU : U ≠ 0) (hε : 0 < ε) {z : ℕ} (hn : 0 < ns) (hz : z < 2) :
    ∀ᶠ M in atTop, ∃ file : GFile,
      ArchivesEventually is dbg (fineParams S ns β U file 1 1 M) 1 (fun _ : Fin 1 => (⟨j, fun _ _ _ _ _ _ _ => 0, fun _ _ _ => 0⟩ : Memory ℝ)) fun ar =>
        -ε < ar.densities.getD z 0 ∧ ar.densities.getD z 0 < 1 + ε := by
  obtain ⟨n, i1, i2, i3, a, ha⟩ := annihilators_exist ℝ 2 ns
  filter_upwards [C108_written hβ ha (atomic_hops ns) hn U hz hε] with M h1
  obtain ⟨δ1, d1, N1, h1⟩ := h1
  obtain ⟨f1, V1, p1⟩ := isolated_exist is dbg j hβ hU hn (max N1 4) M one_pos one_pos
  refine ⟨f1, (h1 S is dbg _ 1 _ V1 (isolated_fine hβ ha hn hU p1 d1.le) rfl rfl 1).mono fun ar q => ?_⟩
  simpa using q

example {S : Type} (is : IStream S) (dbg : Bool) (j : ReadJunk) {β U ε : ℝ} (hβ : 1e-8 < β) (hU : U ≠ 0) (hε : 0 < ε) {s : ℕ} (hs : s < ns) :
    ∀ᶠ M in atTop, ∃ file : GFile,
      ArchivesEventually is dbg (fineParams S ns β U file 1 1 M) 1 (fun _ : Fin 1 => (⟨j, fun _ _ _ _ _ _ _ => 0, fun _ _ _ => 0⟩ : Memory ℝ)) fun ar =>
        -ε < (ar.ninj 0 s 1 s).re ∧ (ar.ninj 0 s 1 s).re < 1 + ε := by
  obtain ⟨n, i1, i2, i3, a, ha⟩ := annihilators_exist ℝ 2 ns
  have hn : 0 < ns := by omega
  obtain ⟨B, hB, h0⟩ := C108_product hβ ha (atomic_hops ns) U hs hs hε
  have hB' : B = ε := by rw [hB]; simp
  have hd := (C108_density (β := β) ha ((bareH_hermitian (c := a) (atomic_hops ns)).add (hubbardV_hermitian ha U)) (z := 0) (by norm_num) hs).2
  filter_upwards [h0] with M h1
  obtain ⟨δ1, d1, N1, h1⟩ := h1
  obtain ⟨f1, V1, p1⟩ := isolated_exist is dbg j hβ hU hn (max N1 4) M one_pos one_pos
  refine ⟨f1, (h1 S is dbg _ 1 _ V1 (isolated_fine hβ ha hn hU p1 d1.le) rfl rfl 1).mono fun ar q => ?_⟩
  rw [hB'] at q
  exact ⟨q.1, q.2.2.trans_le (add_le_add ((min_le_left _ _).trans hd) le_rfl)⟩

end CTInt
