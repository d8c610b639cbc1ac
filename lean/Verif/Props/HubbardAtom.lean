import Verif.Spec.HubbardAtom
import Verif.Proofs.HubbardAtom
import Verif.Props.Hubbard

/-!
# C104: isolated sites
-/

set_option linter.all false

namespace CTInt

open NormedSpace Matrix Filter

variable {n : Type} [Fintype n] [DecidableEq n] [Nonempty n] {ns : ℕ} {β U : ℝ} {a : ℕ → ℕ → Matrix n n ℝ}

theorem isolated_fine (hβ : 1e-8 < β) (ha : Annihilators 2 ns a) (hn : 0 < ns) (hU : U ≠ 0) {S : Type} {is : IStream S} {dbg : Bool} {P : Params S} {np N : ℕ}
    {mem : Fin np → Memory ℝ} {V : FullSolver ℝ} (hp : IsolatedProgram is dbg P mem V β U ns (max N 4)) {δ : ℝ} (hδ : 0 ≤ δ) :
    FineProgram is dbg P mem V β 2 ns a (bareH 2 ns (fun _ _ _ => (0 : ℝ)) a) V.c.tbl δ N := by
  obtain ⟨tbl, hT, htbl⟩ := hubbard_table U ns
  have hr : ∀ (N' : ℕ) (i), N' ≤ max N 4 → FineRun is dbg P (mem i).j V β 2 ns a (bareH 2 ns (fun _ _ _ => (0 : ℝ)) a) V.c.tbl 0 N' := by
    intro N' i hN'
    obtain ⟨file, g6, g7, g8⟩ := hp.file
    refine ⟨hp.made i, hp.beta, hp.spins, hp.sites, rfl, file, g6, le_trans (by exact_mod_cast hN') g7, fun z hz s hs s' hs' i hi => ?_⟩
    rw [atomic_bare, atomic_green ha hz hs hs', g8 z hz s hs s' hs' i hi]
    simp
  have i0 : Fin np := ⟨0, hp.procs⟩
  have et := htbl S is dbg P _ V (hp.made i0) hp.spins hp.sites hp.term
  have ht' : ∀ d ∈ V.c.tbl, ∃ s < ns, ∃ v : UDef ℝ, v.d = d ∧ OnsiteTerm U 1e-2 s [s, s, s, s] [0, 1] v := fun d hd => by
    rw [et] at hd
    obtain ⟨s, hs, rfl⟩ := List.mem_iff_getElem.1 hd
    obtain ⟨v, ev, hv⟩ := hT.2 s (by rw [← hT.1]; exact hs)
    rw [List.getElem?_eq_getElem hs] at ev
    exact ⟨s, by rw [← hT.1]; exact hs, v, (Option.some.inj ev).symm, hv⟩
  refine ⟨hp.procs, fun i => ?_, hp.params, ?_, hp.fresh, hp.inserts, hp.sweeps, hp.samples, fun k _ => ?_⟩
  · obtain ⟨g1, g2, g3, g4, g5, file, g6, g7, g8⟩ := hr N i (le_max_left _ _)
    exact ⟨g1, g2, g3, g4, g5, file, g6, g7, fun z hz s hs s' hs' i hi => (g8 z hz s hs s' hs' i hi).trans hδ⟩
  · have := hubbard_usable (hp.made i0) hp.spins (by rw [hp.sites]; exact hn) hp.term hU
    rwa [hp.spins] at this
  · filter_upwards [atomic_values hβ ha ht' (by rw [et]; exact (hubbard_on hT).1) (hr 4 i0 (le_max_right _ _)) k] with x hx
    obtain ⟨w, hw, e⟩ := hx
    rw [e]
    exact mul_ne_zero (pow_ne_zero _ hU) hw.ne'

theorem equalTime_flat (z s s' : ℕ) : equalTimeError β a 0 z s s' = 0 := by
  unfold equalTimeError
  rw [atTime_flat, sub_self]

theorem isolated_partition (ha : Annihilators 2 ns a) (β U : ℝ) : (exp (-β • hubbardV U ns a)).trace ≠ 0 := by
  obtain ⟨tbl, hT, -⟩ := hubbard_table U ns
  have h2 := hubbard_on hT
  have h := density_terms_partition ha (atomic_hops ns) h2.1 h2.2 β
  rw [atomic_bare, zero_add, C103_terms hT a, show -β • (hubbardV U ns a - (U * ns * (1 / 2 + 1e-2 : ℝ) ^ 2) • (1 : Matrix n n ℝ)) =
      -β • hubbardV U ns a + (β * (U * ns * (1 / 2 + 1e-2 : ℝ) ^ 2)) • 1 by module,
    Matrix.exp_add_of_commute _ _ ((Commute.one_right _).smul_right _), exp_constant, mul_smul_comm, mul_one, trace_smul] at h
  exact fun e => h (by rw [e, smul_zero])

/-- The averages of the densities and their product on an isolated site. -/
theorem isolated_occupation (ha : Annihilators 2 ns a) {s : ℕ} (hs : s < ns) (β U : ℝ) :
    (∀ z < 2, thermal β (hubbardV U ns a) ((a z s)ᴴ * a z s) = 1 / 2) ∧
    thermal β (hubbardV U ns a) ((a 0 s)ᴴ * a 0 s * ((a 1 s)ᴴ * a 1 s)) = (1 - Real.tanh (β * U / 4)) / 4 := by
  have hZ := isolated_partition ha β U
  obtain ⟨h1, h2, h3⟩ := isolated_averages ha hs β U hZ
  have e1 : thermal β (hubbardV U ns a) 1 = 1 := by
    unfold thermal
    rw [mul_one]
    exact div_self hZ
  have e2 : ∀ z, (a z s)ᴴ * a z s = halfOcc a z s + (1 / 2 : ℝ) • 1 := fun z => by unfold halfOcc; module
  refine ⟨fun z hz => ?_, ?_⟩
  · rw [e2, thermal_eq, map_add, map_smul, ← thermal_eq, ← thermal_eq, e1]
    obtain rfl | rfl : z = 0 ∨ z = 1 := by omega
    · rw [h2]; norm_num
    · rw [h3]; norm_num
  · rw [show (a 0 s)ᴴ * a 0 s * ((a 1 s)ᴴ * a 1 s) = pairOn a s + (1 / 2 : ℝ) • halfOcc a 0 s + (1 / 2 : ℝ) • halfOcc a 1 s + (1 / 4 : ℝ) • 1 by
        rw [e2 0, e2 1, pairOn_half, add_mul, mul_add, mul_add, smul_mul_assoc, mul_smul_comm, one_mul, mul_one, smul_mul_assoc, one_mul, smul_smul]; module,
      thermal_eq, map_add, map_add, map_add, map_smul, map_smul, map_smul, ← thermal_eq, ← thermal_eq, ← thermal_eq, ← thermal_eq, h1, h2, h3, e1]
    simp
    ring

/-- **C104, double occupancy.**  A file of isolated sites and "model.U", repulsive or attractive: the product n↑ n↓ on a site in the archives of long runs is as close as wanted
    to (1 - tanh(βU/4))/4. -/
theorem C104_double (hβ : 1e-8 < β) (hU : U ≠ 0) {s : ℕ} (hs : s < ns) {ε : ℝ} (hε : 0 < ε) :
    ∀ᶠ M in atTop, ∃ N : ℕ, ∀ (S : Type) (is : IStream S) dbg P np (mem : Fin np → Memory ℝ) (V : FullSolver ℝ), IsolatedProgram is dbg P mem V β U ns N →
      P.maxOrder = M → ∀ nm, ArchivesEventually is dbg P nm mem fun ar => ‖ar.ninj 0 s 1 s - (((1 - Real.tanh (β * U / 4)) / 4 : ℝ) : ℂ)‖ < ε := by
  obtain ⟨n, i1, i2, i3, a, ha⟩ := annihilators_exist ℝ 2 ns
  filter_upwards [C103_product hβ ha (atomic_hops ns) U hs hs hε] with M hM
  obtain ⟨δ, hδ, N, hN⟩ := hM
  refine ⟨max N 4, fun S is dbg P np mem V hp hM nm => ?_⟩
  have key := hN S is dbg P np mem V (isolated_fine hβ ha (by omega) hU hp hδ.le) hp.term hM nm
  simp only [atomic_bare, equalTime_flat, zero_smul, add_zero, zero_add, (isolated_occupation ha hs β U).2] at key
  exact key

/-- **C104, densities.**  The densities tend to one half. -/
theorem C104_density (hβ : 1e-8 < β) (hU : U ≠ 0) (hn : 0 < ns) {z : ℕ} (hz : z < 2) {ε : ℝ} (hε : 0 < ε) :
    ∀ᶠ M in atTop, ∃ N : ℕ, ∀ (S : Type) (is : IStream S) dbg P np (mem : Fin np → Memory ℝ) (V : FullSolver ℝ), IsolatedProgram is dbg P mem V β U ns N →
      P.maxOrder = M → ∀ nm, ArchivesEventually is dbg P nm mem fun ar => |ar.densities.getD z 0 - 1 / 2| < ε := by
  obtain ⟨n, i1, i2, i3, a, ha⟩ := annihilators_exist ℝ 2 ns
  obtain ⟨tbl, hT, htbl⟩ := hubbard_table U ns
  have h2 := hubbard_on hT
  filter_upwards [C101_densities hβ ha (atomic_hops ns) h2.1 (density_terms_partition ha (atomic_hops ns) h2.1 h2.2 β) hz hε] with M hM
  obtain ⟨δ, hδ, N, hN⟩ := hM
  refine ⟨max N 4, fun S is dbg P np mem V hp hM nm => ?_⟩
  have et := htbl S is dbg P _ V (hp.made ⟨0, hp.procs⟩) hp.spins hp.sites hp.term
  have hf := isolated_fine hβ ha hn hU hp hδ.le
  rw [et] at hf
  have key := hN S is dbg P np mem V hf hM nm
  have e : ((∑ s ∈ Finset.range ns, (thermal β (bareH 2 ns (fun _ _ _ => (0 : ℝ)) a + interactionH a tbl) ((a z s)ᴴ * a z s) +
          equalTimeError β a (bareH 2 ns (fun _ _ _ => (0 : ℝ)) a) z s s)) / ns : ℝ) = 1 / 2 := by
    have hn' : (ns : ℝ) ≠ 0 := by exact_mod_cast hn.ne'
    rw [Finset.sum_congr rfl (g := fun _ => (1 / 2 : ℝ)) fun s hs => by
      rw [C103_average hT, atomic_bare, equalTime_flat, zero_add, add_zero, (isolated_occupation ha (Finset.mem_range.1 hs) β U).1 z hz]]
    rw [Finset.sum_const, Finset.card_range, nsmul_eq_mul]
    field_simp
  rw [e] at key
  simp only [← Complex.ofReal_sub, Complex.norm_real, Real.norm_eq_abs] at key
  exact key

theorem isolated_ph (hβ : 1e-8 < β) {S : Type} {is : IStream S} {dbg : Bool} {P : Params S} {np N : ℕ} {mem : Fin np → Memory ℝ} {V : FullSolver ℝ}
    (hp : IsolatedProgram is dbg P mem V β U ns (max N 4)) : ∃ sgn file, P.g0File = some (some file) ∧ PHFile sgn file := by
  obtain ⟨file, hfile, hlarge, hval⟩ := hp.file
  obtain ⟨file2, g, e2, hrd, -⟩ := C80_green_defined (hp.made ⟨0, hp.procs⟩) (by rw [hp.beta]; exact hβ)
  obtain rfl : file = file2 := Option.some.inj (Option.some.inj (hfile.symm.trans e2))
  have hns : file.ns = ns := by
    have := (C56_read file _ _ _ g hrd).2.1
    rw [this, hp.sites]
  have hg : (4 : ℤ) ≤ file.ntau := le_trans (by exact_mod_cast le_max_right N 4) hlarge
  exact ⟨fun _ => 1, file, hfile, by omega, fun _ _ => Or.inl rfl, fun s s' t hs hs' ht => by
      rw [hns] at hs hs'
      rw [hval 1 (by norm_num) s (by omega) s' (by omega) t ht, hval 0 (by norm_num) s' (by omega) s (by omega) _ (by omega), one_mul, one_mul]
      simp only [eq_comm], fun s s' hs hs' => by
      rw [hns] at hs hs'
      rw [hval 0 (by norm_num) s (by omega) s' (by omega) _ (by omega), hval 0 (by norm_num) s (by omega) s' (by omega) _ (by omega)]
      split_ifs <;> norm_num⟩

/-- **C104, matrix sizes.**  For U > 0 the average matrix sizes tend to βUN (0.51² + tanh(βU/4)/4). -/
theorem C104_order (hβ : 1e-8 < β) (hU : 0 < U) (hn : 0 < ns) {z : ℕ} (hz : z < 2) {ε : ℝ} (hε : 0 < ε) :
    ∀ᶠ M in atTop, ∃ N : ℕ, ∀ (S : Type) (is : IStream S) dbg P np (mem : Fin np → Memory ℝ) (V : FullSolver ℝ), IsolatedProgram is dbg P mem V β U ns N →
      P.maxOrder = M → ∀ nm, ArchivesEventually is dbg P nm mem fun ar =>
        |ar.matrixSize.getD z 0 - β * U * ns * (0.51 ^ 2 + Real.tanh (β * U / 4) / 4)| < ε := by
  obtain ⟨n, i1, i2, i3, a, ha⟩ := annihilators_exist ℝ 2 ns
  filter_upwards [C103_program hβ ha (atomic_hops ns) hU hz hε] with M hM
  obtain ⟨δ, hδ, N, hN⟩ := hM
  refine ⟨max N 4, fun S is dbg P np mem V hp hM nm => ?_⟩
  have key := hN S is dbg P np mem V (isolated_fine hβ ha hn hU.ne' hp hδ.le) hp.term hM (isolated_ph hβ hp) nm
  have e : thermal β (bareH 2 ns (fun _ _ _ => (0 : ℝ)) a + hubbardV U ns a) (hubbardV U ns a) = -(U * ns * (Real.tanh (β * U / 4) / 4)) := by
    rw [atomic_bare, zero_add]
    have : ∀ W : Matrix n n ℝ, (∀ s < ns, thermal β W (pairOn a s) = -(Real.tanh (β * U / 4) / 4)) → thermal β W (hubbardV U ns a) = -(U * ns * (Real.tanh (β * U / 4) / 4)) := by
      intro W hW
      unfold hubbardV
      rw [thermal_eq, map_smul, map_sum, Finset.sum_congr rfl (g := fun _ => -(Real.tanh (β * U / 4) / 4)) fun s hs => by
        rw [← thermal_eq]; exact hW s (Finset.mem_range.1 hs)]
      rw [Finset.sum_const, Finset.card_range, nsmul_eq_mul, smul_eq_mul]
      ring
    exact this _ fun s hs => (isolated_averages ha hs β U (isolated_partition ha β U)).1
  rw [e, show β * (U * ns * 0.51 ^ 2 - -(U * ns * (Real.tanh (β * U / 4) / 4))) = β * U * ns * (0.51 ^ 2 + Real.tanh (β * U / 4) / 4) by ring] at key
  exact key

theorem omega_shift_ne (hβ : 0 < β) (k : ℕ) (r : ℝ) : Complex.I * omega β k + r ≠ 0 := by
  intro e
  have := congrArg Complex.im e
  simp at this
  unfold omega at this
  have h : 0 < (2 * (k : ℝ) + 1) * Real.pi / β := by have := Real.pi_pos; positivity
  linarith

theorem exp_integral (hβ : 0 < β) (k : ℕ) (r : ℝ) :
    ∫ τ in (0 : ℝ)..β, Complex.exp ((Complex.I * omega β k + r) * τ) = -((Real.exp (r * β) + 1 : ℝ) : ℂ) / (Complex.I * omega β k + r) := by
  rw [integral_exp_mul_complex (omega_shift_ne hβ k r), add_mul, Complex.exp_add, exp_omega_end hβ]
  push_cast
  simp
  ring

/-- The Fourier transform of the Green's function of an isolated site. -/
theorem isolated_fourier (hβ : 0 < β) (U : ℝ) (k : ℕ) :
    fourier β (fun u => toC ((Real.sinh (u * U / 2) * Real.tanh (β * U / 4) - Real.cosh (u * U / 2)) / 2 : ℝ)) k =
      Complex.I * omega β k / ((Complex.I * omega β k + (U / 2 : ℝ)) * (Complex.I * omega β k + (-(U / 2) : ℝ))) := by
  have hp : ∀ τ : ℝ, Complex.exp (Complex.I * omega β k * τ) * toC ((Real.sinh (τ * U / 2) * Real.tanh (β * U / 4) - Real.cosh (τ * U / 2)) / 2 : ℝ) =
      ((-(1 - Real.tanh (β * U / 4)) / 4 : ℝ) : ℂ) * Complex.exp ((Complex.I * omega β k + (U / 2 : ℝ)) * τ) +
      ((-(1 + Real.tanh (β * U / 4)) / 4 : ℝ) : ℂ) * Complex.exp ((Complex.I * omega β k + (-(U / 2) : ℝ)) * τ) := by
    intro τ
    have e : (Real.sinh (τ * U / 2) * Real.tanh (β * U / 4) - Real.cosh (τ * U / 2)) / 2 =
        (-(1 - Real.tanh (β * U / 4)) / 4) * Real.exp (U / 2 * τ) + (-(1 + Real.tanh (β * U / 4)) / 4) * Real.exp (-(U / 2) * τ) := by
      rw [Real.sinh_eq, Real.cosh_eq, show τ * U / 2 = U / 2 * τ by ring, show -(U / 2) * τ = -(U / 2 * τ) by ring]
      ring
    have et : ∀ r : ℝ, toC r = (r : ℂ) := fun r => by apply Complex.ext <;> simp [toC]
    rw [et, e, add_mul, add_mul, Complex.exp_add, Complex.exp_add]
    push_cast
    ring
  have hc : ∀ r : ℝ, Continuous fun τ : ℝ => Complex.exp ((Complex.I * omega β k + r) * τ) := fun r => by fun_prop
  unfold fourier
  rw [intervalIntegral.integral_congr fun τ _ => hp τ, intervalIntegral.integral_add (((hc _).const_mul _).intervalIntegrable _ _) (((hc _).const_mul _).intervalIntegrable _ _),
    intervalIntegral.integral_const_mul, intervalIntegral.integral_const_mul, exp_integral hβ, exp_integral hβ]
  have t1 : (-(1 - Real.tanh (β * U / 4)) / 4) * -(Real.exp (U / 2 * β) + 1) = 1 / 2 := by
    rw [show U / 2 * β = β * U / 4 + β * U / 4 by ring, Real.exp_add, Real.tanh_eq_sinh_div_cosh, Real.sinh_eq, Real.cosh_eq, Real.exp_neg]
    have := Real.exp_pos (β * U / 4)
    field_simp
    ring
  have t2 : (-(1 + Real.tanh (β * U / 4)) / 4) * -(Real.exp (-(U / 2) * β) + 1) = 1 / 2 := by
    rw [show -(U / 2) * β = -(β * U / 4) + -(β * U / 4) by ring, Real.exp_add, Real.tanh_eq_sinh_div_cosh, Real.sinh_eq, Real.cosh_eq, Real.exp_neg]
    have := Real.exp_pos (β * U / 4)
    field_simp
    ring
  have n1 := omega_shift_ne hβ k (U / 2)
  have n2 := omega_shift_ne hβ k (-(U / 2))
  rw [← Complex.ofReal_neg, ← Complex.ofReal_neg, ← mul_div_assoc, ← mul_div_assoc, ← Complex.ofReal_mul, ← Complex.ofReal_mul, t1, t2]
  rw [div_add_div _ _ n1 n2]
  congr 1
  push_cast
  ring

theorem isolated_bare_fourier (ha : Annihilators 2 ns a) (hβ0 : 0 < β) {z s : ℕ} (hz : z < 2) (hs : s < ns) (k : ℕ) {s' : ℕ} (hs' : s' < ns) :
    fourier β (fun u => toC (greenOf β a (bareH 2 ns (fun _ _ _ => (0 : ℝ)) a) z s s' u)) k = if s = s' then 1 / (Complex.I * omega β k) else 0 := by
  have hw : 0 < omega β k := by unfold omega; have := Real.pi_pos; positivity
  have hw' : (omega β k : ℂ) ≠ 0 := by exact_mod_cast hw.ne'
  simp only [atomic_bare, atomic_green ha hz hs hs']
  split_ifs with e
  · have := isolated_fourier hβ0 0 k
    simp only [mul_zero, zero_div, Real.sinh_zero, Real.cosh_zero, zero_mul, zero_sub, neg_zero, Complex.ofReal_zero, add_zero] at this
    rw [show (-(1 / 2) : ℝ) = -1 / 2 by norm_num, this]
    field_simp
  · have e0 : toC (0 : ℝ) = 0 := by apply Complex.ext <;> simp [toC]
    unfold fourier
    rw [e0]
    simp

theorem isolated_hermitian {N : ℕ} {file : GFile} (hlarge : ((max N 4 : ℕ) : ℤ) ≤ file.ntau) (hval : IsolatedFile ns file) : HermitianFile ℝ file 2 ns := by
  have hg : (4 : ℤ) ≤ file.ntau := le_trans (by exact_mod_cast le_max_right N 4) hlarge
  refine ⟨by omega, fun f hf s hs s' hs' t ht => ?_, fun f hf s hs s' hs' hne => ?_⟩
  · have h1 := hval f hf s hs s' hs' t ht
    have h2 := hval f hf s' hs' s hs t ht
    rw [show starRingEnd ℝ (file.value f s s' t : ℝ) = (file.value f s s' t : ℝ) from rfl, h1, h2]
    simp only [eq_comm]
  · rw [hval f hf s hs s' hs' 0 (by push_cast; omega), hval f hf s hs s' hs' _ (by omega), if_neg hne, add_zero]

/-- **C104, self-energy.**  At each frequency the element of SigmaG_omega on a site, the product of self-energy and Green's function, is as close as wanted to
    U² / (U² + 4 ω²), what the self-energy (U/2)² / iω of an isolated site gives. -/
theorem C104_sigma (hβ : 1e-8 < β) (hU : U ≠ 0) {z s : ℕ} (hz : z < 2) (hs : s < ns) (k : ℕ) {ε : ℝ} (hε : 0 < ε) :
    ∀ᶠ nl in atTop, ∀ᶠ m in atTop, ∀ᶠ M in atTop, ∃ N : ℕ, ∀ (S : Type) (is : IStream S) dbg P np (mem : Fin np → Memory ℝ) (V : FullSolver ℝ),
      IsolatedProgram is dbg P mem V β U ns N → P.nLegendre = nl → P.nBin = m → P.maxOrder = M → ∀ nm > k,
      ArchivesEventually is dbg P nm mem fun ar => ‖ar.omega (off4 ns ns 2 k s s z) - ((U ^ 2 / (U ^ 2 + 4 * omega β k ^ 2) : ℝ) : ℂ)‖ < ε := by
  obtain ⟨n, i1, i2, i3, a, ha⟩ := annihilators_exist ℝ 2 ns
  have hβ0 : 0 < β := by linarith
  have hw : 0 < omega β k := by unfold omega; have := Real.pi_pos; positivity
  have hw' : (omega β k : ℂ) ≠ 0 := by exact_mod_cast hw.ne'
  have g0 : ∀ s' < ns, fourier β (fun u => toC (greenOf β a (bareH 2 ns (fun _ _ _ => (0 : ℝ)) a) z s s' u)) k = if s = s' then 1 / (Complex.I * omega β k) else 0 := fun s' hs' => isolated_bare_fourier ha hβ0 hz hs k hs'
  have g1 : fourier β (fun u => toC (greenOf β a (bareH 2 ns (fun _ _ _ => (0 : ℝ)) a + hubbardV U ns a) z s s u)) k =
      Complex.I * omega β k / ((Complex.I * omega β k + (U / 2 : ℝ)) * (Complex.I * omega β k + (-(U / 2) : ℝ))) := by
    rw [← isolated_fourier hβ0 U k]
    congr 1
    funext u
    rw [atomic_bare, zero_add, isolated_green ha hz hs β U u (isolated_partition ha β U)]
  filter_upwards [C103_green hβ ha (atomic_hops ns) U hz hs hs k (div_pos hε hw)] with nl q1
  filter_upwards [q1] with m q2
  filter_upwards [q2] with M hM
  obtain ⟨δ, hδ, N, hN⟩ := hM
  refine ⟨max N 4, fun S is dbg P np mem V hp hl hm hM nm hk => ?_⟩
  have key := hN S is dbg P np mem V (isolated_fine hβ ha (by omega) hU hp hδ.le) hp.term hl hm hM (fun file e => ?_) nm hk
  · have e : ∀ ar : Archive, ‖(fourier β (fun u => toC (greenOf β a (bareH 2 ns (fun _ _ _ => (0 : ℝ)) a) z s s u)) k - ∑ s' ∈ Finset.range ns,
            fourier β (fun u => toC (greenOf β a (bareH 2 ns (fun _ _ _ => (0 : ℝ)) a) z s s' u)) k * ar.omega (off4 ns ns 2 k s' s z)) -
          fourier β (fun u => toC (greenOf β a (bareH 2 ns (fun _ _ _ => (0 : ℝ)) a + hubbardV U ns a) z s s u)) k‖ < ε / omega β k ↔
        ‖ar.omega (off4 ns ns 2 k s s z) - ((U ^ 2 / (U ^ 2 + 4 * omega β k ^ 2) : ℝ) : ℂ)‖ < ε := by
      intro ar
      rw [Finset.sum_congr rfl (g := fun s' => if s = s' then 1 / (Complex.I * omega β k) * ar.omega (off4 ns ns 2 k s' s z) else 0) fun s' hs' => by
          rw [g0 s' (Finset.mem_range.1 hs'), ite_mul, zero_mul], Finset.sum_ite_eq, if_pos (Finset.mem_range.2 hs), g0 s hs, if_pos rfl, g1]
      have hd : (U ^ 2 + 4 * omega β k ^ 2 : ℝ) ≠ 0 := by positivity
      have e1 : 1 / (Complex.I * omega β k) - 1 / (Complex.I * omega β k) * ar.omega (off4 ns ns 2 k s s z) -
          Complex.I * omega β k / ((Complex.I * omega β k + (U / 2 : ℝ)) * (Complex.I * omega β k + (-(U / 2) : ℝ))) =
          -(1 / (Complex.I * omega β k)) * (ar.omega (off4 ns ns 2 k s s z) - ((U ^ 2 / (U ^ 2 + 4 * omega β k ^ 2) : ℝ) : ℂ)) := by
        have hd' : ((U : ℂ) ^ 2 + 4 * (omega β k : ℂ) ^ 2) ≠ 0 := by exact_mod_cast hd
        have e2 : (Complex.I * omega β k + (U / 2 : ℝ)) * (Complex.I * omega β k + (-(U / 2) : ℝ)) = -(((U : ℂ) ^ 2 + 4 * (omega β k : ℂ) ^ 2) / 4) := by
          push_cast
          linear_combination (omega β k : ℂ) ^ 2 * Complex.I_sq
        have e3 : Complex.I * omega β k / -(((U : ℂ) ^ 2 + 4 * (omega β k : ℂ) ^ 2) / 4) = 1 / (Complex.I * omega β k) * (4 * (omega β k : ℂ) ^ 2 / ((U : ℂ) ^ 2 + 4 * (omega β k : ℂ) ^ 2)) := by
          have hI := Complex.I_ne_zero
          rw [div_neg, div_div_eq_mul_div, one_div, mul_inv, Complex.inv_I]
          field_simp
        rw [e2, e3]
        push_cast
        have e4 : (U : ℂ) ^ 2 / ((U : ℂ) ^ 2 + 4 * (omega β k : ℂ) ^ 2) = 1 - 4 * (omega β k : ℂ) ^ 2 / ((U : ℂ) ^ 2 + 4 * (omega β k : ℂ) ^ 2) := by
          field_simp
          ring
        rw [e4]
        ring
      rw [e1, norm_mul, norm_neg, norm_div, norm_one, norm_mul, Complex.norm_I, one_mul, Complex.norm_real, Real.norm_of_nonneg hw.le, one_div, inv_mul_eq_div,
        div_lt_div_iff_of_pos_right hw]
    simp only [e] at key
    exact key
  · obtain ⟨file', hfile, hlarge, hval⟩ := hp.file
    obtain rfl : file' = file := Option.some.inj (Option.some.inj (hfile.symm.trans e))
    exact isolated_hermitian hlarge hval

/-- **C104, self-energy between different sites.**  It tends to 0. -/
theorem C104_sigma_apart (hβ : 1e-8 < β) (hU : U ≠ 0) {z s b : ℕ} (hz : z < 2) (hs : s < ns) (hb : b < ns) (hne : s ≠ b) (k : ℕ) {ε : ℝ} (hε : 0 < ε) :
    ∀ᶠ nl in atTop, ∀ᶠ m in atTop, ∀ᶠ M in atTop, ∃ N : ℕ, ∀ (S : Type) (is : IStream S) dbg P np (mem : Fin np → Memory ℝ) (V : FullSolver ℝ),
      IsolatedProgram is dbg P mem V β U ns N → P.nLegendre = nl → P.nBin = m → P.maxOrder = M → ∀ nm > k,
      ArchivesEventually is dbg P nm mem fun ar => ‖ar.omega (off4 ns ns 2 k s b z)‖ < ε := by
  obtain ⟨n, i1, i2, i3, a, ha⟩ := annihilators_exist ℝ 2 ns
  have hβ0 : 0 < β := by linarith
  have hw : 0 < omega β k := by unfold omega; have := Real.pi_pos; positivity
  have g1 : fourier β (fun u => toC (greenOf β a (bareH 2 ns (fun _ _ _ => (0 : ℝ)) a + hubbardV U ns a) z s b u)) k = 0 := by
    have e0 : toC (0 : ℝ) = 0 := by apply Complex.ext <;> simp [toC]
    unfold fourier
    simp only [atomic_bare, zero_add, isolated_green_apart ha hz hs hb hne β U, e0]
    simp
  filter_upwards [C103_green hβ ha (atomic_hops ns) U hz hs hb k (div_pos hε hw)] with nl q1
  filter_upwards [q1] with m q2
  filter_upwards [q2] with M hM
  obtain ⟨δ, hδ, N, hN⟩ := hM
  refine ⟨max N 4, fun S is dbg P np mem V hp hl hm hM nm hk => ?_⟩
  have key := hN S is dbg P np mem V (isolated_fine hβ ha (by omega) hU hp hδ.le) hp.term hl hm hM (fun file e => ?_) nm hk
  · have e : ∀ ar : Archive, ‖(fourier β (fun u => toC (greenOf β a (bareH 2 ns (fun _ _ _ => (0 : ℝ)) a) z s b u)) k - ∑ s' ∈ Finset.range ns,
            fourier β (fun u => toC (greenOf β a (bareH 2 ns (fun _ _ _ => (0 : ℝ)) a) z s s' u)) k * ar.omega (off4 ns ns 2 k s' b z)) -
          fourier β (fun u => toC (greenOf β a (bareH 2 ns (fun _ _ _ => (0 : ℝ)) a + hubbardV U ns a) z s b u)) k‖ < ε / omega β k ↔
        ‖ar.omega (off4 ns ns 2 k s b z)‖ < ε := by
      intro ar
      rw [Finset.sum_congr rfl (g := fun s' => if s = s' then 1 / (Complex.I * omega β k) * ar.omega (off4 ns ns 2 k s' b z) else 0) fun s' hs' => by
          rw [isolated_bare_fourier ha hβ0 hz hs k (Finset.mem_range.1 hs'), ite_mul, zero_mul], Finset.sum_ite_eq, if_pos (Finset.mem_range.2 hs),
        isolated_bare_fourier ha hβ0 hz hs k hb, if_neg hne, g1, zero_sub, sub_zero, norm_neg, norm_mul, norm_div, norm_one, norm_mul, Complex.norm_I, one_mul, Complex.norm_real,
        Real.norm_of_nonneg hw.le, one_div, inv_mul_eq_div, div_lt_div_iff_of_pos_right hw]
    simp only [e] at key
    exact key
  · obtain ⟨file', hfile, hlarge, hval⟩ := hp.file
    obtain rfl : file' = file := Option.some.inj (Option.some.inj (hfile.symm.trans e))
    exact isolated_hermitian hlarge hval

/-- **C104, different sites.**  The product of the densities of different flavors on different sites tends to 1/4. -/
theorem C104_apart (hβ : 1e-8 < β) (hU : U ≠ 0) {s s' : ℕ} (hs : s < ns) (hs' : s' < ns) (hne : s ≠ s') {ε : ℝ} (hε : 0 < ε) :
    ∀ᶠ M in atTop, ∃ N : ℕ, ∀ (S : Type) (is : IStream S) dbg P np (mem : Fin np → Memory ℝ) (V : FullSolver ℝ), IsolatedProgram is dbg P mem V β U ns N →
      P.maxOrder = M → ∀ nm, ArchivesEventually is dbg P nm mem fun ar => ‖ar.ninj 0 s 1 s' - ((1 / 4 : ℝ) : ℂ)‖ < ε := by
  obtain ⟨n, i1, i2, i3, a, ha⟩ := annihilators_exist ℝ 2 ns
  filter_upwards [C103_product hβ ha (atomic_hops ns) U hs hs' hε] with M hM
  obtain ⟨δ, hδ, N, hN⟩ := hM
  refine ⟨max N 4, fun S is dbg P np mem V hp hM nm => ?_⟩
  have key := hN S is dbg P np mem V (isolated_fine hβ ha (by omega) hU hp hδ.le) hp.term hM nm
  have e : thermal β (hubbardV U ns a) ((a 0 s)ᴴ * a 0 s * ((a 1 s')ᴴ * a 1 s')) = 1 / 4 := by
    have hZ := isolated_partition ha β U
    have h2 := (isolated_averages ha hs β U hZ).2.1
    have h3 := (isolated_averages ha hs' β U hZ).2.2
    have h1 := isolated_apart ha (z := 0) (z' := 1) (by norm_num) hs (by norm_num) hs' hne β U
    have e1 : thermal β (hubbardV U ns a) 1 = 1 := by
      unfold thermal
      rw [mul_one]
      exact div_self hZ
    have e2 : ∀ z s, (a z s)ᴴ * a z s = halfOcc a z s + (1 / 2 : ℝ) • 1 := fun z s => by unfold halfOcc; module
    rw [show (a 0 s)ᴴ * a 0 s * ((a 1 s')ᴴ * a 1 s') = halfOcc a 0 s * halfOcc a 1 s' + (1 / 2 : ℝ) • halfOcc a 0 s + (1 / 2 : ℝ) • halfOcc a 1 s' + (1 / 4 : ℝ) • 1 by
        rw [e2 0, e2 1, add_mul, mul_add, mul_add, smul_mul_assoc, mul_smul_comm, one_mul, mul_one, smul_mul_assoc, one_mul, smul_smul]; module,
      thermal_eq, map_add, map_add, map_add, map_smul, map_smul, map_smul, ← thermal_eq, ← thermal_eq, ← thermal_eq, ← thermal_eq, h1, h2, h3, e1]
    simp
  simp only [atomic_bare, equalTime_flat, zero_smul, add_zero, zero_add, e] at key
  exact key

/-! ## The hypotheses can be met -/

/-- For any number of sites and of points of time there is such a program. -/
theorem isolated_exist {S : Type} (is : IStream S) (dbg : Bool) (j : ReadJunk) (hβ : 1e-8 < β) (hU : U ≠ 0) (hn : 0 < ns) (N M : ℕ) {m nl : ℕ} (hm : 0 < m) (hl : 0 < nl) : ∃ (file : GFile) (V : FullSolver ℝ),
    IsolatedProgram is dbg (fineParams S ns β U file m nl M) (fun _ : Fin 1 => (⟨j, fun _ _ _ _ _ _ _ => 0, fun _ _ _ => 0⟩ : Memory ℝ)) V β U ns N := by
  obtain ⟨n, i1, i2, i3, a, tbl, ha, -, hT, -, hZ, h⟩ := atomic_programs is dbg j hβ hU hn
  obtain ⟨file, hF, hV⟩ := h N
  obtain ⟨V, hV, -⟩ := hV 0 le_rfl m nl M hm hl
  have hr := hV.runs 0
  obtain ⟨file', e, hN, hlist⟩ := hr.file
  obtain rfl : file = file' := Option.some.inj (Option.some.inj e)
  refine ⟨file, V, hV.procs, fun i => (hV.runs i).made, hr.beta, hr.spins, hr.sites, rfl, ⟨file, rfl, hN, fun z hz s hs s' hs' i hi => ?_⟩, hV.params, hV.fresh, hV.inserts,
    hV.sweeps, hV.samples⟩
  have := hlist z hz s hs s' hs' i hi
  rw [atomic_bare, atomic_green ha hz hs hs'] at this
  exact sub_eq_zero.1 (norm_le_zero_iff.1 this)

/-- β = 2, U = 4, three sites: the double occupancy tends to (1 - tanh 2)/4. -/
example {S : Type} (is : IStream S) (dbg : Bool) (j : ReadJunk) {ε : ℝ} (hε : 0 < ε) : ∀ᶠ M in atTop, ∃ file : GFile,
    ArchivesEventually is dbg (fineParams S 3 2 4 file 1 1 M) 1 (fun _ : Fin 1 => (⟨j, fun _ _ _ _ _ _ _ => 0, fun _ _ _ => 0⟩ : Memory ℝ)) fun ar =>
      ‖ar.ninj 0 1 1 1 - (((1 - Real.tanh 2) / 4 : ℝ) : ℂ)‖ < ε := by
  filter_upwards [C104_double (β := 2) (U := 4) (ns := 3) (s := 1) (by norm_num) (by norm_num) (by norm_num) hε] with M hM
  obtain ⟨N, hN⟩ := hM
  obtain ⟨file, V, hV⟩ := isolated_exist is dbg j (β := 2) (U := 4) (ns := 3) (by norm_num) (by norm_num) (by norm_num) N M one_pos one_pos
  have := hN S is dbg _ 1 _ V hV rfl 1
  rw [show (2 * 4 / 4 : ℝ) = 2 by norm_num] at this
  exact ⟨file, this⟩

/-- Densities and matrix sizes, any β, U > 0 and number of sites. -/
example {S : Type} (is : IStream S) (dbg : Bool) (j : ReadJunk) {β U ε : ℝ} (hβ : 1e-8 < β) (hU : 0 < U) (hn : 0 < ns) {z : ℕ} (hz : z < 2) (hε : 0 < ε) :
    ∀ᶠ M in atTop, (∃ file : GFile, ArchivesEventually is dbg (fineParams S ns β U file 1 1 M) 1 (fun _ : Fin 1 => (⟨j, fun _ _ _ _ _ _ _ => 0, fun _ _ _ => 0⟩ : Memory ℝ)) fun ar =>
        |ar.densities.getD z 0 - 1 / 2| < ε) ∧
      ∃ file : GFile, ArchivesEventually is dbg (fineParams S ns β U file 1 1 M) 1 (fun _ : Fin 1 => (⟨j, fun _ _ _ _ _ _ _ => 0, fun _ _ _ => 0⟩ : Memory ℝ)) fun ar =>
        |ar.matrixSize.getD z 0 - β * U * ns * (0.51 ^ 2 + Real.tanh (β * U / 4) / 4)| < ε := by
  filter_upwards [C104_density hβ hU.ne' hn hz hε, C104_order hβ hU hn hz hε] with M h1 h2
  obtain ⟨N1, h1⟩ := h1
  obtain ⟨N2, h2⟩ := h2
  obtain ⟨f1, V1, p1⟩ := isolated_exist is dbg j hβ hU.ne' hn N1 M one_pos one_pos
  obtain ⟨f2, V2, p2⟩ := isolated_exist is dbg j hβ hU.ne' hn N2 M one_pos one_pos
  exact ⟨⟨f1, h1 S is dbg _ 1 _ V1 p1 rfl 1⟩, f2, h2 S is dbg _ 1 _ V2 p2 rfl 1⟩

/-- The first frequency at β = π, U = 2: the element of SigmaG_omega tends to 1/2. -/
example {S : Type} (is : IStream S) (dbg : Bool) (j : ReadJunk) {ε : ℝ} (hε : 0 < ε) : ∀ᶠ nl in atTop, ∀ᶠ m in atTop, ∀ᶠ M in atTop, ∃ file : GFile,
    ArchivesEventually is dbg (fineParams S 2 Real.pi 2 file m nl M) 1 (fun _ : Fin 1 => (⟨j, fun _ _ _ _ _ _ _ => 0, fun _ _ _ => 0⟩ : Memory ℝ)) fun ar =>
      ‖ar.omega (off4 2 2 2 0 1 1 0) - ((1 / 2 : ℝ) : ℂ)‖ < ε := by
  have hπ : (1e-8 : ℝ) < Real.pi := by have := Real.two_le_pi; norm_num; linarith
  filter_upwards [C104_sigma (U := 2) (ns := 2) (s := 1) (z := 0) hπ (by norm_num) (by norm_num) (by norm_num) 0 hε, eventually_gt_atTop 0] with nl p1 hnl
  filter_upwards [p1, eventually_gt_atTop 0] with m p2 hm
  filter_upwards [p2] with M hM
  obtain ⟨N, hN⟩ := hM
  obtain ⟨file, V, hV⟩ := isolated_exist is dbg j (β := Real.pi) (U := 2) (ns := 2) hπ (by norm_num) (by norm_num) N M hm hnl
  have := hN S is dbg _ 1 _ V hV rfl rfl rfl 1 (by norm_num)
  rw [show (2 ^ 2 / (2 ^ 2 + 4 * omega Real.pi 0 ^ 2) : ℝ) = 1 / 2 by
    unfold omega
    have := Real.pi_pos.ne'
    rw [Nat.cast_zero, mul_zero, zero_add, one_mul, div_self this]
    norm_num] at this
  exact ⟨file, this⟩

/-- Different sites. -/
example {S : Type} (is : IStream S) (dbg : Bool) (j : ReadJunk) {β U ε : ℝ} (hβ : 1e-8 < β) (hU : U ≠ 0) {s s' z : ℕ} (hs : s < ns) (hs' : s' < ns) (hne : s ≠ s') (hz : z < 2)
    (hε : 0 < ε) (k : ℕ) :
    (∀ᶠ M in atTop, ∃ file : GFile, ArchivesEventually is dbg (fineParams S ns β U file 1 1 M) 1 (fun _ : Fin 1 => (⟨j, fun _ _ _ _ _ _ _ => 0, fun _ _ _ => 0⟩ : Memory ℝ)) fun ar =>
      ‖ar.ninj 0 s 1 s' - ((1 / 4 : ℝ) : ℂ)‖ < ε) ∧
    ∀ᶠ nl in atTop, ∀ᶠ m in atTop, ∀ᶠ M in atTop, ∃ file : GFile,
      ArchivesEventually is dbg (fineParams S ns β U file m nl M) (k + 1) (fun _ : Fin 1 => (⟨j, fun _ _ _ _ _ _ _ => 0, fun _ _ _ => 0⟩ : Memory ℝ)) fun ar =>
        ‖ar.omega (off4 ns ns 2 k s s' z)‖ < ε := by
  refine ⟨?_, ?_⟩
  · filter_upwards [C104_apart hβ hU hs hs' hne hε] with M hM
    obtain ⟨N, hN⟩ := hM
    obtain ⟨file, V, hV⟩ := isolated_exist is dbg j hβ hU (ns := ns) (by omega) N M one_pos one_pos
    exact ⟨file, hN S is dbg _ 1 _ V hV rfl 1⟩
  · filter_upwards [C104_sigma_apart hβ hU hz hs hs' hne k hε, eventually_gt_atTop 0] with nl p1 hnl
    filter_upwards [p1, eventually_gt_atTop 0] with m p2 hm
    filter_upwards [p2] with M hM
    obtain ⟨N, hN⟩ := hM
    obtain ⟨file, V, hV⟩ := isolated_exist is dbg j hβ hU (ns := ns) (by omega) N M hm hnl
    exact ⟨file, hN S is dbg _ 1 _ V hV rfl rfl rfl (k + 1) (Nat.lt_succ_self k)⟩

end CTInt
