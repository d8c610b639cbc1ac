import Verif.Spec.Hubbard
import Verif.Props.HalfFilled
import Verif.Props.FockOrder

/-!
# C103: the Hubbard model
-/

set_option linter.all false

namespace CTInt

open NormedSpace Matrix Filter

variable {n : Type} [Fintype n] [DecidableEq n] {ns : ℕ} {β U δ : ℝ} {a : ℕ → ℕ → Matrix n n ℝ} {h : ℕ → ℕ → ℕ → ℝ} {tbl : List (VDef ℝ)}

theorem onsite_operator {v : UDef ℝ} {s : ℕ} (hv : OnsiteTerm U δ s [s, s, s, s] [0, 1] v) (a : ℕ → ℕ → Matrix n n ℝ) :
    (v.d.U / (v.d.numAf : ℝ)) • ∑ f ∈ Finset.range v.d.numAf, pairsOp a v.d f = U • pairOn a s - (U * (1 / 2 + δ) ^ 2) • 1 := by
  unfold pairsOp pairOn
  rw [hv.numAf, hv.rank, hv.sites, hv.flavors, hv.U]
  simp only [Finset.sum_range_succ, Finset.sum_range_zero, zero_add, List.range_succ, List.range_zero, List.nil_append, List.map_append, List.map_cons, List.map_nil, List.cons_append,
    List.prod_cons, List.prod_nil, mul_one, hv.down.1, hv.down.2, hv.up.1, hv.up.2]
  simp only [List.getD_cons_zero, List.getD_cons_succ, Nat.mul_zero, Nat.reduceMul, Nat.reduceAdd, List.getD]
  simp only [List.getElem?_cons_zero, List.getElem?_cons_succ, Option.getD_some, zero_add]
  generalize (a 0 s)ᴴ * a 0 s = X
  generalize (a 1 s)ᴴ * a 1 s = Y
  simp only [sub_mul, mul_sub, smul_mul_assoc, mul_smul_comm, one_mul, mul_one, smul_sub, smul_add, smul_smul]
  module

theorem hubbard_list {tbl : List (VDef ℝ)} (hT : IsHubbard U δ ns tbl) {M : Type} [AddCommMonoid M] {F : VDef ℝ → M} {g : ℕ → M}
    (hF : ∀ s < ns, ∀ v : UDef ℝ, OnsiteTerm U δ s [s, s, s, s] [0, 1] v → F v.d = g s) : (tbl.map F).sum = ∑ s ∈ Finset.range ns, g s := by
  have e : tbl.map F = (List.range ns).map g := by
    refine List.ext_getElem? fun s => ?_
    rw [List.getElem?_map, List.getElem?_map]
    by_cases hs : s < ns
    · obtain ⟨v, ev, hv⟩ := hT.2 s hs
      rw [ev, List.getElem?_range hs]
      exact congrArg some (hF s hs v hv)
    · rw [List.getElem?_eq_none (by rw [hT.1]; omega), List.getElem?_eq_none (by simpa using hs)]
      rfl
  rw [e]
  rfl

/-- **C103, the interaction.**  The terms for "model.U", averaged over their fields, are the repulsion of the Hubbard model up to a constant. -/
theorem C103_terms (hT : IsHubbard U δ ns tbl) (a : ℕ → ℕ → Matrix n n ℝ) : interactionH a tbl = hubbardV U ns a - (U * ns * (1 / 2 + δ) ^ 2) • 1 := by
  unfold interactionH hubbardV
  rw [hubbard_list hT (g := fun s => U • pairOn a s - (U * (1 / 2 + δ) ^ 2) • 1) fun s _ v hv => onsite_operator hv a, Finset.sum_sub_distrib, Finset.smul_sum,
    Finset.sum_const, Finset.card_range, ← Nat.cast_smul_eq_nsmul ℝ, smul_smul]
  congr 2
  ring

theorem exp_constant (k : ℝ) : exp (k • (1 : Matrix n n ℝ)) = Real.exp k • 1 := by
  have e : ∀ r : ℝ, r • (1 : Matrix n n ℝ) = diagonal fun _ => r := fun r => by
    rw [← diagonal_one, ← diagonal_smul]
    congr 1
    funext i
    simp
  rw [e, e, exp_diagonal]
  congr 1
  funext i
  rw [Pi.coe_exp, Real.exp_eq_exp_ℝ]

/-- Averages do not see a constant in the Hamiltonian. -/
theorem thermal_constant (β k : ℝ) (H X : Matrix n n ℝ) : thermal β (H - k • 1) X = thermal β H X := by
  have e : exp (-((β : ℝ) : ℝ) • (H - k • (1 : Matrix n n ℝ))) = Real.exp (β * k) • exp (-((β : ℝ) : ℝ) • H) := by
    rw [show -((β : ℝ) : ℝ) • (H - k • (1 : Matrix n n ℝ)) = -((β : ℝ) : ℝ) • H + (β * k) • 1 by rw [smul_sub, smul_smul]; module,
      Matrix.exp_add_of_commute _ _ ((Commute.one_right _).smul_right _), exp_constant, mul_smul_comm, mul_one]
  unfold thermal
  simp only [RCLike.ofReal_real_eq_id, id]
  rw [e, smul_mul_assoc, trace_smul, trace_smul, smul_eq_mul, smul_eq_mul, mul_div_mul_left _ _ (Real.exp_pos _).ne']

/-- **C103, averages.**  Everything that was proved about averages for the terms of the program holds for the Hubbard model. -/
theorem C103_average (hT : IsHubbard U δ ns tbl) (β : ℝ) (H X : Matrix n n ℝ) : thermal β (H + interactionH a tbl) X = thermal β (H + hubbardV U ns a) X := by
  rw [C103_terms hT a, ← add_sub_assoc, thermal_constant]

theorem hubbard_pairs (hT : IsHubbard U δ ns tbl) {z : ℕ} (hz : z < 2) : multiplied (pairsIn z) tbl = tbl := by
  refine multiplied_one fun d hd => ?_
  obtain ⟨s, hs, rfl⟩ := List.mem_iff_getElem.1 hd
  obtain ⟨v, ev, hv⟩ := hT.2 s (by rw [← hT.1]; exact hs)
  rw [List.getElem?_eq_getElem hs] at ev
  rw [Option.some.inj ev]
  unfold pairsIn
  rw [hv.rank, hv.flavors]
  interval_cases z <;> simp [List.range_succ]

theorem hubbard_on (hT : IsHubbard U δ ns tbl) : TermsOn 2 ns tbl ∧ ∀ d ∈ tbl, ∀ r < d.rank, d.sites.getD (2 * r) 0 = d.sites.getD (2 * r + 1) 0 := by
  have key : ∀ d ∈ tbl, ∃ s < ns, ∃ v : UDef ℝ, v.d = d ∧ OnsiteTerm U δ s [s, s, s, s] [0, 1] v := fun d hd => by
    obtain ⟨s, hs, rfl⟩ := List.mem_iff_getElem.1 hd
    obtain ⟨v, ev, hv⟩ := hT.2 s (by rw [← hT.1]; exact hs)
    rw [List.getElem?_eq_getElem hs] at ev
    exact ⟨s, by rw [← hT.1]; exact hs, v, (Option.some.inj ev).symm, hv⟩
  refine ⟨fun d hd r hr => ?_, fun d hd r hr => ?_⟩
  · obtain ⟨s, hs, v, rfl, h⟩ := key d hd
    rw [h.rank] at hr
    rw [h.sites, h.flavors]
    obtain rfl | rfl : r = 0 ∨ r = 1 := by omega
    all_goals simp [hs]
  · obtain ⟨s, hs, v, rfl, h⟩ := key d hd
    rw [h.rank] at hr
    rw [h.sites]
    obtain rfl | rfl : r = 0 ∨ r = 1 := by omega
    all_goals simp

variable [Nonempty n]

theorem hubbard_energy (hh : HermitianHops 2 ns h) (ha : Annihilators 2 ns a) (hT : IsHubbard U δ ns tbl) (β : ℝ) :
    -β * thermal β (bareH 2 ns h a + interactionH a tbl) (interactionH a tbl) =
      β * (U * ns * (1 / 2 + δ) ^ 2 - thermal β (bareH 2 ns h a + hubbardV U ns a) (hubbardV U ns a)) := by
  have hZ : (exp (-β • (bareH 2 ns h a + interactionH a tbl))).trace ≠ 0 := density_terms_partition ha hh (hubbard_on hT).1 (hubbard_on hT).2 β
  have h1 : thermal β (bareH 2 ns h a + interactionH a tbl) 1 = 1 := by
    unfold thermal
    rw [mul_one]
    exact div_self hZ
  have e : ∀ W : Matrix n n ℝ, thermal β W 1 = 1 → thermal β W (interactionH a tbl) = thermal β W (hubbardV U ns a) - U * ns * (1 / 2 + δ) ^ 2 := by
    intro W hW
    rw [C103_terms hT a, thermal_eq, map_sub, map_smul, ← thermal_eq, ← thermal_eq, hW, smul_eq_mul, mul_one]
  rw [e _ h1, C103_average hT]
  ring

/-- The terms the program makes for "model.U" with two flavors depend on U and the number of sites only. -/
theorem hubbard_table (U : ℝ) (ns : ℕ) : ∃ tbl : List (VDef ℝ), IsHubbard U 1e-2 ns tbl ∧ ∀ (S : Type) (is : IStream S) dbg (P : Params S) j (V : FullSolver ℝ),
    FullSolver.create is dbg P j = .ok V → P.spins = 2 → P.sites = ns → P.U = some U → V.c.tbl = tbl := by
  obtain ⟨t', e, hl, -, -, h, -⟩ := C28_two_flavors ns U (1e-2 : ℝ)
  refine ⟨t'.list.map (·.d), ⟨by rw [List.length_map, hl], fun s hs => ?_⟩, fun S is dbg P j V hV hz hs hU => ?_⟩
  · obtain ⟨v, ev, hv⟩ := h s hs
    exact ⟨v, by rw [List.getElem?_map, ev]; rfl, hv⟩
  · obtain ⟨t, leg, file, g, sub, et, -, -, -, -, -, -, -, hc, -⟩ := create_inv hV
    have htbl : V.c.tbl = t.list.map (·.d) := by rw [hc]; rfl
    have et : UTable.onsite P.sites P.spins U (1e-2 : ℝ) = .ok t := by
      unfold UTable.create at et
      match hu : P.uFile with
      | none => rw [hu, hU] at et; exact et
      | some _ => rw [hu, hU] at et; cases et
    rw [hs, hz] at et
    rw [htbl, Res.ok.inj (e.symm.trans et)]

/-- **C103, the program.**  "model.U" positive, a file with particle-hole symmetry: the average matrix sizes of both flavors in the archives of long runs are as close as
    wanted to β (U N 0.51² - ⟨U Σ (n↑ - 1/2)(n↓ - 1/2)⟩), the average for the Hubbard model on N sites. -/
theorem C103_program (hβ : 1e-8 < β) (ha : Annihilators 2 ns a) (hh : HermitianHops 2 ns h) (hU : 0 < U) {z : ℕ} (hz : z < 2) {ε : ℝ} (hε : 0 < ε) :
    ∀ᶠ M in atTop, ∃ δ > 0, ∃ N : ℕ, ∀ (S : Type) (is : IStream S) dbg P np (mem : Fin np → Memory ℝ) (V : FullSolver ℝ),
      FineProgram is dbg P mem V β 2 ns a (bareH 2 ns h a) V.c.tbl δ N → P.U = some U → P.maxOrder = M →
      (∃ sgn file, P.g0File = some (some file) ∧ PHFile sgn file) → ∀ nm,
      ArchivesEventually is dbg P nm mem fun ar => |ar.matrixSize.getD z 0 -
        β * (U * ns * 0.51 ^ 2 - thermal β (bareH 2 ns h a + hubbardV U ns a) (hubbardV U ns a))| < ε := by
  obtain ⟨tbl, hT, htbl⟩ := hubbard_table U ns
  have h2 := hubbard_on hT
  filter_upwards [C102_program hβ ha hh h2.1 (density_terms_partition ha hh h2.1 h2.2 β) hz hε] with M hM
  obtain ⟨δ, hδ, N, hN⟩ := hM
  refine ⟨δ, hδ, N, fun S is dbg P np mem V hp hPU hM hF nm => ?_⟩
  have hr := hp.runs ⟨0, hp.procs⟩
  have et := htbl S is dbg P _ V hr.made hr.spins hr.sites hPU
  rw [et] at hp
  obtain ⟨sgn, file, hfile, hF⟩ := hF
  have hS := C90_green hr.made (by rw [hr.beta]; exact hβ) hr.spins hfile hF
  rw [hr.beta, hr.sites] at hS
  have hpos : AlmostNonnegative V.c β M := fun k _ =>
    ae_weight_nonneg (by rw [(C80_parameters hr.made).nf, hr.spins]) (by rw [et]; exact hT) hS hU k
  have key := hN S is dbg P np mem V hp hM hpos nm
  rw [hubbard_pairs hT hz, hubbard_energy hh ha hT, show (1 / 2 + 1e-2 : ℝ) = 0.51 by norm_num] at key
  exact key

theorem greenOf_constant (β k : ℝ) (a : ℕ → ℕ → Matrix n n ℝ) (H : Matrix n n ℝ) (z A b : ℕ) (u : ℝ) : greenOf β a (H - k • 1) z A b u = greenOf β a H z A b u := by
  have e : ∀ t : ℝ, exp (t • (H - k • (1 : Matrix n n ℝ))) = Real.exp (-(t * k)) • exp (t • H) := by
    intro t
    rw [show t • (H - k • (1 : Matrix n n ℝ)) = t • H + (-(t * k)) • 1 by rw [smul_sub, smul_smul]; module,
      Matrix.exp_add_of_commute _ _ ((Commute.one_right _).smul_right _), exp_constant, mul_smul_comm, mul_one]
  unfold greenOf
  rw [thermal_constant]
  congr 2
  unfold atTime
  simp only [RCLike.ofReal_real_eq_id, id]
  rw [← neg_smul, ← neg_smul, e, e, smul_mul_assoc, smul_mul_assoc, mul_smul_comm, smul_smul, ← Real.exp_add, show -(u * k) + -(-u * k) = 0 by ring, Real.exp_zero, one_smul]

theorem C103_greens (hT : IsHubbard U δ ns tbl) (β : ℝ) (H : Matrix n n ℝ) (z A b : ℕ) (u : ℝ) :
    greenOf β a (H + interactionH a tbl) z A b u = greenOf β a (H + hubbardV U ns a) z A b u := by
  rw [C103_terms hT a, ← add_sub_assoc, greenOf_constant]

/-- **C103, products of densities.**  Any U, repulsive or attractive: the products n↑ n↓ in the archives of long runs are as close as wanted to the averages for the Hubbard
    model, up to the error from the time difference taken for equal times. -/
theorem C103_product (hβ : 1e-8 < β) (ha : Annihilators 2 ns a) (hh : HermitianHops 2 ns h) (U : ℝ) {i j : ℕ} (hi : i < ns) (hj : j < ns) {ε : ℝ} (hε : 0 < ε) :
    ∀ᶠ M in atTop, ∃ δ > 0, ∃ N : ℕ, ∀ (S : Type) (is : IStream S) dbg P np (mem : Fin np → Memory ℝ) (V : FullSolver ℝ),
      FineProgram is dbg P mem V β 2 ns a (bareH 2 ns h a) V.c.tbl δ N → P.U = some U → P.maxOrder = M → ∀ nm,
      ArchivesEventually is dbg P nm mem fun ar => ‖ar.ninj 0 i 1 j - ((thermal β (bareH 2 ns h a + hubbardV U ns a)
        (((a 0 i)ᴴ * a 0 i + equalTimeError β a (bareH 2 ns h a) 0 i i • 1) *
          ((a 1 j)ᴴ * a 1 j + equalTimeError β a (bareH 2 ns h a) 1 j j • 1)) : ℝ) : ℂ)‖ < ε := by
  obtain ⟨tbl, hT, htbl⟩ := hubbard_table U ns
  have h2 := hubbard_on hT
  filter_upwards [C101_product hβ ha hh h2.1 (density_terms_partition ha hh h2.1 h2.2 β) (f1 := 0) (f2 := 1) (by norm_num) hi (by norm_num) hj (by norm_num) hε] with M hM
  obtain ⟨δ, hδ, N, hN⟩ := hM
  refine ⟨δ, hδ, N, fun S is dbg P np mem V hp hPU hM nm => ?_⟩
  have hr := hp.runs ⟨0, hp.procs⟩
  rw [htbl S is dbg P _ V hr.made hr.spins hr.sites hPU] at hp
  have key := hN S is dbg P np mem V hp hM nm
  rw [C103_average hT] at key
  exact key

/-- **C103, Green's function.**  The Green's function of the Hubbard model is reconstructed from what the program writes. -/
theorem C103_green (hβ : 1e-8 < β) (ha : Annihilators 2 ns a) (hh : HermitianHops 2 ns h) (U : ℝ) {z A b : ℕ} (hz : z < 2) (hA : A < ns) (hb : b < ns) (k : ℕ) {ε : ℝ} (hε : 0 < ε) :
    ∀ᶠ nl in atTop, ∀ᶠ m in atTop, ∀ᶠ M in atTop, ∃ δ > 0, ∃ N : ℕ, ∀ (S : Type) (is : IStream S) dbg P np (mem : Fin np → Memory ℝ) (V : FullSolver ℝ),
      FineProgram is dbg P mem V β 2 ns a (bareH 2 ns h a) V.c.tbl δ N → P.U = some U → P.nLegendre = nl → P.nBin = m → P.maxOrder = M →
      (∀ file, P.g0File = some (some file) → HermitianFile ℝ file 2 ns) → ∀ nm > k,
      ArchivesEventually is dbg P nm mem fun ar =>
        ‖(fourier β (fun u => toC (greenOf β a (bareH 2 ns h a) z A b u)) k - ∑ s ∈ Finset.range ns,
            fourier β (fun u => toC (greenOf β a (bareH 2 ns h a) z A s u)) k * ar.omega (off4 ns ns 2 k s b z)) -
          fourier β (fun u => toC (greenOf β a (bareH 2 ns h a + hubbardV U ns a) z A b u)) k‖ < ε := by
  obtain ⟨tbl, hT, htbl⟩ := hubbard_table U ns
  have h2 := hubbard_on hT
  by_cases hH : HermitianTerms ns id (fun _ s => s) tbl
  · filter_upwards [C101_green hβ ha hh h2.1 hH (density_terms_partition ha hh h2.1 h2.2 β) hz hA hb k hε] with nl q1
    filter_upwards [q1] with m q2
    filter_upwards [q2] with M hM
    obtain ⟨δ, hδ, N, hN⟩ := hM
    refine ⟨δ, hδ, N, fun S is dbg P np mem V hp hPU hl hm hM hF nm hk => ?_⟩
    have hr := hp.runs ⟨0, hp.procs⟩
    rw [htbl S is dbg P _ V hr.made hr.spins hr.sites hPU] at hp
    have key := hN S is dbg P np mem V hp hl hm hM hF nm hk
    simp only [C103_greens hT] at key
    exact key
  · refine Eventually.of_forall fun nl => Eventually.of_forall fun m => Eventually.of_forall fun M => ⟨1, one_pos, 0, fun S is dbg P np mem V hp hPU => ?_⟩
    have hr := hp.runs ⟨0, hp.procs⟩
    have := C94_onsite hr.made hPU
    rw [hr.sites, htbl S is dbg P _ V hr.made hr.spins hr.sites hPU] at this
    exact absurd this hH

/-! ## The hypotheses can be met -/

theorem atomic_green {z s s' : ℕ} (ha : Annihilators 2 ns a) (hz : z < 2) (hs : s < ns) (hs' : s' < ns) (t : ℝ) :
    greenOf β a 0 z s s' t = if s = s' then -(1 / 2) else 0 := by
  split_ifs with e
  · subst e
    have h1 := congrArg trace (ha.mixed z hz s hs z hz s hs)
    rw [if_pos ⟨rfl, rfl⟩, trace_add, trace_mul_comm (a z s)ᴴ] at h1
    have hc : (1 : Matrix n n ℝ).trace ≠ 0 := by
      rw [trace_one]; exact_mod_cast Fintype.card_ne_zero
    unfold greenOf
    rw [atTime_flat, thermal_flat, show (a z s * (a z s)ᴴ).trace = (1 : Matrix n n ℝ).trace / 2 by linarith]
    field_simp
  · exact atomic_apart ha hz hs hs' e t

/-- Any number of sites without hopping, any U > 0. -/
example {S : Type} (is : IStream S) (dbg : Bool) (j : ReadJunk) {β U ε : ℝ} (hβ : 1e-8 < β) (hU : 0 < U) (hε : 0 < ε) {ns z : ℕ} (hn : 0 < ns) (hz : z < 2) :
    ∃ (n : Type) (_ : Fintype n) (_ : DecidableEq n) (a : ℕ → ℕ → Matrix n n ℝ), Annihilators 2 ns a ∧
    ∀ᶠ M in atTop, ∃ file : GFile,
      ArchivesEventually is dbg (fineParams S ns β U file 1 1 M) 1 (fun _ : Fin 1 => (⟨j, fun _ _ _ _ _ _ _ => 0, fun _ _ _ => 0⟩ : Memory ℝ)) fun ar =>
        |ar.matrixSize.getD z 0 - β * (U * ns * 0.51 ^ 2 - thermal β (bareH 2 ns (fun _ _ _ => 0) a + hubbardV U ns a) (hubbardV U ns a))| < ε := by
  obtain ⟨n, i1, i2, i3, a, tbl, ha, hl, hT, -, hZ, h⟩ := atomic_programs is dbg j hβ hU.ne' hn
  refine ⟨n, i1, i2, a, ha, ?_⟩
  filter_upwards [C103_program hβ ha (atomic_hops ns) hU hz hε] with M p1
  obtain ⟨δ, hδ, N, hN⟩ := p1
  obtain ⟨file, hF, hV⟩ := h N
  obtain ⟨V0, hV0, -⟩ := hV 0 le_rfl 1 1 M one_pos one_pos
  obtain ⟨V, hV, -⟩ := hV δ hδ.le 1 1 M one_pos one_pos
  have hr := hV0.runs 0
  obtain ⟨file', e, -, hlist⟩ := hr.file
  obtain rfl : file = file' := Option.some.inj (Option.some.inj e)
  obtain ⟨file2, g, e2, hrd, -⟩ := C80_green_defined hr.made hβ
  obtain rfl : file = file2 := Option.some.inj (Option.some.inj e2)
  have hns : file.ns = ns := (C56_read file _ _ _ g hrd).2.1
  have hval : ∀ z < 2, ∀ s < ns, ∀ s' < ns, ∀ i : ℕ, (i : ℤ) < file.ntau → (file.value z s s' i : ℝ) = if s = s' then -(1 / 2) else 0 := by
    intro z hz s hs s' hs' i hi
    have := hlist z hz s hs s' hs' i hi
    rw [atomic_bare, atomic_green ha hz hs hs'] at this
    exact sub_eq_zero.1 (norm_le_zero_iff.1 this)
  have hg := hF.grid
  refine ⟨file, hN S is dbg _ 1 _ V ?_ rfl rfl ⟨fun _ => 1, file, rfl, hg, fun _ _ => Or.inl rfl, fun s s' t hs hs' ht => ?_, fun s s' hs hs' => ?_⟩ 1⟩
  · have : V.c.tbl = tbl := (hV.runs 0).terms
    rw [this]
    exact hV
  · rw [hns] at hs hs'
    rw [hval 1 (by norm_num) s (by omega) s' (by omega) t ht, hval 0 (by norm_num) s' (by omega) s (by omega) _ (by omega), one_mul, one_mul]
    simp only [eq_comm]
  · rw [hns] at hs hs'
    rw [hval 0 (by norm_num) s (by omega) s' (by omega) _ (by omega), hval 0 (by norm_num) s (by omega) s' (by omega) _ (by omega)]
    split_ifs <;> norm_num

/-- Double occupancy and Green's function. -/
example {S : Type} (is : IStream S) (dbg : Bool) (j : ReadJunk) {β U ε : ℝ} (hβ : 1e-8 < β) (hU : U ≠ 0) (hε : 0 < ε) {ns z s : ℕ} (hz : z < 2) (hs : s < ns) (k : ℕ) :
    ∃ (n : Type) (_ : Fintype n) (_ : DecidableEq n) (a : ℕ → ℕ → Matrix n n ℝ), Annihilators 2 ns a ∧
    (∀ᶠ M in atTop, ∃ file : GFile,
      ArchivesEventually is dbg (fineParams S ns β U file 1 1 M) 1 (fun _ : Fin 1 => (⟨j, fun _ _ _ _ _ _ _ => 0, fun _ _ _ => 0⟩ : Memory ℝ)) fun ar =>
        ‖ar.ninj 0 s 1 s - ((thermal β (bareH 2 ns (fun _ _ _ => 0) a + hubbardV U ns a)
          (((a 0 s)ᴴ * a 0 s + equalTimeError β a (bareH 2 ns (fun _ _ _ => 0) a) 0 s s • 1) *
            ((a 1 s)ᴴ * a 1 s + equalTimeError β a (bareH 2 ns (fun _ _ _ => 0) a) 1 s s • 1)) : ℝ) : ℂ)‖ < ε) ∧
    ∀ᶠ nl in atTop, ∀ᶠ m in atTop, ∀ᶠ M in atTop, ∃ file : GFile,
      ArchivesEventually is dbg (fineParams S ns β U file m nl M) (k + 1) (fun _ : Fin 1 => (⟨j, fun _ _ _ _ _ _ _ => 0, fun _ _ _ => 0⟩ : Memory ℝ)) fun ar =>
        ‖(fourier β (fun u => toC (greenOf β a (bareH 2 ns (fun _ _ _ => 0) a) z s s u)) k - ∑ s' ∈ Finset.range ns,
            fourier β (fun u => toC (greenOf β a (bareH 2 ns (fun _ _ _ => 0) a) z s s' u)) k * ar.omega (off4 ns ns 2 k s' s z)) -
          fourier β (fun u => toC (greenOf β a (bareH 2 ns (fun _ _ _ => 0) a + hubbardV U ns a) z s s u)) k‖ < ε := by
  obtain ⟨n, i1, i2, i3, a, tbl, ha, hl, hT, -, hZ, h⟩ := atomic_programs is dbg j hβ hU (ns := ns) (by omega)
  refine ⟨n, i1, i2, a, ha, ?_, ?_⟩
  · filter_upwards [C103_product hβ ha (atomic_hops ns) U hs hs hε] with M p1
    obtain ⟨δ, hδ, N, hN⟩ := p1
    obtain ⟨file, hF, hV⟩ := h N
    obtain ⟨V, hV, -⟩ := hV δ hδ.le 1 1 M one_pos one_pos
    refine ⟨file, hN S is dbg _ 1 _ V ?_ rfl rfl 1⟩
    rw [show V.c.tbl = tbl from (hV.runs 0).terms]
    exact hV
  · filter_upwards [C103_green hβ ha (atomic_hops ns) U hz hs hs k hε, eventually_gt_atTop 0] with nl p1 hnl
    filter_upwards [p1, eventually_gt_atTop 0] with m p2 hm
    filter_upwards [p2] with M p3
    obtain ⟨δ, hδ, N, hN⟩ := p3
    obtain ⟨file, hF, hV⟩ := h N
    obtain ⟨V, hV, -⟩ := hV δ hδ.le m nl M hm hnl
    refine ⟨file, hN S is dbg _ 1 _ V ?_ rfl rfl rfl rfl (fun file' e => ?_) (k + 1) (Nat.lt_succ_self k)⟩
    · rw [show V.c.tbl = tbl from (hV.runs 0).terms]
      exact hV
    · obtain rfl : file = file' := Option.some.inj (Option.some.inj e)
      exact hF

end CTInt
