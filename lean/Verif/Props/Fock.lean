import Verif.Proofs.FockG0

/-!
# C95, C96: the expansion is exact for fermions that hop and interact
-/

set_option linter.all false

namespace CTInt

open NormedSpace Matrix Filter

variable {K : Type} [RCLike K] [DecidableEq K] {n : Type} [Fintype n] [DecidableEq n] [Nonempty n] {ns : ℕ} {β : ℝ} {a : ℕ → ℕ → Matrix n n K}
  {h : ℕ → ℕ → ℕ → K} {c : Ctx K}

/-- **C95.**  The weight of a configuration, given in any order, is the thermal average of the bare Hamiltonian of the product of its
    vertices in the order of their times, each -U ∏(c†c - α) at its time. -/
theorem C95_weight (ha : Annihilators c.nf ns a) (hh : HermitianHops c.nf ns h) (hG : ThermalG0 β c.nf ns a (bareH c.nf ns h a) c.G0)
    (hT : TermsOn c.nf ns c.tbl) {x y : List Pt} (hx : ValidPts β c.tbl x) (hxy : x.Perm y) (hd : y.Pairwise fun p p' => p'.2.2 < p.2.2) :
    weight c.NI c.nf c.G0 c.tbl (x.map vertAt) =
      thermal β (bareH c.nf ns h a) (y.map fun p =>
        atTime (bareH c.nf ns h a) p.2.2 (-(c.tbl.getD p.1 default).U • pairsOp a (c.tbl.getD p.1 default) p.2.1)).prod := by
  rw [← fock_weight ha hh hG hT (NI := c.NI) (fun p hp => hx p (hxy.mem_iff.2 hp)) hd]
  exact wt_perm c hxy

/-- **C96.**  The sum over all configurations with at most `M` vertices tends to the partition function of the interacting Hamiltonian
    over that of the bare one. -/
theorem C96_partition (hβ : 0 ≤ β) (ha : Annihilators c.nf ns a) (hh : HermitianHops c.nf ns h)
    (hG : ThermalG0 β c.nf ns a (bareH c.nf ns h a) c.G0) (hm : MeasurableG0 c.G0) (hT : TermsOn c.nf ns c.tbl) :
    ∃ z : K, z = (exp (-(β : K) • (bareH c.nf ns h a + interactionH a c.tbl))).trace / (exp (-(β : K) • bareH c.nf ns h a)).trace ∧
      Tendsto (fun M => partitionC c β M) atTop (nhds ⟨RCLike.re z, RCLike.im z⟩) := by
  refine ⟨_, rfl, ?_⟩
  have h1 := fock_limit hβ ha hh hG hm hT RCLike.reCLM
  have h2 := fock_limit hβ ha hh hG hm hT RCLike.imCLM
  exact (Complex.equivRealProdCLM.symm.continuous.tendsto _).comp (h1.prodMk_nhds h2)

/-- **C96, real weights.** -/
theorem C96_partition_real {a : ℕ → ℕ → Matrix n n ℝ} {h : ℕ → ℕ → ℕ → ℝ} {c : Ctx ℝ} (hβ : 0 ≤ β) (ha : Annihilators c.nf ns a)
    (hh : HermitianHops c.nf ns h) (hG : ThermalG0 β c.nf ns a (bareH c.nf ns h a) c.G0) (hm : MeasurableG0 c.G0) (hT : TermsOn c.nf ns c.tbl) :
    Tendsto (fun M => configSum c β M fun x => weight c.NI c.nf c.G0 c.tbl (x.map vertAt)) atTop
      (nhds ((exp (-β • (bareH c.nf ns h a + interactionH a c.tbl))).trace / (exp (-β • bareH c.nf ns h a)).trace)) :=
  fock_limit hβ ha hh hG hm hT (ContinuousLinearMap.id ℝ ℝ)

/-! ### The theorems apply -/

/-- For all numbers of flavors and sites, all amplitudes and all interactions there are annihilators and a bare Green's function as
    required. -/
theorem fock_meets (K : Type) [RCLike K] (nf ns : ℕ) (h : ℕ → ℕ → ℕ → K) (β : ℝ) :
    ∃ (n : Type) (_ : Fintype n) (_ : DecidableEq n) (_ : Nonempty n) (a : ℕ → ℕ → Matrix n n K) (G0 : Op → Op → K),
      Annihilators nf ns a ∧ ThermalG0 β nf ns a (bareH nf ns h a) G0 ∧ MeasurableG0 G0 := by
  obtain ⟨n, i1, i2, i3, a, ha⟩ := annihilators_exist K nf ns
  exact ⟨n, i1, i2, i3, a, thermalG0 β a (bareH nf ns h a), ha, thermalG0_spec _ _ _ _ _, thermalG0_measurable _ _ _⟩

/-- Two sites, two flavors, a hop between the sites, and on each site the product of the two densities with fields 1/2 ± 0.6. -/
def dimerHop : ℕ → ℕ → ℕ → ℝ := fun _ s s' => if s = s' then 0 else -1

noncomputable def dimerTbl : List (VDef ℝ) :=
  (List.range 2).map fun s => ⟨2, [0, 1], [s, s, s, s], 2, 4, fun t r => if t = r then 1.1 else -0.1⟩

theorem dimer_hops : HermitianHops 2 2 dimerHop := by
  intro z _ s _ s' _
  show dimerHop z s s' = dimerHop z s' s
  unfold dimerHop
  simp only [eq_comm]

theorem dimer_terms : TermsOn 2 2 dimerTbl := by
  intro d hd r hr
  unfold dimerTbl at hd
  obtain ⟨s, hs, rfl⟩ := List.mem_map.1 hd
  have hs := List.mem_range.1 hs
  have hr : r = 0 ∨ r = 1 := by
    have : r < 2 := hr
    omega
  rcases hr with rfl | rfl <;> simp [hs]

/-- The sum over the configurations of the Hubbard dimer converges to its partition function. -/
example : ∃ (n : Type) (_ : Fintype n) (_ : DecidableEq n) (_ : Nonempty n) (a : ℕ → ℕ → Matrix n n ℝ) (G0 : Op → Op → ℝ), Annihilators 2 2 a ∧
    Tendsto (fun M => configSum ⟨1e20, 2, G0, dimerTbl⟩ 3 M fun x => weight 1e20 2 G0 dimerTbl (x.map vertAt)) atTop
      (nhds ((exp (-(3 : ℝ) • (bareH 2 2 dimerHop a + interactionH a dimerTbl))).trace / (exp (-(3 : ℝ) • bareH 2 2 dimerHop a)).trace)) := by
  obtain ⟨n, i1, i2, i3, a, G0, ha, hG, hm⟩ := fock_meets ℝ 2 2 dimerHop 3
  exact ⟨n, i1, i2, i3, a, G0, ha, C96_partition_real (c := ⟨1e20, 2, G0, dimerTbl⟩) (by norm_num) ha dimer_hops hG hm dimer_terms⟩

/-- The hypotheses of C95 for a configuration of two vertices of the dimer. -/
example : ∃ (n : Type) (_ : Fintype n) (_ : DecidableEq n) (_ : Nonempty n) (a : ℕ → ℕ → Matrix n n ℝ) (G0 : Op → Op → ℝ), Annihilators 2 2 a ∧
    weight 1e20 2 G0 dimerTbl [vertAt (0, 0, 1), vertAt (1, 1, 2)] =
      thermal 3 (bareH 2 2 dimerHop a) (atTime (bareH 2 2 dimerHop a) 2 (-(4 : ℝ) • pairsOp a (dimerTbl.getD 1 default) 1) *
        atTime (bareH 2 2 dimerHop a) 1 (-(4 : ℝ) • pairsOp a (dimerTbl.getD 0 default) 0)) := by
  obtain ⟨n, i1, i2, i3, a, G0, ha, hG, hm⟩ := fock_meets ℝ 2 2 dimerHop 3
  refine ⟨n, i1, i2, i3, a, G0, ha, ?_⟩
  have := C95_weight (c := ⟨1e20, 2, G0, dimerTbl⟩) (x := [(0, 0, 1), (1, 1, 2)]) (y := [(1, 1, 2), (0, 0, 1)]) ha dimer_hops hG dimer_terms
    (by
      intro p hp
      simp only [List.mem_cons, List.not_mem_nil, or_false] at hp
      rcases hp with rfl | rfl <;> simp [dimerTbl, numStates] <;> norm_num) (List.Perm.swap _ _ _) (by simp)
  simpa [dimerTbl] using this

end CTInt
