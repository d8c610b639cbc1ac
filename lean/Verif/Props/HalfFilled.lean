import Verif.Proofs.HalfFilled
import Verif.Proofs.HalfFilledGreen
import Verif.Proofs.Always
import Verif.Props.Almost

/-!
# C90: no sign problem for the on-site repulsion at particle-hole symmetry
-/

set_option linter.all false

namespace CTInt

open MeasureTheory

variable {U δ ε0 : ℝ} {ns : ℕ} {ε : ℕ → ℝ}

/-- **C90, weights.**  On-site repulsion of two flavors at particle-hole symmetry: the weight of a configuration without two equal
    vertices at the same time is a power of U times the square of the determinant of one flavor; it is not negative. -/
theorem C90_weight {c : Ctx ℝ} {β : ℝ} (hT : IsHubbard U δ ns c.tbl) (hS : PHSymmetric β ns ε c.G0) (hU : 0 < U) {vs : List Vert}
    (hv : ∀ v ∈ vs, VertOK c.tbl v) (hi : ∀ v ∈ vs, v.nonInt = false) (hb : ∀ v ∈ vs, 0 ≤ v.time ∧ v.time < β)
    (hd : vs.Pairwise fun v w => v.type ≠ w.type ∨ v.time ≠ w.time) :
    weight c.NI 2 c.G0 c.tbl vs = U ^ vs.length * (detN vs.length (rowG c.G0 (rowsOf c.NI c.tbl vs 0))) ^ 2 ∧
    0 ≤ weight c.NI 2 c.G0 c.tbl vs := by
  rw [hubbard_weight hT hS hv hi hb hd]
  exact ⟨rfl, mul_nonneg (pow_nonneg hU.le _) (sq_nonneg _)⟩

/-- Almost no configuration has a negative weight. -/
theorem ae_weight_nonneg {c : Ctx ℝ} {β : ℝ} (hnf : c.nf = 2) (hT : IsHubbard U δ ns c.tbl) (hS : PHSymmetric β ns ε c.G0) (hU : 0 < U) (n : ℕ) :
    ∀ᵐ x ∂tupleMeasure β c.tbl n, 0 ≤ weight c.NI c.nf c.G0 c.tbl ((List.ofFn x).map vertAt) := by
  filter_upwards [ae_distinct β c.tbl n, ae_validPts β c.tbl n] with x hx hv
  rw [hnf]
  refine (C90_weight hT hS hU (vs := (List.ofFn x).map vertAt) ?_ ?_ ?_ ?_).2
  · intro v hv'
    obtain ⟨p, hp, rfl⟩ := List.mem_map.1 hv'
    obtain ⟨h1, h2, -⟩ := hv p hp
    refine ⟨h1, fun _ => ⟨Int.natCast_nonneg _, ?_⟩⟩
    show ((p.2.1 : ℕ) : ℤ) < ((numStates c.tbl p.1 : ℕ) : ℤ)
    exact_mod_cast h2
  · intro v hv'
    obtain ⟨p, hp, rfl⟩ := List.mem_map.1 hv'
    rfl
  · intro v hv'
    obtain ⟨p, hp, rfl⟩ := List.mem_map.1 hv'
    exact (hv p hp).2.2
  · rw [List.pairwise_map, List.pairwise_ofFn]
    intro i j hij
    exact Or.inr (hx i j hij.ne)

/-- **C90, partition function.**  The sum of the weights of all configurations, by which everything is divided, is at least 1, the
    weight of the empty configuration. -/
theorem C90_sum {c : Ctx ℝ} {β : ℝ} (hnf : c.nf = 2) (hT : IsHubbard U δ ns c.tbl) (hS : PHSymmetric β ns ε c.G0) (hU : 0 < U) (M : ℕ) :
    1 ≤ configSum c β M fun x => weight c.NI c.nf c.G0 c.tbl (x.map vertAt) := by
  unfold configSum
  have h0 : ∀ n ∈ Finset.range (M + 1), 0 ≤ (1 / (n.factorial : ℝ)) * ∫ x : Fin n → Pt,
      ((List.ofFn x).map fun p => ((numStates c.tbl p.1 : ℕ) : ℝ)⁻¹).prod * weight c.NI c.nf c.G0 c.tbl ((List.ofFn x).map vertAt)
        ∂Measure.pi fun _ => pointMeasure β c.tbl := by
    intro n _
    refine mul_nonneg (by positivity) (integral_nonneg_of_ae ?_)
    filter_upwards [ae_weight_nonneg hnf hT hS hU n] with x hx
    refine mul_nonneg (List.prod_nonneg fun a ha => ?_) hx
    obtain ⟨p, -, rfl⟩ := List.mem_map.1 ha
    positivity
  refine le_trans (le_of_eq ?_) (Finset.single_le_sum h0 (Finset.mem_range.2 (Nat.succ_pos M)))
  simp only [List.ofFn_zero, List.map_nil, List.prod_nil, weight_nil, Nat.factorial_zero, Nat.cast_one, div_one, one_mul]
  rw [integral_const]
  simp [Measure.real]

/-- **C90, one simulation.**  From the empty configuration, with probability one every record has sign 1, whatever the number of
    passes. -/
theorem C90_sign {c : Ctx ℝ} {q : MeasPar ℝ} {G : ℝ → ℕ → ℕ → ℕ → ℝ} {m : Mgr} {kIns maxOrder : ℕ} {sz B : ℝ}
    (h : SimOK c q G m kIns maxOrder sz) (hr : Regular c G B) (hnf : c.nf = 2) (hT : IsHubbard U δ ns c.tbl)
    (hS : PHSymmetric q.beta ns ε c.G0) (hU : 0 < U) (a : SimPar) (hp : 0 < a.steps.period)
    {s : Sim ℝ} (hs : AtStart m c q.beta maxOrder s) (h0 : s.x.w.s.verts = [])
    (J : ℕ → ℕ → ℕ → ℕ → ℕ → ℕ → ℕ → ℝ) (junk : ℕ → ℕ → ℕ → ℝ) :
    ∀ᵐ u ∂streams, ∀ k : ℕ, ∃ y : Sim ℝ, Returns (fun fuel => s.passes a m q c J junk u fuel k) y ∧
      y.log.length = k - a.steps.therm / a.steps.period ∧ ∀ r ∈ y.log, r.values.sign = 1 := by
  obtain ⟨hE, -⟩ := estimates_sign h hr
  have hae : ∀ᵐ x ∂ensMeasure c q.beta maxOrder, ∀ᵐ u ∂streams,
      (fun w : List Pt × (ℕ → ℝ) => RCLike.re (wt c w.1 / ((‖wt c w.1‖ : ℝ) : ℝ))) (x, u) ∈ ({1} : Set ℝ) := by
    have hm : MeasurableSet {x : List Pt | 0 < wt c x} := measurable_wt hr.meas measurableSet_Ioi
    have := ae_ensMeasure (ensemble_lt_top (beta := q.beta) hr.bound maxOrder) hr.meas hm fun n hn => by
      filter_upwards [ae_weight_nonneg hnf hT hS hU n] with x hx hne
      exact lt_of_le_of_ne hx (Ne.symm hne)
    filter_upwards [this] with x hx
    refine Filter.Eventually.of_forall fun u => ?_
    show wt c x / ‖wt c x‖ = 1
    have hx : 0 < wt c x := hx
    rw [Real.norm_of_nonneg hx.le, div_self hx.ne']
  filter_upwards [ae_good, always_almost h hr a hp hE (measurableSet_singleton 1) hae hs h0 J junk] with u hu hall k
  obtain ⟨y, hy⟩ := process_records h a hp hs J junk hu
  refine ⟨y k, (hy k).1, (hy k).2, ?_⟩
  rcases Nat.lt_or_ge k (a.steps.therm / a.steps.period) with hlt | hge
  · have : (y k).log = [] := List.length_eq_zero_iff.1 (by rw [(hy k).2]; omega)
    rw [this]
    intro r hr
    cases hr
  · obtain ⟨d, rfl⟩ := Nat.exists_eq_add_of_le hge
    obtain ⟨y', h1, -, h3⟩ := hall d
    rw [(hy _).1.unique h1]
    exact h3

section
variable {S : Type} {is : IStream S}

/-- **C90, Green's function.**  If the values in the file have particle-hole symmetry, so has the function the updates use, at all
    times, not only on the grid. -/
theorem C90_green {dbg : Bool} {P : Params S} {j : ReadJunk} {V : FullSolver ℝ} (h : FullSolver.create is dbg P j = .ok V) (hβ : 1e-8 < P.beta)
    (hz : P.spins = 2) {file : GFile} (hfile : P.g0File = some (some file)) (hF : PHFile ε file) :
    PHSymmetric P.beta P.sites ε V.c.G0 :=
  ph_green h hβ hz hfile hF

theorem create_hubbard {dbg : Bool} {P : Params S} {j : ReadJunk} {V : FullSolver ℝ} (h : FullSolver.create is dbg P j = .ok V)
    (hz : P.spins = 2) (hUp : P.U = some U) : IsHubbard U 1e-2 P.sites V.c.tbl := by
  rcases C80_hubbard h hUp with ⟨-, h1, h2⟩ | ⟨h0, -⟩
  · exact ⟨h1, h2⟩
  · omega

theorem hubbard_usable {dbg : Bool} {P : Params S} {j : ReadJunk} {V : FullSolver ℝ} (h : FullSolver.create is dbg P j = .ok V)
    (hz : P.spins = 2) (hs : 0 < P.sites) (hUp : P.U = some U) (hU : U ≠ 0) : UsableTerms P.spins V.c.tbl := by
  obtain ⟨hl, hall⟩ := create_hubbard h hz hUp
  have hmem : ∀ d ∈ V.c.tbl, ∃ (s : ℕ) (v : UDef ℝ), d = v.d ∧ OnsiteTerm U 1e-2 s [s, s, s, s] [0, 1] v := by
    intro d hd
    obtain ⟨s, hs', e⟩ := List.getElem_of_mem hd
    obtain ⟨v, e1, e2⟩ := hall s (by omega)
    rw [List.getElem?_eq_getElem hs'] at e1
    exact ⟨s, v, by rw [← e]; exact Option.some.inj e1, e2⟩
  refine ⟨fun e => ?_, fun d hd => ?_, fun d hd s hs' r hr' => ?_, fun d hd => ?_, fun d hd z hz' => ?_⟩
  · rw [e] at hl
    simp only [List.length_nil] at hl
    omega
  all_goals obtain ⟨s0, v, rfl, hv⟩ := hmem d hd
  · rw [hv.U]; exact hU
  · rw [hv.numAf] at hs'
    rw [hv.rank] at hr'
    have : v.d.alpha s r = 1 + 1e-2 ∨ v.d.alpha s r = -1e-2 := by
      have e1 := hv.up; have e2 := hv.down
      interval_cases s <;> interval_cases r
      · exact Or.inl e1.1
      · exact Or.inr e1.2
      · exact Or.inr (e2.1.trans e1.2)
      · exact Or.inl (e2.2.trans e1.1)
    rcases this with e | e <;> rw [e] <;> refine ⟨?_, by norm_num, by norm_num⟩
    · show (1 + 1e-2 : ℝ) ≠ 10 ^ 100
      norm_num
    · show (-1e-2 : ℝ) ≠ 10 ^ 100
      norm_num
  · rw [hv.numAf]; norm_num
  · rw [hv.rank, hv.flavors]
    refine ⟨z, by omega, ?_⟩
    obtain rfl | rfl : z = 0 ∨ z = 1 := by omega
    · rfl
    · rfl

/-- **C90, the program.**  Real weights, two flavors, "model.U" positive, a file with particle-hole symmetry, no configuration file, any
    number of processes.  With probability one, whatever the numbers of passes of the processes, if at least one measurement was
    made: the program returns, every record in the file has sign 1, and so is the mean sign that is written. -/
theorem C90_program {n : ℕ} {dbg : Bool} {P : Params S} {mem : Fin n → Memory ℝ} {V : FullSolver ℝ}
    (h : ∀ i, FullSolver.create is dbg P (mem i).j = .ok V) (hP : UsableParams P) (hc : P.config = none) (hz : P.spins = 2)
    (hs : 0 < P.sites) (hUp : P.U = some U) (hU : 0 < U) {file : GFile} (hfile : P.g0File = some (some file)) (hF : PHFile ε file)
    (nm : ℕ) (sj : ℕ → ℝ → ℝ) (junkP : ℕ → ℕ → ℝ) {μ : Measure (Fin n → ℕ → ℝ)} (hμ : EachUniform μ) :
    ∀ᵐ u ∂μ, ∀ k : Fin n → ℕ, 0 < ∑ i, (k i - P.therm / P.period.toNat) → ∃ (rs : List Record) (ar : Archive),
      Returns (fun fuel => runSimulation is dbg false P nm sj mem junkP u k fuel) (fun i => if i.val = 0 then some ⟨P, rs, ar⟩ else none) ∧
      rs.length = ∑ i, (k i - P.therm / P.period.toNat) ∧ (∀ r ∈ rs, r.sign = 1) ∧ ar.sign = 1 := by
  rcases Nat.eq_zero_or_pos n with rfl | hn
  · exact Filter.Eventually.of_forall fun u k hk => by simp at hk
  have h1 := h ⟨0, hn⟩
  have hp := C80_parameters h1
  have ht := hubbard_usable h1 hz hs hUp hU.ne'
  obtain ⟨G, B, hok, hreg, hst⟩ := C80_ready h1 hP ht (Or.inl hc)
  have hper : V.a.steps.period = P.period.toNat := by have := hp.period; omega
  have hpos : 0 < V.a.steps.period := by have := hP.period; have := hp.period; omega
  have hT := create_hubbard h1 hz hUp
  have hS := C90_green h1 hP.beta hz hfile hF
  rw [← hp.beta] at hS
  have hsim := fun i : Fin n => C90_sign hok hreg (hp.nf.trans hz) hT hS hU V.a hpos hst (starts_empty h1 hP ht hc) (mem i).J (mem i).junk
  filter_upwards [hμ.ae fun i => (ae_good).and (hsim i)] with u hu k hk
  have hy : ∀ i, ∃ y : ℕ → Sim ℝ, ∀ k, (Returns (fun fuel => V.s.passes V.a V.m V.q V.c (mem i).J (mem i).junk (u i) fuel k) (y k) ∧
      (y k).log.length = k - V.a.steps.therm / V.a.steps.period) ∧ ∀ r ∈ (y k).log, r.values.sign = 1 := by
    intro i
    choose y h1 h2 h3 using (hu i).2
    exact ⟨y, fun k => ⟨⟨h1 k, h2 k⟩, h3 k⟩⟩
  choose y hy using hy
  set L : List Record := (List.finRange n).flatMap fun i => (y i (k i)).log.map fun r => r.values with hL
  have hlen : L.length = ∑ i, (k i - P.therm / P.period.toNat) := by
    rw [hL, List.length_flatMap, ← List.ofFn_eq_map, List.sum_ofFn]
    exact Finset.sum_congr rfl fun i _ => by rw [List.length_map, (hy i _).1.2, hp.therm, hper]
  have hne : L ≠ [] := fun e => by rw [e] at hlen; simp only [List.length_nil] at hlen; omega
  have hmem : ∀ r ∈ L, RecShape V.c.nf V.q.ns V.q.nb r ∧ r.sign = 1 := by
    intro r hr
    rw [hL, List.mem_flatMap] at hr
    obtain ⟨i, -, hr⟩ := hr
    obtain ⟨r', hr', rfl⟩ := List.mem_map.1 hr
    exact ⟨(process_all hok (fun s y u junk p r p' h1 h2 h3 h4 => record_facts hok h1 h2 h3 h4) V.a hpos hst (hu i).1
      (fun k => (hy i k).1) (k i) r' hr').1, (hy i (k i)).2 r' hr'⟩
  have hmean : recMean (fun r => r.sign) L = 1 := by
    rw [recMean_congr (g := fun _ => 1) fun r hr => (hmem r hr).2]
    unfold recMean
    rw [List.map_const', List.sum_replicate, nsmul_eq_mul, mul_one]
    exact div_self (by exact_mod_cast (List.length_pos_of_ne_nil hne).ne')
  obtain ⟨ar, e, -, hsign, -⟩ := postprocess_spec V.c.nf V.q.ns V.q.nb P.nLegendre nm hP.legendre V.q.beta sj junkP hne (fun r hr => (hmem r hr).1)
    (by rw [hmean]; exact one_ne_zero)
  rw [hp.nf, hp.ns, hp.bins, hp.beta] at e
  exact ⟨L, ar, collected h (fun i k => (hy i k).1.1) P.total k nm sj junkP e, hlen, fun r hr => (hmem r hr).2, by rw [hsign, hmean]⟩

/-- **C90, convergence without assumptions on the sign.**  If in addition the weights vanish at most on sets of measure zero, then with
    probability one, when the parallel loop has completed the requested number of steps, every number in the file converges
    to the value the expansion defines as the requested number grows: the division by the mean sign is harmless. -/
theorem C90_converges {n : ℕ} {dbg : Bool} {P : Params S} {mem : Fin n → Memory ℝ} {V : FullSolver ℝ}
    (h : ∀ i, FullSolver.create is dbg P (mem i).j = .ok V) (hn : 0 < n) (hP : UsableParams P) (hc : P.config = none) (hz : P.spins = 2)
    (hs : 0 < P.sites) (hUp : P.U = some U) (hU : 0 < U) {file : GFile} (hfile : P.g0File = some (some file)) (hF : PHFile ε file)
    (hk : 0 < P.kIns) (hI : 0 < P.nIR) (hsm : 0 < P.nSamples) (hd : AlmostNonzero V.c P.beta P.maxOrder)
    {sj : ℕ → ℝ → ℝ} (hsj : IsSphBessel sj) (nm : ℕ) (junkP : ℕ → ℕ → ℕ → ℝ) {μ : Measure (Fin n → ℕ → ℝ)} (hμ : EachUniform μ) :
    ∃ G : ℝ → ℕ → ℕ → ℕ → ℝ, (∀ t, ∀ z < P.spins, ∀ s1 < P.sites, ∀ s2 < P.sites, V.q.g0 t z s1 s2 = .ok (G t z s1 s2)) ∧
      ∀ᵐ u ∂μ, ∀ (T : ℕ → ℕ) (k : ℕ → Fin n → ℕ), Filter.Tendsto T Filter.atTop Filter.atTop →
        (∀ l, Completes ⟨T l, P.therm, P.period.toNat⟩ (k l)) →
        ∃ (rs : ℕ → List Record) (ar : ℕ → Archive),
          (∀ᶠ l in Filter.atTop, Returns (fun fuel => runSimulation is dbg false { P with total := T l } nm sj mem (junkP l) u (k l) fuel)
            (fun i => if i.val = 0 then some ⟨{ P with total := T l }, rs l, ar l⟩ else none)) ∧
          (∀ l, T l ≤ P.period * (rs l).length) ∧
          ArchiveTo V.c V.q G P.maxOrder P.nLegendre nm ar := by
  have h1 := h ⟨0, hn⟩
  have hp := C80_parameters h1
  have h2 := C90_sum (hp.nf.trans hz) (create_hubbard h1 hz hUp) (C90_green h1 hP.beta hz hfile hF) hU P.maxOrder
  exact C89_program h hn hP (hubbard_usable h1 hz hs hUp hU.ne') hc hk hI hsm hd (by linarith) hsj nm junkP hμ

/-! ### The theorems apply: a file with the value -1/2 everywhere, up to five vertices, three processes -/

theorem ex_phFile : PHFile (fun _ => 1) exGreenFile := by
  have hv : ∀ f s s' t : ℕ, f < 2 → (s : ℤ) < exGreenFile.ns → (s' : ℤ) < exGreenFile.ns → (t : ℤ) < exGreenFile.ntau →
      (exGreenFile.value f s s' t : ℝ) = -1 / 2 := by
    intro f s s' t hf hs hs' ht
    have e1 : exGreenFile.ns = 1 := rfl
    have e2 : exGreenFile.ntau = 3 := rfl
    obtain rfl : s = 0 := by omega
    obtain rfl : s' = 0 := by omega
    obtain rfl | rfl : f = 0 ∨ f = 1 := by omega
    all_goals
      obtain rfl | rfl | rfl : t = 0 ∨ t = 1 ∨ t = 2 := by omega
      all_goals simp [GFile.value, GFile.line, exGreenFile]
  have e2 : exGreenFile.ntau = 3 := rfl
  refine ⟨by norm_num [e2], fun _ _ => Or.inl rfl, fun s s' t hs hs' ht => ?_, fun s s' hs hs' => ?_⟩
  · rw [hv 1 s s' t (by norm_num) hs hs' ht, hv 0 s' s _ (by norm_num) hs' hs (by rw [e2]; omega)]
    norm_num
  · have e1 : exGreenFile.ns = 1 := rfl
    rw [hv 0 s s' 0 (by norm_num) hs hs' (by norm_num [e2]), hv 0 s s' _ (by norm_num) hs hs' (by rw [e2]; omega)]
    rw [if_pos (by omega)]
    norm_num

noncomputable def exParams90 (S : Type) : Params S := { exParams S with maxOrder := 5 }

example (dbg : Bool) (j : ReadJunk) : ∃ V : FullSolver ℝ, (∀ i : Fin 3,
      FullSolver.create is dbg (exParams90 S) ((fun _ => ⟨j, fun _ _ _ _ _ _ _ => 0, fun _ _ _ => 0⟩ : Fin 3 → Memory ℝ) i).j = .ok V) ∧
    ∀ᵐ u ∂(Measure.pi fun _ : Fin 3 => streams), ∃ (rs : List Record) (ar : Archive),
      Returns (fun fuel => runSimulation is dbg false (exParams90 S) 6 sphJ (fun _ : Fin 3 => (⟨j, fun _ _ _ _ _ _ _ => 0, fun _ _ _ => 0⟩ : Memory ℝ))
        (fun _ _ => 0) u (fun _ => 100) fuel) (fun i => if i.val = 0 then some ⟨exParams90 S, rs, ar⟩ else none) ∧
      rs.length = 285 ∧ (∀ r ∈ rs, r.sign = 1) ∧ ar.sign = 1 := by
  have hQ : UsableParams (exParams S) := ex_params
  have hP : UsableParams (exParams90 S) := ⟨hQ.beta, hQ.step, hQ.bins, hQ.period, hQ.legendre, hQ.rates⟩
  obtain ⟨V, e, -⟩ := C80_onsite (K := ℝ) (is := is) dbg (exParams90 S) j exGreenFile 1 hP rfl rfl one_ne_zero
    (Or.inl ⟨rfl, by norm_num [exParams90, exParams]⟩) rfl ex_greenFile rfl
  refine ⟨V, fun _ => e, ?_⟩
  have := C90_program (n := 3) (mem := fun _ : Fin 3 => (⟨j, fun _ _ _ _ _ _ _ => 0, fun _ _ _ => 0⟩ : Memory ℝ)) (V := V) (fun _ => e) hP rfl rfl
    (by norm_num [exParams90, exParams]) rfl one_pos rfl ex_phFile 6 sphJ (fun _ _ => 0) (ex_uniform 3)
  have e1 : (exParams90 S).therm = 10 := rfl
  have e2 : (exParams90 S).period.toNat = 2 := rfl
  filter_upwards [this] with u hu
  obtain ⟨rs, ar, h1, h2, h3⟩ := hu (fun _ => 100) (by rw [e1, e2]; simp)
  exact ⟨rs, ar, h1, by rw [h2, e1, e2]; simp, h3⟩

/-- The numbers converge: at most one vertex, whose weight is at least 0.2601. -/
example (dbg : Bool) (j : ReadJunk) : ∃ V : FullSolver ℝ, (∀ i : Fin 3,
      FullSolver.create is dbg (exParams S) ((fun _ => ⟨j, fun _ _ _ _ _ _ _ => 0, fun _ _ _ => 0⟩ : Fin 3 → Memory ℝ) i).j = .ok V) ∧
    ∃ G : ℝ → ℕ → ℕ → ℕ → ℝ, ∀ᵐ u ∂(Measure.pi fun _ : Fin 3 => streams), ∀ k : ℕ → Fin 3 → ℕ, (∀ l, Completes ⟨l + 1, 10, 2⟩ (k l)) →
      ∃ (rs : ℕ → List Record) (ar : ℕ → Archive), ArchiveTo V.c V.q G 1 4 6 ar := by
  obtain ⟨V, e, -⟩ := ex_create (K := ℝ) (is := is) (S := S) dbg j
  refine ⟨V, fun _ => e, ?_⟩
  obtain ⟨G, -, h⟩ := C90_converges (mem := fun _ : Fin 3 => (⟨j, fun _ _ _ _ _ _ _ => 0, fun _ _ _ => 0⟩ : Memory ℝ)) (V := V) (fun _ => e)
    (by norm_num) ex_params rfl rfl (by norm_num [exParams]) rfl one_pos rfl ex_phFile (by norm_num [exParams]) (by norm_num [exParams])
    (by norm_num [exParams]) (AlmostNonzero.of_lower (w := 0.2601) (by norm_num) fun x hx hn => (ex_weights e x hx hn).trans (le_abs_self _))
    (sj := sphJ) (fun _ _ _ => rfl) 6 (fun _ _ _ => 0) (ex_uniform 3)
  refine ⟨G, ?_⟩
  filter_upwards [h] with u hu k hk
  obtain ⟨rs, ar, -, -, h3⟩ := hu (fun l => l + 1) k (Filter.tendsto_add_atTop_nat 1) hk
  exact ⟨rs, ar, h3⟩

end

end CTInt
