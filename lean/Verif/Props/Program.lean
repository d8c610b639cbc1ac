import Verif.Proofs.Program

/-!
# The program on any number of processes (C88)
-/

set_option linter.all false

namespace CTInt

open MeasureTheory

variable {S : Type} {is : IStream S}

section
variable {K : Type} [RCLike K] [DecidableEq K]

/-- The run of all processes up to the post-processing. -/
theorem collected {n : ℕ} {dbg : Bool} {P : Params S} {mem : Fin n → Memory K} {V : FullSolver K}
    (h : ∀ i, FullSolver.create is dbg P (mem i).j = .ok V) {u : Fin n → ℕ → ℝ} {y : Fin n → ℕ → Sim K}
    (hy : ∀ i k, Returns (fun fuel => V.s.passes V.a V.m V.q V.c (mem i).J (mem i).junk (u i) fuel k) (y i k))
    (T : ℕ) (k : Fin n → ℕ) (nm : ℕ) (sj : ℕ → ℝ → ℝ) (junkP : ℕ → ℕ → ℝ) {ar : Archive}
    (har : postprocess P.spins P.sites P.nBin P.nLegendre nm P.beta sj junkP
      ((List.finRange n).flatMap fun i => (y i (k i)).log.map fun r => r.values) = .ok ar) :
    Returns (fun fuel => runSimulation is dbg false { P with total := T } nm sj mem junkP u k fuel)
      (fun i => if i.val = 0 then some ⟨{ P with total := T }, (List.finRange n).flatMap fun i => (y i (k i)).log.map fun r => r.values, ar⟩
        else none) := by
  have h1 : ∀ i ∈ List.finRange n, Returns (fun fuel => processRun is dbg { P with total := T } (mem i) (u i) (k i) fuel)
      ((y i (k i)).log.map fun r => r.values) := by
    intro i _
    obtain ⟨F, hF⟩ := hy i (k i)
    refine ⟨F, fun fuel hf => ?_⟩
    unfold processRun
    rw [create_total (h i) T]
    simp only [Run.lift_ok, Run.bind_ok]
    have := hF fuel hf
    simp only at this
    rw [show V.a = ⟨V.a.nIR, V.a.nSh, V.a.nSF, ⟨V.a.steps.mc, V.a.steps.therm, V.a.steps.period⟩⟩ from rfl,
      passes_mc _ _ _ _ T] at this
    rw [this]
    rfl
  obtain ⟨F, hF⟩ := foldl_collect (List.finRange n) h1 []
  refine ⟨F, fun fuel hf => ?_⟩
  have h2 := hF fuel hf
  simp only [List.nil_append] at h2
  unfold runSimulation
  simp only [Bool.false_eq_true, if_false]
  rw [h2, Run.bind_ok, har]
  rfl

/-- Almost every family of streams, if this holds for almost every stream. -/
theorem EachUniform.ae {n : ℕ} {μ : Measure (Fin n → ℕ → ℝ)} (hμ : EachUniform μ) {p : Fin n → (ℕ → ℝ) → Prop}
    (h : ∀ i, ∀ᵐ u ∂streams, p i u) : ∀ᵐ u ∂μ, ∀ i, p i (u i) := by
  rw [ae_all_iff]
  intro i
  have h1 := h i
  rw [← hμ i] at h1
  exact ae_of_ae_map (measurable_pi_apply i).aemeasurable h1

end

/-- From the averages on every process to the file. -/
theorem pooled_core {n : ℕ} {dbg : Bool} {P : Params S} {mem : Fin n → Memory ℝ} {V : FullSolver ℝ}
    (h : ∀ i, FullSolver.create is dbg P (mem i).j = .ok V) (hn : 0 < n)
    (hP : UsableParams P) (ht : UsableTerms P.spins V.c.tbl) (hs : UsableStart P V)
    (hS : (configSum V.c P.beta P.maxOrder fun x => weight V.c.NI V.c.nf V.c.G0 V.c.tbl (x.map vertAt)) ≠ 0)
    {sj : ℕ → ℝ → ℝ} (hsj : IsSphBessel sj) (nm : ℕ) (junkP : ℕ → ℕ → ℕ → ℝ)
    {μ : Measure (Fin n → ℕ → ℝ)} (hμ : EachUniform μ)
    (hA : ∀ G B, SimOK V.c V.q G V.m P.kIns P.maxOrder P.stepSize → Regular V.c G B → AtStart V.m V.c V.q.beta P.maxOrder V.s →
      ∀ i, ∀ᵐ u ∂streams, GoodS u ∧ Tracks V.c V.q G P.maxOrder fun f x => Settles V.a V.m V.q V.c (mem i).J (mem i).junk V.s f x u) :
    ∃ G : ℝ → ℕ → ℕ → ℕ → ℝ, (∀ t, ∀ z < P.spins, ∀ s1 < P.sites, ∀ s2 < P.sites, V.q.g0 t z s1 s2 = .ok (G t z s1 s2)) ∧
      ∀ᵐ u ∂μ, ∀ (T : ℕ → ℕ) (k : ℕ → Fin n → ℕ),
        Filter.Tendsto (fun l => ∑ i, (k l i - P.therm / P.period.toNat)) Filter.atTop Filter.atTop →
        ∃ (rs : ℕ → List Record) (ar : ℕ → Archive),
          (∀ᶠ l in Filter.atTop, Returns (fun fuel => runSimulation is dbg false { P with total := T l } nm sj mem (junkP l) u (k l) fuel)
            (fun i => if i.val = 0 then some ⟨{ P with total := T l }, rs l, ar l⟩ else none)) ∧
          (∀ l, (rs l).length = ∑ i, (k l i - P.therm / P.period.toNat)) ∧
          ArchiveTo V.c V.q G P.maxOrder P.nLegendre nm ar := by
  have hp := C80_parameters (h ⟨0, hn⟩)
  obtain ⟨G, B, hok, hreg, hst⟩ := C80_ready (h ⟨0, hn⟩) hP ht hs
  have hper : V.a.steps.period = P.period.toNat := by have := hp.period; omega
  have hpos : 0 < V.a.steps.period := by have := hP.period; have := hp.period; omega
  refine ⟨G, fun t z hz s1 h1 s2 h2 => hok.hg t z s1 s2 (by rw [hp.nf]; exact hz) (by rw [hp.ns]; exact h1) (by rw [hp.ns]; exact h2), ?_⟩
  filter_upwards [hμ.ae fun i => hA G B hok hreg hst i] with u hu T k hkT
  have hy := fun i => process_records hok V.a hpos hst (mem i).J (mem i).junk (hu i).1
  choose y hy using hy
  have hkT' := hkT
  rw [← hp.therm, ← hper] at hkT
  set L : ℕ → List Record := fun l => (List.finRange n).flatMap fun i => (y i (k l i)).log.map fun r => r.values with hL
  have hlen : ∀ l, (L l).length = ∑ i, (k l i - V.a.steps.therm / V.a.steps.period) := by
    intro l
    rw [hL, List.length_flatMap, ← List.ofFn_eq_map, List.sum_ofFn]
    exact Finset.sum_congr rfl fun i _ => by rw [List.length_map, (hy i _).2]
  have hne : ∀ᶠ l in Filter.atTop, L l ≠ [] := by
    filter_upwards [hkT.eventually_ge_atTop 1] with l hl h0
    have := hlen l
    rw [h0] at this
    simp only [List.length_nil] at this
    omega
  have hfacts : ∀ l, ∀ r ∈ L l, RecFacts V.c V.q r := by
    intro l r hr
    rw [hL, List.mem_flatMap] at hr
    obtain ⟨i, -, hr⟩ := hr
    rw [List.mem_map] at hr
    obtain ⟨r', hr', rfl⟩ := hr
    exact process_all hok (fun s y u junk p r p' h1 h2 h3 h4 => record_facts hok h1 h2 h3 h4) V.a hpos hst (hu i).1 (hy i) (k l i) r' hr'
  obtain ⟨ar, har, hto⟩ := archive_of_means hok hreg (by rw [hp.beta]; exact hS) hsj hP.legendre nm junkP (L := L) hne hfacts
    ⟨pooled_mean V.a hy (fun i => (hu i).2.1) hkT, fun z hz => pooled_mean V.a hy (fun i => (hu i).2.2.1 z hz) hkT,
      fun z hz i hi j hj b hb => pooled_mean V.a hy (fun i' => (hu i').2.2.2.1 z hz i hi j hj b hb) hkT,
      fun z hz i hi => pooled_mean V.a hy (fun i' => (hu i').2.2.2.2.1 z hz i hi) hkT,
      fun f1 hf1 i hi f2 hf2 j hj => pooled_mean V.a hy (fun i' => (hu i').2.2.2.2.2 f1 hf1 i hi f2 hf2 j hj) hkT⟩
  refine ⟨L, ar, ?_, fun l => by rw [hlen, hp.therm, hper], hto⟩
  filter_upwards [har] with l hl
  rw [hp.nf, hp.ns, hp.bins, hp.beta] at hl
  exact collected h (fun i k => (hy i k).1) (T l) (k l) nm sj (junkP l) hl

/-- **C88, however the measurements are distributed.**  Real weights, any number of processes.  With probability one: whatever numbers of
    passes the processes make, the program returns on all of them once there are enough records; the first process, and only
    it, has written a file with the parameters, the records of all processes and the results of the post-processing; as the
    number of records on all processes together grows, every number in it converges to the value the expansion defines. -/
theorem C88_pooled {n : ℕ} {dbg : Bool} {P : Params S} {mem : Fin n → Memory ℝ} {V : FullSolver ℝ}
    (h : ∀ i, FullSolver.create is dbg P (mem i).j = .ok V) (hn : 0 < n)
    (hP : UsableParams P) (ht : UsableTerms P.spins V.c.tbl) (hs : UsableStart P V) (hk : 0 < P.kIns) (hI : 0 < P.nIR)
    (hsm : 0 < P.nSamples) {w : ℝ} (hw : 0 < w)
    (hlow : ∀ x, ValidPts P.beta V.c.tbl x → x.length ≤ P.maxOrder → w ≤ |weight V.c.NI V.c.nf V.c.G0 V.c.tbl (x.map vertAt)|)
    (hS : (configSum V.c P.beta P.maxOrder fun x => weight V.c.NI V.c.nf V.c.G0 V.c.tbl (x.map vertAt)) ≠ 0)
    {sj : ℕ → ℝ → ℝ} (hsj : IsSphBessel sj) (nm : ℕ) (junkP : ℕ → ℕ → ℕ → ℝ)
    {μ : Measure (Fin n → ℕ → ℝ)} (hμ : EachUniform μ) :
    ∃ G : ℝ → ℕ → ℕ → ℕ → ℝ, (∀ t, ∀ z < P.spins, ∀ s1 < P.sites, ∀ s2 < P.sites, V.q.g0 t z s1 s2 = .ok (G t z s1 s2)) ∧
      ∀ᵐ u ∂μ, ∀ (T : ℕ → ℕ) (k : ℕ → Fin n → ℕ),
        Filter.Tendsto (fun l => ∑ i, (k l i - P.therm / P.period.toNat)) Filter.atTop Filter.atTop →
        ∃ (rs : ℕ → List Record) (ar : ℕ → Archive),
          (∀ᶠ l in Filter.atTop, Returns (fun fuel => runSimulation is dbg false { P with total := T l } nm sj mem (junkP l) u (k l) fuel)
            (fun i => if i.val = 0 then some ⟨{ P with total := T l }, rs l, ar l⟩ else none)) ∧
          (∀ l, (rs l).length = ∑ i, (k l i - P.therm / P.period.toNat)) ∧
          ArchiveTo V.c V.q G P.maxOrder P.nLegendre nm ar :=
  pooled_core h hn hP ht hs hS hsj nm junkP hμ fun G B hok hreg hst i => by
    have hp := C80_parameters (h ⟨0, hn⟩)
    exact ae_tracks hok hreg hk hw (by rw [hp.beta]; exact hlow) V.a (by rw [hp.nIR]; exact hI)
      (by have := hP.period; have := hp.period; omega) (by rw [hp.samples]; exact hsm) hst (mem i).J (mem i).junk

/-- **C88, the program.**  The same for runs that are not stopped: whatever the schedule of the processes, when the parallel loop has
    completed the requested number of steps, the file holds at least that many steps' worth of records, and as the requested
    number grows every number in it converges to the value the expansion defines. -/
theorem C88_program {n : ℕ} {dbg : Bool} {P : Params S} {mem : Fin n → Memory ℝ} {V : FullSolver ℝ}
    (h : ∀ i, FullSolver.create is dbg P (mem i).j = .ok V) (hn : 0 < n)
    (hP : UsableParams P) (ht : UsableTerms P.spins V.c.tbl) (hs : UsableStart P V) (hk : 0 < P.kIns) (hI : 0 < P.nIR)
    (hsm : 0 < P.nSamples) {w : ℝ} (hw : 0 < w)
    (hlow : ∀ x, ValidPts P.beta V.c.tbl x → x.length ≤ P.maxOrder → w ≤ |weight V.c.NI V.c.nf V.c.G0 V.c.tbl (x.map vertAt)|)
    (hS : (configSum V.c P.beta P.maxOrder fun x => weight V.c.NI V.c.nf V.c.G0 V.c.tbl (x.map vertAt)) ≠ 0)
    {sj : ℕ → ℝ → ℝ} (hsj : IsSphBessel sj) (nm : ℕ) (junkP : ℕ → ℕ → ℕ → ℝ)
    {μ : Measure (Fin n → ℕ → ℝ)} (hμ : EachUniform μ) :
    ∃ G : ℝ → ℕ → ℕ → ℕ → ℝ, (∀ t, ∀ z < P.spins, ∀ s1 < P.sites, ∀ s2 < P.sites, V.q.g0 t z s1 s2 = .ok (G t z s1 s2)) ∧
      ∀ᵐ u ∂μ, ∀ (T : ℕ → ℕ) (k : ℕ → Fin n → ℕ), Filter.Tendsto T Filter.atTop Filter.atTop →
        (∀ l, Completes ⟨T l, P.therm, P.period.toNat⟩ (k l)) →
        ∃ (rs : ℕ → List Record) (ar : ℕ → Archive),
          (∀ᶠ l in Filter.atTop, Returns (fun fuel => runSimulation is dbg false { P with total := T l } nm sj mem (junkP l) u (k l) fuel)
            (fun i => if i.val = 0 then some ⟨{ P with total := T l }, rs l, ar l⟩ else none)) ∧
          (∀ l, T l ≤ P.period * (rs l).length) ∧
          ArchiveTo V.c V.q G P.maxOrder P.nLegendre nm ar := by
  obtain ⟨G, hG, hae⟩ := C88_pooled h hn hP ht hs hk hI hsm hw hlow hS hsj nm junkP hμ
  refine ⟨G, hG, ?_⟩
  filter_upwards [hae] with u hu T k hT hC
  obtain ⟨h1, h2⟩ := completes_grow hn hT hC (by have := hP.period; omega)
  obtain ⟨rs, ar, r1, r2, r3⟩ := hu T k h1
  refine ⟨rs, ar, r1, fun l => ?_, r3⟩
  rw [r2 l]
  have h3 := h2 l
  have h4 : ((P.period.toNat : ℕ) : ℤ) = P.period := by have := hP.period; omega
  rw [← h4]
  exact_mod_cast h3

section
variable {K : Type} [RCLike K] [DecidableEq K]

/-- From the averages on every process to the file. -/
theorem self_pooled_core {n : ℕ} {dbg : Bool} {P : Params S} {mem : Fin n → Memory K} {V : FullSolver K}
    (h : ∀ i, FullSolver.create is dbg P (mem i).j = .ok V) (hn : 0 < n)
    (hP : UsableParams P) (ht : UsableTerms P.spins V.c.tbl) (hs : UsableStart P V)
    (hS : (partitionC V.c P.beta P.maxOrder).re ≠ 0)
    {sj : ℕ → ℝ → ℝ} (hsj : IsSphBessel sj) (nm : ℕ) (junkP : ℕ → ℕ → ℕ → ℝ)
    {μ : Measure (Fin n → ℕ → ℝ)} (hμ : EachUniform μ)
    (hA : ∀ G B, SimOK V.c V.q G V.m P.kIns P.maxOrder P.stepSize → Regular V.c G B → AtStart V.m V.c V.q.beta P.maxOrder V.s →
      ∀ i, ∀ᵐ u ∂streams, GoodS u ∧ TracksC V.c V.q G P.maxOrder fun f x => Settles V.a V.m V.q V.c (mem i).J (mem i).junk V.s f x u) :
    ∃ G : ℝ → ℕ → ℕ → ℕ → K, (∀ t, ∀ z < P.spins, ∀ s1 < P.sites, ∀ s2 < P.sites, V.q.g0 t z s1 s2 = .ok (G t z s1 s2)) ∧
      ∀ᵐ u ∂μ, ∀ (T : ℕ → ℕ) (k : ℕ → Fin n → ℕ), Filter.Tendsto T Filter.atTop Filter.atTop →
        (∀ l, Completes ⟨T l, P.therm, P.period.toNat⟩ (k l)) →
        ∃ (rs : ℕ → List Record) (ar : ℕ → Archive),
          (∀ᶠ l in Filter.atTop, Returns (fun fuel => runSimulation is dbg false { P with total := T l } nm sj mem (junkP l) u (k l) fuel)
            (fun i => if i.val = 0 then some ⟨{ P with total := T l }, rs l, ar l⟩ else none)) ∧
          (∀ l, T l ≤ P.period * (rs l).length) ∧
          SelfTo V.c V.q G P.maxOrder P.nLegendre nm ((partitionC V.c P.beta P.maxOrder).re : ℂ) ar := by
  have hp := C80_parameters (h ⟨0, hn⟩)
  obtain ⟨G, B, hok, hreg, hst⟩ := C80_ready (h ⟨0, hn⟩) hP ht hs
  have hper : V.a.steps.period = P.period.toNat := by have := hp.period; omega
  have hpos : 0 < V.a.steps.period := by have := hP.period; have := hp.period; omega
  refine ⟨G, fun t z hz s1 h1 s2 h2 => hok.hg t z s1 s2 (by rw [hp.nf]; exact hz) (by rw [hp.ns]; exact h1) (by rw [hp.ns]; exact h2), ?_⟩
  filter_upwards [hμ.ae fun i => hA G B hok hreg hst i] with u hu T k hT hC
  obtain ⟨hkT, hle⟩ := completes_grow hn hT hC (by have := hP.period; omega)
  have hy := fun i => process_records hok V.a hpos hst (mem i).J (mem i).junk (hu i).1
  choose y hy using hy
  have hkT' := hkT
  rw [← hp.therm, ← hper] at hkT
  set L : ℕ → List Record := fun l => (List.finRange n).flatMap fun i => (y i (k l i)).log.map fun r => r.values with hL
  have hlen : ∀ l, (L l).length = ∑ i, (k l i - V.a.steps.therm / V.a.steps.period) := by
    intro l
    rw [hL, List.length_flatMap, ← List.ofFn_eq_map, List.sum_ofFn]
    exact Finset.sum_congr rfl fun i _ => by rw [List.length_map, (hy i _).2]
  have hne : ∀ᶠ l in Filter.atTop, L l ≠ [] := by
    filter_upwards [hkT.eventually_ge_atTop 1] with l hl h0
    have := hlen l
    rw [h0] at this
    simp only [List.length_nil] at this
    omega
  have hfacts : ∀ l, ∀ r ∈ L l, RecShape V.c.nf V.q.ns V.q.nb r := by
    intro l r hr
    rw [hL, List.mem_flatMap] at hr
    obtain ⟨i, -, hr⟩ := hr
    rw [List.mem_map] at hr
    obtain ⟨r', hr', rfl⟩ := hr
    exact process_all hok (fun s y u junk p r p' h1 h2 h3 h4 => record_shape h4) V.a hpos hst (hu i).1 (hy i) (k l i) r' hr'
  obtain ⟨ar, har, hto⟩ := self_of_means hok hreg (by rw [hp.beta]; exact hS) hsj hP.legendre nm junkP (L := L) hne hfacts
    ⟨pooled_mean V.a hy (fun i => (hu i).2.1) hkT, fun z hz => pooled_mean V.a hy (fun i => (hu i).2.2.1 z hz) hkT,
      fun z hz i hi j hj b hb => pooled_mean V.a hy (fun i' => (hu i').2.2.2.1 z hz i hi j hj b hb) hkT,
      fun z hz i hi j hj b hb => pooled_mean V.a hy (fun i' => (hu i').2.2.2.2 z hz i hi j hj b hb) hkT⟩
  rw [hp.beta] at hto
  refine ⟨L, ar, ?_, fun l => ?_, hto⟩
  · filter_upwards [har] with l hl
    rw [hp.nf, hp.ns, hp.bins, hp.beta] at hl
    exact collected h (fun i k => (hy i k).1) (T l) (k l) nm sj (junkP l) hl
  · rw [hlen, hp.therm, hper]
    have h4 : ((P.period.toNat : ℕ) : ℤ) = P.period := by have := hP.period; omega
    rw [← h4]
    exact_mod_cast hle l

/-- **C88, real or complex weights.**  The same for the sign, the sizes of the matrices and the self-energy (in the bins, its
    Legendre coefficients, at the frequencies), divided by the real part of the partition function. -/
theorem C88_self_energy {n : ℕ} {dbg : Bool} {P : Params S} {mem : Fin n → Memory K} {V : FullSolver K}
    (h : ∀ i, FullSolver.create is dbg P (mem i).j = .ok V) (hn : 0 < n)
    (hP : UsableParams P) (ht : UsableTerms P.spins V.c.tbl) (hs : UsableStart P V) (hk : 0 < P.kIns) (hI : 0 < P.nIR)
    (hsm : 0 < P.nSamples) {w : ℝ} (hw : 0 < w)
    (hlow : ∀ x, ValidPts P.beta V.c.tbl x → x.length ≤ P.maxOrder → w ≤ ‖weight V.c.NI V.c.nf V.c.G0 V.c.tbl (x.map vertAt)‖)
    (hS : (partitionC V.c P.beta P.maxOrder).re ≠ 0)
    {sj : ℕ → ℝ → ℝ} (hsj : IsSphBessel sj) (nm : ℕ) (junkP : ℕ → ℕ → ℕ → ℝ)
    {μ : Measure (Fin n → ℕ → ℝ)} (hμ : EachUniform μ) :
    ∃ G : ℝ → ℕ → ℕ → ℕ → K, (∀ t, ∀ z < P.spins, ∀ s1 < P.sites, ∀ s2 < P.sites, V.q.g0 t z s1 s2 = .ok (G t z s1 s2)) ∧
      ∀ᵐ u ∂μ, ∀ (T : ℕ → ℕ) (k : ℕ → Fin n → ℕ), Filter.Tendsto T Filter.atTop Filter.atTop →
        (∀ l, Completes ⟨T l, P.therm, P.period.toNat⟩ (k l)) →
        ∃ (rs : ℕ → List Record) (ar : ℕ → Archive),
          (∀ᶠ l in Filter.atTop, Returns (fun fuel => runSimulation is dbg false { P with total := T l } nm sj mem (junkP l) u (k l) fuel)
            (fun i => if i.val = 0 then some ⟨{ P with total := T l }, rs l, ar l⟩ else none)) ∧
          (∀ l, T l ≤ P.period * (rs l).length) ∧
          SelfTo V.c V.q G P.maxOrder P.nLegendre nm ((partitionC V.c P.beta P.maxOrder).re : ℂ) ar :=
  self_pooled_core h hn hP ht hs hS hsj nm junkP hμ fun G B hok hreg hst i => by
    have hp := C80_parameters (h ⟨0, hn⟩)
    exact ae_tracksC hok hreg hk hw (by rw [hp.beta]; exact hlow) V.a (by rw [hp.nIR]; exact hI)
      (by have := hP.period; have := hp.period; omega) (by rw [hp.samples]; exact hsm) hst (mem i).J (mem i).junk

/-- **C88 fails for runs that are stopped early.**  If the loop ended before any process recorded a measurement, the program does not
    return a file with results: the means that the post-processing reads do not exist. -/
theorem C88_stopped_violation {n : ℕ} {dbg : Bool} {P : Params S} {mem : Fin n → Memory K} {V : FullSolver K}
    (h : ∀ i, FullSolver.create is dbg P (mem i).j = .ok V) (hn : 0 < n)
    (hP : UsableParams P) (ht : UsableTerms P.spins V.c.tbl) (hs : UsableStart P V) (nm : ℕ) (sj : ℕ → ℝ → ℝ) (junkP : ℕ → ℕ → ℝ)
    {u : Fin n → ℕ → ℝ} (hu : ∀ i, GoodS (u i)) (hth : P.period ≤ P.therm) :
    ∃ k : Fin n → ℕ, Ends ⟨P.total, P.therm, P.period.toNat⟩ k ∧
      ∃ F, ∀ fuel ≥ F, runSimulation is dbg false P nm sj mem junkP u k fuel = .ub := by
  have hp := C80_parameters (h ⟨0, hn⟩)
  obtain ⟨G, B, hok, hreg, hst⟩ := C80_ready (h ⟨0, hn⟩) hP ht hs
  have hper : V.a.steps.period = P.period.toNat := by have := hp.period; omega
  have hpos : 0 < V.a.steps.period := by have := hP.period; have := hp.period; omega
  refine ⟨fun _ => 1, ends_once hn _, ?_⟩
  have hy := fun i => process_records hok V.a hpos hst (mem i).J (mem i).junk (hu i)
  choose y hy using hy
  have h1 : ∀ i ∈ List.finRange n, Returns (fun fuel => processRun is dbg P (mem i) (u i) 1 fuel) [] := by
    intro i _
    obtain ⟨⟨F, hF⟩, hl⟩ := hy i 1
    refine ⟨F, fun fuel hf => ?_⟩
    unfold processRun
    have h2 := hF fuel hf
    simp only at h2
    rw [h i]
    simp only [Run.lift_ok, Run.bind_ok]
    rw [h2]
    have h3 : 1 ≤ V.a.steps.therm / V.a.steps.period := by
      rw [Nat.le_div_iff_mul_le hpos, hp.therm, hper]
      omega
    have : (y i 1).log = [] := List.length_eq_zero_iff.1 (by rw [hl]; omega)
    simp only [Run.bind_ok, this, Run.pure_eq, List.map_nil]
  obtain ⟨F, hF⟩ := foldl_collect (List.finRange n) h1 []
  refine ⟨F, fun fuel hf => ?_⟩
  have h2 := hF fuel hf
  simp only [List.nil_append, List.flatMap_nil] at h2
  have h3 : (List.flatMap (fun _ : Fin n => ([] : List Record)) (List.finRange n)) = [] := by
    induction List.finRange n with
    | nil => rfl
    | cons a l ih => rw [List.flatMap_cons, ih]; rfl
  rw [h3] at h2
  unfold runSimulation
  simp only [Bool.false_eq_true, if_false]
  rw [h2, Run.bind_ok]
  rfl

/-- **C88, help requested.**  Whatever the parameters, usable or not, and whatever the files: the program returns at once on all processes
    and has written no file. -/
theorem C88_help {n : ℕ} (dbg : Bool) (P : Params S) (mem : Fin n → Memory K) (nm : ℕ) (sj : ℕ → ℝ → ℝ) (junkP : ℕ → ℕ → ℝ)
    (u : Fin n → ℕ → ℝ) (k : Fin n → ℕ) (fuel : ℕ) : ∃ w, runSimulation is dbg true P nm sj mem junkP u k fuel = .ok w ∧ ∀ i, w i = none :=
  ⟨_, rfl, fun _ => rfl⟩

end

/-! ### The theorems apply: three processes with independent random numbers, the input of Props/Solver.lean -/

theorem ex_uniform (n : ℕ) : EachUniform (Measure.pi fun _ : Fin n => streams) := fun i =>
  (measurePreserving_eval (fun _ : Fin n => streams) i).map_eq

/-- Runs of three processes that complete 1, 2, 3, ... steps after the thermalisation. -/
theorem ex_completes : ∃ k : ℕ → Fin 3 → ℕ, ∀ l, Completes ⟨l + 1, 10, 2⟩ (k l) :=
  ⟨_, fun l => completes_exists (by norm_num) _ (Nat.succ_pos l) (by norm_num)⟩

theorem ex_program (dbg : Bool) (j : ReadJunk) : ∃ V : FullSolver ℝ, (∀ i : Fin 3,
      FullSolver.create is dbg (exParams S) ((fun _ => ⟨j, fun _ _ _ _ _ _ _ => 0, fun _ _ _ => 0⟩ : Fin 3 → Memory ℝ) i).j = .ok V) ∧
    ∃ G : ℝ → ℕ → ℕ → ℕ → ℝ, ∀ᵐ u ∂(Measure.pi fun _ : Fin 3 => streams), ∀ k : ℕ → Fin 3 → ℕ, (∀ l, Completes ⟨l + 1, 10, 2⟩ (k l)) →
      ∃ (rs : ℕ → List Record) (ar : ℕ → Archive),
        (∀ᶠ l in Filter.atTop, Returns (fun fuel => runSimulation is dbg false { exParams S with total := l + 1 } 6 sphJ
            (fun _ : Fin 3 => (⟨j, fun _ _ _ _ _ _ _ => 0, fun _ _ _ => 0⟩ : Memory ℝ)) (fun _ _ => 0) u (k l) fuel)
          (fun i => if i.val = 0 then some ⟨{ exParams S with total := l + 1 }, rs l, ar l⟩ else none)) ∧
        ArchiveTo V.c V.q G 1 4 6 ar := by
  obtain ⟨V, e, -⟩ := ex_create (K := ℝ) (is := is) (S := S) dbg j
  refine ⟨V, fun _ => e, ?_⟩
  obtain ⟨G, -, h⟩ := C88_program (mem := fun _ : Fin 3 => (⟨j, fun _ _ _ _ _ _ _ => 0, fun _ _ _ => 0⟩ : Memory ℝ)) (V := V) (fun _ => e)
    (by norm_num) ex_params (ex_terms e) (Or.inl rfl) (by norm_num [exParams]) (by norm_num [exParams]) (by norm_num [exParams])
    (w := 0.2601) (by norm_num) (fun x hx hn => (ex_weights e x hx hn).trans (le_abs_self _)) (ex_sum e) (sj := sphJ) (fun _ _ _ => rfl) 6
    (fun _ _ _ => 0) (ex_uniform 3)
  refine ⟨G, ?_⟩
  filter_upwards [h] with u hu k hC
  obtain ⟨rs, ar, h1, -, h2⟩ := hu (fun l => l + 1) k (Filter.tendsto_add_atTop_nat 1) hC
  exact ⟨rs, ar, h1, h2⟩

/-- The hypotheses of `C88_self_energy` and `C88_stopped_violation` are met too. -/
example (dbg : Bool) (j : ReadJunk) {u : Fin 3 → ℕ → ℝ} (hu : ∀ i, GoodS (u i)) : ∃ k : Fin 3 → ℕ, Ends ⟨1000, 10, 2⟩ k ∧
    ∃ F, ∀ fuel ≥ F, runSimulation is dbg false (exParams S) 6 sphJ (fun _ : Fin 3 => (⟨j, fun _ _ _ _ _ _ _ => 0, fun _ _ _ => 0⟩ : Memory ℝ))
      (fun _ _ => 0) u k fuel = .ub := by
  obtain ⟨V, e, -⟩ := ex_create (K := ℝ) (is := is) (S := S) dbg j
  exact C88_stopped_violation (mem := fun _ : Fin 3 => (⟨j, fun _ _ _ _ _ _ _ => 0, fun _ _ _ => 0⟩ : Memory ℝ)) (V := V) (fun _ => e)
    (by norm_num) ex_params (ex_terms e) (Or.inl rfl) 6 sphJ (fun _ _ => 0) hu (by norm_num [exParams])

example (dbg : Bool) (j : ReadJunk) {V : FullSolver ℝ} (e : FullSolver.create is dbg (exParams S) j = .ok V) :
    ∃ G : ℝ → ℕ → ℕ → ℕ → ℝ, ∀ᵐ u ∂(Measure.pi fun _ : Fin 3 => streams), ∀ k : ℕ → Fin 3 → ℕ, (∀ l, Completes ⟨l + 1, 10, 2⟩ (k l)) →
      ∃ ar : ℕ → Archive, SelfTo V.c V.q G 1 4 6 ((partitionC V.c 1 1).re : ℂ) ar := by
  obtain ⟨G, -, h⟩ := C88_self_energy (mem := fun _ : Fin 3 => (⟨j, fun _ _ _ _ _ _ _ => 0, fun _ _ _ => 0⟩ : Memory ℝ)) (V := V) (fun _ => e)
    (by norm_num) ex_params (ex_terms e) (Or.inl rfl) (by norm_num [exParams]) (by norm_num [exParams]) (by norm_num [exParams])
    (w := 0.2601) (by norm_num) (fun x hx hn => (ex_weights e x hx hn).trans (le_abs_self _)) (ex_sum e) (sj := sphJ) (fun _ _ _ => rfl) 6
    (fun _ _ _ => 0) (ex_uniform 3)
  refine ⟨G, ?_⟩
  filter_upwards [h] with u hu k hC
  obtain ⟨rs, ar, -, -, h2⟩ := hu (fun l => l + 1) k (Filter.tendsto_add_atTop_nat 1) hC
  exact ⟨ar, h2⟩

end CTInt
