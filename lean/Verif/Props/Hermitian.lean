import Verif.Proofs.Hermitian
import Verif.Proofs.HalfFilledGreen
import Verif.Props.Almost
import Verif.Props.SelfComplex

/-!
# C94: the partition function of a Hermitian Hamiltonian is real
-/

set_option linter.all false

namespace CTInt

open MeasureTheory

variable {K : Type} [RCLike K] [DecidableEq K] {ns : ℕ} {σ : ℕ → ℕ} {π : ℕ → ℕ → ℕ} {β : ℝ}

/-- **C94, weights.**  Hermitian interaction and bare Green's function, no two vertices at the same time: replacing every vertex by its
    conjugate and counting the times from the other end conjugates the weight. -/
theorem C94_weight {NI : K} {nf : ℕ} {G0 : Op → Op → K} {tbl : List (VDef K)} (hT : HermitianTerms ns σ π tbl) (hG : HermitianG0 β nf ns G0)
    {x : List Pt} (hx : ValidPts β tbl x) (hd : x.Pairwise fun p p' => p.2.2 ≠ p'.2.2) :
    weight NI nf G0 tbl ((x.map fun p => ((σ p.1, π p.1 p.2.1, β - p.2.2) : Pt)).map vertAt) =
      starRingEnd K (weight NI nf G0 tbl (x.map vertAt)) :=
  (conj_weight hT hG hx hd).symm

/-- **C94.**  The partition function of the expansion with at most `M` vertices is real, whatever `M`, for real or complex weights. -/
theorem C94_real {c : Ctx K} (hT : HermitianTerms ns σ π c.tbl) (hG : HermitianG0 β c.nf ns c.G0) (hm : MeasurableG0 c.G0) (M : ℕ) :
    (partitionC c β M).im = 0 := by
  refine configSum_odd hT (F := fun x => RCLike.im (weight c.NI c.nf c.G0 c.tbl (x.map vertAt)))
    (RCLike.measurable_im.comp (measurable_wt hm)) (fun x hx hd => ?_) M
  show RCLike.im (weight c.NI c.nf c.G0 c.tbl ((x.map (conjPt σ π β)).map vertAt)) = _
  rw [← conj_weight hT hG hx hd, RCLike.conj_im]

/-- **C94, self-energy.**  `C77_self_energy_real` without its hypothesis on the partition function. -/
theorem C94_self_energy {c : Ctx K} {q : MeasPar K} {G : ℝ → ℕ → ℕ → ℕ → K} {m : Mgr} {kIns maxOrder : ℕ} {sz B w : ℝ}
    (h : SimOK c q G m kIns maxOrder sz) (hr : Regular c G B) (hT : HermitianTerms ns σ π c.tbl) (hG : HermitianG0 q.beta c.nf ns c.G0)
    (hk : 0 < kIns) (hw : 0 < w)
    (hlow : ∀ x, ValidPts q.beta c.tbl x → x.length ≤ maxOrder → w ≤ ‖weight c.NI c.nf c.G0 c.tbl (x.map vertAt)‖)
    (a : SimPar) (ha : 0 < a.nIR) (hp : 0 < a.steps.period) (hns : 0 < q.nShifts) (hS : partitionC c q.beta maxOrder ≠ 0)
    {sj : ℕ → ℝ → ℝ} (hsj : IsSphBessel sj) {nl : ℕ} (hnl : 0 < nl) (nm : ℕ) (junkP : ℕ → ℕ → ℕ → ℝ)
    {s : Sim K} (hs : AtStart m c q.beta maxOrder s) (J : ℕ → ℕ → ℕ → ℕ → ℕ → ℕ → ℕ → K) (junk : ℕ → ℕ → ℕ → K) :
    ∀ᵐ u ∂streams, ∃ y : ℕ → Sim K,
      (∀ n, Returns (fun fuel => s.passes a m q c J junk u fuel (a.steps.therm / a.steps.period + n)) (y n) ∧ (y n).log.length = n) ∧
      ∃ ar : ℕ → Archive, (∀ᶠ n in Filter.atTop, postprocess c.nf q.ns q.nb nl nm q.beta sj (junkP n) ((y n).log.map fun r => r.values) = .ok (ar n)) ∧
        SelfTo c q G maxOrder nl nm (partitionC c q.beta maxOrder) ar :=
  C77_self_energy_real h hr hk hw hlow a ha hp hns (C94_real hT hG hr.meas _) hS hsj hnl nm junkP hs J junk

section

variable {S : Type} {is : IStream S} {dbg : Bool} {P : Params S} {j : ReadJunk} {V : FullSolver K}

/-- **C94, the file.**  A Hermitian file gives a Hermitian bare Green's function. -/
theorem C94_green (h : FullSolver.create is dbg P j = .ok V) (hβ : 1e-8 < P.beta) {file : GFile} (hfile : P.g0File = some (some file))
    (hF : HermitianFile K file P.spins P.sites) : HermitianG0 P.beta P.spins P.sites V.c.G0 := by
  have hβ0 : 0 < P.beta := lt_trans (by norm_num) hβ
  have hn := hF.grid
  obtain ⟨e0, e1⟩ := grid_ends (β := P.beta) hn
  obtain ⟨file', e, -, hall⟩ := C80_green h hβ
  obtain rfl : file = file' := Option.some.inj (Option.some.inj (hfile.symm.trans e))
  intro z hz s hs s' hs' t t' k k' hlt hne
  obtain ⟨⟨A, B, hA, hB⟩, h1⟩ := hall z hz s hs s' hs'
  obtain ⟨⟨A', B', hA', hB'⟩, h2⟩ := hall z hz s' hs' s hs
  obtain ⟨g1, -⟩ := h1 A B hA hB _ (contin_anti hβ0 _)
  obtain ⟨g2, -⟩ := h2 A' B' hA' hB' _ (contin_anti hβ0 _)
  have hAB : ∀ τ, 0 ≤ τ → τ ≤ P.beta →
      starRingEnd K ((RCLike.ofReal (A τ) : K) + RCLike.ofReal (B τ) * RCLike.I) = (RCLike.ofReal (A' τ) : K) + RCLike.ofReal (B' τ) * RCLike.I := by
    intro τ t0 t1
    have eA : A τ = A' τ := by
      refine NaturalSpline.eq hβ0 hn hA ⟨⟨fun i hi => ?_, hA'.spline.cubic, hA'.spline.smooth⟩, hA'.left, hA'.right⟩ t0 t1
      rw [hA'.spline.through i hi, ← hF.mirror z hz s hs s' hs' i (by omega), RCLike.conj_re]
    have eB : -1 * B τ = B' τ := by
      have hsc := hB.scale (-1)
      refine NaturalSpline.eq hβ0 hn hsc ⟨⟨fun i hi => ?_, hB'.spline.cubic, hB'.spline.smooth⟩, hB'.left, hB'.right⟩ t0 t1
      rw [hB'.spline.through i hi, ← hF.mirror z hz s hs s' hs' i (by omega), RCLike.conj_im]
      ring
    rw [← eA, ← eB]
    simp
  rw [g1 _ _ rfl rfl rfl rfl, g2 _ _ rfl rfl rfl rfl]
  by_cases ht : t = t'
  · subst ht
    simp only [ne_eq, not_true_eq_false, if_false]
    have c0 := hAB 0 le_rfl hβ0.le
    have cβ := hAB P.beta hβ0.le le_rfl
    rcases hne with hne | rfl | hne
    · exact absurd rfl hne
    · rw [if_neg (lt_irrefl k), if_neg (lt_irrefl k), map_neg, cβ]
    · have hv : ∀ {s s' : ℕ} {A B : ℝ → ℝ}, NaturalSpline file P.beta (fun t => RCLike.re (file.value z s s' t : K)) A →
          NaturalSpline file P.beta (fun t => RCLike.im (file.value z s s' t : K)) B → ∀ i < file.ntau.toNat,
          (RCLike.ofReal (A (file.grid P.beta i)) : K) + RCLike.ofReal (B (file.grid P.beta i)) * RCLike.I = file.value z s s' i := by
        intro s s' A B hA hB i hi
        rw [hA.spline.through i hi, hB.spline.through i hi, RCLike.re_add_im]
      have v0 := hv hA' hB' 0 (by omega)
      have vβ := hv hA' hB' (file.ntau.toNat - 1) (by omega)
      rw [e0] at v0
      rw [e1] at vβ
      have hj := hF.jump z hz s' hs' s hs (Ne.symm hne)
      have hj' : (file.value z s' s 0 : K) = - file.value z s' s (file.ntau.toNat - 1) := eq_neg_of_add_eq_zero_left hj
      rw [v0] at c0
      rw [vβ] at cβ
      rw [v0, vβ]
      split_ifs <;> simp only [map_neg, c0, cβ, hj']
  · have ht' : P.beta - t' ≠ P.beta - t := fun e => ht (by linarith)
    simp only [ne_eq, ht, ht', not_false_eq_true, if_true]
    rw [show P.beta - t' - (P.beta - t) = t - t' by ring]
    unfold contin
    rw [map_mul, map_zpow₀, map_neg, map_one, hAB]
    · have := Int.floor_le ((t - t') / P.beta)
      rw [le_div_iff₀ hβ0] at this
      linarith
    · have := Int.lt_floor_add_one ((t - t') / P.beta)
      rw [div_lt_iff₀ hβ0] at this
      linarith

/-- **C94, "model.U".**  Every term is its own conjugate. -/
theorem C94_onsite (h : FullSolver.create is dbg P j = .ok V) {U : ℝ} (hU : P.U = some U) :
    HermitianTerms P.sites id (fun _ s => s) V.c.tbl := by
  have key : ∀ t < V.c.tbl.length, ∃ (s : ℕ) (v : UDef K), V.c.tbl.getD t default = v.d ∧
      ((OnsiteTerm (U : K) ((1e-2 : ℝ) : K) s [s, s, s, s] [0, 1] v ∧ s < P.sites) ∨
       (OnsiteTerm (U : K) ((1e-2 : ℝ) : K) s [2 * s, 2 * s, 2 * s + 1, 2 * s + 1] [0, 0] v ∧ 2 * s + 1 < P.sites)) := by
    intro t ht
    rcases C80_hubbard h hU with ⟨-, hl, hall⟩ | ⟨-, hl, hall⟩
    · obtain ⟨v, e, hv⟩ := hall t (by omega)
      exact ⟨t, v, by rw [List.getD_eq_getElem?_getD, e]; rfl, Or.inl ⟨hv, by omega⟩⟩
    · obtain ⟨v, e, hv⟩ := hall t (by omega)
      exact ⟨t, v, by rw [List.getD_eq_getElem?_getD, e]; rfl, Or.inr ⟨hv, by omega⟩⟩
  have hmem : ∀ d ∈ V.c.tbl, ∃ (s : ℕ) (v : UDef K), d = v.d ∧
      ((OnsiteTerm (U : K) ((1e-2 : ℝ) : K) s [s, s, s, s] [0, 1] v ∧ s < P.sites) ∨
       (OnsiteTerm (U : K) ((1e-2 : ℝ) : K) s [2 * s, 2 * s, 2 * s + 1, 2 * s + 1] [0, 0] v ∧ 2 * s + 1 < P.sites)) := by
    intro d hd
    obtain ⟨i, hi, rfl⟩ := List.getElem_of_mem hd
    have := key i hi
    rwa [List.getD_eq_getElem _ _ hi] at this
  refine ⟨fun t ht => ht, fun t ht => rfl, fun t ht s hs => ⟨hs, rfl⟩, fun t ht => ?_, fun d hd r hr => ?_, fun d hd r hr r' hr' hne hfl => ?_⟩
  · obtain ⟨s, v, e, hv⟩ := key t ht
    show ConjTerm _ (V.c.tbl.getD t default) (V.c.tbl.getD t default)
    rw [e]
    have hrk : v.d.rank = 2 := hv.elim (fun h => h.1.rank) fun h => h.1.rank
    have hst : v.d.numAf = 2 := hv.elim (fun h => h.1.numAf) fun h => h.1.numAf
    have hc : v.d.U = (U : K) := hv.elim (fun h => h.1.U) fun h => h.1.U
    have hup := hv.elim (fun h => h.1.up) fun h => h.1.up
    have hdn := hv.elim (fun h => h.1.down) fun h => h.1.down
    have hsi : ∀ r < 2, v.d.sites.getD (2 * r) 0 = v.d.sites.getD (2 * r + 1) 0 := by
      intro r hr
      rcases hv with ⟨h, -⟩ | ⟨h, -⟩ <;> rw [h.sites] <;> interval_cases r <;> rfl
    refine ⟨rfl, rfl, by rw [hc, RCLike.conj_ofReal], fun _ _ => rfl, fun r hr => hsi r (by omega), fun r hr => (hsi r (by omega)).symm, fun s' hs' r hr => ?_⟩
    rw [hst] at hs'
    rw [hrk] at hr
    have c1 : starRingEnd K (1 + ((1e-2 : ℝ) : K)) = 1 + ((1e-2 : ℝ) : K) := by rw [map_add, map_one, RCLike.conj_ofReal]
    have c2 : starRingEnd K (-((1e-2 : ℝ) : K)) = -((1e-2 : ℝ) : K) := by rw [map_neg, RCLike.conj_ofReal]
    interval_cases s' <;> interval_cases r
    · rw [hup.1, c1]
    · rw [hup.2, c2]
    · rw [hdn.1, hup.2, c2]
    · rw [hdn.2, hup.1, c1]
  · obtain ⟨s, v, rfl, ⟨h, hs⟩ | ⟨h, hs⟩⟩ := hmem d hd
    all_goals
      rw [h.rank] at hr
      rw [h.sites]
      interval_cases r
    · exact ⟨hs, hs⟩
    · exact ⟨hs, hs⟩
    · exact ⟨show 2 * s < _ by omega, show 2 * s < _ by omega⟩
    · exact ⟨hs, hs⟩
  · obtain ⟨s, v, rfl, ⟨h, hs⟩ | ⟨h, hs⟩⟩ := hmem d hd
    all_goals
      rw [h.rank] at hr hr'
      rw [h.flavors] at hfl
      rw [h.sites]
      interval_cases r <;> interval_cases r' <;> first | exact absurd rfl hne | skip
    · exact absurd hfl (by decide)
    · exact absurd hfl (by decide)
    · show 2 * s ≠ 2 * s + 1
      omega
    · show 2 * s + 1 ≠ 2 * s
      omega

/-- **C94, the program.**  Hermitian interaction and file, real or complex weights, no configuration file, any number of processes,
    weights that vanish at most on sets of measure zero, partition function not zero.  With probability one the sign, the sizes of the matrices
    and the self-energy that are written tend to the sums of the expansion divided by the partition function itself. -/
theorem C94_program {n : ℕ} {mem : Fin n → Memory K} (h : ∀ i, FullSolver.create is dbg P (mem i).j = .ok V) (hn : 0 < n)
    (hP : UsableParams P) (ht : UsableTerms P.spins V.c.tbl) (hc : P.config = none) (hk : 0 < P.kIns) (hI : 0 < P.nIR)
    (hsm : 0 < P.nSamples) (hT : HermitianTerms P.sites σ π V.c.tbl) {file : GFile} (hfile : P.g0File = some (some file))
    (hF : HermitianFile K file P.spins P.sites) (hd : AlmostNonzero V.c P.beta P.maxOrder) (hS : partitionC V.c P.beta P.maxOrder ≠ 0)
    {sj : ℕ → ℝ → ℝ} (hsj : IsSphBessel sj) (nm : ℕ) (junkP : ℕ → ℕ → ℕ → ℝ)
    {μ : Measure (Fin n → ℕ → ℝ)} (hμ : EachUniform μ) :
    ∃ G : ℝ → ℕ → ℕ → ℕ → K, (∀ t, ∀ z < P.spins, ∀ s1 < P.sites, ∀ s2 < P.sites, V.q.g0 t z s1 s2 = .ok (G t z s1 s2)) ∧
      ∀ᵐ u ∂μ, ∀ (T : ℕ → ℕ) (k : ℕ → Fin n → ℕ), Filter.Tendsto T Filter.atTop Filter.atTop →
        (∀ l, Completes ⟨T l, P.therm, P.period.toNat⟩ (k l)) →
        ∃ (rs : ℕ → List Record) (ar : ℕ → Archive),
          (∀ᶠ l in Filter.atTop, Returns (fun fuel => runSimulation is dbg false { P with total := T l } nm sj mem (junkP l) u (k l) fuel)
            (fun i => if i.val = 0 then some ⟨{ P with total := T l }, rs l, ar l⟩ else none)) ∧
          (∀ l, T l ≤ P.period * (rs l).length) ∧
          SelfTo V.c V.q G P.maxOrder P.nLegendre nm (partitionC V.c P.beta P.maxOrder) ar := by
  have h0 := h ⟨0, hn⟩
  have hr : Ready P V := C80_ready h0 hP ht (Or.inl hc)
  obtain ⟨G, B, -, hreg, -⟩ := hr
  have hR : (partitionC V.c P.beta P.maxOrder).im = 0 := C94_real hT (by
    rw [(C80_parameters h0).nf]; exact C94_green h0 hP.beta hfile hF) hreg.meas _
  have e : ((partitionC V.c P.beta P.maxOrder).re : ℂ) = partitionC V.c P.beta P.maxOrder := Complex.ext rfl (by rw [hR]; rfl)
  have := C89_program_self h hn hP ht hc hk hI hsm hd (fun h0 => hS (Complex.ext h0 hR)) hsj nm junkP hμ
  rwa [e] at this

end

/-! ### The theorems apply -/

/-- One term with complex conjugate fields in its two states: conjugation exchanges the states. -/
theorem exR_hermitian : HermitianTerms 1 id (fun _ s => 1 - s) exCtxR.tbl := by
  have e : ∀ t < exCtxR.tbl.length, exCtxR.tbl.getD t default = exTermR := by
    intro t ht
    have : t = 0 := by simpa [exCtxR] using ht
    subst this; rfl
  have hm : ∀ d ∈ exCtxR.tbl, d = exTermR := fun d hd => List.mem_singleton.1 hd
  refine ⟨fun t ht => ht, fun t ht => rfl, fun t ht s hs => ?_, fun t ht => ?_, fun d hd r hr => ?_, fun d hd r hr r' hr' hne hfl => ?_⟩
  · rw [e t ht] at hs ⊢
    have : s < 2 := hs
    exact ⟨show 1 - s < 2 by omega, show 1 - (1 - s) = s by omega⟩
  · show ConjTerm _ (exCtxR.tbl.getD t default) (exCtxR.tbl.getD t default)
    rw [e t ht]
    refine ⟨rfl, rfl, ?_, fun _ _ => rfl, ?_, ?_, ?_⟩
    · show (-4 / 3 : ℂ) = starRingEnd ℂ (-4 / 3)
      simp only [map_div₀, map_neg, Complex.conj_ofNat]
    all_goals intro r hr
    · have : r < 2 := hr
      interval_cases r <;> rfl
    · have : r < 2 := hr
      interval_cases r <;> rfl
    · have : r < 2 := hr
      intro r' hr'
      have : r' < 2 := hr'
      interval_cases r <;> interval_cases r' <;> simp [exTermR]
  · rw [hm d hd] at hr ⊢
    have : r < 2 := hr
    interval_cases r <;> exact ⟨Nat.zero_lt_one, Nat.zero_lt_one⟩
  · rw [hm d hd] at hr hr' hfl
    have h1 : r < 2 := hr
    have h2 : r' < 2 := hr'
    interval_cases r <;> interval_cases r' <;> first | exact absurd rfl hne | exact absurd hfl (by decide)

theorem exR_hermitianG0 (β : ℝ) : HermitianG0 β 2 1 exCtxR.G0 := by
  intro z hz s hs s' hs' t t' k k' _ _
  show starRingEnd ℂ (1 / 2) = 1 / 2
  apply Complex.ext <;> simp

/-- Its weights are complex, its partition function is not, whatever the number of vertices and the temperature. -/
example (β : ℝ) (M : ℕ) : (partitionC exCtxR β M).im = 0 :=
  C94_real exR_hermitian (exR_hermitianG0 β) (fun _ _ _ _ _ _ => measurable_const) M

example : (weight exCtxR.NI exCtxR.nf exCtxR.G0 exCtxR.tbl [vertAt (0, 0, 0)]).im = -2 := by
  rw [exR_weight rfl]
  simp

/-- Hopping of pairs between two sites, with complex amplitude: the two terms are conjugate to each other. -/
noncomputable def exPairHop (U : ℂ) (a b : ℕ) : VDef ℂ := ⟨2, [0, 1], [a, b, a, b], 1, U, fun _ r => if r = 0 then 1 / 3 else 1 / 5⟩

theorem exPairHop_hermitian (U : ℂ) : HermitianTerms 2 (fun t => 1 - t) (fun _ s => s) [exPairHop U 0 1, exPairHop (starRingEnd ℂ U) 1 0] := by
  refine ⟨fun t ht => ?_, fun t ht => ?_, fun t ht s hs => ⟨hs, rfl⟩, fun t ht => ?_, fun d hd r hr => ?_, fun d hd r hr r' hr' hne hfl => ?_⟩
  · show 1 - t < 2
    omega
  · have : t < 2 := ht
    show 1 - (1 - t) = t
    omega
  · have : t < 2 := ht
    interval_cases t
    all_goals
      refine ⟨rfl, rfl, by simp [exPairHop], fun _ _ => rfl, ?_, ?_, ?_⟩
      all_goals intro r hr
      · have : r < 2 := hr
        interval_cases r <;> rfl
      · have : r < 2 := hr
        interval_cases r <;> rfl
      · intro r' hr'
        have : r' < 2 := hr'
        interval_cases r' <;> apply Complex.ext <;> simp [exPairHop]
  · simp only [List.mem_cons, List.not_mem_nil, or_false] at hd
    rcases hd with rfl | rfl
    all_goals
      have : r < 2 := hr
      interval_cases r <;> simp [exPairHop]
  · simp only [List.mem_cons, List.not_mem_nil, or_false] at hd
    rcases hd with rfl | rfl
    all_goals
      have h1 : r < 2 := hr
      have h2 : r' < 2 := hr'
      interval_cases r <;> interval_cases r' <;> first | exact absurd rfl hne | exact absurd hfl (by simp [exPairHop])

/-- The same Hamiltonian with complex hopping of single particles. -/
noncomputable def exCtxHop (U : ℂ) : Ctx ℂ := ⟨100, 2, fun a b => if a.site = b.site then 1 / 2 else if a.site < b.site then Complex.I / 4 else -Complex.I / 4,
  [exPairHop U 0 1, exPairHop (starRingEnd ℂ U) 1 0]⟩

example (U : ℂ) (β : ℝ) (M : ℕ) : (partitionC (exCtxHop U) β M).im = 0 := by
  refine C94_real (exPairHop_hermitian U) (fun z hz s hs s' hs' t t' k k' _ _ => ?_)
    (fun f s x f' s' x' => show Measurable fun _ : ℝ × ℝ => (if s = s' then 1 / 2 else if s < s' then Complex.I / 4 else -Complex.I / 4 : ℂ)
      from measurable_const) M
  show starRingEnd ℂ (if s = s' then 1 / 2 else if s < s' then Complex.I / 4 else -Complex.I / 4) =
    if s' = s then 1 / 2 else if s' < s then Complex.I / 4 else -Complex.I / 4
  interval_cases s <;> interval_cases s' <;> simp [Complex.conj_ofNat]

/-- A file with complex values between two sites, and a solver made from it. -/
noncomputable def exGreenC : GFile := ⟨1, 2, 3, 1, [⟨0, 0, 0, 0, -1 / 2, 0⟩, ⟨0, 0, 0, 1, -1 / 2, 0⟩, ⟨0, 0, 0, 2, -1 / 2, 0⟩,
  ⟨0, 0, 1, 0, 0, 1 / 4⟩, ⟨0, 0, 1, 1, 0, 0⟩, ⟨0, 0, 1, 2, 0, -1 / 4⟩,
  ⟨0, 1, 0, 0, 0, -1 / 4⟩, ⟨0, 1, 0, 1, 0, 0⟩, ⟨0, 1, 0, 2, 0, 1 / 4⟩,
  ⟨0, 1, 1, 0, -1 / 2, 0⟩, ⟨0, 1, 1, 1, -1 / 2, 0⟩, ⟨0, 1, 1, 2, -1 / 2, 0⟩]⟩

theorem exGreenC_value {s s' t : ℕ} (hs : s < 2) (hs' : s' < 2) (ht : t < 3) :
    (exGreenC.value 0 s s' t : ℂ) = if s = s' then -1 / 2 else if s < s' then (1 - t) * (Complex.I / 4) else (t - 1) * (Complex.I / 4) := by
  interval_cases s <;> interval_cases s' <;> interval_cases t <;> apply Complex.ext <;>
    simp [GFile.value, GFile.line, exGreenC] <;> norm_num

theorem exGreenC_hermitian : HermitianFile ℂ exGreenC 1 2 := by
  have e2 : exGreenC.ntau = 3 := rfl
  refine ⟨by norm_num [e2], fun f hf s hs s' hs' t ht => ?_, fun f hf s hs s' hs' hne => ?_⟩
  · obtain rfl : f = 0 := by omega
    rw [exGreenC_value hs hs' (by omega), exGreenC_value hs' hs (by omega)]
    interval_cases s <;> interval_cases s' <;>
      simp only [map_div₀, map_neg, map_mul, map_sub, map_one, Complex.conj_ofNat, Complex.conj_I, Complex.conj_natCast, if_true, if_false,
        zero_ne_one, one_ne_zero, zero_lt_one, not_lt_zero, Nat.lt_irrefl, Nat.not_lt_zero]
    all_goals ring
  · obtain rfl : f = 0 := by omega
    rw [show exGreenC.ntau.toNat - 1 = 2 from rfl, exGreenC_value hs hs' (by omega), exGreenC_value hs hs' (by omega)]
    rw [if_neg hne, if_neg hne]
    split_ifs <;> push_cast <;> ring

noncomputable def exParamsC (S : Type) : Params S := { exParams S with sites := 2, spins := 1, maxOrder := 7, g0File := some (some exGreenC) }

theorem exGreenC_usable : UsableGreen ℂ exGreenC 1 1 2 := by
  refine ⟨by norm_num [exGreenC], rfl, rfl, by norm_num [exGreenC], ?_, fun f s1 s2 t hf h1 h2 ht => ?_⟩
  · intro f s1 s2 t hf h1 h2 ht
    simp only [exGreenC] at hf h1 h2 ht
    obtain rfl : f = 0 := by omega
    obtain rfl | rfl : s1 = 0 ∨ s1 = 1 := by omega
    all_goals obtain rfl | rfl : s2 = 0 ∨ s2 = 1 := by omega
    all_goals
      obtain rfl | rfl | rfl : t = 0 ∨ t = 1 ∨ t = 2 := by omega
      all_goals exact ⟨_, rfl, rfl, rfl, rfl, rfl⟩
  · exact (exGreenC_hermitian.mirror f hf s2 h2 s1 h1 t ht).symm

example {S : Type} {is : IStream S} (dbg : Bool) (j : ReadJunk) : ∃ V : FullSolver ℂ, FullSolver.create is dbg (exParamsC S) j = .ok V ∧
    ∀ M, (partitionC V.c 1 M).im = 0 := by
  have hQ : UsableParams (exParams S) := ex_params
  have hP : UsableParams (exParamsC S) := ⟨hQ.beta, hQ.step, hQ.bins, hQ.period, hQ.legendre, hQ.rates⟩
  obtain ⟨V, e, G, B, -, hreg, -⟩ := C80_onsite (K := ℂ) (is := is) dbg (exParamsC S) j exGreenC 1 hP rfl rfl one_ne_zero
    (Or.inr ⟨rfl, le_rfl⟩) rfl exGreenC_usable rfl
  refine ⟨V, e, fun M => C94_real (C94_onsite e rfl) ?_ hreg.meas M⟩
  rw [(C80_parameters e).nf]
  exact C94_green e hP.beta rfl exGreenC_hermitian

/-- The program: one site, at most one vertex, three processes. -/
example {S : Type} {is : IStream S} (dbg : Bool) (j : ReadJunk) : ∃ V : FullSolver ℝ, (∀ i : Fin 3,
      FullSolver.create is dbg (exParams S) ((fun _ => ⟨j, fun _ _ _ _ _ _ _ => 0, fun _ _ _ => 0⟩ : Fin 3 → Memory ℝ) i).j = .ok V) ∧
    ∃ G : ℝ → ℕ → ℕ → ℕ → ℝ, ∀ᵐ u ∂(Measure.pi fun _ : Fin 3 => streams), ∀ k : ℕ → Fin 3 → ℕ, (∀ l, Completes ⟨l + 1, 10, 2⟩ (k l)) →
      ∃ (rs : ℕ → List Record) (ar : ℕ → Archive), SelfTo V.c V.q G 1 4 6 (partitionC V.c 1 1) ar := by
  obtain ⟨V, e, -⟩ := ex_create (K := ℝ) (is := is) (S := S) dbg j
  refine ⟨V, fun _ => e, ?_⟩
  have hF : HermitianFile ℝ exGreenFile 2 1 := by
    refine ⟨by norm_num [exGreenFile], fun f hf s hs s' hs' t ht => ?_, fun f hf s hs s' hs' hne => absurd (by omega) hne⟩
    exact (ex_greenFile (K := ℝ)).hermitian f s' s t hf hs' hs ht |>.symm
  obtain ⟨G, -, h⟩ := C94_program (mem := fun _ : Fin 3 => (⟨j, fun _ _ _ _ _ _ _ => 0, fun _ _ _ => 0⟩ : Memory ℝ)) (V := V) (fun _ => e)
    (by norm_num) ex_params (ex_terms e) rfl (by norm_num [exParams]) (by norm_num [exParams]) (by norm_num [exParams]) (C94_onsite e rfl) rfl hF
    (AlmostNonzero.of_lower (w := 0.2601) (by norm_num) fun x hx hn => (ex_weights e x hx hn).trans (le_abs_self _))
    (fun h0 => ex_sum e (congrArg Complex.re h0)) (sj := sphJ) (fun _ _ _ => rfl) 6 (fun _ _ _ => 0) (ex_uniform 3)
  refine ⟨G, ?_⟩
  filter_upwards [h] with u hu k hk
  obtain ⟨rs, ar, -, -, h3⟩ := hu (fun l => l + 1) k (Filter.tendsto_add_atTop_nat 1) hk
  exact ⟨rs, ar, h3⟩

/-- The self-energy of the term with complex fields. -/
example : ∃ s : Sim ℂ, ∀ᵐ u ∂streams, ∃ y : ℕ → Sim ℂ,
      (∀ n, Returns (fun fuel => s.passes ⟨1, 1, 1, ⟨1000, 10, 2⟩⟩ (Mgr.create 1 3 1 1 exCtxR.tbl) exMeasParR exCtxR
        (fun _ _ _ _ _ _ _ => 0) (fun _ _ _ => 0) u fuel (5 + n)) (y n) ∧ (y n).log.length = n) ∧
      ∃ ar : ℕ → Archive, (∀ᶠ n in Filter.atTop, postprocess 2 1 3 4 6 1 sphJ (fun _ _ => 0) ((y n).log.map fun r => r.values) = .ok (ar n)) ∧
        SelfTo exCtxR exMeasParR (fun _ _ _ _ => 1 / 2) 1 4 6 (partitionC exCtxR exMeasParR.beta 1) ar := by
  obtain ⟨s0, e0, m0⟩ := create_means exR_tbl (empty_goodStart exCtxR)
  have hv : s0.verts = [] := m0.cfg
  have hs : AtStart (Mgr.create 1 3 1 1 exCtxR.tbl) exCtxR exMeasParR.beta 1 ⟨⟨⟨s0, ⟨0, 0⟩, 0⟩, ⟨0, 0⟩⟩, 0, false, []⟩ :=
    ⟨⟨_, s0, ⟨0, 0⟩, 0, fun _ _ _ _ _ _ => 0, fun _ => 0, 0, [], ⟨s0, ⟨0, 0⟩, 0⟩, empty_goodStart exCtxR, fun _ => ⟨le_rfl, one_pos⟩,
      e0, rfl, rfl⟩, by simp only; rw [hv]; intro p hp; simp [ptsOf] at hp, by simp only; rw [hv]; simp, rfl, rfl, rfl⟩
  have hok : SimOK exCtxR exMeasParR (fun _ _ _ _ => 1 / 2) (Mgr.create 1 3 1 1 exCtxR.tbl) 3 1 1 :=
    ⟨exR_tbl, exR_full, by simp [exCtxR], one_pos, Nat.succ_pos 2, by
      intro d hd s hs
      have : d = exTermR := List.mem_singleton.1 hd
      subst this
      have : s = 0 := by simpa [exTermR] using hs
      rw [this]; exact Nat.zero_lt_one, fun _ _ _ _ _ _ _ => rfl, zero_le_one, rfl⟩
  have hreg : Regular exCtxR (fun _ _ _ _ => 1 / 2) 1 :=
    ⟨fun _ _ _ _ _ _ => measurable_const, fun _ _ => by simp [exCtxR]; norm_num, fun _ _ _ => measurable_const, fun _ _ _ _ => by simp; norm_num⟩
  exact ⟨_, C94_self_energy hok hreg exR_hermitian (exR_hermitianG0 _) (by norm_num) one_pos exR_low ⟨1, 1, 1, ⟨1000, 10, 2⟩⟩ one_pos (by decide)
    (by decide) (by rw [exR_Z]; norm_num) (fun _ _ _ => rfl) (by norm_num) 6 (fun _ _ _ => 0) hs _ _⟩

end CTInt
