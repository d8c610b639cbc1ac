import Verif.Proofs.SettleAlmost
import Verif.Props.Program

/-!
# Results without a bound on the weights from below (C89)
-/

set_option linter.all false

namespace CTInt

open MeasureTheory

section
variable {K : Type} [RCLike K] [DecidableEq K]
variable {kIns maxOrder : ℕ} {sz B : ℝ} {m : Mgr}
variable {c : Ctx K} {q : MeasPar K} {G : ℝ → ℕ → ℕ → ℕ → K}

/-- **C89, the sign.**  From the empty configuration, if almost every configuration with weight has a vertex whose removal leaves one
    with weight: the average sign converges with probability one to the sum of the real parts of the weights over the sum of
    their moduli.  However small the weights are. -/
theorem C89_sign (h : SimOK c q G m kIns maxOrder sz) (hr : Regular c G B) (hk : 0 < kIns) (hd : AlmostShrinks c q.beta maxOrder)
    (a : SimPar) (ha : 0 < a.nIR) (hp : 0 < a.steps.period) {s : Sim K} (hs : AtStart m c q.beta maxOrder s)
    (h0 : s.x.w.s.verts = []) (J : ℕ → ℕ → ℕ → ℕ → ℕ → ℕ → ℕ → K) (junk : ℕ → ℕ → ℕ → K) :
    ∀ᵐ u ∂streams, Settles a m q c J junk s (fun r => r.sign)
      ((configSum c q.beta maxOrder fun x => RCLike.re (weight c.NI c.nf c.G0 c.tbl (x.map vertAt))) /
        (ensemble c q.beta maxOrder 1).toReal) u :=
  settle_almost h hr hk hd a ha hp (estimates_sign h hr).1 hs h0 J junk

/-- **C89, real or complex weights.**  From the empty configuration, if the weights vanish at most on sets of measure zero: the sign,
    the sizes of the matrices and the self-energy that are written converge with probability one to the values the expansion
    defines. -/
theorem C89_self_energy (h : SimOK c q G m kIns maxOrder sz) (hr : Regular c G B) (hk : 0 < kIns)
    (hd : AlmostNonzero c q.beta maxOrder) (a : SimPar) (ha : 0 < a.nIR) (hp : 0 < a.steps.period) (hns : 0 < q.nShifts)
    (hS : (partitionC c q.beta maxOrder).re ≠ 0)
    {sj : ℕ → ℝ → ℝ} (hsj : IsSphBessel sj) {nl : ℕ} (hnl : 0 < nl) (nm : ℕ) (junkP : ℕ → ℕ → ℕ → ℝ)
    {s : Sim K} (hs : AtStart m c q.beta maxOrder s) (h0 : s.x.w.s.verts = [])
    (J : ℕ → ℕ → ℕ → ℕ → ℕ → ℕ → ℕ → K) (junk : ℕ → ℕ → ℕ → K) :
    ∀ᵐ u ∂streams, ∃ y : ℕ → Sim K,
      (∀ n, Returns (fun fuel => s.passes a m q c J junk u fuel (a.steps.therm / a.steps.period + n)) (y n) ∧ (y n).log.length = n) ∧
      ∃ ar : ℕ → Archive, (∀ᶠ n in Filter.atTop, postprocess c.nf q.ns q.nb nl nm q.beta sj (junkP n) ((y n).log.map fun r => r.values) = .ok (ar n)) ∧
        SelfTo c q G maxOrder nl nm ((partitionC c q.beta maxOrder).re : ℂ) ar :=
  self_core h hr a hp hS hsj hnl nm junkP hs (tracksC_of h hr hns (all_settle_nonzero h hr hk hd a ha hp hs h0 J junk))

end

section
variable {kIns maxOrder : ℕ} {sz B : ℝ} {m : Mgr}
variable {c : Ctx ℝ} {q : MeasPar ℝ} {G : ℝ → ℕ → ℕ → ℕ → ℝ}

/-- **C89, real weights.**  Likewise every number that is written, the densities and their correlations included. -/
theorem C89_archive (h : SimOK c q G m kIns maxOrder sz) (hr : Regular c G B) (hk : 0 < kIns)
    (hd : AlmostNonzero c q.beta maxOrder) (a : SimPar) (ha : 0 < a.nIR) (hp : 0 < a.steps.period) (hns : 0 < q.nShifts)
    (hS : (configSum c q.beta maxOrder fun x => weight c.NI c.nf c.G0 c.tbl (x.map vertAt)) ≠ 0)
    {sj : ℕ → ℝ → ℝ} (hsj : IsSphBessel sj) {nl : ℕ} (hnl : 0 < nl) (nm : ℕ) (junkP : ℕ → ℕ → ℕ → ℝ)
    {s : Sim ℝ} (hs : AtStart m c q.beta maxOrder s) (h0 : s.x.w.s.verts = [])
    (J : ℕ → ℕ → ℕ → ℕ → ℕ → ℕ → ℕ → ℝ) (junk : ℕ → ℕ → ℕ → ℝ) :
    ∀ᵐ u ∂streams, ∃ y : ℕ → Sim ℝ,
      (∀ n, Returns (fun fuel => s.passes a m q c J junk u fuel (a.steps.therm / a.steps.period + n)) (y n) ∧ (y n).log.length = n) ∧
      ∃ ar : ℕ → Archive, (∀ᶠ n in Filter.atTop, postprocess c.nf q.ns q.nb nl nm q.beta sj (junkP n) ((y n).log.map fun r => r.values) = .ok (ar n)) ∧
        ArchiveTo c q G maxOrder nl nm ar :=
  archive_core h hr a hp hS hsj hnl nm junkP hs (tracks_of h hr hns (all_settle_nonzero h hr hk hd a ha hp hs h0 J junk))

/-- **C89, configurations without weight.**  If the weights vanish on more than a set of measure zero, the configurations without weight
    are missing in the densities: their average converges to the sum over the configurations with weight only. -/
theorem C89_density_seen (h : SimOK c q G m kIns maxOrder sz) (hr : Regular c G B) (hk : 0 < kIns)
    (hd : AlmostShrinks c q.beta maxOrder) (a : SimPar) (ha : 0 < a.nIR) (hp : 0 < a.steps.period) {z i : ℕ} (hz : z < c.nf) (hi : i < q.ns)
    {s : Sim ℝ} (hs : AtStart m c q.beta maxOrder s) (h0 : s.x.w.s.verts = [])
    (J : ℕ → ℕ → ℕ → ℕ → ℕ → ℕ → ℕ → ℝ) (junk : ℕ → ℕ → ℕ → ℝ) :
    ∀ᵐ u ∂streams, Settles a m q c J junk s (fun r => (r.dens.site z).getD i 0)
      ((configSum c q.beta maxOrder fun x => if weight c.NI c.nf c.G0 c.tbl (x.map vertAt) = 0 then 0 else (1 / q.beta) *
          ∫ τ in (0 : ℝ)..q.beta, weightExtra c G z (-q.beta * 1e-10) τ i i (x.map vertAt)) /
        (ensemble c q.beta maxOrder 1).toReal) u :=
  settle_almost h hr hk hd a ha hp (estimates_density h hr hz hi) hs h0 J junk

end

section
variable {S : Type} {is : IStream S}

/-- Without a file with a configuration the solver starts from the empty one. -/
theorem starts_empty {K : Type} [RCLike K] [DecidableEq K] {dbg : Bool} {P : Params S} {j : ReadJunk} {V : FullSolver K}
    (h : FullSolver.create is dbg P j = .ok V) (hP : UsableParams P) (ht : UsableTerms P.spins V.c.tbl) (hc : P.config = none) :
    V.s.x.w.s.verts = [] := by
  obtain ⟨G, B, hok, -, -⟩ := C80_ready h hP ht (Or.inl hc)
  obtain ⟨t, leg, file, g, sub, et, -, -, -, -, -, hi, es, hc', hq, hm, ha, hS⟩ := create_inv h
  rcases hi with ⟨-, hi⟩ | ⟨s, s', e, -⟩
  · rw [← hc', hi] at es
    obtain ⟨s0, e0, m0⟩ := create_means hok.ht (empty_goodStart V.c)
    obtain rfl : s0 = sub := Res.ok.inj (e0.symm.trans es)
    rw [hS]
    exact m0.cfg
  · rw [hc] at e; cases e

/-- **C89, the program.**  Any number of processes, real weights, no file with a configuration: if the weights vanish at most on sets of
    measure zero then with probability one, whatever the schedule, as the requested number of steps grows every number in
    the file converges to the value the expansion defines. -/
theorem C89_program {n : ℕ} {dbg : Bool} {P : Params S} {mem : Fin n → Memory ℝ} {V : FullSolver ℝ}
    (h : ∀ i, FullSolver.create is dbg P (mem i).j = .ok V) (hn : 0 < n)
    (hP : UsableParams P) (ht : UsableTerms P.spins V.c.tbl) (hc : P.config = none) (hk : 0 < P.kIns) (hI : 0 < P.nIR)
    (hsm : 0 < P.nSamples) (hd : AlmostNonzero V.c P.beta P.maxOrder)
    (hS : (configSum V.c P.beta P.maxOrder fun x => weight V.c.NI V.c.nf V.c.G0 V.c.tbl (x.map vertAt)) ≠ 0)
    {sj : ℕ → ℝ → ℝ} (hsj : IsSphBessel sj) (nm : ℕ) (junkP : ℕ → ℕ → ℕ → ℝ)
    {μ : Measure (Fin n → ℕ → ℝ)} (hμ : EachUniform μ) :
    ∃ G : ℝ → ℕ → ℕ → ℕ → ℝ, (∀ t, ∀ z < P.spins, ∀ s1 < P.sites, ∀ s2 < P.sites, V.q.g0 t z s1 s2 = .ok (G t z s1 s2)) ∧
      ∀ᵐ u ∂μ, ∀ (T : ℕ → ℕ) (k : ℕ → Fin n → ℕ), Filter.Tendsto T Filter.atTop Filter.atTop →
        (∀ l, Completes ⟨T l, P.therm, P.period.toNat⟩ (k l)) →
        ∃ (rs : ℕ → List Record) (ar : ℕ → Archive),
          (∀ᶠ l in Filter.atTop, Returns (fun fuel => runSimulation is dbg false { P with total := T l } nm sj mem (junkP l) u (k l) fuel)
            (fun i => if i.val = 0 then some ⟨{ P with total := T l }, rs l, ar l⟩ else none)) ∧
          (∀ l, T l ≤ P.period * (rs l).length) ∧
          ArchiveTo V.c V.q G P.maxOrder P.nLegendre nm ar := by
  have hp := C80_parameters (h ⟨0, hn⟩)
  obtain ⟨G, hG, hae⟩ := pooled_core h hn hP ht (Or.inl hc) hS hsj nm junkP hμ fun G B hok hreg hst i =>
    tracks_of hok hreg (by rw [hp.samples]; exact hsm) (all_settle_nonzero hok hreg hk (by rw [hp.beta]; exact hd) V.a
      (by rw [hp.nIR]; exact hI) (by have := hP.period; have := hp.period; omega) hst (starts_empty (h ⟨0, hn⟩) hP ht hc) (mem i).J (mem i).junk)
  refine ⟨G, hG, ?_⟩
  filter_upwards [hae] with u hu T k hT hC
  obtain ⟨h1, h2⟩ := completes_grow hn hT hC (by have := hP.period; omega)
  obtain ⟨rs, ar, r1, r2, r3⟩ := hu T k h1
  refine ⟨rs, ar, r1, fun l => ?_, r3⟩
  rw [r2 l]
  have h3 := h2 l
  have h4 : ((P.period.toNat : ℕ) : ℤ) = P.period := by have := hP.period; omega
  rw [← h4]
  exact_mod_cast h3

/-- **C89, the program, real or complex weights.**  The same for the sign, the sizes of the matrices and the self-energy. -/
theorem C89_program_self {K : Type} [RCLike K] [DecidableEq K] {n : ℕ} {dbg : Bool} {P : Params S} {mem : Fin n → Memory K} {V : FullSolver K}
    (h : ∀ i, FullSolver.create is dbg P (mem i).j = .ok V) (hn : 0 < n)
    (hP : UsableParams P) (ht : UsableTerms P.spins V.c.tbl) (hc : P.config = none) (hk : 0 < P.kIns) (hI : 0 < P.nIR)
    (hsm : 0 < P.nSamples) (hd : AlmostNonzero V.c P.beta P.maxOrder) (hS : (partitionC V.c P.beta P.maxOrder).re ≠ 0)
    {sj : ℕ → ℝ → ℝ} (hsj : IsSphBessel sj) (nm : ℕ) (junkP : ℕ → ℕ → ℕ → ℝ)
    {μ : Measure (Fin n → ℕ → ℝ)} (hμ : EachUniform μ) :
    ∃ G : ℝ → ℕ → ℕ → ℕ → K, (∀ t, ∀ z < P.spins, ∀ s1 < P.sites, ∀ s2 < P.sites, V.q.g0 t z s1 s2 = .ok (G t z s1 s2)) ∧
      ∀ᵐ u ∂μ, ∀ (T : ℕ → ℕ) (k : ℕ → Fin n → ℕ), Filter.Tendsto T Filter.atTop Filter.atTop →
        (∀ l, Completes ⟨T l, P.therm, P.period.toNat⟩ (k l)) →
        ∃ (rs : ℕ → List Record) (ar : ℕ → Archive),
          (∀ᶠ l in Filter.atTop, Returns (fun fuel => runSimulation is dbg false { P with total := T l } nm sj mem (junkP l) u (k l) fuel)
            (fun i => if i.val = 0 then some ⟨{ P with total := T l }, rs l, ar l⟩ else none)) ∧
          (∀ l, T l ≤ P.period * (rs l).length) ∧
          SelfTo V.c V.q G P.maxOrder P.nLegendre nm ((partitionC V.c P.beta P.maxOrder).re : ℂ) ar := by
  have hp := C80_parameters (h ⟨0, hn⟩)
  exact self_pooled_core h hn hP ht (Or.inl hc) hS hsj nm junkP hμ fun G B hok hreg hst i =>
    tracksC_of hok hreg (by rw [hp.samples]; exact hsm) (all_settle_nonzero hok hreg hk (by rw [hp.beta]; exact hd) V.a
      (by rw [hp.nIR]; exact hI) (by have := hP.period; have := hp.period; omega) hst (starts_empty (h ⟨0, hn⟩) hP ht hc) (mem i).J (mem i).junk)

end

/-! ### A case whose weights vanish where two times differ by 1/2 -/

/-- One term with α = -1/2; the Green's function is the distance of the times, at most 1. -/
noncomputable def exTermD : VDef ℝ := ⟨2, [0, 1], [0, 0, 0, 0], 1, 1, fun _ _ => -1 / 2⟩

noncomputable def exCtxD : Ctx ℝ := ⟨100, 2, fun a b => min 1 |a.time - b.time|, [exTermD]⟩

noncomputable def exMeasParD : MeasPar ℝ := ⟨1, 1, ⟨0, fun _ => 0, fun _ => 0⟩, fun t _ _ _ => .ok (min 1 |t|), 2, 3⟩

theorem exD_tbl : TblOK exCtxD.NI exCtxD.nf exCtxD.tbl where
  fl := by intro d hd; simp only [exCtxD, List.mem_singleton] at hd; subst hd; rfl
  si := by intro d hd; simp only [exCtxD, List.mem_singleton] at hd; subst hd; rfl
  lt := by
    intro d hd f hf
    simp only [exCtxD, List.mem_singleton] at hd
    subst hd
    simp only [exTermD, List.mem_cons, List.not_mem_nil, or_false] at hf
    show f < 2
    omega
  U := by
    intro d hd; simp only [exCtxD, List.mem_singleton] at hd; subst hd
    show (1 : ℝ) ≠ 0
    norm_num
  al := by
    intro d hd s _ r _
    simp only [exCtxD, List.mem_singleton] at hd
    subst hd
    show GoodAlpha (100 : ℝ) (-1 / 2)
    unfold GoodAlpha
    norm_num

theorem exD_full : FullTerms exCtxD := by
  intro d hd
  simp only [exCtxD, List.mem_singleton] at hd
  subst hd
  refine ⟨by decide, fun fl hfl => ⟨fl, hfl, ?_⟩⟩
  have : fl < 2 := hfl
  rcases fl with _ | _ | fl
  · rfl
  · rfl
  · omega

theorem measurable_abs_real {α : Type} [MeasurableSpace α] {f : α → ℝ} (h : Measurable f) : Measurable fun x => |f x| :=
  continuous_abs.measurable.comp h

theorem exD_min (t : ℝ) : ‖min 1 |t|‖ ≤ 1 := by
  rw [Real.norm_eq_abs, abs_of_nonneg (le_min zero_le_one (abs_nonneg t))]
  exact min_le_left _ _

theorem exD_regular : Regular exCtxD (fun t _ _ _ => min 1 |t|) 1 := by
  refine ⟨fun f s x f' s' x' => ?_, fun a b => exD_min _, fun _ _ _ => measurable_const.min (measurable_abs_real measurable_id), fun t _ _ _ => exD_min t⟩
  exact measurable_const.min (measurable_abs_real (measurable_fst.sub measurable_snd))

theorem exD_simOK {kIns maxOrder : ℕ} : SimOK exCtxD exMeasParD (fun t _ _ _ => min 1 |t|) (Mgr.create 1 kIns maxOrder 1 exCtxD.tbl) kIns maxOrder 1 := by
  refine ⟨exD_tbl, exD_full, by simp [exCtxD], one_pos, Nat.succ_pos 2, ?_, fun _ _ _ _ _ _ _ => rfl, zero_le_one, rfl⟩
  intro d hd s hs
  have : d = exTermD := List.mem_singleton.1 hd
  subst this
  simp only [exTermD, List.mem_cons, List.not_mem_nil, or_false] at hs
  show s < 1
  omega

theorem exD_weight1 {v : Vert} (h1 : v.type = 0) (h2 : v.nonInt = false) : weight exCtxD.NI exCtxD.nf exCtxD.G0 exCtxD.tbl [v] = -1 / 4 := by
  have ht : termOf exCtxD.tbl v = exTermD := by unfold termOf; rw [h1]; rfl
  have hi : interacting [v] = [v] := by simp [interacting, h2]
  have r0 : rowsOf exCtxD.NI exCtxD.tbl [v] 0 = [rowOf exCtxD.NI exCtxD.tbl v 0] := by
    simp [rowsOf, rowsV, ht, exTermD, flavorOf, List.range_succ, List.filter_cons]
  have r1 : rowsOf exCtxD.NI exCtxD.tbl [v] 1 = [rowOf exCtxD.NI exCtxD.tbl v 1] := by
    simp [rowsOf, rowsV, ht, exTermD, flavorOf, List.range_succ, List.filter_cons]
  unfold weight detWeight uWeight
  rw [hi]
  show (∏ fl ∈ Finset.range 2, _) * _ = _
  rw [Finset.prod_range_succ, Finset.prod_range_succ, Finset.prod_range_zero, r0, r1]
  simp only [List.length_cons, List.length_nil, List.map_cons, List.map_nil, List.prod_cons, List.prod_nil, ht]
  unfold detN
  rw [Matrix.det_fin_one, Matrix.det_fin_one]
  simp only [toM_apply, rowG, specG, Fin.val_zero, List.getD_cons_zero, rowOf, fieldOf, h2, ht, Bool.false_eq_true, if_false]
  simp [exTermD, exCtxD]
  norm_num

theorem exD_weight2 {v w : Vert} (h1 : v.type = 0) (h2 : v.nonInt = false) (h3 : w.type = 0) (h4 : w.nonInt = false) :
    weight exCtxD.NI exCtxD.nf exCtxD.G0 exCtxD.tbl [v, w] = (1 / 4 - (min 1 |v.time - w.time|) ^ 2) ^ 2 := by
  have hv : termOf exCtxD.tbl v = exTermD := by unfold termOf; rw [h1]; rfl
  have hw : termOf exCtxD.tbl w = exTermD := by unfold termOf; rw [h3]; rfl
  have hi : interacting [v, w] = [v, w] := by simp [interacting, h2, h4]
  have r0 : rowsOf exCtxD.NI exCtxD.tbl [v, w] 0 = [rowOf exCtxD.NI exCtxD.tbl v 0, rowOf exCtxD.NI exCtxD.tbl w 0] := by
    simp [rowsOf, rowsV, hv, hw, exTermD, flavorOf, List.range_succ, List.filter_cons]
  have r1 : rowsOf exCtxD.NI exCtxD.tbl [v, w] 1 = [rowOf exCtxD.NI exCtxD.tbl v 1, rowOf exCtxD.NI exCtxD.tbl w 1] := by
    simp [rowsOf, rowsV, hv, hw, exTermD, flavorOf, List.range_succ, List.filter_cons]
  unfold weight detWeight uWeight
  rw [hi]
  show (∏ fl ∈ Finset.range 2, _) * _ = _
  rw [Finset.prod_range_succ, Finset.prod_range_succ, Finset.prod_range_zero, r0, r1]
  simp only [List.length_cons, List.length_nil, List.map_cons, List.map_nil, List.prod_cons, List.prod_nil, hv, hw]
  unfold detN
  rw [Matrix.det_fin_two, Matrix.det_fin_two]
  simp only [toM_apply, rowG, specG, Fin.val_zero, Fin.val_one, List.getD_cons_zero, List.getD_cons_succ, rowOf, fieldOf, h2, h4, hv, hw,
    Bool.false_eq_true, if_false]
  have e : |w.time - v.time| = |v.time - w.time| := abs_sub_comm _ _
  simp [exTermD, exCtxD, e]
  ring

/-- The weights vanish at most on sets of measure zero. -/
theorem exD_nonzero : AlmostNonzero exCtxD 1 2 := by
  have hty : ∀ {n : ℕ} {x : Fin n → Pt}, ValidPts 1 exCtxD.tbl (List.ofFn x) → ∀ i, (x i).1 = 0 := by
    intro n x hx i
    obtain ⟨h1, -⟩ := hx (x i) (by rw [List.mem_ofFn]; exact ⟨i, rfl⟩)
    simpa [exCtxD] using h1
  intro n hn
  match n, hn with
  | 0, _ =>
    refine Filter.Eventually.of_forall fun x => ?_
    rw [List.ofFn_zero, List.map_nil, weight_nil]
    exact one_ne_zero
  | 1, _ =>
    filter_upwards [ae_validPts 1 exCtxD.tbl 1] with x hx
    rw [show List.ofFn x = [x 0] by simp [List.ofFn_succ], List.map_cons, List.map_nil, exD_weight1 (hty hx 0) rfl]
    norm_num
  | 2, _ =>
    have hnull : ∀ t : ℝ, pointMeasure 1 exCtxD.tbl {p : Pt | |t - p.2.2| = 1 / 2} = 0 := by
      intro t
      unfold pointMeasure
      rw [Measure.finset_sum_apply]
      refine Finset.sum_eq_zero fun i _ => ?_
      rw [Measure.finset_sum_apply]
      refine Finset.sum_eq_zero fun f _ => ?_
      have hms : MeasurableSet {p : Pt | |t - p.2.2| = 1 / 2} :=
        (measurable_abs_real (measurable_const.sub (measurable_snd.comp measurable_snd))) (measurableSet_singleton (1 / 2 : ℝ))
      rw [Measure.map_apply (measurable_point i f) hms]
      refine measure_mono_null (t := {t - 1 / 2, t + 1 / 2}) ?_ ((Set.toFinite _).measure_zero _)
      intro y hy
      have hy : |t - y| = 1 / 2 := hy
      rcases abs_eq (by norm_num : (0 : ℝ) ≤ 1 / 2) |>.1 hy with h | h
      · left; linarith
      · right; show y = _; linarith
    have hpair : ∀ᵐ x : Fin 2 → Pt ∂Measure.pi (fun _ => pointMeasure 1 exCtxD.tbl), |(x 0).2.2 - (x 1).2.2| ≠ 1 / 2 := by
      have hmp := measurePreserving_finTwoArrow (pointMeasure 1 exCtxD.tbl)
      have h1 : ∀ᵐ z : Pt × Pt ∂(pointMeasure 1 exCtxD.tbl).prod (pointMeasure 1 exCtxD.tbl), |z.1.2.2 - z.2.2.2| ≠ 1 / 2 := by
        have hm : MeasurableSet {z : Pt × Pt | |z.1.2.2 - z.2.2.2| = 1 / 2} :=
          (measurable_abs_real ((measurable_snd.comp (measurable_snd.comp measurable_fst)).sub
            (measurable_snd.comp (measurable_snd.comp measurable_snd)))) (measurableSet_singleton (1 / 2 : ℝ))
        rw [MeasureTheory.ae_iff]
        simp only [ne_eq, not_not]
        rw [Measure.measure_prod_null hm]
        exact Filter.Eventually.of_forall fun z => hnull z.2.2
      exact hmp.quasiMeasurePreserving.ae h1
    filter_upwards [ae_validPts 1 exCtxD.tbl 2, hpair] with x hx hp
    rw [show List.ofFn x = [x 0, x 1] by simp [List.ofFn_succ], List.map_cons, List.map_cons, List.map_nil,
      exD_weight2 (hty hx 0) rfl (hty hx 1) rfl]
    have e0 : (vertAt (x 0)).time = (x 0).2.2 := rfl
    have e1 : (vertAt (x 1)).time = (x 1).2.2 := rfl
    rw [e0, e1]
    refine pow_ne_zero 2 fun h0 => ?_
    have h2 : (min 1 |(x 0).2.2 - (x 1).2.2|) ^ 2 = (1 / 2) ^ 2 := by linarith
    have h3 := (pow_left_inj₀ (le_min zero_le_one (abs_nonneg _)) (by norm_num : (0 : ℝ) ≤ 1 / 2) two_ne_zero).1 h2
    rcases min_choice 1 |(x 0).2.2 - (x 1).2.2| with h4 | h4 <;> rw [h4] at h3
    · norm_num at h3
    · exact hp h3

/-- They have no positive bound from below: two vertices whose times differ by 1/2 have no weight. -/
theorem exD_unbounded : ∃ x, ValidPts 1 exCtxD.tbl x ∧ x.length ≤ 2 ∧ weight exCtxD.NI exCtxD.nf exCtxD.G0 exCtxD.tbl (x.map vertAt) = 0 := by
  refine ⟨[(0, 0, 0), (0, 0, 1 / 2)], ?_, le_rfl, ?_⟩
  · intro p hp
    simp only [List.mem_cons, List.not_mem_nil, or_false] at hp
    rcases hp with rfl | rfl <;> refine ⟨?_, ?_, ?_, ?_⟩ <;> norm_num [exCtxD, exTermD, numStates]
  · rw [List.map_cons, List.map_cons, List.map_nil, exD_weight2 rfl rfl rfl rfl]
    have e0 : (vertAt (0, 0, 0)).time = 0 := rfl
    have e1 : (vertAt (0, 0, 1 / 2)).time = 1 / 2 := rfl
    rw [e0, e1]
    norm_num

theorem exD_point : pointMeasure 1 exCtxD.tbl Set.univ = 1 := by
  have := lintegral_point (beta := 1) (tbl := exCtxD.tbl) (g := fun _ => 1) measurable_const
  rw [lintegral_one] at this
  rw [this]
  simp [exCtxD, exTermD, numStates]

theorem exD_sum : (configSum exCtxD 1 2 fun x => weight exCtxD.NI exCtxD.nf exCtxD.G0 exCtxD.tbl (x.map vertAt)) ≠ 0 := by
  have hty : ∀ {n : ℕ} {x : Fin n → Pt}, ValidPts 1 exCtxD.tbl (List.ofFn x) → ∀ i, (x i).1 = 0 := by
    intro n x hx i
    obtain ⟨h1, -⟩ := hx (x i) (by rw [List.mem_ofFn]; exact ⟨i, rfl⟩)
    simpa [exCtxD] using h1
  have hone : numStates exCtxD.tbl 0 = 1 := rfl
  unfold configSum
  rw [Finset.sum_range_succ, Finset.sum_range_succ, Finset.sum_range_one]
  have i0 : ∫ x : Fin 0 → Pt, ((List.ofFn x).map fun p => ((numStates exCtxD.tbl p.1 : ℕ) : ℝ)⁻¹).prod *
      weight exCtxD.NI exCtxD.nf exCtxD.G0 exCtxD.tbl ((List.ofFn x).map vertAt) ∂Measure.pi (fun _ => pointMeasure 1 exCtxD.tbl) = 1 := by
    simp only [List.ofFn_zero, List.map_nil, List.prod_nil, weight_nil, mul_one]
    rw [Measure.pi_of_empty]
    simp
  have i1 : ∫ x : Fin 1 → Pt, ((List.ofFn x).map fun p => ((numStates exCtxD.tbl p.1 : ℕ) : ℝ)⁻¹).prod *
      weight exCtxD.NI exCtxD.nf exCtxD.G0 exCtxD.tbl ((List.ofFn x).map vertAt) ∂Measure.pi (fun _ => pointMeasure 1 exCtxD.tbl) = -1 / 4 := by
    have : ∫ x : Fin 1 → Pt, ((List.ofFn x).map fun p => ((numStates exCtxD.tbl p.1 : ℕ) : ℝ)⁻¹).prod *
        weight exCtxD.NI exCtxD.nf exCtxD.G0 exCtxD.tbl ((List.ofFn x).map vertAt) ∂Measure.pi (fun _ => pointMeasure 1 exCtxD.tbl) =
        ∫ x : Fin 1 → Pt, (-1 / 4 : ℝ) ∂Measure.pi (fun _ => pointMeasure 1 exCtxD.tbl) := by
      refine integral_congr_ae ?_
      filter_upwards [ae_validPts 1 exCtxD.tbl 1] with x hx
      have h0 := hty hx 0
      rw [show List.ofFn x = [x 0] by simp [List.ofFn_succ], List.map_cons, List.map_nil, List.map_cons, List.map_nil,
        exD_weight1 (v := vertAt (x 0)) h0 rfl, h0, hone]
      simp
    rw [this, integral_const]
    simp [Measure.real, Measure.pi_univ, exD_point]
  have i2 : 0 ≤ ∫ x : Fin 2 → Pt, ((List.ofFn x).map fun p => ((numStates exCtxD.tbl p.1 : ℕ) : ℝ)⁻¹).prod *
      weight exCtxD.NI exCtxD.nf exCtxD.G0 exCtxD.tbl ((List.ofFn x).map vertAt) ∂Measure.pi (fun _ => pointMeasure 1 exCtxD.tbl) := by
    refine integral_nonneg_of_ae ?_
    filter_upwards [ae_validPts 1 exCtxD.tbl 2] with x hx
    rw [show List.ofFn x = [x 0, x 1] by simp [List.ofFn_succ], List.map_cons, List.map_cons, List.map_nil, List.map_cons, List.map_cons,
      List.map_nil, exD_weight2 (v := vertAt (x 0)) (w := vertAt (x 1)) (hty hx 0) rfl (hty hx 1) rfl]
    simp only [Pi.zero_apply, List.prod_cons, List.prod_nil]
    positivity
  rw [i0, i1]
  refine ne_of_gt ?_
  have : 0 ≤ (1 / ((2 : ℕ).factorial : ℝ)) * ∫ x : Fin 2 → Pt, ((List.ofFn x).map fun p => ((numStates exCtxD.tbl p.1 : ℕ) : ℝ)⁻¹).prod *
      weight exCtxD.NI exCtxD.nf exCtxD.G0 exCtxD.tbl ((List.ofFn x).map vertAt) ∂Measure.pi (fun _ => pointMeasure 1 exCtxD.tbl) :=
    mul_nonneg (by positivity) i2
  norm_num at this ⊢
  linarith

theorem ex_atStart_empty (m : Mgr) {c : Ctx ℝ} (ht : TblOK c.NI c.nf c.tbl) (beta : ℝ) (M : ℕ) :
    ∃ s : Sim ℝ, AtStart m c beta M s ∧ s.x.w.s.verts = [] := by
  obtain ⟨s, h1, h2⟩ := ex_reached m ht
  exact ⟨⟨⟨⟨s, ⟨0, 0⟩, 0⟩, ⟨0, 0⟩⟩, 0, false, []⟩, ⟨h1, by simp only; rw [h2]; intro p hp; simp [ptsOf] at hp,
    by simp only; rw [h2]; simp, rfl, rfl, rfl⟩, h2⟩

/-- The theorems apply to this case; those that need a bound from below do not. -/
example : ∃ s : Sim ℝ, ∀ᵐ u ∂streams, ∃ y : ℕ → Sim ℝ,
      (∀ n, Returns (fun fuel => s.passes ⟨1, 1, 1, ⟨1000, 10, 2⟩⟩ (Mgr.create 1 3 2 1 exCtxD.tbl) exMeasParD exCtxD
        (fun _ _ _ _ _ _ _ => 0) (fun _ _ _ => 0) u fuel (5 + n)) (y n) ∧ (y n).log.length = n) ∧
      ∃ ar : ℕ → Archive, (∀ᶠ n in Filter.atTop, postprocess 2 1 3 4 6 1 sphJ (fun _ _ => 0) ((y n).log.map fun r => r.values) = .ok (ar n)) ∧
        ArchiveTo exCtxD exMeasParD (fun t _ _ _ => min 1 |t|) 2 4 6 ar := by
  obtain ⟨s, hs, h0⟩ := ex_atStart_empty (Mgr.create 1 3 2 1 exCtxD.tbl) exD_tbl 1 2
  exact ⟨s, C89_archive exD_simOK exD_regular (by norm_num) exD_nonzero ⟨1, 1, 1, ⟨1000, 10, 2⟩⟩ one_pos (by decide) (by decide)
    exD_sum (fun _ _ _ => rfl) (by norm_num) 6 (fun _ _ _ => 0) hs h0 _ _⟩

/-! ### A case with configurations without weight that count for the density -/

/-- One term with α = 1/2, the density, for the first flavor and α = -1/2 for the second. -/
noncomputable def exTermB : VDef ℝ := ⟨2, [0, 1], [0, 0, 0, 0], 1, 1, fun _ r => if r = 0 then 1 / 2 else -1 / 2⟩

noncomputable def exCtxB : Ctx ℝ := ⟨100, 2, fun _ _ => 1 / 2, [exTermB]⟩

theorem exB_tbl : TblOK exCtxB.NI exCtxB.nf exCtxB.tbl where
  fl := by intro d hd; simp only [exCtxB, List.mem_singleton] at hd; subst hd; rfl
  si := by intro d hd; simp only [exCtxB, List.mem_singleton] at hd; subst hd; rfl
  lt := by
    intro d hd f hf
    simp only [exCtxB, List.mem_singleton] at hd
    subst hd
    simp only [exTermB, List.mem_cons, List.not_mem_nil, or_false] at hf
    show f < 2
    omega
  U := by
    intro d hd; simp only [exCtxB, List.mem_singleton] at hd; subst hd
    show (1 : ℝ) ≠ 0
    norm_num
  al := by
    intro d hd s _ r _
    simp only [exCtxB, List.mem_singleton] at hd
    subst hd
    show GoodAlpha (100 : ℝ) (if r = 0 then 1 / 2 else -1 / 2)
    unfold GoodAlpha
    split_ifs <;> norm_num

theorem exB_full : FullTerms exCtxB := by
  intro d hd
  simp only [exCtxB, List.mem_singleton] at hd
  subst hd
  refine ⟨by decide, fun fl hfl => ⟨fl, hfl, ?_⟩⟩
  have : fl < 2 := hfl
  rcases fl with _ | _ | fl
  · rfl
  · rfl
  · omega

theorem exB_regular : Regular exCtxB (fun _ _ _ _ => 1 / 2) 1 :=
  ⟨fun _ _ _ _ _ _ => measurable_const, fun a b => by show ‖(1 / 2 : ℝ)‖ ≤ 1; norm_num, fun _ _ _ => measurable_const, fun _ _ _ _ => by norm_num⟩

theorem exB_simOK {kIns maxOrder : ℕ} : SimOK exCtxB exMeasPar (fun _ _ _ _ => 1 / 2) (Mgr.create 1 kIns maxOrder 1 exCtxB.tbl) kIns maxOrder 1 := by
  refine ⟨exB_tbl, exB_full, by simp [exCtxB], one_pos, Nat.succ_pos 2, ?_, fun _ _ _ _ _ _ _ => rfl, zero_le_one, rfl⟩
  intro d hd s hs
  have : d = exTermB := List.mem_singleton.1 hd
  subst this
  simp only [exTermB, List.mem_cons, List.not_mem_nil, or_false] at hs
  show s < 1
  omega

theorem exB_rows {v : Vert} (h1 : v.type = 0) : rowsOf exCtxB.NI exCtxB.tbl [v] 0 = [rowOf exCtxB.NI exCtxB.tbl v 0] ∧
    rowsOf exCtxB.NI exCtxB.tbl [v] 1 = [rowOf exCtxB.NI exCtxB.tbl v 1] := by
  have ht : termOf exCtxB.tbl v = exTermB := by unfold termOf; rw [h1]; rfl
  constructor <;> simp [rowsOf, rowsV, ht, exTermB, flavorOf, List.range_succ, List.filter_cons]

theorem exB_weight {v : Vert} (h1 : v.type = 0) (h2 : v.nonInt = false) : weight exCtxB.NI exCtxB.nf exCtxB.G0 exCtxB.tbl [v] = 0 := by
  have ht : termOf exCtxB.tbl v = exTermB := by unfold termOf; rw [h1]; rfl
  have hi : interacting [v] = [v] := by simp [interacting, h2]
  unfold weight detWeight uWeight
  rw [hi]
  show (∏ fl ∈ Finset.range 2, _) * _ = _
  rw [Finset.prod_range_succ, Finset.prod_range_succ, Finset.prod_range_zero, (exB_rows h1).1]
  have : detN 1 (rowG exCtxB.G0 [rowOf exCtxB.NI exCtxB.tbl v 0]) = 0 := by
    unfold detN
    rw [Matrix.det_fin_one]
    simp only [toM_apply, rowG, specG, Fin.val_zero, if_true, List.getD_cons_zero, rowOf, fieldOf, h2, ht, Bool.false_eq_true, if_false]
    simp [exTermB, exCtxB]
  simp only [List.length_singleton]
  rw [this]
  simp

theorem exB_extra {v : Vert} (h1 : v.type = 0) (h2 : v.nonInt = false) (ε τ : ℝ) :
    weightExtra exCtxB (fun _ _ _ _ => 1 / 2) 0 ε τ 0 0 [v] = 1 / 4 := by
  have ht : termOf exCtxB.tbl v = exTermB := by unfold termOf; rw [h1]; rfl
  have hi : interacting [v] = [v] := by simp [interacting, h2]
  unfold weightExtra uWeight
  rw [hi]
  show (∏ fl ∈ Finset.range 2, _) * _ = _
  rw [Finset.prod_range_succ, Finset.prod_range_succ, Finset.prod_range_zero, (exB_rows h1).1, (exB_rows h1).2]
  simp only [List.length_singleton, if_true, one_ne_zero, if_false, List.map_cons, List.map_nil, List.prod_cons, List.prod_nil, ht]
  unfold detN
  rw [Matrix.det_fin_two, Matrix.det_fin_one]
  simp only [toM_apply, extraPair, rowG, specG, Fin.val_zero, Fin.val_one, List.getD_cons_zero, List.length_singleton, rowOf, fieldOf, h2, ht,
    Bool.false_eq_true, if_false]
  simp [exTermB, exCtxB]
  norm_num

theorem exB_extra_nil (ε τ : ℝ) : weightExtra exCtxB (fun _ _ _ _ => 1 / 2) 0 ε τ 0 0 [] = 1 / 2 := by
  unfold weightExtra uWeight
  show (∏ fl ∈ Finset.range 2, _) * _ = _
  rw [Finset.prod_range_succ, Finset.prod_range_succ, Finset.prod_range_zero]
  have r : ∀ fl, rowsOf exCtxB.NI exCtxB.tbl (interacting []) fl = [] := fun fl => rfl
  simp only [r, List.length_nil, if_true, one_ne_zero, if_false, List.map_nil, List.prod_nil, detN_zero]
  unfold detN
  rw [Matrix.det_fin_one]
  simp [toM_apply, extraPair, interacting]

theorem exB_type {n : ℕ} {x : Fin n → Pt} (hx : ValidPts 1 exCtxB.tbl (List.ofFn x)) (i : Fin n) : (x i).1 = 0 := by
  obtain ⟨h1, -⟩ := hx (x i) (by rw [List.mem_ofFn]; exact ⟨i, rfl⟩)
  simpa [exCtxB] using h1

/-- The sum over the configurations with at most one vertex of something that does not depend on the time. -/
theorem exB_configSum {F : List Pt → ℝ} {a b : ℝ} (h0 : F [] = a) (h1 : ∀ p : Pt, p.1 = 0 → F [p] = b) : configSum exCtxB 1 1 F = a + b := by
  unfold configSum
  rw [Finset.sum_range_succ, Finset.sum_range_one]
  congr 1
  · simp only [List.ofFn_zero, List.map_nil, List.prod_nil, h0, one_mul]
    rw [Measure.pi_of_empty]
    simp
  · have : ∫ x : Fin 1 → Pt, ((List.ofFn x).map fun p => ((numStates exCtxB.tbl p.1 : ℕ) : ℝ)⁻¹).prod * F (List.ofFn x)
        ∂Measure.pi (fun _ => pointMeasure 1 exCtxB.tbl) = ∫ x : Fin 1 → Pt, b ∂Measure.pi (fun _ => pointMeasure 1 exCtxB.tbl) := by
      refine integral_congr_ae ?_
      filter_upwards [ae_validPts 1 exCtxB.tbl 1] with x hx
      have hx0 := exB_type hx 0
      rw [show List.ofFn x = [x 0] by simp [List.ofFn_succ], h1 _ hx0, List.map_cons, List.map_nil, hx0,
        show numStates exCtxB.tbl 0 = 1 from rfl]
      simp
    have hp : pointMeasure 1 exCtxB.tbl Set.univ = 1 := by
      have := lintegral_point (beta := 1) (tbl := exCtxB.tbl) (g := fun _ => 1) measurable_const
      rw [lintegral_one] at this
      rw [this]
      simp [exCtxB, exTermB, numStates]
    rw [this, integral_const]
    simp [Measure.real, Measure.pi_univ, hp]

/-- **C89, the condition is needed.**  α equal to the density for one flavor, at most one vertex: with probability
    one the density that is printed (the average density over the average sign) converges to 1/2, while the density of the
    expansion is 3/4. -/
theorem C89_density_blind : ∃ s : Sim ℝ, AtStart (Mgr.create 1 3 1 1 exCtxB.tbl) exCtxB 1 1 s ∧ s.x.w.s.verts = [] ∧
    (∀ᵐ u ∂streams, ∃ y : ℕ → Sim ℝ,
      (∀ n, Returns (fun fuel => s.passes ⟨1, 1, 1, ⟨1000, 10, 2⟩⟩ (Mgr.create 1 3 1 1 exCtxB.tbl) exMeasPar exCtxB
        (fun _ _ _ _ _ _ _ => 0) (fun _ _ _ => 0) u fuel (5 + n)) (y n) ∧ (y n).log.length = n) ∧
      Filter.Tendsto (fun n => logMean (fun r => (r.dens.site 0).getD 0 0) (y n).log / logMean (fun r => r.sign) (y n).log)
        Filter.atTop (nhds (1 / 2))) ∧
    (configSum exCtxB 1 1 fun x => (1 / 1) * ∫ τ in (0 : ℝ)..1, weightExtra exCtxB (fun _ _ _ _ => 1 / 2) 0 (-1 * 1e-10) τ 0 0 (x.map vertAt)) /
      (configSum exCtxB 1 1 fun x => weight exCtxB.NI exCtxB.nf exCtxB.G0 exCtxB.tbl (x.map vertAt)) = 3 / 4 := by
  obtain ⟨s, hs, h0⟩ := ex_atStart_empty (Mgr.create 1 3 1 1 exCtxB.tbl) exB_tbl 1 1
  have hd : AlmostShrinks exCtxB 1 1 := by
    intro n hn
    obtain rfl : n = 0 := by omega
    refine Filter.Eventually.of_forall fun x _ => ⟨0, one_pos, ?_⟩
    rw [show List.ofFn x = [x 0] by simp [List.ofFn_succ]]
    simp only [List.eraseIdx_cons_zero, List.map_nil, weight_nil]
    exact one_ne_zero
  have e1 : (configSum exCtxB 1 1 fun x => weight exCtxB.NI exCtxB.nf exCtxB.G0 exCtxB.tbl (x.map vertAt)) = 1 := by
    rw [exB_configSum (a := 1) (b := 0) (by rw [List.map_nil, weight_nil]) fun p hp => by
      rw [List.map_cons, List.map_nil, exB_weight (v := vertAt p) hp rfl], add_zero]
  have e2 : (configSum exCtxB 1 1 fun x => if weight exCtxB.NI exCtxB.nf exCtxB.G0 exCtxB.tbl (x.map vertAt) = 0 then 0 else (1 / 1) *
      ∫ τ in (0 : ℝ)..1, weightExtra exCtxB (fun _ _ _ _ => 1 / 2) 0 (-1 * 1e-10) τ 0 0 (x.map vertAt)) = 1 / 2 := by
    rw [exB_configSum (a := 1 / 2) (b := 0) ?_ ?_, add_zero]
    · rw [List.map_nil, weight_nil, if_neg one_ne_zero]
      simp only [exB_extra_nil]
      simp
    · intro p hp
      rw [List.map_cons, List.map_nil, exB_weight (v := vertAt p) hp rfl, if_pos rfl]
  have e3 : (configSum exCtxB 1 1 fun x => (1 / 1) *
      ∫ τ in (0 : ℝ)..1, weightExtra exCtxB (fun _ _ _ _ => 1 / 2) 0 (-1 * 1e-10) τ 0 0 (x.map vertAt)) = 3 / 4 := by
    rw [exB_configSum (a := 1 / 2) (b := 1 / 4) ?_ ?_]
    · norm_num
    · rw [List.map_nil]
      simp only [exB_extra_nil]
      simp
    · intro p hp
      rw [List.map_cons, List.map_nil]
      simp only [exB_extra (v := vertAt p) hp rfl]
      simp
  refine ⟨s, hs, h0, ?_, by rw [e1, e3, div_one]⟩
  obtain ⟨h1, h2⟩ := C64_normalised exB_regular.bound (1 : ℝ) 1
  have hZ : (ensemble exCtxB 1 1 1).toReal ≠ 0 := (ENNReal.toReal_pos (by intro h0; rw [h0] at h1; simp at h1) h2.ne).ne'
  filter_upwards [C89_sign exB_simOK exB_regular (by norm_num) hd ⟨1, 1, 1, ⟨1000, 10, 2⟩⟩ one_pos (by decide) hs h0 (fun _ _ _ _ _ _ _ => 0) (fun _ _ _ => 0),
    C89_density_seen exB_simOK exB_regular (by norm_num) hd ⟨1, 1, 1, ⟨1000, 10, 2⟩⟩ one_pos (by decide) (z := 0) (i := 0) (show 0 < 2 by norm_num)
      (show 0 < 1 by norm_num) hs h0 (fun _ _ _ _ _ _ _ => 0) (fun _ _ _ => 0)] with u s1 s2
  have := s2.div s1 (div_ne_zero (by show (configSum exCtxB 1 1 fun x => weight exCtxB.NI exCtxB.nf exCtxB.G0 exCtxB.tbl (x.map vertAt)) ≠ 0; rw [e1]; exact one_ne_zero) hZ)
  rw [div_div_div_cancel_right₀ (show (ensemble exCtxB exMeasPar.beta 1 1).toReal ≠ 0 from hZ)] at this
  have e1' : (configSum exCtxB exMeasPar.beta 1 fun x => RCLike.re (weight exCtxB.NI exCtxB.nf exCtxB.G0 exCtxB.tbl (x.map vertAt))) = 1 := e1
  have e2' : (configSum exCtxB exMeasPar.beta 1 fun x => if weight exCtxB.NI exCtxB.nf exCtxB.G0 exCtxB.tbl (x.map vertAt) = 0 then 0 else (1 / exMeasPar.beta) *
      ∫ τ in (0 : ℝ)..exMeasPar.beta, weightExtra exCtxB (fun _ _ _ _ => 1 / 2) 0 (-exMeasPar.beta * 1e-10) τ 0 0 (x.map vertAt)) = 1 / 2 := e2
  rw [e1', e2', div_one] at this
  exact this

/-- The hypotheses of the theorems about the program can be met: three processes, the input of Props/Solver.lean. -/
example {S : Type} {is : IStream S} (dbg : Bool) (j : ReadJunk) : ∃ V : FullSolver ℝ, ∃ G : ℝ → ℕ → ℕ → ℕ → ℝ,
    ∀ᵐ u ∂(Measure.pi fun _ : Fin 3 => streams), ∀ k : ℕ → Fin 3 → ℕ, (∀ l, Completes ⟨l + 1, 10, 2⟩ (k l)) →
      ∃ ar : ℕ → Archive, ArchiveTo V.c V.q G 1 4 6 ar := by
  obtain ⟨V, e, -⟩ := ex_create (K := ℝ) (is := is) (S := S) dbg j
  refine ⟨V, ?_⟩
  obtain ⟨G, -, h⟩ := C89_program (mem := fun _ : Fin 3 => (⟨j, fun _ _ _ _ _ _ _ => 0, fun _ _ _ => 0⟩ : Memory ℝ)) (V := V) (fun _ => e)
    (by norm_num) ex_params (ex_terms e) rfl (by norm_num [exParams]) (by norm_num [exParams]) (by norm_num [exParams])
    (AlmostNonzero.of_lower (w := 0.2601) (by norm_num) fun x hx hn => (ex_weights e x hx hn).trans (le_abs_self _)) (ex_sum e)
    (sj := sphJ) (fun _ _ _ => rfl) 6 (fun _ _ _ => 0) (ex_uniform 3)
  refine ⟨G, ?_⟩
  filter_upwards [h] with u hu k hC
  obtain ⟨rs, ar, -, -, h2⟩ := hu (fun l => l + 1) k (Filter.tendsto_add_atTop_nat 1) hC
  exact ⟨ar, h2⟩

end CTInt
