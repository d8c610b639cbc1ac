import Verif.Proofs.SelfComplex
import Verif.Props.Postprocess

/-!
# The self-energy that is written, for real or complex weights (C77)
-/

set_option linter.all false

namespace CTInt

open MeasureTheory

variable {K : Type} [RCLike K] [DecidableEq K]
variable {kIns maxOrder : ℕ} {sz B w : ℝ} {m : Mgr}
variable {c : Ctx K} {q : MeasPar K} {G : ℝ → ℕ → ℕ → ℕ → K}

/-- Averages over the same simulation. -/
theorem Settles.atK {a : SimPar} {J : ℕ → ℕ → ℕ → ℕ → ℕ → ℕ → ℕ → K} {junk : ℕ → ℕ → ℕ → K} {s : Sim K} {f : Record → ℝ} {x : ℝ} {u : ℕ → ℝ}
    (h : Settles a m q c J junk s f x u) {y : ℕ → Sim K}
    (hy : ∀ n, Returns (fun fuel => s.passes a m q c J junk u fuel (a.steps.therm / a.steps.period + n)) (y n)) :
    Filter.Tendsto (fun n => recMean f ((y n).log.map fun r => r.values)) Filter.atTop (nhds x) := by
  obtain ⟨z, z1, z2⟩ := h
  have e : z = y := funext fun n => (z1 n).1.unique (hy n)
  subst e
  simpa only [logMean_eq] using z2

/-- The averages of the recorded values that enter the self-energy, with their limits. -/
def TracksC (c : Ctx K) (q : MeasPar K) (G : ℝ → ℕ → ℕ → ℕ → K) (maxOrder : ℕ) (M : (Record → ℝ) → ℝ → Prop) : Prop :=
  M (fun r => r.sign) ((partitionC c q.beta maxOrder).re / (ensemble c q.beta maxOrder 1).toReal) ∧
  (∀ z < c.nf, M (fun r => r.pertOrder.getD z 0)
    ((configSum c q.beta maxOrder fun x => ‖weight c.NI c.nf c.G0 c.tbl (x.map vertAt)‖ * (rowsOf c.NI c.tbl (x.map vertAt) z).length) /
      (ensemble c q.beta maxOrder 1).toReal)) ∧
  (∀ z < c.nf, ∀ i < q.ns, ∀ j < q.ns, ∀ b < q.nb, M (fun r => (r.stauRe z i j).getD b 0)
    ((sigmaSum c G q.beta maxOrder q.nb z i j b).re / (ensemble c q.beta maxOrder 1).toReal)) ∧
  (∀ z < c.nf, ∀ i < q.ns, ∀ j < q.ns, ∀ b < q.nb, M (fun r => (r.stauIm z i j).getD b 0)
    ((sigmaSum c G q.beta maxOrder q.nb z i j b).im / (ensemble c q.beta maxOrder 1).toReal))

theorem TracksC.mono {M M' : (Record → ℝ) → ℝ → Prop} (h : TracksC c q G maxOrder M) (hM : ∀ f x, M f x → M' f x) :
    TracksC c q G maxOrder M' := by
  obtain ⟨h0, h1, h2, h3⟩ := h
  exact ⟨hM _ _ h0, fun z hz => hM _ _ (h1 z hz), fun z hz i hi j hj b hb => hM _ _ (h2 z hz i hi j hj b hb),
    fun z hz i hi j hj b hb => hM _ _ (h3 z hz i hi j hj b hb)⟩

/-- The averages over one simulation. -/
theorem tracksC_of (h : SimOK c q G m kIns maxOrder sz) (hr : Regular c G B) (hns : 0 < q.nShifts) {a : SimPar}
    {s : Sim K} {J : ℕ → ℕ → ℕ → ℕ → ℕ → ℕ → ℕ → K} {junk : ℕ → ℕ → ℕ → K} (hA : AllSettle a m q c J junk s maxOrder) :
    ∀ᵐ u ∂streams, GoodS u ∧ TracksC c q G maxOrder fun f x => Settles a m q c J junk s f x u := by
  have a0 := hA.use (estimates_sign h hr).1 fun _ _ => rfl
  have a1 : ∀ᵐ u ∂streams, ∀ z < c.nf, Settles a m q c J junk s (fun r => r.pertOrder.getD z 0)
      ((configSum c q.beta maxOrder fun x => ‖weight c.NI c.nf c.G0 c.tbl (x.map vertAt)‖ * (rowsOf c.NI c.tbl (x.map vertAt) z).length) /
        (ensemble c q.beta maxOrder 1).toReal) u := by
    simp only [ae_all_iff]
    exact fun z hz => hA.use (estimates_order h hr hz) (fun _ _ => rfl)
  have a2 : ∀ᵐ u ∂streams, ∀ z < c.nf, ∀ i < q.ns, ∀ j < q.ns, ∀ b < q.nb, Settles a m q c J junk s (fun r => (r.stauRe z i j).getD b 0)
      ((sigmaSum c G q.beta maxOrder q.nb z i j b).re / (ensemble c q.beta maxOrder 1).toReal) u := by
    simp only [ae_all_iff]
    intro z hz i hi j hj b hb
    have hE := estimates_self_part h hr hns hz hi hj hb (RCLike.reCLM : K →L[ℝ] ℝ) RCLike.abs_re_le_norm (val := fun r => (r.stauRe z i j).getD b 0)
      fun r x e => congrArg Complex.re e
    exact hA.use (T' := fun x => RCLike.re (((1 / q.beta : ℝ) : K) * ∫ t in (0 : ℝ)..q.beta, binnedSum c q.beta q.nb b G z i j t (x.map vertAt)))
      hE fun _ h0 => if_neg h0
  have a3 : ∀ᵐ u ∂streams, ∀ z < c.nf, ∀ i < q.ns, ∀ j < q.ns, ∀ b < q.nb, Settles a m q c J junk s (fun r => (r.stauIm z i j).getD b 0)
      ((sigmaSum c G q.beta maxOrder q.nb z i j b).im / (ensemble c q.beta maxOrder 1).toReal) u := by
    simp only [ae_all_iff]
    intro z hz i hi j hj b hb
    have hE := estimates_self_part h hr hns hz hi hj hb (RCLike.imCLM : K →L[ℝ] ℝ) RCLike.abs_im_le_norm (val := fun r => (r.stauIm z i j).getD b 0)
      fun r x e => congrArg Complex.im e
    exact hA.use (T' := fun x => RCLike.im (((1 / q.beta : ℝ) : K) * ∫ t in (0 : ℝ)..q.beta, binnedSum c q.beta q.nb b G z i j t (x.map vertAt)))
      hE fun _ h0 => if_neg h0
  filter_upwards [ae_good, a0, a1, a2, a3] with u hu b0 b1 b2 b3
  exact ⟨hu, b0, b1, b2, b3⟩

theorem ae_tracksC (h : SimOK c q G m kIns maxOrder sz) (hr : Regular c G B) (hk : 0 < kIns) (hw : 0 < w)
    (hlow : ∀ x, ValidPts q.beta c.tbl x → x.length ≤ maxOrder → w ≤ ‖weight c.NI c.nf c.G0 c.tbl (x.map vertAt)‖)
    (a : SimPar) (ha : 0 < a.nIR) (hp : 0 < a.steps.period) (hns : 0 < q.nShifts)
    {s : Sim K} (hs : AtStart m c q.beta maxOrder s) (J : ℕ → ℕ → ℕ → ℕ → ℕ → ℕ → ℕ → K) (junk : ℕ → ℕ → ℕ → K) :
    ∀ᵐ u ∂streams, GoodS u ∧ TracksC c q G maxOrder fun f x => Settles a m q c J junk s f x u :=
  tracksC_of h hr hns fun _ _ _ _ hE hT => settle_gen h hr hk hw hlow a ha hp hE hT hs J junk

/-- If the averages converge, so does the self-energy that is written. -/
theorem self_of_means (h : SimOK c q G m kIns maxOrder sz) (hr : Regular c G B)
    (hS : (partitionC c q.beta maxOrder).re ≠ 0)
    {sj : ℕ → ℝ → ℝ} (hsj : IsSphBessel sj) {nl : ℕ} (hnl : 0 < nl) (nm : ℕ) (junkP : ℕ → ℕ → ℕ → ℝ)
    {L : ℕ → List Record} (hne : ∀ᶠ n in Filter.atTop, L n ≠ []) (hshape : ∀ n, ∀ r ∈ L n, RecShape c.nf q.ns q.nb r)
    (hT : TracksC c q G maxOrder fun f x => Filter.Tendsto (fun n => recMean f (L n)) Filter.atTop (nhds x)) :
    ∃ ar : ℕ → Archive, (∀ᶠ n in Filter.atTop, postprocess c.nf q.ns q.nb nl nm q.beta sj (junkP n) (L n) = .ok (ar n)) ∧
      SelfTo c q G maxOrder nl nm ((partitionC c q.beta maxOrder).re : ℂ) ar := by
  obtain ⟨t0, b1, b2, b3⟩ := hT
  obtain ⟨hZ1, hZ0⟩ := configSum_norm (beta := q.beta) hr.bound hr.meas maxOrder
  have hZ1 : (configSum c q.beta maxOrder fun x => ‖weight c.NI c.nf c.G0 c.tbl (x.map vertAt)‖) = (ensemble c q.beta maxOrder 1).toReal := hZ1
  have hσ : (partitionC c q.beta maxOrder).re / (ensemble c q.beta maxOrder 1).toReal ≠ 0 := div_ne_zero hS hZ0.ne'
  have hgood : ∀ᶠ n in Filter.atTop, L n ≠ [] ∧ recMean (fun r => r.sign) (L n) ≠ 0 := by
    filter_upwards [hne, t0.eventually_ne hσ] with n h1 h2
    exact ⟨h1, h2⟩
  obtain ⟨ar, har⟩ := pick_where (P := fun n => L n ≠ [] ∧ recMean (fun r => r.sign) (L n) ≠ 0)
    (⟨[], 0, fun _ => 0, fun _ => 0, fun _ => 0, [], fun _ _ _ _ => 0⟩ : Archive) fun n h0 =>
    postprocess_spec c.nf q.ns q.nb nl nm hnl q.beta sj (junkP n) h0.1 (hshape n) h0.2
  refine ⟨ar, hgood.mono fun n hn => (har n hn).1, ?_⟩
  have c0 : Filter.Tendsto (fun n => (ar n).sign) Filter.atTop (nhds ((partitionC c q.beta maxOrder).re / (ensemble c q.beta maxOrder 1).toReal)) :=
    t0.congr' (hgood.mono fun n hn => (har n hn).2.2.1.symm)
  have c1 : ∀ z < c.nf, ∀ i < q.ns, ∀ j < q.ns, ∀ b < q.nb, Filter.Tendsto (fun n => (ar n).tau (off4 q.ns q.ns c.nf b i j z)) Filter.atTop
      (nhds (sigmaSum c G q.beta maxOrder q.nb z i j b / ((partitionC c q.beta maxOrder).re : ℂ))) := by
    intro z hz i hi j hj b hb
    have t1 := ((Complex.continuous_ofReal.tendsto _).comp (b2 z hz i hi j hj b hb)).add
      (((Complex.continuous_ofReal.tendsto _).comp (b3 z hz i hi j hj b hb)).mul_const Complex.I)
    have t2 := t1.div ((Complex.continuous_ofReal.tendsto _).comp c0) (by exact_mod_cast hσ)
    have hZc : (((ensemble c q.beta maxOrder 1).toReal : ℝ) : ℂ) ≠ 0 := by exact_mod_cast hZ0.ne'
    have e : (((sigmaSum c G q.beta maxOrder q.nb z i j b).re / (ensemble c q.beta maxOrder 1).toReal : ℝ) +
        ((sigmaSum c G q.beta maxOrder q.nb z i j b).im / (ensemble c q.beta maxOrder 1).toReal : ℝ) * Complex.I) /
        (((partitionC c q.beta maxOrder).re / (ensemble c q.beta maxOrder 1).toReal : ℝ) : ℂ) =
        sigmaSum c G q.beta maxOrder q.nb z i j b / ((partitionC c q.beta maxOrder).re : ℂ) := by
      generalize sigmaSum c G q.beta maxOrder q.nb z i j b = X
      rw [Complex.ofReal_div, Complex.ofReal_div, Complex.ofReal_div, div_mul_eq_mul_div, ← add_div, div_div_div_cancel_right₀ hZc,
        Complex.re_add_im]
    rw [e] at t2
    refine t2.congr' (hgood.mono fun n hn => ?_)
    show _ = (ar n).tau (off4 q.ns q.ns c.nf b i j z)
    rw [(har n hn).2.2.2.1 z hz i hi j hj b hb]
    congr 1
    apply Complex.ext <;> simp <;> rfl
  have c2 : ∀ z < c.nf, ∀ i < q.ns, ∀ j < q.ns, ∀ l < nl, Filter.Tendsto (fun n => (ar n).legendre (off4 q.ns q.ns c.nf l i j z)) Filter.atTop
      (nhds (sigmaSumLegendre c G q.beta maxOrder q.nb z i j l / ((partitionC c q.beta maxOrder).re : ℂ))) := by
    intro z hz i hi j hj l hl
    have t1 := tendsto_finset_sum (Finset.range q.nb) fun b hb =>
      ((c1 z hz i hi j hj b (Finset.mem_range.1 hb)).const_mul
        ((Real.sqrt (2 * l + 1) * (legendreP l).eval (((b : ℝ) + 1 / 2) * (2 / q.nb) - 1) : ℝ) : ℂ)).mul_const ((q.beta / q.nb : ℝ) : ℂ)
    have e : (∑ b ∈ Finset.range q.nb, ((Real.sqrt (2 * l + 1) * (legendreP l).eval (((b : ℝ) + 1 / 2) * (2 / q.nb) - 1) : ℝ) : ℂ) *
        (sigmaSum c G q.beta maxOrder q.nb z i j b / ((partitionC c q.beta maxOrder).re : ℂ)) * ((q.beta / q.nb : ℝ) : ℂ)) =
        sigmaSumLegendre c G q.beta maxOrder q.nb z i j l / ((partitionC c q.beta maxOrder).re : ℂ) := by
      unfold sigmaSumLegendre
      rw [Finset.sum_div]
      refine Finset.sum_congr rfl fun b _ => ?_
      have hb := h.hb.ne'
      have : (2 : ℝ) * (q.beta * ((b : ℝ) + 1 / 2) / q.nb) / q.beta - 1 = ((b : ℝ) + 1 / 2) * (2 / q.nb) - 1 := by
        field_simp
      rw [this]
      ring
    rw [e] at t1
    exact t1.congr' (hgood.mono fun n hn => ((har n hn).2.2.2.2.1 z hz i hi j hj l hl).symm)
  refine ⟨?_, ?_, c1, c2, ?_⟩
  · rw [hZ1, Complex.ofReal_re]
    exact c0
  · intro z hz
    rw [hZ1]
    refine (b1 z hz).congr' (hgood.mono fun n hn => ?_)
    show _ = (ar n).matrixSize.getD z 0
    rw [(har n hn).2.1, getD_rangeMap hz]
  · intro z hz i hi j hj k hk'
    have t1 := tendsto_finset_sum (Finset.range nl) fun l hl => (c2 z hz i hi j hj l (Finset.mem_range.1 hl)).const_mul (tnl sj nm nl k l)
    rw [← fourier_expansion hsj h.hb hk' fun l => sigmaSumLegendre c G q.beta maxOrder q.nb z i j l / ((partitionC c q.beta maxOrder).re : ℂ)] at t1
    exact t1.congr' (hgood.mono fun n hn => ((har n hn).2.2.2.2.2.1 z hz i hi j hj k hk').symm)

/-- From the averages to the file. -/
theorem self_core (h : SimOK c q G m kIns maxOrder sz) (hr : Regular c G B) (a : SimPar) (hp : 0 < a.steps.period)
    (hS : (partitionC c q.beta maxOrder).re ≠ 0)
    {sj : ℕ → ℝ → ℝ} (hsj : IsSphBessel sj) {nl : ℕ} (hnl : 0 < nl) (nm : ℕ) (junkP : ℕ → ℕ → ℕ → ℝ)
    {s : Sim K} (hs : AtStart m c q.beta maxOrder s) {J : ℕ → ℕ → ℕ → ℕ → ℕ → ℕ → ℕ → K} {junk : ℕ → ℕ → ℕ → K}
    (hA : ∀ᵐ u ∂streams, GoodS u ∧ TracksC c q G maxOrder fun f x => Settles a m q c J junk s f x u) :
    ∀ᵐ u ∂streams, ∃ y : ℕ → Sim K,
      (∀ n, Returns (fun fuel => s.passes a m q c J junk u fuel (a.steps.therm / a.steps.period + n)) (y n) ∧ (y n).log.length = n) ∧
      ∃ ar : ℕ → Archive, (∀ᶠ n in Filter.atTop, postprocess c.nf q.ns q.nb nl nm q.beta sj (junkP n) ((y n).log.map fun r => r.values) = .ok (ar n)) ∧
        SelfTo c q G maxOrder nl nm ((partitionC c q.beta maxOrder).re : ℂ) ar := by
  filter_upwards [hA] with u hu
  obtain ⟨hu, hT⟩ := hu
  obtain ⟨y, y1, -⟩ := id hT.1
  refine ⟨y, y1, ?_⟩
  refine self_of_means h hr hS hsj hnl nm junkP ?_ (fun n r hr => ?_) (hT.mono fun f x h1 => h1.atK fun n => (y1 n).1)
  · filter_upwards [Filter.eventually_ge_atTop 1] with n h1 h0
    have := congrArg List.length h0
    rw [List.length_map, (y1 n).2] at this
    simp at this
    omega
  · rw [List.mem_map] at hr
    obtain ⟨r', hr', rfl⟩ := hr
    exact log_all h (fun s y u junk p r p' h1 h2 h3 h4 => record_shape h4) a hp hs J junk hu n (y1 n).1 r' hr'

/-- **C77.**  With real or complex weights: with probability one every number of passes returns, once there are enough measurements
    `postprocess` writes an archive, and as their number grows the sign, the sizes of the matrices and the self-energy (in the
    bins, its Legendre coefficients, at the frequencies) converge to the sums of the expansion, divided by the real part of the
    partition function. -/
theorem C77_self_energy (h : SimOK c q G m kIns maxOrder sz) (hr : Regular c G B) (hk : 0 < kIns) (hw : 0 < w)
    (hlow : ∀ x, ValidPts q.beta c.tbl x → x.length ≤ maxOrder → w ≤ ‖weight c.NI c.nf c.G0 c.tbl (x.map vertAt)‖)
    (a : SimPar) (ha : 0 < a.nIR) (hp : 0 < a.steps.period) (hns : 0 < q.nShifts)
    (hS : (partitionC c q.beta maxOrder).re ≠ 0)
    {sj : ℕ → ℝ → ℝ} (hsj : IsSphBessel sj) {nl : ℕ} (hnl : 0 < nl) (nm : ℕ) (junkP : ℕ → ℕ → ℕ → ℝ)
    {s : Sim K} (hs : AtStart m c q.beta maxOrder s) (J : ℕ → ℕ → ℕ → ℕ → ℕ → ℕ → ℕ → K) (junk : ℕ → ℕ → ℕ → K) :
    ∀ᵐ u ∂streams, ∃ y : ℕ → Sim K,
      (∀ n, Returns (fun fuel => s.passes a m q c J junk u fuel (a.steps.therm / a.steps.period + n)) (y n) ∧ (y n).log.length = n) ∧
      ∃ ar : ℕ → Archive, (∀ᶠ n in Filter.atTop, postprocess c.nf q.ns q.nb nl nm q.beta sj (junkP n) ((y n).log.map fun r => r.values) = .ok (ar n)) ∧
        SelfTo c q G maxOrder nl nm ((partitionC c q.beta maxOrder).re : ℂ) ar :=
  self_core h hr a hp hS hsj hnl nm junkP hs (ae_tracksC h hr hk hw hlow a ha hp hns hs J junk)

/-- **C77.**  If the partition function is real, as it is for a Hermitian Hamiltonian, these are the expectation values of the
    expansion: the sums divided by the partition function. -/
theorem C77_self_energy_real (h : SimOK c q G m kIns maxOrder sz) (hr : Regular c G B) (hk : 0 < kIns) (hw : 0 < w)
    (hlow : ∀ x, ValidPts q.beta c.tbl x → x.length ≤ maxOrder → w ≤ ‖weight c.NI c.nf c.G0 c.tbl (x.map vertAt)‖)
    (a : SimPar) (ha : 0 < a.nIR) (hp : 0 < a.steps.period) (hns : 0 < q.nShifts)
    (hR : (partitionC c q.beta maxOrder).im = 0) (hS : partitionC c q.beta maxOrder ≠ 0)
    {sj : ℕ → ℝ → ℝ} (hsj : IsSphBessel sj) {nl : ℕ} (hnl : 0 < nl) (nm : ℕ) (junkP : ℕ → ℕ → ℕ → ℝ)
    {s : Sim K} (hs : AtStart m c q.beta maxOrder s) (J : ℕ → ℕ → ℕ → ℕ → ℕ → ℕ → ℕ → K) (junk : ℕ → ℕ → ℕ → K) :
    ∀ᵐ u ∂streams, ∃ y : ℕ → Sim K,
      (∀ n, Returns (fun fuel => s.passes a m q c J junk u fuel (a.steps.therm / a.steps.period + n)) (y n) ∧ (y n).log.length = n) ∧
      ∃ ar : ℕ → Archive, (∀ᶠ n in Filter.atTop, postprocess c.nf q.ns q.nb nl nm q.beta sj (junkP n) ((y n).log.map fun r => r.values) = .ok (ar n)) ∧
        SelfTo c q G maxOrder nl nm (partitionC c q.beta maxOrder) ar := by
  have e : ((partitionC c q.beta maxOrder).re : ℂ) = partitionC c q.beta maxOrder := Complex.ext rfl (by rw [hR]; rfl)
  have := C77_self_energy h hr hk hw hlow a ha hp hns (fun h0 => hS (Complex.ext h0 hR)) hsj hnl nm junkP hs J junk
  rwa [e] at this

/-! A concrete case: one term with complex conjugate fields in its two states; the weight of one vertex is 1 - 2i or 1 + 2i. -/

noncomputable def exTermR : VDef ℂ :=
  ⟨2, [0, 1], [0, 0, 0, 0], 2, -4 / 3, fun s r => if r = 0 then if s = 0 then Complex.I else -Complex.I else -1⟩

noncomputable def exCtxR : Ctx ℂ := ⟨100, 2, fun _ _ => 1 / 2, [exTermR]⟩

noncomputable def exMeasParR : MeasPar ℂ := ⟨1, 1, ⟨0, fun _ => 0, fun _ => 0⟩, fun _ _ _ _ => .ok (1 / 2), 2, 3⟩

theorem exR_tbl : TblOK exCtxR.NI exCtxR.nf exCtxR.tbl where
  fl := by intro d hd; simp only [exCtxR, List.mem_singleton] at hd; subst hd; rfl
  si := by intro d hd; simp only [exCtxR, List.mem_singleton] at hd; subst hd; rfl
  lt := by
    intro d hd f hf
    simp only [exCtxR, List.mem_singleton] at hd
    subst hd
    simp only [exTermR, List.mem_cons, List.not_mem_nil, or_false] at hf
    show f < 2
    omega
  U := by
    intro d hd; simp only [exCtxR, List.mem_singleton] at hd; subst hd
    show (-4 / 3 : ℂ) ≠ 0
    norm_num
  al := by
    intro d hd s _ r _
    simp only [exCtxR, List.mem_singleton] at hd
    subst hd
    show GoodAlpha (100 : ℂ) (if r = 0 then if s = 0 then Complex.I else -Complex.I else -1)
    unfold GoodAlpha
    split
    · split <;> refine ⟨?_, ?_, ?_⟩ <;> · intro h; have := congrArg Complex.im h; norm_num at this
    · norm_num

theorem exR_full : FullTerms exCtxR := by
  intro d hd
  simp only [exCtxR, List.mem_singleton] at hd
  subst hd
  refine ⟨by decide, fun fl hfl => ⟨fl, hfl, ?_⟩⟩
  have : fl < 2 := hfl
  rcases fl with _ | _ | fl
  · rfl
  · rfl
  · omega

theorem exR_weight {p : Pt} (h1 : p.1 = 0) :
    weight exCtxR.NI exCtxR.nf exCtxR.G0 exCtxR.tbl [vertAt p] = if p.2.1 = 0 then 1 - 2 * Complex.I else 1 + 2 * Complex.I := by
  have h1 : (vertAt p).type = 0 := h1
  have ht : termOf exCtxR.tbl (vertAt p) = exTermR := by unfold termOf; rw [h1]; rfl
  have r0 : rowsOf exCtxR.NI exCtxR.tbl [vertAt p] 0 = [rowOf exCtxR.NI exCtxR.tbl (vertAt p) 0] := by
    simp [rowsOf, rowsV, ht, exTermR, flavorOf, List.range_succ, List.filter_cons]
  have r1 : rowsOf exCtxR.NI exCtxR.tbl [vertAt p] 1 = [rowOf exCtxR.NI exCtxR.tbl (vertAt p) 1] := by
    simp [rowsOf, rowsV, ht, exTermR, flavorOf, List.range_succ, List.filter_cons]
  unfold weight detWeight uWeight
  rw [show interacting [vertAt p] = [vertAt p] from rfl]
  show (∏ fl ∈ Finset.range 2, _) * _ = _
  rw [Finset.prod_range_succ, Finset.prod_range_succ, Finset.prod_range_zero, r0, r1]
  simp only [List.length_singleton, List.map_cons, List.map_nil, List.prod_cons, List.prod_nil, ht]
  unfold detN
  rw [Matrix.det_fin_one, Matrix.det_fin_one]
  have h2 : (vertAt p).nonInt = false := rfl
  have h3 : (vertAt p).af.toNat = p.2.1 := by simp [vertAt]
  simp only [toM_apply, rowG, specG, Fin.val_zero, if_true, List.getD_cons_zero, rowOf, fieldOf, h2, h3, ht,
    Bool.false_eq_true, if_false]
  simp only [exTermR, exCtxR]
  by_cases h4 : p.2.1 = 0
  · simp only [h4, if_true]
    norm_num
    ring
  · simp only [h4, if_false, if_true]
    norm_num
    ring

theorem exR_sum (g : ℕ → ℝ) (f0 : ℝ) {F : List Pt → ℝ} (h0 : F [] = f0) (h1 : ∀ p : Pt, p.1 = 0 → F [p] = g p.2.1) :
    configSum exCtxR 1 1 F = f0 + (g 0 + g 1) / 2 := by
  unfold configSum
  rw [Finset.sum_range_succ, Finset.sum_range_succ, Finset.sum_range_zero, zero_add]
  congr 1
  · have : ∀ x : Fin 0 → Pt, ((List.ofFn x).map fun p => ((numStates exCtxR.tbl p.1 : ℕ) : ℝ)⁻¹).prod * F (List.ofFn x) = f0 := by
      intro x
      simp [h0]
    simp only [this, integral_const]
    simp [Measure.real, Measure.pi_univ]
  · have e : ∫ x : Fin 1 → Pt, ((List.ofFn x).map fun p => ((numStates exCtxR.tbl p.1 : ℕ) : ℝ)⁻¹).prod * F (List.ofFn x)
        ∂Measure.pi (fun _ => pointMeasure 1 exCtxR.tbl) =
        ∫ x : Fin 1 → Pt, 1 / 2 * g (x 0).2.1 ∂Measure.pi (fun _ => pointMeasure 1 exCtxR.tbl) := by
      refine integral_congr_ae ?_
      filter_upwards [ae_validPts 1 exCtxR.tbl 1] with x hx
      rw [show List.ofFn x = [x 0] by simp] at hx ⊢
      obtain ⟨q1, q2, -⟩ := hx (x 0) (by simp)
      have q1 : (x 0).1 = 0 := by simpa [exCtxR] using q1
      have hn : numStates exCtxR.tbl (x 0).1 = 2 := by rw [q1]; rfl
      rw [h1 _ q1, List.map_singleton, List.prod_singleton, hn]
      norm_num
    have hg : Measurable fun p : Pt => 1 / 2 * g p.2.1 := by
      have : Measurable fun k : ℕ => 1 / 2 * g k := measurable_from_top
      exact this.comp (measurable_fst.comp measurable_snd)
    have e2 : ∫ x : Fin 1 → Pt, 1 / 2 * g (x 0).2.1 ∂Measure.pi (fun _ => pointMeasure 1 exCtxR.tbl) =
        ∫ p, 1 / 2 * g p.2.1 ∂pointMeasure 1 exCtxR.tbl := by
      have hmp := measurePreserving_funUnique (pointMeasure 1 exCtxR.tbl) (Fin 1)
      exact hmp.integral_comp (MeasurableEquiv.measurableEmbedding _) (fun p : Pt => 1 / 2 * g p.2.1)
    rw [e, e2]
    unfold pointMeasure
    have hm : ∀ t f : ℕ, ∫ p, 1 / 2 * g p.2.1 ∂((volume.restrict (Set.Ico (0 : ℝ) 1)).map fun τ => ((t, f, τ) : Pt)) = 1 / 2 * g f := by
      intro t f
      rw [integral_map (measurable_point t f).aemeasurable hg.aestronglyMeasurable]
      simp
    have hi : ∀ t f : ℕ, Integrable (fun p : Pt => 1 / 2 * g p.2.1) ((volume.restrict (Set.Ico (0 : ℝ) 1)).map fun τ => ((t, f, τ) : Pt)) := by
      intro t f
      rw [integrable_map_measure hg.aestronglyMeasurable (measurable_point t f).aemeasurable]
      exact (integrable_const (1 / 2 * g f) : Integrable (fun _ : ℝ => 1 / 2 * g f) (volume.restrict (Set.Ico (0 : ℝ) 1)))
    show 1 / ((Nat.factorial 1 : ℕ) : ℝ) * ∫ p, 1 / 2 * g p.2.1 ∂(∑ t ∈ Finset.range 1, ∑ f ∈ Finset.range 2,
      (volume.restrict (Set.Ico (0 : ℝ) 1)).map fun τ => ((t, f, τ) : Pt)) = _
    rw [Finset.sum_range_one, Finset.sum_range_succ, Finset.sum_range_one, integral_add_measure (hi 0 0) (hi 0 1), hm, hm]
    norm_num
    ring

/-- The partition function is 2. -/
theorem exR_Z : partitionC exCtxR exMeasParR.beta 1 = 2 := by
  unfold partitionC configSumC
  rw [show exMeasParR.beta = 1 from rfl]
  apply Complex.ext
  · simp only []
    rw [exR_sum (fun _ => 1) 1 (by rw [List.map_nil, weight_nil]; simp) fun p hp => by
      rw [List.map_cons, List.map_nil, exR_weight hp]; split <;> simp]
    norm_num
  · simp only []
    rw [exR_sum (fun s => if s = 0 then -2 else 2) 0 (by rw [List.map_nil, weight_nil]; simp) fun p hp => by
      rw [List.map_cons, List.map_nil, exR_weight hp]; split <;> simp]
    norm_num

theorem exR_low (x : List Pt) (hx : ValidPts exMeasParR.beta exCtxR.tbl x) (hn : x.length ≤ 1) :
    1 ≤ ‖weight exCtxR.NI exCtxR.nf exCtxR.G0 exCtxR.tbl (x.map vertAt)‖ := by
  match x, hx, hn with
  | [], _, _ => rw [List.map_nil, weight_nil]; simp
  | [v], hx, _ =>
    have h1 : v.1 = 0 := by simpa [exCtxR] using (hx v (by simp)).1
    rw [List.map_cons, List.map_nil, exR_weight h1]
    refine le_trans ?_ (Complex.abs_re_le_norm _)
    split <;> simp

/-- The hypotheses of both theorems can be met, with weights that are not real. -/
example : ∃ s : Sim ℂ, ∀ᵐ u ∂streams, ∃ y : ℕ → Sim ℂ,
      (∀ n, Returns (fun fuel => s.passes ⟨1, 1, 1, ⟨1000, 10, 2⟩⟩ (Mgr.create 1 3 1 1 exCtxR.tbl) exMeasParR exCtxR
        (fun _ _ _ _ _ _ _ => 0) (fun _ _ _ => 0) u fuel (5 + n)) (y n) ∧ (y n).log.length = n) ∧
      ∃ ar : ℕ → Archive, (∀ᶠ n in Filter.atTop, postprocess 2 1 3 4 6 1 sphJ (fun _ _ => 0) ((y n).log.map fun r => r.values) = .ok (ar n)) ∧
        SelfTo exCtxR exMeasParR (fun _ _ _ _ => 1 / 2) 1 4 6 (partitionC exCtxR exMeasParR.beta 1) ar := by
  obtain ⟨s0, e0, m0⟩ := create_means exR_tbl (empty_goodStart exCtxR)
  have hv : s0.verts = [] := m0.cfg
  have hs : AtStart (Mgr.create 1 3 1 1 exCtxR.tbl) exCtxR exMeasParR.beta 1 ⟨⟨⟨s0, ⟨0, 0⟩, 0⟩, ⟨0, 0⟩⟩, 0, false, []⟩ :=
    ⟨⟨_, s0, ⟨0, 0⟩, 0, fun _ _ _ _ _ _ => 0, fun _ => 0, 0, [], ⟨s0, ⟨0, 0⟩, 0⟩, empty_goodStart exCtxR, fun _ => ⟨le_rfl, one_pos⟩,
      e0, rfl, rfl⟩, by simp only; rw [hv]; intro p hp; simp [ptsOf] at hp, by simp only; rw [hv]; simp, rfl, rfl, rfl⟩
  have hok : SimOK exCtxR exMeasParR (fun _ _ _ _ => 1 / 2) (Mgr.create 1 3 1 1 exCtxR.tbl) 3 1 1 :=
    ⟨exR_tbl, exR_full, by simp [exCtxR], one_pos, Nat.succ_pos 2, by
      intro d hd s hs
      have : d = exTermR := List.mem_singleton.1 hd
      subst this
      have : s = 0 := by simpa [exTermR] using hs
      rw [this]; exact Nat.zero_lt_one, fun _ _ _ _ _ _ _ => rfl, zero_le_one, rfl⟩
  have hreg : Regular exCtxR (fun _ _ _ _ => 1 / 2) 1 :=
    ⟨fun _ _ _ _ _ _ => measurable_const, fun _ _ => by simp [exCtxR]; norm_num, fun _ _ _ => measurable_const, fun _ _ _ _ => by simp; norm_num⟩
  exact ⟨_, C77_self_energy_real hok hreg (by norm_num) one_pos exR_low ⟨1, 1, 1, ⟨1000, 10, 2⟩⟩ one_pos (by decide) (by decide)
    (by rw [exR_Z]; rfl) (by rw [exR_Z]; norm_num) (fun _ _ _ => rfl) (by norm_num) 6 (fun _ _ _ => 0) hs _ _⟩

end CTInt
