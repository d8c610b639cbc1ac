import Verif.Proofs.Postprocess
import Verif.Props.Settle

/-!
# What the program writes converges to the sums of the expansion (C76)
-/

set_option linter.all false

namespace CTInt

open MeasureTheory

variable {kIns maxOrder : ℕ} {sz B w : ℝ} {m : Mgr}
variable {c : Ctx ℝ} {q : MeasPar ℝ} {G : ℝ → ℕ → ℕ → ℕ → ℝ}

/-- What every record of a simulation with real weights satisfies. -/
theorem record_facts (h : SimOK c q G m kIns maxOrder sz) {s : Sub ℝ} {y : List Pt} {u : ℕ → ℝ} {junk : ℕ → ℕ → ℝ} {p : ℕ} {r : Record}
    {p' : ℕ} (h1 : At c s y) (h2 : TimesIn q.beta s.verts) (hu : GoodS u) (e0 : measureObservables q c junk u s p = .ok (r, p')) :
    RecShape c.nf q.ns q.nb r ∧
    (∀ z < c.nf, ∀ a < q.ns, ∀ b < q.ns, ∀ i < q.nb, (r.stauIm z a b).getD i 0 = 0) ∧
    (∀ f1 < c.nf, ∀ i < q.ns, ∀ f2 < c.nf, ∀ j < q.ns, r.dens.ninjIm.getD (off4 q.ns c.nf q.ns f1 i f2 j) 0 = 0) ∧
    ∀ z < c.nf, r.dens.mean.getD z 0 = (∑ a ∈ Finset.range q.ns, (r.dens.site z).getD a 0) / q.ns := by
  refine ⟨record_shape e0, ?_, fun f1 hf1 i hi f2 hf2 j hj => (record_ninj h h1 h2 hu e0 hf1 hi hf2 hj).2, ?_⟩
  all_goals
    obtain ⟨q1, q2, q3⟩ := h1.facts
    obtain ⟨r', er, -, e, e2, e3, e4, -⟩ := measureObservables_spec h.ht h.hb h.hnb h.hsite h.hg q1 h2 hu.2 junk p rfl (fun _ => rfl) rfl rfl (fun _ _ _ => rfl)
    rw [er] at e0
    injection e0 with e0
    injection e0 with e0
    subst e0
  · intro z hz a ha b hb i hi
    have e5 := (e2 z hz a ha b hb).2.2 i hi
    rw [selfEnergy_real] at e5
    have := congrArg Complex.im e5
    rw [Complex.ofReal_im] at this
    exact this
  · intro z hz
    rw [e4 z hz, Finset.sum_congr rfl fun a ha => e3 z hz a (Finset.mem_range.1 ha), ← Finset.mul_sum]
    ring

/-- Averages over the same simulation. -/
theorem Settles.at {a : SimPar} {J : ℕ → ℕ → ℕ → ℕ → ℕ → ℕ → ℕ → ℝ} {junk : ℕ → ℕ → ℕ → ℝ} {s : Sim ℝ} {f : Record → ℝ} {x : ℝ} {u : ℕ → ℝ}
    (h : Settles a m q c J junk s f x u) {y : ℕ → Sim ℝ}
    (hy : ∀ n, Returns (fun fuel => s.passes a m q c J junk u fuel (a.steps.therm / a.steps.period + n)) (y n)) :
    Filter.Tendsto (fun n => recMean f ((y n).log.map fun r => r.values)) Filter.atTop (nhds x) := by
  obtain ⟨z, z1, z2⟩ := h
  have e : z = y := funext fun n => (z1 n).1.unique (hy n)
  subst e
  simpa only [logMean_eq] using z2

theorem pick_where {α : Type} {P : ℕ → Prop} {Q : ℕ → α → Prop} (d : α) (h : ∀ n, P n → ∃ a, Q n a) : ∃ f : ℕ → α, ∀ n, P n → Q n (f n) := by
  classical
  refine ⟨fun n => if hn : P n then (h n hn).choose else d, fun n hn => ?_⟩
  simp only [dif_pos hn]
  exact (h n hn).choose_spec

theorem mk_zero_div (x s : ℝ) : (⟨x, 0⟩ : ℂ) / (s : ℂ) = ((x / s : ℝ) : ℂ) := by
  rw [Complex.ofReal_div]
  rfl

/-- The averages of the recorded values that enter the archive, with their limits. -/
def Tracks (c : Ctx ℝ) (q : MeasPar ℝ) (G : ℝ → ℕ → ℕ → ℕ → ℝ) (maxOrder : ℕ) (M : (Record → ℝ) → ℝ → Prop) : Prop :=
  M (fun r => r.sign) ((configSum c q.beta maxOrder fun x => RCLike.re (weight c.NI c.nf c.G0 c.tbl (x.map vertAt))) /
    (ensemble c q.beta maxOrder 1).toReal) ∧
  (∀ z < c.nf, M (fun r => r.pertOrder.getD z 0)
    ((configSum c q.beta maxOrder fun x => |weight c.NI c.nf c.G0 c.tbl (x.map vertAt)| * (rowsOf c.NI c.tbl (x.map vertAt) z).length) /
      (ensemble c q.beta maxOrder 1).toReal)) ∧
  (∀ z < c.nf, ∀ i < q.ns, ∀ j < q.ns, ∀ b < q.nb, M (fun r => (r.stauRe z i j).getD b 0)
    ((configSum c q.beta maxOrder fun x => (1 / q.beta) *
        ∫ t in (0 : ℝ)..q.beta, binnedWeights c q.beta q.nb b G z i j t (x.map vertAt)) / (ensemble c q.beta maxOrder 1).toReal)) ∧
  (∀ z < c.nf, ∀ i < q.ns, M (fun r => (r.dens.site z).getD i 0)
    ((configSum c q.beta maxOrder fun x => (1 / q.beta) *
        ∫ τ in (0 : ℝ)..q.beta, weightExtra c G z (-q.beta * 1e-10) τ i i (x.map vertAt)) / (ensemble c q.beta maxOrder 1).toReal)) ∧
  (∀ f1 < c.nf, ∀ i < q.ns, ∀ f2 < c.nf, ∀ j < q.ns, M (fun r => r.dens.ninjRe.getD (off4 q.ns c.nf q.ns f1 i f2 j) 0)
    ((configSum c q.beta maxOrder fun x => (1 / q.beta) *
        ∫ τ in (0 : ℝ)..q.beta, weightTwo c G (-q.beta * 1e-10) τ f1 i f2 j (x.map vertAt)) / (ensemble c q.beta maxOrder 1).toReal))

theorem Tracks.mono {M M' : (Record → ℝ) → ℝ → Prop} (h : Tracks c q G maxOrder M) (hM : ∀ f x, M f x → M' f x) :
    Tracks c q G maxOrder M' := by
  obtain ⟨h0, h1, h2, h3, h4⟩ := h
  exact ⟨hM _ _ h0, fun z hz => hM _ _ (h1 z hz), fun z hz i hi j hj b hb => hM _ _ (h2 z hz i hi j hj b hb),
    fun z hz i hi => hM _ _ (h3 z hz i hi), fun f1 hf1 i hi f2 hf2 j hj => hM _ _ (h4 f1 hf1 i hi f2 hf2 j hj)⟩

/-- The averages over one simulation. -/
theorem tracks_of (h : SimOK c q G m kIns maxOrder sz) (hr : Regular c G B) (hns : 0 < q.nShifts) {a : SimPar}
    {s : Sim ℝ} {J : ℕ → ℕ → ℕ → ℕ → ℕ → ℕ → ℕ → ℝ} {junk : ℕ → ℕ → ℕ → ℝ} (hA : AllSettle a m q c J junk s maxOrder) :
    ∀ᵐ u ∂streams, GoodS u ∧ Tracks c q G maxOrder fun f x => Settles a m q c J junk s f x u := by
  have a0 := hA.use (estimates_sign h hr).1 fun _ _ => rfl
  have a1 : ∀ᵐ u ∂streams, ∀ z < c.nf, Settles a m q c J junk s (fun r => r.pertOrder.getD z 0)
      ((configSum c q.beta maxOrder fun x => |weight c.NI c.nf c.G0 c.tbl (x.map vertAt)| * (rowsOf c.NI c.tbl (x.map vertAt) z).length) /
        (ensemble c q.beta maxOrder 1).toReal) u := by
    simp only [ae_all_iff]
    exact fun z hz => hA.use (estimates_order h hr hz) (fun _ _ => rfl)
  have a2 : ∀ᵐ u ∂streams, ∀ z < c.nf, ∀ i < q.ns, ∀ j < q.ns, ∀ b < q.nb, Settles a m q c J junk s (fun r => (r.stauRe z i j).getD b 0)
      ((configSum c q.beta maxOrder fun x => (1 / q.beta) *
          ∫ t in (0 : ℝ)..q.beta, binnedWeights c q.beta q.nb b G z i j t (x.map vertAt)) / (ensemble c q.beta maxOrder 1).toReal) u := by
    simp only [ae_all_iff]
    exact fun z hz i hi j hj b hb => hA.use (estimates_self_energy h hr hns hz hi hj hb) (fun _ h0 => if_neg h0)
  have a3 : ∀ᵐ u ∂streams, ∀ z < c.nf, ∀ i < q.ns, Settles a m q c J junk s (fun r => (r.dens.site z).getD i 0)
      ((configSum c q.beta maxOrder fun x => (1 / q.beta) *
          ∫ τ in (0 : ℝ)..q.beta, weightExtra c G z (-q.beta * 1e-10) τ i i (x.map vertAt)) / (ensemble c q.beta maxOrder 1).toReal) u := by
    simp only [ae_all_iff]
    exact fun z hz i hi => hA.use (estimates_density h hr hz hi) (fun _ h0 => if_neg h0)
  have a4 : ∀ᵐ u ∂streams, ∀ f1 < c.nf, ∀ i < q.ns, ∀ f2 < c.nf, ∀ j < q.ns,
      Settles a m q c J junk s (fun r => r.dens.ninjRe.getD (off4 q.ns c.nf q.ns f1 i f2 j) 0)
      ((configSum c q.beta maxOrder fun x => (1 / q.beta) *
          ∫ τ in (0 : ℝ)..q.beta, weightTwo c G (-q.beta * 1e-10) τ f1 i f2 j (x.map vertAt)) / (ensemble c q.beta maxOrder 1).toReal) u := by
    simp only [ae_all_iff]
    exact fun f1 hf1 i hi f2 hf2 j hj => hA.use (estimates_ninj h hr hf1 hi hf2 hj) (fun _ h0 => if_neg h0)
  filter_upwards [ae_good, a0, a1, a2, a3, a4] with u hu b0 b1 b2 b3 b4
  exact ⟨hu, b0, b1, b2, b3, b4⟩

theorem ae_tracks (h : SimOK c q G m kIns maxOrder sz) (hr : Regular c G B) (hk : 0 < kIns) (hw : 0 < w)
    (hlow : ∀ x, ValidPts q.beta c.tbl x → x.length ≤ maxOrder → w ≤ |weight c.NI c.nf c.G0 c.tbl (x.map vertAt)|)
    (a : SimPar) (ha : 0 < a.nIR) (hp : 0 < a.steps.period) (hns : 0 < q.nShifts)
    {s : Sim ℝ} (hs : AtStart m c q.beta maxOrder s) (J : ℕ → ℕ → ℕ → ℕ → ℕ → ℕ → ℕ → ℝ) (junk : ℕ → ℕ → ℕ → ℝ) :
    ∀ᵐ u ∂streams, GoodS u ∧ Tracks c q G maxOrder fun f x => Settles a m q c J junk s f x u :=
  tracks_of h hr hns fun _ _ _ _ hE hT => settle_real h hr hk hw hlow a ha hp hE hT hs J junk

/-- What is known of every record. -/
def RecFacts (c : Ctx ℝ) (q : MeasPar ℝ) (r : Record) : Prop :=
  RecShape c.nf q.ns q.nb r ∧
  (∀ z < c.nf, ∀ a < q.ns, ∀ b < q.ns, ∀ i < q.nb, (r.stauIm z a b).getD i 0 = 0) ∧
  (∀ f1 < c.nf, ∀ i < q.ns, ∀ f2 < c.nf, ∀ j < q.ns, r.dens.ninjIm.getD (off4 q.ns c.nf q.ns f1 i f2 j) 0 = 0) ∧
  ∀ z < c.nf, r.dens.mean.getD z 0 = (∑ a ∈ Finset.range q.ns, (r.dens.site z).getD a 0) / q.ns

/-- If the averages converge, so does what is written. -/
theorem archive_of_means (h : SimOK c q G m kIns maxOrder sz) (hr : Regular c G B)
    (hS : (configSum c q.beta maxOrder fun x => weight c.NI c.nf c.G0 c.tbl (x.map vertAt)) ≠ 0)
    {sj : ℕ → ℝ → ℝ} (hsj : IsSphBessel sj) {nl : ℕ} (hnl : 0 < nl) (nm : ℕ) (junkP : ℕ → ℕ → ℕ → ℝ)
    {L : ℕ → List Record} (hne : ∀ᶠ n in Filter.atTop, L n ≠ []) (hfacts : ∀ n, ∀ r ∈ L n, RecFacts c q r)
    (hT : Tracks c q G maxOrder fun f x => Filter.Tendsto (fun n => recMean f (L n)) Filter.atTop (nhds x)) :
    ∃ ar : ℕ → Archive, (∀ᶠ n in Filter.atTop, postprocess c.nf q.ns q.nb nl nm q.beta sj (junkP n) (L n) = .ok (ar n)) ∧
      ArchiveTo c q G maxOrder nl nm ar := by
  obtain ⟨t0, b1, b2, b3, b4⟩ := hT
  obtain ⟨hZ1, hZ0⟩ := configSum_norm (beta := q.beta) hr.bound hr.meas maxOrder
  have hZ1 : (configSum c q.beta maxOrder fun x => |weight c.NI c.nf c.G0 c.tbl (x.map vertAt)|) = (ensemble c q.beta maxOrder 1).toReal := hZ1
  have hσ : (configSum c q.beta maxOrder fun x => RCLike.re (weight c.NI c.nf c.G0 c.tbl (x.map vertAt))) / (ensemble c q.beta maxOrder 1).toReal ≠ 0 :=
    div_ne_zero (by exact hS) hZ0.ne'
  have hgood : ∀ᶠ n in Filter.atTop, L n ≠ [] ∧ recMean (fun r => r.sign) (L n) ≠ 0 := by
    filter_upwards [hne, t0.eventually_ne hσ] with n h1 h2
    exact ⟨h1, h2⟩
  obtain ⟨ar, har⟩ := pick_where (P := fun n => L n ≠ [] ∧ recMean (fun r => r.sign) (L n) ≠ 0)
    (⟨[], 0, fun _ => 0, fun _ => 0, fun _ => 0, [], fun _ _ _ _ => 0⟩ : Archive) fun n h0 =>
    postprocess_spec c.nf q.ns q.nb nl nm hnl q.beta sj (junkP n) h0.1 (fun r hr => (hfacts n r hr).1) h0.2
  refine ⟨ar, hgood.mono fun n hn => (har n hn).1, ?_⟩
  have c0 : Filter.Tendsto (fun n => (ar n).sign) Filter.atTop (nhds _) := t0.congr' (hgood.mono fun n hn => (har n hn).2.2.1.symm)
  have hq : ∀ F : List Vert → ℝ, ((configSum c q.beta maxOrder fun x => F (x.map vertAt)) / (ensemble c q.beta maxOrder 1).toReal) /
      ((configSum c q.beta maxOrder fun x => RCLike.re (weight c.NI c.nf c.G0 c.tbl (x.map vertAt))) / (ensemble c q.beta maxOrder 1).toReal) =
      expect c q.beta maxOrder F := fun F => div_div_div_cancel_right₀ hZ0.ne' _ _
  have c1 : ∀ z < c.nf, ∀ i < q.ns, ∀ j < q.ns, ∀ b < q.nb, Filter.Tendsto (fun n => (ar n).tau (off4 q.ns q.ns c.nf b i j z)) Filter.atTop
      (nhds ((sigmaG c G q.beta maxOrder q.nb z i j b : ℝ) : ℂ)) := by
    intro z hz i hi j hj b hb
    have t1 := (b2 z hz i hi j hj b hb).div c0 hσ
    rw [hq fun vs => (1 / q.beta) * ∫ t in (0 : ℝ)..q.beta, binnedWeights c q.beta q.nb b G z i j t vs] at t1
    refine ((Complex.continuous_ofReal.tendsto _).comp t1).congr' (hgood.mono fun n hn => ?_)
    show _ = (ar n).tau (off4 q.ns q.ns c.nf b i j z)
    rw [(har n hn).2.2.2.1 z hz i hi j hj b hb, recMean_congr (f := fun r => (r.stauIm z i j).getD b 0) (g := fun _ => 0)
      fun r hr => (hfacts n r hr).2.1 z hz i hi j hj b hb, recMean_zero, mk_zero_div]
    rfl
  have c2 : ∀ z < c.nf, ∀ i < q.ns, ∀ j < q.ns, ∀ l < nl, Filter.Tendsto (fun n => (ar n).legendre (off4 q.ns q.ns c.nf l i j z)) Filter.atTop
      (nhds ((sigmaGLegendre c G q.beta maxOrder q.nb z i j l : ℝ) : ℂ)) := by
    intro z hz i hi j hj l hl
    have t1 := tendsto_finset_sum (Finset.range q.nb) fun b hb =>
      ((c1 z hz i hi j hj b (Finset.mem_range.1 hb)).const_mul
        ((Real.sqrt (2 * l + 1) * (legendreP l).eval (((b : ℝ) + 1 / 2) * (2 / q.nb) - 1) : ℝ) : ℂ)).mul_const ((q.beta / q.nb : ℝ) : ℂ)
    have e : (∑ b ∈ Finset.range q.nb, ((Real.sqrt (2 * l + 1) * (legendreP l).eval (((b : ℝ) + 1 / 2) * (2 / q.nb) - 1) : ℝ) : ℂ) *
        ((sigmaG c G q.beta maxOrder q.nb z i j b : ℝ) : ℂ) * ((q.beta / q.nb : ℝ) : ℂ)) = ((sigmaGLegendre c G q.beta maxOrder q.nb z i j l : ℝ) : ℂ) := by
      unfold sigmaGLegendre
      rw [Complex.ofReal_sum]
      refine Finset.sum_congr rfl fun b _ => ?_
      have hb := h.hb.ne'
      have : (2 : ℝ) * (q.beta * ((b : ℝ) + 1 / 2) / q.nb) / q.beta - 1 = ((b : ℝ) + 1 / 2) * (2 / q.nb) - 1 := by
        field_simp
      rw [this]
      push_cast
      ring
    rw [e] at t1
    exact t1.congr' (hgood.mono fun n hn => ((har n hn).2.2.2.2.1 z hz i hi j hj l hl).symm)
  refine ⟨?_, ?_, c1, c2, ?_, ?_, ?_⟩
  · rw [hZ1]
    exact c0
  · intro z hz
    rw [hZ1]
    refine (b1 z hz).congr' (hgood.mono fun n hn => ?_)
    show _ = (ar n).matrixSize.getD z 0
    rw [(har n hn).2.1, getD_rangeMap hz]
  · intro z hz i hi j hj k hk'
    have t1 := tendsto_finset_sum (Finset.range nl) fun l hl => (c2 z hz i hi j hj l (Finset.mem_range.1 hl)).const_mul (tnl sj nm nl k l)
    rw [← fourier_expansion hsj h.hb hk' fun l => ((sigmaGLegendre c G q.beta maxOrder q.nb z i j l : ℝ) : ℂ)] at t1
    exact t1.congr' (hgood.mono fun n hn => ((har n hn).2.2.2.2.2.1 z hz i hi j hj k hk').symm)
  · intro z hz
    have t1 := (tendsto_finset_sum (Finset.range q.ns) fun i hi => (b3 z hz i (Finset.mem_range.1 hi)).div c0 hσ).div_const (q.ns : ℝ)
    have e : (∑ i ∈ Finset.range q.ns, ((configSum c q.beta maxOrder fun x => (1 / q.beta) *
          ∫ τ in (0 : ℝ)..q.beta, weightExtra c G z (-q.beta * 1e-10) τ i i (x.map vertAt)) / (ensemble c q.beta maxOrder 1).toReal) /
        ((configSum c q.beta maxOrder fun x => RCLike.re (weight c.NI c.nf c.G0 c.tbl (x.map vertAt))) / (ensemble c q.beta maxOrder 1).toReal)) / (q.ns : ℝ) =
        meanDensity c G q.beta maxOrder q.ns z := by
      unfold meanDensity
      congr 1
      exact Finset.sum_congr rfl fun i _ => hq fun vs => (1 / q.beta) * ∫ τ in (0 : ℝ)..q.beta, weightExtra c G z (-q.beta * 1e-10) τ i i vs
    rw [e] at t1
    refine t1.congr' (hgood.mono fun n hn => ?_)
    show (∑ i ∈ Finset.range q.ns, recMean (fun r => (r.dens.site z).getD i 0) (L n) / (ar n).sign) / q.ns = (ar n).densities.getD z 0
    rw [(har n hn).2.2.2.2.2.2.1, getD_rangeMap hz, recMean_congr fun r hr => (hfacts n r hr).2.2.2 z hz, recMean_div, recMean_sum,
      ← Finset.sum_div]
    ring
  · intro f1 hf1 i hi f2 hf2 j hj
    have t1 := (b4 f1 hf1 i hi f2 hf2 j hj).div c0 hσ
    rw [hq fun vs => (1 / q.beta) * ∫ τ in (0 : ℝ)..q.beta, weightTwo c G (-q.beta * 1e-10) τ f1 i f2 j vs] at t1
    refine ((Complex.continuous_ofReal.tendsto _).comp t1).congr' (hgood.mono fun n hn => ?_)
    show _ = (ar n).ninj f1 i f2 j
    rw [(har n hn).2.2.2.2.2.2.2 f1 hf1 i hi f2 hf2 j hj,
      recMean_congr (f := fun r => r.dens.ninjIm.getD (off4 q.ns c.nf q.ns f1 i f2 j) 0) (g := fun _ => 0)
      fun r hr => (hfacts n r hr).2.2.1 f1 hf1 i hi f2 hf2 j hj, recMean_zero, mk_zero_div]
    rfl

/-- From the averages to the file. -/
theorem archive_core (h : SimOK c q G m kIns maxOrder sz) (hr : Regular c G B) (a : SimPar) (hp : 0 < a.steps.period)
    (hS : (configSum c q.beta maxOrder fun x => weight c.NI c.nf c.G0 c.tbl (x.map vertAt)) ≠ 0)
    {sj : ℕ → ℝ → ℝ} (hsj : IsSphBessel sj) {nl : ℕ} (hnl : 0 < nl) (nm : ℕ) (junkP : ℕ → ℕ → ℕ → ℝ)
    {s : Sim ℝ} (hs : AtStart m c q.beta maxOrder s) {J : ℕ → ℕ → ℕ → ℕ → ℕ → ℕ → ℕ → ℝ} {junk : ℕ → ℕ → ℕ → ℝ}
    (hA : ∀ᵐ u ∂streams, GoodS u ∧ Tracks c q G maxOrder fun f x => Settles a m q c J junk s f x u) :
    ∀ᵐ u ∂streams, ∃ y : ℕ → Sim ℝ,
      (∀ n, Returns (fun fuel => s.passes a m q c J junk u fuel (a.steps.therm / a.steps.period + n)) (y n) ∧ (y n).log.length = n) ∧
      ∃ ar : ℕ → Archive, (∀ᶠ n in Filter.atTop, postprocess c.nf q.ns q.nb nl nm q.beta sj (junkP n) ((y n).log.map fun r => r.values) = .ok (ar n)) ∧
        ArchiveTo c q G maxOrder nl nm ar := by
  filter_upwards [hA] with u hu
  obtain ⟨hu, hT⟩ := hu
  obtain ⟨y, y1, -⟩ := id hT.1
  refine ⟨y, y1, ?_⟩
  refine archive_of_means h hr hS hsj hnl nm junkP ?_ (fun n r hr => ?_) (hT.mono fun f x h1 => h1.at fun n => (y1 n).1)
  · filter_upwards [Filter.eventually_ge_atTop 1] with n h1 h0
    have := congrArg List.length h0
    rw [List.length_map, (y1 n).2] at this
    simp at this
    omega
  · rw [List.mem_map] at hr
    obtain ⟨r', hr', rfl⟩ := hr
    exact log_all h (fun s y u junk p r p' h1 h2 h3 h4 => record_facts h h1 h2 h3 h4) a hp hs J junk hu n (y1 n).1 r' hr'

/-- **C76.**  From the start of the simulation to the file: with probability one every number of passes returns, once there are
    enough measurements `postprocess` writes an archive, and as their number grows every number in it converges to the value
    the expansion defines. -/
theorem C76_archive (h : SimOK c q G m kIns maxOrder sz) (hr : Regular c G B) (hk : 0 < kIns) (hw : 0 < w)
    (hlow : ∀ x, ValidPts q.beta c.tbl x → x.length ≤ maxOrder → w ≤ |weight c.NI c.nf c.G0 c.tbl (x.map vertAt)|)
    (a : SimPar) (ha : 0 < a.nIR) (hp : 0 < a.steps.period) (hns : 0 < q.nShifts)
    (hS : (configSum c q.beta maxOrder fun x => weight c.NI c.nf c.G0 c.tbl (x.map vertAt)) ≠ 0)
    {sj : ℕ → ℝ → ℝ} (hsj : IsSphBessel sj) {nl : ℕ} (hnl : 0 < nl) (nm : ℕ) (junkP : ℕ → ℕ → ℕ → ℝ)
    {s : Sim ℝ} (hs : AtStart m c q.beta maxOrder s) (J : ℕ → ℕ → ℕ → ℕ → ℕ → ℕ → ℕ → ℝ) (junk : ℕ → ℕ → ℕ → ℝ) :
    ∀ᵐ u ∂streams, ∃ y : ℕ → Sim ℝ,
      (∀ n, Returns (fun fuel => s.passes a m q c J junk u fuel (a.steps.therm / a.steps.period + n)) (y n) ∧ (y n).log.length = n) ∧
      ∃ ar : ℕ → Archive, (∀ᶠ n in Filter.atTop, postprocess c.nf q.ns q.nb nl nm q.beta sj (junkP n) ((y n).log.map fun r => r.values) = .ok (ar n)) ∧
        ArchiveTo c q G maxOrder nl nm ar :=
  archive_core h hr a hp hS hsj hnl nm junkP hs (ae_tracks h hr hk hw hlow a ha hp hns hs J junk)

/-- The hypotheses can be met: one term, at most one vertex, starting from none, 5 passes of thermalisation, 4 Legendre
    coefficients and 6 frequencies. -/
example : ∃ s : Sim ℝ, ∀ᵐ u ∂streams, ∃ y : ℕ → Sim ℝ,
      (∀ n, Returns (fun fuel => s.passes ⟨1, 1, 1, ⟨1000, 10, 2⟩⟩ (Mgr.create 1 3 1 1 exCtx1.tbl) exMeasPar exCtx1
        (fun _ _ _ _ _ _ _ => 0) (fun _ _ _ => 0) u fuel (5 + n)) (y n) ∧ (y n).log.length = n) ∧
      ∃ ar : ℕ → Archive, (∀ᶠ n in Filter.atTop, postprocess 2 1 3 4 6 1 sphJ (fun _ _ => 0) ((y n).log.map fun r => r.values) = .ok (ar n)) ∧
        ArchiveTo exCtx1 exMeasPar (fun _ _ _ _ => 1 / 2) 1 4 6 ar := by
  obtain ⟨s, hs⟩ := ex_atStart (Mgr.create 1 3 1 1 exCtx1.tbl) 1
  exact ⟨s, C76_archive ex_simOK ex_regular (by norm_num) one_pos ex_low1 ⟨1, 1, 1, ⟨1000, 10, 2⟩⟩ one_pos (by decide) (by decide)
    ex_sum_ne (fun _ _ _ => rfl) (by norm_num) 6 (fun _ _ _ => 0) hs _ _⟩

end CTInt
