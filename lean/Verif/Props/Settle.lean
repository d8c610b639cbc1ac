import Verif.Proofs.Settle
import Verif.Props.Observables
import Verif.Props.Ensemble
import Verif.Props.Converge

/-!
# Averages over one long simulation converge to the sums of the expansion (C73)
-/

set_option linter.all false

namespace CTInt

open MeasureTheory

variable {K : Type} [RCLike K] [DecidableEq K]
variable {kIns maxOrder : ℕ} {sz B w : ℝ} {m : Mgr}

/-- **C73.**  One simulation, started anywhere: with probability one every pass returns, every pass after the thermalisation records
    once, and the average of the recorded signs converges to the sum of the real parts of the weights over the sum of their moduli. -/
theorem C73_sign {c : Ctx K} {q : MeasPar K} {G : ℝ → ℕ → ℕ → ℕ → K} (h : SimOK c q G m kIns maxOrder sz) (hr : Regular c G B)
    (hk : 0 < kIns) (hw : 0 < w) (hd : CanShrink c q.beta maxOrder w) (a : SimPar) (ha : 0 < a.nIR) (hp : 0 < a.steps.period)
    {s : Sim K} (hs : AtStart m c q.beta maxOrder s) (J : ℕ → ℕ → ℕ → ℕ → ℕ → ℕ → ℕ → K) (junk : ℕ → ℕ → ℕ → K) :
    ∀ᵐ u ∂streams, Settles a m q c J junk s (fun r => r.sign)
      ((configSum c q.beta maxOrder fun x => RCLike.re (weight c.NI c.nf c.G0 c.tbl (x.map vertAt))) /
        (ensemble c q.beta maxOrder 1).toReal) u := by
  obtain ⟨h1, h2⟩ := estimates_sign h hr
  exact settle_strong h hr hk hw hd a ha hp h1 ⟨1, fun x _ u => h2 (x, u)⟩ hs J junk

/-- **C73.**  How far off the average of `n` recorded signs may be: with a probability of at most `C / (n ε²)` it deviates by `ε` or
    more (or the passes do not return).  `C` depends neither on the start nor on `n`, `ε`, the length of the thermalisation or what
    the uninitialised memory holds. -/
theorem C73_rate {c : Ctx K} {q : MeasPar K} {G : ℝ → ℕ → ℕ → ℕ → K} (h : SimOK c q G m kIns maxOrder sz) (hr : Regular c G B)
    (hk : 0 < kIns) (hw : 0 < w) (hd : CanShrink c q.beta maxOrder w) {nIR : ℕ} (ha : 0 < nIR) (nSh nSF : ℕ) {period : ℕ}
    (hp : 0 < period) :
    ∃ C : ℝ, ∀ (a : SimPar), a.nIR = nIR → a.nSh = nSh → a.nSF = nSF → a.steps.period = period →
      ∀ (s : Sim K), AtStart m c q.beta maxOrder s →
      ∀ (J : ℕ → ℕ → ℕ → ℕ → ℕ → ℕ → ℕ → K) (junk : ℕ → ℕ → ℕ → K) (n : ℕ), 0 < n → ∀ ε : ℝ, 0 < ε →
      streams {u | ¬ ∃ y, Returns (fun fuel => s.passes a m q c J junk u fuel (a.steps.therm / a.steps.period + n)) y ∧
        y.log.length = n ∧ |logMean (fun r => r.sign) y.log -
          (configSum c q.beta maxOrder fun x => RCLike.re (weight c.NI c.nf c.G0 c.tbl (x.map vertAt))) /
            (ensemble c q.beta maxOrder 1).toReal| < ε} ≤ ENNReal.ofReal (C / (n * ε ^ 2)) := by
  obtain ⟨h1, h2⟩ := estimates_sign h hr
  refine ⟨12 * 1 ^ 2 * (maxOrder + 1) / downRate c q.beta maxOrder w ^
    ((maxOrder + 1) * attempts kIns (List.replicate period (turnUpdates nIR nSh nSF)).flatten), ?_⟩
  intro a e1 e2 e3 e4 s hs J junk n hn ε hε
  have := settle_rate h hr hk hw hd a (by rw [e1]; exact ha) (by rw [e4]; exact hp) h1 zero_le_one (fun x _ u => h2 (x, u)) hs J junk hn hε
  unfold callUpdates at this
  rw [e1, e2, e3] at this
  simp only [e4] at this ⊢
  exact this

/-! For the densities and the self-energy the values recorded are ratios of weights.  They are bounded if the weights of the
configurations with at most `maxOrder` vertices stay away from 0. -/

variable {c : Ctx ℝ} {q : MeasPar ℝ} {G : ℝ → ℕ → ℕ → ℕ → ℝ}

theorem settle_real {val : Record → ℝ} {V : List Pt × (ℕ → ℝ) → ℝ} {T T' : List Pt → ℝ} (h : SimOK c q G m kIns maxOrder sz)
    (hr : Regular c G B) (hk : 0 < kIns) (hw : 0 < w)
    (hlow : ∀ x, ValidPts q.beta c.tbl x → x.length ≤ maxOrder → w ≤ |weight c.NI c.nf c.G0 c.tbl (x.map vertAt)|)
    (a : SimPar) (ha : 0 < a.nIR) (hp : 0 < a.steps.period) (hE : Estimates c q val V T)
    (hT : ∀ x, weight c.NI c.nf c.G0 c.tbl (x.map vertAt) ≠ 0 → T x = T' x)
    {s : Sim ℝ} (hs : AtStart m c q.beta maxOrder s) (J : ℕ → ℕ → ℕ → ℕ → ℕ → ℕ → ℕ → ℝ) (junk : ℕ → ℕ → ℕ → ℝ) :
    ∀ᵐ u ∂streams, Settles a m q c J junk s val (configSum c q.beta maxOrder T' / (ensemble c q.beta maxOrder 1).toReal) u := by
  obtain ⟨b, hb, hd⟩ := C72_bounded_below hr.bound q.beta maxOrder hw fun x hx hn => hlow x hx hn.le
  have := settle_strong h hr hk hb hd a ha hp hE (hE.bounded hw hlow) hs J junk
  rwa [configSum_congr_live (F' := T') fun x hx hn => hT x fun h0 => by
    have := hlow x hx hn
    rw [h0] at this
    simp at this
    linarith] at this

/-- **C73.**  The average of the recorded densities converges with probability one to the sum of the weights with one more pair of
    operators of flavor `z` at equal time, averaged over that time, over the sum of the moduli of the weights. -/
theorem C73_density (h : SimOK c q G m kIns maxOrder sz) (hr : Regular c G B) (hk : 0 < kIns) (hw : 0 < w)
    (hlow : ∀ x, ValidPts q.beta c.tbl x → x.length ≤ maxOrder → w ≤ |weight c.NI c.nf c.G0 c.tbl (x.map vertAt)|)
    (a : SimPar) (ha : 0 < a.nIR) (hp : 0 < a.steps.period) {z i : ℕ} (hz : z < c.nf) (hi : i < q.ns)
    {s : Sim ℝ} (hs : AtStart m c q.beta maxOrder s) (J : ℕ → ℕ → ℕ → ℕ → ℕ → ℕ → ℕ → ℝ) (junk : ℕ → ℕ → ℕ → ℝ) :
    ∀ᵐ u ∂streams, Settles a m q c J junk s (fun r => (r.dens.site z).getD i 0)
      ((configSum c q.beta maxOrder fun x => (1 / q.beta) *
          ∫ τ in (0 : ℝ)..q.beta, weightExtra c G z (-q.beta * 1e-10) τ i i (x.map vertAt)) /
        (ensemble c q.beta maxOrder 1).toReal) u :=
  settle_real h hr hk hw hlow a ha hp (estimates_density h hr hz hi) (fun _ h0 => if_neg h0) hs J junk

/-- **C73.**  The same for every bin of the self-energy. -/
theorem C73_self_energy (h : SimOK c q G m kIns maxOrder sz) (hr : Regular c G B) (hk : 0 < kIns) (hw : 0 < w)
    (hlow : ∀ x, ValidPts q.beta c.tbl x → x.length ≤ maxOrder → w ≤ |weight c.NI c.nf c.G0 c.tbl (x.map vertAt)|)
    (a : SimPar) (ha : 0 < a.nIR) (hp : 0 < a.steps.period) (hns : 0 < q.nShifts) {z i j b : ℕ} (hz : z < c.nf) (hi : i < q.ns)
    (hj : j < q.ns) (hb : b < q.nb)
    {s : Sim ℝ} (hs : AtStart m c q.beta maxOrder s) (J : ℕ → ℕ → ℕ → ℕ → ℕ → ℕ → ℕ → ℝ) (junk : ℕ → ℕ → ℕ → ℝ) :
    ∀ᵐ u ∂streams, Settles a m q c J junk s (fun r => (r.stauRe z i j).getD b 0)
      ((configSum c q.beta maxOrder fun x => (1 / q.beta) *
          ∫ t in (0 : ℝ)..q.beta, binnedWeights c q.beta q.nb b G z i j t (x.map vertAt)) /
        (ensemble c q.beta maxOrder 1).toReal) u :=
  settle_real h hr hk hw hlow a ha hp (estimates_self_energy h hr hns hz hi hj hb) (fun _ h0 => if_neg h0) hs J junk

/-- Averages of two quantities over the same simulation, divided. -/
theorem Settles.div {c : Ctx K} {q : MeasPar K} {a : SimPar} {J : ℕ → ℕ → ℕ → ℕ → ℕ → ℕ → ℕ → K} {junk : ℕ → ℕ → ℕ → K}
    {s : Sim K} {f g : Record → ℝ} {x y : ℝ} {u : ℕ → ℝ} (h1 : Settles a m q c J junk s f x u) (h2 : Settles a m q c J junk s g y u)
    (hy : y ≠ 0) :
    ∃ z : ℕ → Sim K, (∀ n, Returns (fun fuel => s.passes a m q c J junk u fuel (a.steps.therm / a.steps.period + n)) (z n) ∧
      (z n).log.length = n) ∧ Filter.Tendsto (fun n => logMean f (z n).log / logMean g (z n).log) Filter.atTop (nhds (x / y)) := by
  obtain ⟨z, z1, z2⟩ := h1
  obtain ⟨z', w1, w2⟩ := h2
  have e : z' = z := funext fun n => (w1 n).1.unique (z1 n).1
  subst e
  exact ⟨z', z1, z2.div w2 hy⟩

/-- **C73.**  What is printed at the end, the average of the densities over the average of the signs, converges with probability one to
    the density of the expansion: the sum of the weights with one more pair of operators over the sum of the weights, signs
    included. -/
theorem C73_ratio (h : SimOK c q G m kIns maxOrder sz) (hr : Regular c G B) (hk : 0 < kIns) (hw : 0 < w)
    (hlow : ∀ x, ValidPts q.beta c.tbl x → x.length ≤ maxOrder → w ≤ |weight c.NI c.nf c.G0 c.tbl (x.map vertAt)|)
    (a : SimPar) (ha : 0 < a.nIR) (hp : 0 < a.steps.period) {z i : ℕ} (hz : z < c.nf) (hi : i < q.ns)
    (hS : (configSum c q.beta maxOrder fun x => weight c.NI c.nf c.G0 c.tbl (x.map vertAt)) ≠ 0)
    {s : Sim ℝ} (hs : AtStart m c q.beta maxOrder s) (J : ℕ → ℕ → ℕ → ℕ → ℕ → ℕ → ℕ → ℝ) (junk : ℕ → ℕ → ℕ → ℝ) :
    ∀ᵐ u ∂streams, ∃ y : ℕ → Sim ℝ,
      (∀ n, Returns (fun fuel => s.passes a m q c J junk u fuel (a.steps.therm / a.steps.period + n)) (y n) ∧ (y n).log.length = n) ∧
      Filter.Tendsto (fun n => logMean (fun r => (r.dens.site z).getD i 0) (y n).log / logMean (fun r => r.sign) (y n).log)
        Filter.atTop (nhds ((configSum c q.beta maxOrder fun x => (1 / q.beta) *
          ∫ τ in (0 : ℝ)..q.beta, weightExtra c G z (-q.beta * 1e-10) τ i i (x.map vertAt)) /
        configSum c q.beta maxOrder fun x => weight c.NI c.nf c.G0 c.tbl (x.map vertAt))) := by
  obtain ⟨b, hb, hd⟩ := C72_bounded_below hr.bound q.beta maxOrder hw fun x hx hn => hlow x hx hn.le
  obtain ⟨h1, h2⟩ := C64_normalised hr.bound q.beta maxOrder
  have hZ : (ensemble c q.beta maxOrder 1).toReal ≠ 0 := (ENNReal.toReal_pos (by intro h0; rw [h0] at h1; simp at h1) h2.ne).ne'
  filter_upwards [C73_sign h hr hk hb hd a ha hp hs J junk, C73_density h hr hk hw hlow a ha hp hz hi hs J junk] with u e1 e2
  have := e2.div e1 (div_ne_zero (by exact hS) hZ)
  rwa [div_div_div_cancel_right₀ hZ] at this

/-- **C73.**  Likewise for every bin of the self-energy. -/
theorem C73_self_energy_ratio (h : SimOK c q G m kIns maxOrder sz) (hr : Regular c G B) (hk : 0 < kIns) (hw : 0 < w)
    (hlow : ∀ x, ValidPts q.beta c.tbl x → x.length ≤ maxOrder → w ≤ |weight c.NI c.nf c.G0 c.tbl (x.map vertAt)|)
    (a : SimPar) (ha : 0 < a.nIR) (hp : 0 < a.steps.period) (hns : 0 < q.nShifts) {z i j b : ℕ} (hz : z < c.nf) (hi : i < q.ns)
    (hj : j < q.ns) (hb : b < q.nb)
    (hS : (configSum c q.beta maxOrder fun x => weight c.NI c.nf c.G0 c.tbl (x.map vertAt)) ≠ 0)
    {s : Sim ℝ} (hs : AtStart m c q.beta maxOrder s) (J : ℕ → ℕ → ℕ → ℕ → ℕ → ℕ → ℕ → ℝ) (junk : ℕ → ℕ → ℕ → ℝ) :
    ∀ᵐ u ∂streams, ∃ y : ℕ → Sim ℝ,
      (∀ n, Returns (fun fuel => s.passes a m q c J junk u fuel (a.steps.therm / a.steps.period + n)) (y n) ∧ (y n).log.length = n) ∧
      Filter.Tendsto (fun n => logMean (fun r => (r.stauRe z i j).getD b 0) (y n).log / logMean (fun r => r.sign) (y n).log)
        Filter.atTop (nhds ((configSum c q.beta maxOrder fun x => (1 / q.beta) *
          ∫ t in (0 : ℝ)..q.beta, binnedWeights c q.beta q.nb b G z i j t (x.map vertAt)) /
        configSum c q.beta maxOrder fun x => weight c.NI c.nf c.G0 c.tbl (x.map vertAt))) := by
  obtain ⟨b', hb', hd⟩ := C72_bounded_below hr.bound q.beta maxOrder hw fun x hx hn => hlow x hx hn.le
  obtain ⟨h1, h2⟩ := C64_normalised hr.bound q.beta maxOrder
  have hZ : (ensemble c q.beta maxOrder 1).toReal ≠ 0 := (ENNReal.toReal_pos (by intro h0; rw [h0] at h1; simp at h1) h2.ne).ne'
  filter_upwards [C73_sign h hr hk hb' hd a ha hp hs J junk, C73_self_energy h hr hk hw hlow a ha hp hns hz hi hj hb hs J junk] with u e1 e2
  have := e2.div e1 (div_ne_zero (by exact hS) hZ)
  rwa [div_div_div_cancel_right₀ hZ] at this

/-- The same rate for any recorded quantity that estimates `T'`. -/
theorem rate_real {val : Record → ℝ} {V : List Pt × (ℕ → ℝ) → ℝ} {T T' : List Pt → ℝ} (h : SimOK c q G m kIns maxOrder sz)
    (hr : Regular c G B) (hk : 0 < kIns) (hw : 0 < w)
    (hlow : ∀ x, ValidPts q.beta c.tbl x → x.length ≤ maxOrder → w ≤ |weight c.NI c.nf c.G0 c.tbl (x.map vertAt)|)
    {nIR : ℕ} (ha : 0 < nIR) (nSh nSF : ℕ) {period : ℕ} (hp : 0 < period) (hE : Estimates c q val V T)
    (hT : ∀ x, weight c.NI c.nf c.G0 c.tbl (x.map vertAt) ≠ 0 → T x = T' x) :
    ∃ C : ℝ, 0 ≤ C ∧ ∀ (a : SimPar), a.nIR = nIR → a.nSh = nSh → a.nSF = nSF → a.steps.period = period →
      ∀ (s : Sim ℝ), AtStart m c q.beta maxOrder s →
      ∀ (J : ℕ → ℕ → ℕ → ℕ → ℕ → ℕ → ℕ → ℝ) (junk : ℕ → ℕ → ℕ → ℝ) (n : ℕ), 0 < n → ∀ ε : ℝ, 0 < ε →
      streams {u | ¬ ∃ y, Returns (fun fuel => s.passes a m q c J junk u fuel (a.steps.therm / a.steps.period + n)) y ∧
        y.log.length = n ∧ |logMean val y.log - configSum c q.beta maxOrder T' / (ensemble c q.beta maxOrder 1).toReal| < ε} ≤
          ENNReal.ofReal (C / (n * ε ^ 2)) := by
  obtain ⟨b, hb, hd⟩ := C72_bounded_below hr.bound q.beta maxOrder hw fun x hx hn => hlow x hx hn.le
  obtain ⟨D, hD⟩ := hE.bounded hw hlow
  have hD' : ∀ x ∈ Live c q.beta maxOrder, ∀ u, |V (x, u)| ≤ |D| := fun x hx u => (hD x hx u).trans (le_abs_self _)
  refine ⟨|12 * |D| ^ 2 * (maxOrder + 1) / downRate c q.beta maxOrder b ^
    ((maxOrder + 1) * attempts kIns (List.replicate period (turnUpdates nIR nSh nSF)).flatten)|, abs_nonneg _, ?_⟩
  intro a e1 e2 e3 e4 s hs J junk n hn ε hε
  have := settle_rate h hr hk hb hd a (by rw [e1]; exact ha) (by rw [e4]; exact hp) hE (abs_nonneg D) hD' hs J junk hn hε
  rw [configSum_congr_live (F' := T') fun x hx hn => hT x fun h0 => by
    have := hlow x hx hn
    rw [h0] at this
    simp at this
    linarith] at this
  unfold callUpdates at this
  rw [e1, e2, e3] at this
  simp only [e4] at this ⊢
  exact this.trans (ENNReal.ofReal_le_ofReal (div_le_div_of_nonneg_right (le_abs_self _) (by positivity)))

/-- **C73.**  How far off the average of `n` recorded densities may be: with a probability of at most `C / (n ε²)` by `ε` or more. -/
theorem C73_rate_density (h : SimOK c q G m kIns maxOrder sz) (hr : Regular c G B) (hk : 0 < kIns) (hw : 0 < w)
    (hlow : ∀ x, ValidPts q.beta c.tbl x → x.length ≤ maxOrder → w ≤ |weight c.NI c.nf c.G0 c.tbl (x.map vertAt)|)
    {nIR : ℕ} (ha : 0 < nIR) (nSh nSF : ℕ) {period : ℕ} (hp : 0 < period) {z i : ℕ} (hz : z < c.nf) (hi : i < q.ns) :
    ∃ C : ℝ, 0 ≤ C ∧ ∀ (a : SimPar), a.nIR = nIR → a.nSh = nSh → a.nSF = nSF → a.steps.period = period →
      ∀ (s : Sim ℝ), AtStart m c q.beta maxOrder s →
      ∀ (J : ℕ → ℕ → ℕ → ℕ → ℕ → ℕ → ℕ → ℝ) (junk : ℕ → ℕ → ℕ → ℝ) (n : ℕ), 0 < n → ∀ ε : ℝ, 0 < ε →
      streams {u | ¬ ∃ y, Returns (fun fuel => s.passes a m q c J junk u fuel (a.steps.therm / a.steps.period + n)) y ∧
        y.log.length = n ∧ |logMean (fun r => (r.dens.site z).getD i 0) y.log -
          (configSum c q.beta maxOrder fun x => (1 / q.beta) *
            ∫ τ in (0 : ℝ)..q.beta, weightExtra c G z (-q.beta * 1e-10) τ i i (x.map vertAt)) /
            (ensemble c q.beta maxOrder 1).toReal| < ε} ≤ ENNReal.ofReal (C / (n * ε ^ 2)) :=
  rate_real h hr hk hw hlow ha nSh nSF hp (estimates_density h hr hz hi) (fun _ h0 => if_neg h0)

/-- **C73.**  The same for every bin of the self-energy. -/
theorem C73_rate_self_energy (h : SimOK c q G m kIns maxOrder sz) (hr : Regular c G B) (hk : 0 < kIns) (hw : 0 < w)
    (hlow : ∀ x, ValidPts q.beta c.tbl x → x.length ≤ maxOrder → w ≤ |weight c.NI c.nf c.G0 c.tbl (x.map vertAt)|)
    {nIR : ℕ} (ha : 0 < nIR) (nSh nSF : ℕ) {period : ℕ} (hp : 0 < period) (hns : 0 < q.nShifts) {z i j b : ℕ} (hz : z < c.nf)
    (hi : i < q.ns) (hj : j < q.ns) (hb : b < q.nb) :
    ∃ C : ℝ, 0 ≤ C ∧ ∀ (a : SimPar), a.nIR = nIR → a.nSh = nSh → a.nSF = nSF → a.steps.period = period →
      ∀ (s : Sim ℝ), AtStart m c q.beta maxOrder s →
      ∀ (J : ℕ → ℕ → ℕ → ℕ → ℕ → ℕ → ℕ → ℝ) (junk : ℕ → ℕ → ℕ → ℝ) (n : ℕ), 0 < n → ∀ ε : ℝ, 0 < ε →
      streams {u | ¬ ∃ y, Returns (fun fuel => s.passes a m q c J junk u fuel (a.steps.therm / a.steps.period + n)) y ∧
        y.log.length = n ∧ |logMean (fun r => (r.stauRe z i j).getD b 0) y.log -
          (configSum c q.beta maxOrder fun x => (1 / q.beta) *
            ∫ t in (0 : ℝ)..q.beta, binnedWeights c q.beta q.nb b G z i j t (x.map vertAt)) /
            (ensemble c q.beta maxOrder 1).toReal| < ε} ≤ ENNReal.ofReal (C / (n * ε ^ 2)) :=
  rate_real h hr hk hw hlow ha nSh nSF hp (estimates_self_energy h hr hns hz hi hj hb) (fun _ h0 => if_neg h0)

/-- A quotient is close if both numbers are. -/
theorem quotient_close {x y d s ε : ℝ} (hs : s ≠ 0) (hε : 0 < ε) (hε1 : ε ≤ 1)
    (hx : |x - d| < ε * min (|s| / 2) (s ^ 2 / (2 * (|s| + |d|)))) (hy : |y - s| < ε * min (|s| / 2) (s ^ 2 / (2 * (|s| + |d|)))) :
    |x / y - d / s| < ε := by
  have hs0 : 0 < |s| := abs_pos.2 hs
  have hD : 0 < 2 * (|s| + |d|) := by positivity
  have m1 : ε * min (|s| / 2) (s ^ 2 / (2 * (|s| + |d|))) ≤ |s| / 2 :=
    (mul_le_mul_of_nonneg_left (min_le_left _ _) hε.le).trans (by nlinarith)
  have m2 : ε * min (|s| / 2) (s ^ 2 / (2 * (|s| + |d|))) ≤ ε * (s ^ 2 / (2 * (|s| + |d|))) :=
    mul_le_mul_of_nonneg_left (min_le_right _ _) hε.le
  have hyl : |s| / 2 < |y| := by
    have := abs_sub_abs_le_abs_sub s y
    rw [abs_sub_comm] at this
    linarith
  have hy0 : y ≠ 0 := by intro h0; rw [h0, abs_zero] at hyl; linarith
  have e : x / y - d / s = ((x - d) * s - d * (y - s)) / (y * s) := by field_simp; ring
  rw [e, abs_div, abs_mul, div_lt_iff₀ (by positivity)]
  have t1 : |(x - d) * s - d * (y - s)| ≤ |x - d| * |s| + |d| * |y - s| := by
    rw [← abs_mul, ← abs_mul]; exact abs_sub _ _
  have t2 : |x - d| * |s| + |d| * |y - s| < ε * (s ^ 2 / (2 * (|s| + |d|))) * (|s| + |d|) := by
    have a1 : |x - d| * |s| < ε * (s ^ 2 / (2 * (|s| + |d|))) * |s| := mul_lt_mul_of_pos_right (hx.trans_le m2) hs0
    have a2 : |d| * |y - s| ≤ |d| * (ε * (s ^ 2 / (2 * (|s| + |d|)))) := mul_le_mul_of_nonneg_left (hy.trans_le m2).le (abs_nonneg d)
    linarith
  have t3 : ε * (s ^ 2 / (2 * (|s| + |d|))) * (|s| + |d|) = ε * (|s| / 2 * |s|) := by
    rw [← sq_abs s]; field_simp
  have t4 : ε * (|s| / 2 * |s|) ≤ ε * (|y| * |s|) := by
    refine mul_le_mul_of_nonneg_left (mul_le_mul_of_nonneg_right hyl.le hs0.le) hε.le
  linarith

/-- The rate for the quotient of the averages of two quantities. -/
theorem rate_quotient {c : Ctx K} {q : MeasPar K} {f g : Record → ℝ} {d s0 : ℝ} (hs0 : s0 ≠ 0) {C1 C2 : ℝ} (h1 : 0 ≤ C1) (h2 : 0 ≤ C2)
    {a : SimPar} {s : Sim K} {J : ℕ → ℕ → ℕ → ℕ → ℕ → ℕ → ℕ → K} {junk : ℕ → ℕ → ℕ → K} {n : ℕ} (hn : 0 < n)
    (r1 : ∀ ε : ℝ, 0 < ε → streams {u | ¬ ∃ y, Returns (fun fuel => s.passes a m q c J junk u fuel (a.steps.therm / a.steps.period + n)) y ∧
        y.log.length = n ∧ |logMean f y.log - d| < ε} ≤ ENNReal.ofReal (C1 / (n * ε ^ 2)))
    (r2 : ∀ ε : ℝ, 0 < ε → streams {u | ¬ ∃ y, Returns (fun fuel => s.passes a m q c J junk u fuel (a.steps.therm / a.steps.period + n)) y ∧
        y.log.length = n ∧ |logMean g y.log - s0| < ε} ≤ ENNReal.ofReal (C2 / (n * ε ^ 2))) {ε : ℝ} (hε : 0 < ε) (hε1 : ε ≤ 1) :
    streams {u | ¬ ∃ y, Returns (fun fuel => s.passes a m q c J junk u fuel (a.steps.therm / a.steps.period + n)) y ∧
        y.log.length = n ∧ |logMean f y.log / logMean g y.log - d / s0| < ε} ≤
      ENNReal.ofReal ((C1 + C2) / min (|s0| / 2) (s0 ^ 2 / (2 * (|s0| + |d|))) ^ 2 / (n * ε ^ 2)) := by
  set k := min (|s0| / 2) (s0 ^ 2 / (2 * (|s0| + |d|))) with hk
  have hp : 0 < |s0| := abs_pos.2 hs0
  have k0 : 0 < k := lt_min (by positivity) (by positivity)
  have e1 := r1 (ε * k) (by positivity)
  have e2 := r2 (ε * k) (by positivity)
  refine (measure_mono (t := _ ∪ _) ?_).trans ((measure_union_le _ _).trans ((add_le_add e1 e2).trans (le_of_eq ?_)))
  · intro u hu
    by_contra hc
    rw [Set.mem_union, not_or] at hc
    obtain ⟨c1, c2⟩ := hc
    simp only [Set.mem_setOf_eq, not_not] at c1 c2
    obtain ⟨y, y1, y2, y3⟩ := c1
    obtain ⟨y', z1, z2, z3⟩ := c2
    obtain rfl : y' = y := z1.unique y1
    exact hu ⟨y', y1, y2, quotient_close hs0 hε hε1 y3 z3⟩
  · have hn' : (0 : ℝ) < n := Nat.cast_pos.2 hn
    rw [← ENNReal.ofReal_add (by positivity) (by positivity)]
    congr 1
    field_simp

/-- The rate for a quantity divided by the sign. -/
theorem rate_ratio {val : Record → ℝ} {F : List Pt → ℝ} (h : SimOK c q G m kIns maxOrder sz) (hr : Regular c G B) (hk : 0 < kIns)
    (hw : 0 < w)
    (hlow : ∀ x, ValidPts q.beta c.tbl x → x.length ≤ maxOrder → w ≤ |weight c.NI c.nf c.G0 c.tbl (x.map vertAt)|)
    {nIR : ℕ} (ha : 0 < nIR) (nSh nSF : ℕ) {period : ℕ} (hp : 0 < period)
    (hS : (configSum c q.beta maxOrder fun x => weight c.NI c.nf c.G0 c.tbl (x.map vertAt)) ≠ 0)
    (hF : ∃ C : ℝ, 0 ≤ C ∧ ∀ (a : SimPar), a.nIR = nIR → a.nSh = nSh → a.nSF = nSF → a.steps.period = period →
      ∀ (s : Sim ℝ), AtStart m c q.beta maxOrder s →
      ∀ (J : ℕ → ℕ → ℕ → ℕ → ℕ → ℕ → ℕ → ℝ) (junk : ℕ → ℕ → ℕ → ℝ) (n : ℕ), 0 < n → ∀ ε : ℝ, 0 < ε →
      streams {u | ¬ ∃ y, Returns (fun fuel => s.passes a m q c J junk u fuel (a.steps.therm / a.steps.period + n)) y ∧
        y.log.length = n ∧ |logMean val y.log - configSum c q.beta maxOrder F / (ensemble c q.beta maxOrder 1).toReal| < ε} ≤
          ENNReal.ofReal (C / (n * ε ^ 2))) :
    ∃ C : ℝ, 0 ≤ C ∧ ∀ (a : SimPar), a.nIR = nIR → a.nSh = nSh → a.nSF = nSF → a.steps.period = period →
      ∀ (s : Sim ℝ), AtStart m c q.beta maxOrder s →
      ∀ (J : ℕ → ℕ → ℕ → ℕ → ℕ → ℕ → ℕ → ℝ) (junk : ℕ → ℕ → ℕ → ℝ) (n : ℕ), 0 < n → ∀ ε : ℝ, 0 < ε → ε ≤ 1 →
      streams {u | ¬ ∃ y, Returns (fun fuel => s.passes a m q c J junk u fuel (a.steps.therm / a.steps.period + n)) y ∧
        y.log.length = n ∧ |logMean val y.log / logMean (fun r => r.sign) y.log - configSum c q.beta maxOrder F /
          (configSum c q.beta maxOrder fun x => weight c.NI c.nf c.G0 c.tbl (x.map vertAt))| < ε} ≤
            ENNReal.ofReal (C / (n * ε ^ 2)) := by
  obtain ⟨b, hb, hd⟩ := C72_bounded_below hr.bound q.beta maxOrder hw fun x hx hn => hlow x hx hn.le
  obtain ⟨h1, h2⟩ := C64_normalised hr.bound q.beta maxOrder
  have hZ : (ensemble c q.beta maxOrder 1).toReal ≠ 0 := (ENNReal.toReal_pos (by intro h0; rw [h0] at h1; simp at h1) h2.ne).ne'
  obtain ⟨C1, p1, q1⟩ := hF
  obtain ⟨C2, q2⟩ := C73_rate h hr hk hb hd ha nSh nSF hp
  set d := configSum c q.beta maxOrder F / (ensemble c q.beta maxOrder 1).toReal with hd'
  set s0 := (configSum c q.beta maxOrder fun x => weight c.NI c.nf c.G0 c.tbl (x.map vertAt)) / (ensemble c q.beta maxOrder 1).toReal with hs0
  refine ⟨(C1 + |C2|) / min (|s0| / 2) (s0 ^ 2 / (2 * (|s0| + |d|))) ^ 2, by positivity,
    fun a e1 e2 e3 e4 s hs J junk n hn ε hε hε1 => ?_⟩
  have := rate_quotient (div_ne_zero hS hZ) p1 (abs_nonneg C2) hn (fun ε hε => q1 a e1 e2 e3 e4 s hs J junk n hn ε hε)
    (fun ε hε => (q2 a e1 e2 e3 e4 s hs J junk n hn ε hε).trans
      (ENNReal.ofReal_le_ofReal (div_le_div_of_nonneg_right (le_abs_self C2) (by positivity)))) hε hε1
  rw [← hs0, hd'] at this
  nth_rewrite 1 [hs0] at this
  rw [div_div_div_cancel_right₀ hZ] at this
  exact this

/-- **C73.**  How far off what is printed may be: the average of the densities over the average of the signs of `n` records is off
    by `ε ≤ 1` or more with a probability of at most `C / (n ε²)`. -/
theorem C73_rate_ratio (h : SimOK c q G m kIns maxOrder sz) (hr : Regular c G B) (hk : 0 < kIns) (hw : 0 < w)
    (hlow : ∀ x, ValidPts q.beta c.tbl x → x.length ≤ maxOrder → w ≤ |weight c.NI c.nf c.G0 c.tbl (x.map vertAt)|)
    {nIR : ℕ} (ha : 0 < nIR) (nSh nSF : ℕ) {period : ℕ} (hp : 0 < period) {z i : ℕ} (hz : z < c.nf) (hi : i < q.ns)
    (hS : (configSum c q.beta maxOrder fun x => weight c.NI c.nf c.G0 c.tbl (x.map vertAt)) ≠ 0) :
    ∃ C : ℝ, 0 ≤ C ∧ ∀ (a : SimPar), a.nIR = nIR → a.nSh = nSh → a.nSF = nSF → a.steps.period = period →
      ∀ (s : Sim ℝ), AtStart m c q.beta maxOrder s →
      ∀ (J : ℕ → ℕ → ℕ → ℕ → ℕ → ℕ → ℕ → ℝ) (junk : ℕ → ℕ → ℕ → ℝ) (n : ℕ), 0 < n → ∀ ε : ℝ, 0 < ε → ε ≤ 1 →
      streams {u | ¬ ∃ y, Returns (fun fuel => s.passes a m q c J junk u fuel (a.steps.therm / a.steps.period + n)) y ∧
        y.log.length = n ∧ |logMean (fun r => (r.dens.site z).getD i 0) y.log / logMean (fun r => r.sign) y.log -
          (configSum c q.beta maxOrder fun x => (1 / q.beta) *
            ∫ τ in (0 : ℝ)..q.beta, weightExtra c G z (-q.beta * 1e-10) τ i i (x.map vertAt)) /
          (configSum c q.beta maxOrder fun x => weight c.NI c.nf c.G0 c.tbl (x.map vertAt))| < ε} ≤
            ENNReal.ofReal (C / (n * ε ^ 2)) :=
  rate_ratio h hr hk hw hlow ha nSh nSF hp hS (C73_rate_density h hr hk hw hlow ha nSh nSF hp hz hi)

/-- **C73.**  The same for every bin of the self-energy. -/
theorem C73_rate_self_energy_ratio (h : SimOK c q G m kIns maxOrder sz) (hr : Regular c G B) (hk : 0 < kIns) (hw : 0 < w)
    (hlow : ∀ x, ValidPts q.beta c.tbl x → x.length ≤ maxOrder → w ≤ |weight c.NI c.nf c.G0 c.tbl (x.map vertAt)|)
    {nIR : ℕ} (ha : 0 < nIR) (nSh nSF : ℕ) {period : ℕ} (hp : 0 < period) (hns : 0 < q.nShifts) {z i j b : ℕ} (hz : z < c.nf)
    (hi : i < q.ns) (hj : j < q.ns) (hb : b < q.nb)
    (hS : (configSum c q.beta maxOrder fun x => weight c.NI c.nf c.G0 c.tbl (x.map vertAt)) ≠ 0) :
    ∃ C : ℝ, 0 ≤ C ∧ ∀ (a : SimPar), a.nIR = nIR → a.nSh = nSh → a.nSF = nSF → a.steps.period = period →
      ∀ (s : Sim ℝ), AtStart m c q.beta maxOrder s →
      ∀ (J : ℕ → ℕ → ℕ → ℕ → ℕ → ℕ → ℕ → ℝ) (junk : ℕ → ℕ → ℕ → ℝ) (n : ℕ), 0 < n → ∀ ε : ℝ, 0 < ε → ε ≤ 1 →
      streams {u | ¬ ∃ y, Returns (fun fuel => s.passes a m q c J junk u fuel (a.steps.therm / a.steps.period + n)) y ∧
        y.log.length = n ∧ |logMean (fun r => (r.stauRe z i j).getD b 0) y.log / logMean (fun r => r.sign) y.log -
          (configSum c q.beta maxOrder fun x => (1 / q.beta) *
            ∫ t in (0 : ℝ)..q.beta, binnedWeights c q.beta q.nb b G z i j t (x.map vertAt)) /
          (configSum c q.beta maxOrder fun x => weight c.NI c.nf c.G0 c.tbl (x.map vertAt))| < ε} ≤
            ENNReal.ofReal (C / (n * ε ^ 2)) :=
  rate_ratio h hr hk hw hlow ha nSh nSF hp hS (C73_rate_self_energy h hr hk hw hlow ha nSh nSF hp hns hz hi hj hb)

/-! Concrete cases. -/

theorem ex_simOK {kIns maxOrder : ℕ} : SimOK exCtx1 exMeasPar (fun _ _ _ _ => 1 / 2) (Mgr.create 1 kIns maxOrder 1 exCtx1.tbl) kIns maxOrder 1 :=
  ⟨ex_tbl1, ex_full1, by simp [exCtx1], one_pos, Nat.succ_pos 2, ex_sites1, fun _ _ _ _ _ _ _ => rfl, zero_le_one, rfl⟩

theorem ex_regular : Regular exCtx1 (fun _ _ _ _ => 1 / 2) 1 :=
  ⟨ex_measurable1, ex_bound1, fun _ _ _ => measurable_const, fun _ _ _ _ => by norm_num⟩

theorem ex_low1 (x : List Pt) (hx : ValidPts exMeasPar.beta exCtx1.tbl x) (hn : x.length ≤ 1) :
    1 ≤ |weight exCtx1.NI exCtx1.nf exCtx1.G0 exCtx1.tbl (x.map vertAt)| := by
  match x, hx, hn with
  | [], _, _ => rw [List.map_nil, weight_nil]; simp
  | [v], hx, _ => rw [List.map_cons, List.map_nil, ex_single1 hx]; simp

theorem ex_atStart (m : Mgr) (M : ℕ) : ∃ s : Sim ℝ, AtStart m exCtx1 exMeasPar.beta M s := by
  obtain ⟨s, h1, h2⟩ := ex_reached m ex_tbl1
  exact ⟨⟨⟨⟨s, ⟨0, 0⟩, 0⟩, ⟨0, 0⟩⟩, 0, false, []⟩, h1, by simp only; rw [h2]; intro p hp; simp [ptsOf] at hp,
    by simp only; rw [h2]; simp, rfl, rfl, rfl⟩

theorem ex_sum_ne : (configSum exCtx1 exMeasPar.beta 1 fun x => weight exCtx1.NI exCtx1.nf exCtx1.G0 exCtx1.tbl (x.map vertAt)) ≠ 0 := by
  have e : (configSum exCtx1 exMeasPar.beta 1 fun x => weight exCtx1.NI exCtx1.nf exCtx1.G0 exCtx1.tbl (x.map vertAt)) =
      configSum exCtx1 exMeasPar.beta 1 fun x => 1 := by
    refine configSum_congr_live fun x hx hn => ?_
    match x, hx, hn with
    | [], _, _ => rw [List.map_nil, weight_nil]
    | [v], hx, _ => rw [List.map_cons, List.map_nil, ex_single1 hx]
  rw [e]
  unfold configSum
  rw [Finset.sum_range_succ, Finset.sum_range_one]
  refine ne_of_gt (add_pos_of_pos_of_nonneg ?_ ?_)
  · rw [Measure.pi_of_empty]
    simp
  · refine mul_nonneg (by positivity) (integral_nonneg fun x => ?_)
    simp

/-- The hypotheses can be met: one term, at most one vertex, starting from none, 5 passes of thermalisation. -/
example : ∃ s : Sim ℝ, ∀ᵐ u ∂streams, ∃ y : ℕ → Sim ℝ,
      (∀ n, Returns (fun fuel => s.passes ⟨1, 1, 1, ⟨1000, 10, 2⟩⟩ (Mgr.create 1 3 1 1 exCtx1.tbl) exMeasPar exCtx1
        (fun _ _ _ _ _ _ _ => 0) (fun _ _ _ => 0) u fuel (5 + n)) (y n) ∧ (y n).log.length = n) ∧
      Filter.Tendsto (fun n => logMean (fun r => (r.dens.site 0).getD 0 0) (y n).log / logMean (fun r => r.sign) (y n).log)
        Filter.atTop (nhds ((configSum exCtx1 1 1 fun x => (1 / 1) *
          ∫ τ in (0 : ℝ)..1, weightExtra exCtx1 (fun _ _ _ _ => 1 / 2) 0 (-1 * 1e-10) τ 0 0 (x.map vertAt)) /
        configSum exCtx1 1 1 fun x => weight exCtx1.NI exCtx1.nf exCtx1.G0 exCtx1.tbl (x.map vertAt))) := by
  obtain ⟨s, hs⟩ := ex_atStart (Mgr.create 1 3 1 1 exCtx1.tbl) 1
  exact ⟨s, C73_ratio ex_simOK ex_regular (by norm_num) one_pos ex_low1 ⟨1, 1, 1, ⟨1000, 10, 2⟩⟩ one_pos (by decide) (z := 0) (i := 0)
    (show 0 < 2 by norm_num) (show 0 < 1 by norm_num) ex_sum_ne hs _ _⟩

/-- The same case for the rate. -/
example : ∃ C : ℝ, 0 ≤ C ∧ ∀ (a : SimPar), a.nIR = 1 → a.nSh = 1 → a.nSF = 1 → a.steps.period = 2 →
      ∀ (s : Sim ℝ), AtStart (Mgr.create 1 3 1 1 exCtx1.tbl) exCtx1 1 1 s →
      ∀ (J : ℕ → ℕ → ℕ → ℕ → ℕ → ℕ → ℕ → ℝ) (junk : ℕ → ℕ → ℕ → ℝ) (n : ℕ), 0 < n → ∀ ε : ℝ, 0 < ε → ε ≤ 1 →
      streams {u | ¬ ∃ y, Returns (fun fuel => s.passes a (Mgr.create 1 3 1 1 exCtx1.tbl) exMeasPar exCtx1 J junk u fuel
          (a.steps.therm / a.steps.period + n)) y ∧
        y.log.length = n ∧ |logMean (fun r => (r.dens.site 0).getD 0 0) y.log / logMean (fun r => r.sign) y.log -
          (configSum exCtx1 1 1 fun x => (1 / 1) *
            ∫ τ in (0 : ℝ)..1, weightExtra exCtx1 (fun _ _ _ _ => 1 / 2) 0 (-1 * 1e-10) τ 0 0 (x.map vertAt)) /
          (configSum exCtx1 1 1 fun x => weight exCtx1.NI exCtx1.nf exCtx1.G0 exCtx1.tbl (x.map vertAt))| < ε} ≤
            ENNReal.ofReal (C / (n * ε ^ 2)) :=
  C73_rate_ratio ex_simOK ex_regular (by norm_num) one_pos ex_low1 one_pos 1 1 (by decide) (z := 0) (i := 0)
    (show 0 < 2 by norm_num) (show 0 < 1 by norm_num) ex_sum_ne

end CTInt
