import Verif.Proofs.SettleValues

/-!
# Averages over one long simulation
-/

set_option linter.all false

namespace CTInt

open MeasureTheory Set

variable {K : Type} [RCLike K] [DecidableEq K]
variable {c : Ctx K} {q : MeasPar K} {G : ℝ → ℕ → ℕ → ℕ → K} {m : Mgr} {kIns maxOrder : ℕ} {sz B : ℝ}

theorem insRem_mem_call {a : SimPar} (h1 : 0 < a.nIR) (h2 : 0 < a.steps.period) : Upd.insRem ∈ callUpdates a := by
  unfold callUpdates
  rw [List.mem_flatten]
  refine ⟨turnUpdates a.nIR a.nSh a.nSF, ?_, ?_⟩
  · rw [List.mem_replicate]; exact ⟨h2.ne', rfl⟩
  · unfold turnUpdates
    rw [List.mem_append, List.mem_append, List.mem_replicate]
    exact Or.inl (Or.inl ⟨h1.ne', rfl⟩)

theorem configSum_congr_live {beta : ℝ} {M : ℕ} {F F' : List Pt → ℝ} (h : ∀ x, ValidPts beta c.tbl x → x.length ≤ M → F x = F' x) :
    configSum c beta M F = configSum c beta M F' := by
  unfold configSum
  refine Finset.sum_congr rfl fun n hn => ?_
  congr 1
  refine integral_congr_ae ?_
  filter_upwards [ae_validPts beta c.tbl n] with x hx
  rw [h _ hx (by rw [List.length_ofFn]; have := Finset.mem_range.1 hn; omega)]

/-- The averages of whatever is recorded converge, to the sums of what they estimate. -/
def AllSettle (a : SimPar) (m : Mgr) (q : MeasPar K) (c : Ctx K) (J : ℕ → ℕ → ℕ → ℕ → ℕ → ℕ → ℕ → K) (junk : ℕ → ℕ → ℕ → K) (s : Sim K)
    (maxOrder : ℕ) : Prop :=
  ∀ (val : Record → ℝ) (V : List Pt × (ℕ → ℝ) → ℝ) (T T' : List Pt → ℝ), Estimates c q val V T →
    (∀ x, weight c.NI c.nf c.G0 c.tbl (x.map vertAt) ≠ 0 → T x = T' x) →
    ∀ᵐ u ∂streams, Settles a m q c J junk s val (configSum c q.beta maxOrder T' / (ensemble c q.beta maxOrder 1).toReal) u

theorem AllSettle.use {a : SimPar} {J : ℕ → ℕ → ℕ → ℕ → ℕ → ℕ → ℕ → K} {junk : ℕ → ℕ → ℕ → K} {s : Sim K} (h : AllSettle a m q c J junk s maxOrder)
    {val : Record → ℝ} {V : List Pt × (ℕ → ℝ) → ℝ} {T T' : List Pt → ℝ} (hE : Estimates c q val V T)
    (hT : ∀ x, weight c.NI c.nf c.G0 c.tbl (x.map vertAt) ≠ 0 → T x = T' x) :
    ∀ᵐ u ∂streams, Settles a m q c J junk s val (configSum c q.beta maxOrder T' / (ensemble c q.beta maxOrder 1).toReal) u :=
  h val V T T' hE hT

/-- A value cut off at `C`. -/
noncomputable def clampV (C : ℝ) (V : List Pt × (ℕ → ℝ) → ℝ) (z : List Pt × (ℕ → ℝ)) : ℝ := max (-C) (min C (V z))

theorem clampV_le {C : ℝ} (hC : 0 ≤ C) (V : List Pt × (ℕ → ℝ) → ℝ) (z : List Pt × (ℕ → ℝ)) : |clampV C V z| ≤ C := by
  unfold clampV
  rw [abs_le]
  exact ⟨le_max_left _ _, max_le (by linarith) (min_le_left _ _)⟩

theorem clampV_eq {C : ℝ} {V : List Pt × (ℕ → ℝ) → ℝ} {z : List Pt × (ℕ → ℝ)} (h : |V z| ≤ C) : clampV C V z = V z := by
  unfold clampV
  rw [abs_le] at h
  rw [min_eq_right h.2, max_eq_right h.1]

theorem AtStart.at {s : Sim K} (h : SimOK c q G m kIns maxOrder sz) (hs : AtStart m c q.beta maxOrder s) :
    SimAt c q.beta s (ptsOf s.x.w.s.verts) ∧ ptsOf s.x.w.s.verts ∈ Live c q.beta maxOrder := by
  obtain ⟨h1, h2⟩ := hs.reached.live h.ht h.hf h.hm hs.valid hs.order
  refine ⟨⟨h1, fun v hv => ?_⟩, h2⟩
  obtain ⟨-, -, h3, h4⟩ := hs.valid _ (List.mem_map_of_mem (f := ptOf) hv)
  exact ⟨h3, h4.le⟩

/-- What holds for all the theorems: the values recorded are those of the bounded value, with probability one, and the mean is as
    specified. -/
theorem settle_core {val : Record → ℝ} {V : List Pt × (ℕ → ℝ) → ℝ} {T : List Pt → ℝ} (h : SimOK c q G m kIns maxOrder sz)
    (hr : Regular c G B) (hk : 0 < kIns) {w : ℝ} (hw : 0 < w) (hd : CanShrink c q.beta maxOrder w) (a : SimPar) (ha : 0 < a.nIR)
    (hp : 0 < a.steps.period) (hE : Estimates c q val V T) {C : ℝ} (hC0 : 0 ≤ C)
    (hC : ∀ x ∈ Live c q.beta maxOrder, ∀ u, |V (x, u)| ≤ C) :
    (∃ r : ℕ, 0 < r ∧ ∃ δ : ℝ, 0 < δ ∧ Renews (simRun m c (callUpdates a)) (Live c q.beta maxOrder) [] r δ ∧
      r = maxOrder + 1 ∧ δ = downRate c q.beta maxOrder w ^ ((maxOrder + 1) * attempts kIns (callUpdates a))) ∧
    KeepsEnsemble c q.beta maxOrder (simRun m c (callUpdates a)) ∧
    Measurable (clampV C V) ∧ FirstOnly (q.nShifts + 1) (clampV C V) ∧ (∀ z, |clampV C V z| ≤ C) ∧
    (∀ x y u, x.Perm y → clampV C V (x, u) = clampV C V (y, u)) ∧
    ensVal c q.beta maxOrder (fun y => ∫ v, clampV C V (y, v) ∂streams) = configSum c q.beta maxOrder T / (ensemble c q.beta maxOrder 1).toReal ∧
    ∀ (s : Sim K), AtStart m c q.beta maxOrder s → ∀ (J : ℕ → ℕ → ℕ → ℕ → ℕ → ℕ → ℕ → K) (junk : ℕ → ℕ → ℕ → K), ∀ᵐ u ∂streams, ∀ n : ℕ, ∃ y : Sim K,
      Returns (fun fuel => s.passes a m q c J junk u fuel (a.steps.therm / a.steps.period + n)) y ∧ y.log.length = n ∧
      logMean val y.log = (∑ j ∈ Finset.range n, recorded (passK (simRun m c (callUpdates a)) (q.nShifts + 1) (clampV C V)) j
        ((simRun m c (callUpdates a))^[a.steps.therm / a.steps.period] (ptsOf s.x.w.s.verts, u))) / n := by
  have hG := hr.meas
  have hR := simRun_renews h.hf h.hT hG h.hb hk h.hm hw (canShrink_down hd) (insRem_mem_call ha hp)
  have hKE : KeepsEnsemble c q.beta maxOrder (simRun m c (callUpdates a)) := ⟨simRun_law h.hf h.hT hG h.hb h.hm _⟩
  have hcm : Measurable (clampV C V) := measurable_const.max (measurable_const.min hE.meas)
  have hcf : FirstOnly (q.nShifts + 1) (clampV C V) := fun z u u' hu => by unfold clampV; rw [hE.first z u u' hu]
  refine ⟨⟨_, hR.rpos, _, hR.pos, hR, rfl, rfl⟩, hKE, hcm, hcf, clampV_le hC0 V, fun x y u hxy => by unfold clampV; rw [hE.sym x y u hxy], ?_, ?_⟩
  · unfold ensVal
    congr 1
    refine configSum_congr_live fun x hx hl => ?_
    rw [← hE.mean x hx]
    by_cases h0 : wt c x = 0
    · rw [h0]; simp
    · have : ∀ v, clampV C V (x, v) = V (x, v) := fun v => clampV_eq (hC x ⟨hx, hl, h0⟩ v)
      simp only [this]
  · intro s hs J junk
    set f := simRun m c (callUpdates a) with hf
    set k0 := a.steps.therm / a.steps.period with hk0
    obtain ⟨hSA, hL⟩ := hs.at h
    obtain ⟨A, hA, -⟩ := hKE.law
    have hstay : ∀ᵐ u ∂streams, ∀ j, ((stateOf (passK f (q.nShifts + 1) V))^[j] (f^[k0] (ptsOf s.x.w.s.verts, u))).1 ∈ Live c q.beta maxOrder := by
      rw [ae_all_iff]
      intro j
      have hst := passK_state_samples (k := q.nShifts + 1) (V := V) hA
      have h1 := hR.stays (k0 + j) _ hL
      rw [MeasureTheory.ae_iff] at h1 ⊢
      have h2 : Samples (fun p => (stateOf (passK f (q.nShifts + 1) V))^[j] (f^[k0] p)) (A^[k0 + j]) := by
        have := (hst.iterate j).comp (hA.iterate k0)
        have e : A^[k0 + j] = fun H => A^[k0] (A^[j] H) := by
          funext H; rw [Function.iterate_add_apply]
        rw [e]
        exact this
      exact ((hA.iterate (k0 + j)).measure_eq h2 (measurable_live hG).compl _).trans h1
    filter_upwards [ae_good, hstay] with u hu hst n
    have hdiv := Nat.div_add_mod a.steps.therm a.steps.period
    have hmod := Nat.mod_lt a.steps.therm hp
    rw [← hk0, Nat.mul_comm] at hdiv
    obtain ⟨y, l, t1, t2, t3, t4⟩ := passes_sim h a hu J junk k0 n hSA (by rw [hs.step]; omega) (by rw [hs.step]; omega)
    rw [hs.log, List.nil_append] at t2
    refine ⟨y, t1, by rw [t2, t3], ?_⟩
    unfold logMean
    rw [t2, t3, t4 val V hE.reads, hs.pos, dropS_zero]
    congr 1
    have hsum : ∀ g : ℕ → ℝ, ((List.range n).map g).sum = ∑ j ∈ Finset.range n, g j := fun g => rfl
    rw [hsum]
    refine Finset.sum_congr rfl fun j _ => ?_
    show (V (f ((stateOf (passK f (q.nShifts + 1) V))^[j] (f^[k0] (ptsOf s.x.w.s.verts, u)))) : ℝ) =
      clampV C V (f ((stateOf (passK f (q.nShifts + 1) (clampV C V)))^[j] (f^[k0] (ptsOf s.x.w.s.verts, u))))
    have es : stateOf (passK f (q.nShifts + 1) (clampV C V)) = stateOf (passK f (q.nShifts + 1) V) := rfl
    rw [es]
    have hj := hst (j + 1)
    rw [Function.iterate_succ_apply'] at hj
    exact (clampV_eq (hC _ hj _)).symm

/-- With probability one the averages converge. -/
theorem settle_strong {val : Record → ℝ} {V : List Pt × (ℕ → ℝ) → ℝ} {T : List Pt → ℝ} (h : SimOK c q G m kIns maxOrder sz)
    (hr : Regular c G B) (hk : 0 < kIns) {w : ℝ} (hw : 0 < w) (hd : CanShrink c q.beta maxOrder w) (a : SimPar) (ha : 0 < a.nIR)
    (hp : 0 < a.steps.period) (hE : Estimates c q val V T) (hC : ∃ C, ∀ x ∈ Live c q.beta maxOrder, ∀ u, |V (x, u)| ≤ C)
    {s : Sim K} (hs : AtStart m c q.beta maxOrder s) (J : ℕ → ℕ → ℕ → ℕ → ℕ → ℕ → ℕ → K) (junk : ℕ → ℕ → ℕ → K) :
    ∀ᵐ u ∂streams, Settles a m q c J junk s val (configSum c q.beta maxOrder T / (ensemble c q.beta maxOrder 1).toReal) u := by
  obtain ⟨C, hC⟩ := hC
  have hC0 : 0 ≤ C := (abs_nonneg _).trans (hC _ (hs.at h).2 fun _ => 0)
  obtain ⟨⟨r, hrp, δ, hδ, hR, -, -⟩, hKE, c1, c2, c3, c4, c5, c6⟩ := settle_core h hr hk hw hd a ha hp hE hC0 hC
  have hst := passK_strong hr.bound hr.meas hR hKE c1 c2 c3 c4 (a.steps.therm / a.steps.period) (hs.at h).2
  rw [c5] at hst
  filter_upwards [c6 s hs J junk, hst] with u h1 h2
  choose y y1 y2 y3 using h1
  refine ⟨y, fun n => ⟨y1 n, y2 n⟩, ?_⟩
  simp only [y3]
  exact h2

/-- The probability of a deviation, for every number of measurements. -/
theorem settle_rate {val : Record → ℝ} {V : List Pt × (ℕ → ℝ) → ℝ} {T : List Pt → ℝ} (h : SimOK c q G m kIns maxOrder sz)
    (hr : Regular c G B) (hk : 0 < kIns) {w : ℝ} (hw : 0 < w) (hd : CanShrink c q.beta maxOrder w) (a : SimPar) (ha : 0 < a.nIR)
    (hp : 0 < a.steps.period) (hE : Estimates c q val V T) {C : ℝ} (hC0 : 0 ≤ C) (hC : ∀ x ∈ Live c q.beta maxOrder, ∀ u, |V (x, u)| ≤ C)
    {s : Sim K} (hs : AtStart m c q.beta maxOrder s) (J : ℕ → ℕ → ℕ → ℕ → ℕ → ℕ → ℕ → K) (junk : ℕ → ℕ → ℕ → K)
    {n : ℕ} (hn : 0 < n) {ε : ℝ} (hε : 0 < ε) :
    streams {u | ¬ ∃ y, Returns (fun fuel => s.passes a m q c J junk u fuel (a.steps.therm / a.steps.period + n)) y ∧ y.log.length = n ∧
        |logMean val y.log - configSum c q.beta maxOrder T / (ensemble c q.beta maxOrder 1).toReal| < ε} ≤
      ENNReal.ofReal (12 * C ^ 2 * (maxOrder + 1) / downRate c q.beta maxOrder w ^ ((maxOrder + 1) * attempts kIns (callUpdates a)) / (n * ε ^ 2)) := by
  obtain ⟨⟨r, hrp, δ, hδ, hR, er, eδ⟩, hKE, c1, c2, c3, c4, c5, c6⟩ := settle_core h hr hk hw hd a ha hp hE hC0 hC
  have hL := (hs.at h).2
  set f := simRun m c (callUpdates a) with hf
  set k0 := a.steps.therm / a.steps.period with hk0
  set x := ptsOf s.x.w.s.verts with hx
  set mn := configSum c q.beta maxOrder T / (ensemble c q.beta maxOrder 1).toReal with hmn
  have hsq := passK_square_late hr.bound hr.meas hR hKE c1 c2 c3 c4 k0 n hL
  rw [c5] at hsq
  obtain ⟨A, hA, -⟩ := hKE.law
  obtain ⟨A2, hA3⟩ := recordStep_samples c1 c2
  have hK : Samples (passK f (q.nShifts + 1) (clampV C V)) _ := hA3.comp hA
  have hnr : (0 : ℝ) < n := by exact_mod_cast hn
  let D : (ℕ → ℝ) → ℝ := fun u => devSum (passK f (q.nShifts + 1) (clampV C V)) mn n (f^[k0] (x, u))
  have hD : Measurable D := (devSum_meas hK.meas mn n).comp ((hA.iterate k0).meas.comp measurable_prodMk_left)
  have hmC : |mn| ≤ C := by
    have hg : Measurable fun y => ∫ v, clampV C V (y, v) ∂streams := mean_measurable c1
    have hgC : ∀ y, |∫ v, clampV C V (y, v) ∂streams| ≤ C := fun y => mean_bound fun v => c3 _
    have hcen := hKE.centre hr.bound hr.meas hg hgC fun x y h => integral_congr_ae (Filter.Eventually.of_forall fun u => c4 x y u h)
    rw [c5] at hcen
    exact abs_le.2 (hcen 0 (-C) C fun y _ => by rw [meanAfter_zero]; exact abs_le.1 (hgC y))
  have hDb : ∀ u, |D u ^ 2| ≤ (n * (2 * C)) ^ 2 := by
    intro u
    rw [abs_of_nonneg (sq_nonneg _)]
    have := devSum_bound (K := passK f (q.nShifts + 1) (clampV C V)) (fun p => c3 _) hmC n (f^[k0] (x, u))
    exact sq_le_sq' (abs_le.1 this).1 (abs_le.1 this).2
  have hint : Integrable (fun u => D u ^ 2) streams := bdd_integrable (hD.pow_const 2) hDb
  have hsub : streams {u | ¬ ∃ y, Returns (fun fuel => s.passes a m q c J junk u fuel (k0 + n)) y ∧ y.log.length = n ∧
        |logMean val y.log - mn| < ε} ≤ streams {u | (n * ε) ^ 2 ≤ D u ^ 2} := by
    refine measure_mono_ae ?_
    filter_upwards [c6 s hs J junk] with u hu hnot
    obtain ⟨y, y1, y2, y3⟩ := hu n
    have h1 : ¬ |logMean val y.log - mn| < ε := fun hlt => hnot ⟨y, y1, y2, hlt⟩
    rw [not_lt, y3] at h1
    have e : D u = n * ((∑ j ∈ Finset.range n, recorded (passK f (q.nShifts + 1) (clampV C V)) j (f^[k0] (x, u))) / n - mn) := by
      show ∑ j ∈ Finset.range n, (recorded (passK f (q.nShifts + 1) (clampV C V)) j (f^[k0] (x, u)) - mn) = _
      rw [Finset.sum_sub_distrib, Finset.sum_const, Finset.card_range, nsmul_eq_mul]
      field_simp
    show (n * ε) ^ 2 ≤ D u ^ 2
    rw [e, mul_pow, mul_pow]
    refine mul_le_mul_of_nonneg_left ?_ (by positivity)
    rw [← sq_abs (_ - mn)]
    exact pow_le_pow_left₀ hε.le h1 2
  refine hsub.trans ?_
  have hmark := mul_meas_ge_le_integral_of_nonneg (μ := streams) (f := fun u => D u ^ 2) (Filter.Eventually.of_forall fun u => sq_nonneg _) hint ((n * ε) ^ 2)
  have hle : streams.real {u | (n * ε) ^ 2 ≤ D u ^ 2} ≤ 12 * C ^ 2 * r / δ / (n * ε ^ 2) := by
    have h2 : (n * ε) ^ 2 * streams.real {u | (n * ε) ^ 2 ≤ D u ^ 2} ≤ n * (12 * C ^ 2 * r / δ) := hmark.trans hsq
    rw [le_div_iff₀ (by positivity)]
    have h3 : (n : ℝ) * (streams.real {u | (n * ε) ^ 2 ≤ D u ^ 2} * (n * ε ^ 2)) ≤ n * (12 * C ^ 2 * r / δ) := by
      refine le_trans (le_of_eq ?_) h2
      ring
    exact le_of_mul_le_mul_left h3 hnr
  rw [← ofReal_measureReal]
  refine ENNReal.ofReal_le_ofReal (hle.trans (le_of_eq ?_))
  rw [er, eδ]
  push_cast
  rfl

end CTInt
