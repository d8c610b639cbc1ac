import Verif.Proofs.Minor
import Verif.Proofs.Centre
import Verif.Proofs.MeanSquare
import Verif.Proofs.StrongLaw

/-!
# A measurement after the updates: it consumes some numbers and leaves the configuration
-/

set_option linter.all false

namespace CTInt

open MeasureTheory Set

section
variable {Z W V : Type} [MeasurableSpace Z] [MeasurableSpace W] [MeasurableSpace V]

/-- The mean given by the law is the mean over the streams. -/
theorem Samples.op_eq {f : Z × (ℕ → ℝ) → W × (ℕ → ℝ)} {A : (W → ENNReal) → Z → ENNReal} (h : Samples f A) {H : W → ENNReal}
    (hH : Measurable H) (z : Z) : A H z = ∫⁻ u, H (f (z, u)).1 ∂streams := by
  have := h.law (fun w => H w.1) (hH.comp measurable_fst) z
  simp only [lintegral_const, measure_univ, mul_one] at this
  exact this.symm

/-- The first `k` numbers, then zeros. -/
def cutS (k : ℕ) (u : ℕ → ℝ) : ℕ → ℝ := fun i => if i < k then u i else 0

theorem cutS_measurable (k : ℕ) : Measurable (cutS k) := by
  refine measurable_pi_lambda _ fun i => ?_
  unfold cutS
  by_cases h : i < k
  · simp only [if_pos h]; exact measurable_pi_apply i
  · simp only [if_neg h]; exact measurable_const

/-- Drawing `k` numbers. -/
theorem Samples.cut (k : ℕ) : ∃ A, Samples (fun z : Z × (ℕ → ℝ) => ((z.1, cutS k z.2), dropS k z.2)) A := by
  induction k with
  | zero =>
    refine ⟨_, (Samples.map (h := fun z : Z => (z, (fun _ => 0 : ℕ → ℝ))) (measurable_id.prodMk measurable_const)).congr_fun fun z => ?_⟩
    rw [dropS_zero]
    refine Prod.ext (Prod.ext rfl ?_) rfl
    funext i
    simp [cutS]
  | succ k ih =>
    obtain ⟨A, hA⟩ := ih
    have hm : Measurable fun z : (Z × (ℕ → ℝ)) × ℝ => (z.1.1, Function.update z.1.2 k z.2) := by
      refine (measurable_fst.comp measurable_fst).prodMk (measurable_pi_lambda _ fun i => ?_)
      by_cases h : i = k
      · subst h; simp only [Function.update_self]; exact measurable_snd
      · simp only [Function.update_of_ne h]
        exact (measurable_pi_apply i).comp (measurable_snd.comp measurable_fst)
    refine ⟨_, (((Samples.map hm).comp Samples.one).comp hA).congr_fun fun z => ?_⟩
    refine Prod.ext (Prod.ext rfl ?_) ?_
    · funext i
      show Function.update (cutS k z.2) k (dropS k z.2 0) i = cutS (k + 1) z.2 i
      by_cases h : i = k
      · subst h
        rw [Function.update_self]
        show z.2 (i + 0) = _
        simp [cutS]
      · rw [Function.update_of_ne h]
        unfold cutS
        have : i < k + 1 ↔ i < k := by omega
        simp only [this]
    · show dropS 1 (dropS k z.2) = dropS (k + 1) z.2
      rw [dropS_drop]

/-- A value determined by the first `k` numbers. -/
def FirstOnly (k : ℕ) (V : Z × (ℕ → ℝ) → ℝ) : Prop := ∀ z u u', (∀ i < k, u i = u' i) → V (z, u) = V (z, u')

theorem FirstOnly.cut {k : ℕ} {V : Z × (ℕ → ℝ) → ℝ} (h : FirstOnly k V) (z : Z) (u : ℕ → ℝ) : V (z, cutS k u) = V (z, u) :=
  h z _ _ fun i hi => by simp [cutS, hi]

/-- Recording a value and dropping the numbers used for it. -/
def recordStep (k : ℕ) (V : Z × (ℕ → ℝ) → ℝ) (p : Z × (ℕ → ℝ)) : (Z × ℝ) × (ℕ → ℝ) := ((p.1, V p), dropS k p.2)

theorem recordStep_samples {k : ℕ} {V : Z × (ℕ → ℝ) → ℝ} (hV : Measurable V) (hk : FirstOnly k V) :
    ∃ A, Samples (recordStep k V) A := by
  obtain ⟨A, hA⟩ := Samples.cut (Z := Z) k
  have hm : Measurable fun z : Z × (ℕ → ℝ) => (z.1, V z) := measurable_fst.prodMk hV
  refine ⟨_, ((Samples.map hm).comp hA).congr_fun fun z => ?_⟩
  show ((z.1, V (z.1, cutS k z.2)), dropS k z.2) = ((z.1, V z), dropS k z.2)
  rw [hk.cut z.1 z.2]

/-- Dropping numbers changes nothing. -/
theorem drop_samples (k : ℕ) : Samples (fun p : Z × (ℕ → ℝ) => (p.1, dropS k p.2)) fun H z => H z := by
  obtain ⟨A, hA⟩ := Samples.cut (Z := Z) k
  refine (((Samples.map (h := fun z : Z × (ℕ → ℝ) => z.1) measurable_fst).comp hA).congr fun H hH z => ?_)
  have := hA.op_eq (H := fun w => H w.1) (hH.comp measurable_fst) z
  rw [this]
  simp

end

section
variable {X : Type} [MeasurableSpace X] {f g : X × (ℕ → ℝ) → X × (ℕ → ℝ)} {A : (X → ENNReal) → X → ENNReal}
  {S : Set X} {e : X} {r : ℕ} {δ : ℝ}

theorem Samples.measure_eq (hf : Samples f A) (hg : Samples g A) {Y : Set X} (hY : MeasurableSet Y) (x : X) :
    streams {u | (g (x, u)).1 ∈ Y} = streams {u | (f (x, u)).1 ∈ Y} := by
  have hI : Measurable (Y.indicator (1 : X → ENNReal)) := measurable_one.indicator hY
  have h1 := hf.op_eq hI x
  rw [hg.op_eq hI x] at h1
  have hE : MeasurableSet {u : ℕ → ℝ | (f (x, u)).1 ∈ Y} := (fst_meas hf.meas x) hY
  have hE' : MeasurableSet {u : ℕ → ℝ | (g (x, u)).1 ∈ Y} := (fst_meas hg.meas x) hY
  rw [← lintegral_indicator_one hE, ← lintegral_indicator_one hE']
  exact h1

/-- Two programs with the same law. -/
theorem Renews.transfer (h : Renews f S e r δ) (hS : MeasurableSet S) (hf : Samples f A) (hg : Samples g A) : Renews g S e r δ := by
  refine ⟨⟨A, hg⟩, fun n x hx => ?_, h.rpos, h.pos, h.memE, h.measE, fun x hx => ?_⟩
  · have h1 := h.stays n x hx
    rw [MeasureTheory.ae_iff] at h1 ⊢
    have := (hf.iterate n).measure_eq (hg.iterate n) hS.compl x
    exact this.trans h1
  · have h1 := h.hits x hx
    have := (hf.iterate r).measure_eq (hg.iterate r) h.measE x
    exact h1.trans_eq this.symm

end

/-! ## Updates followed by a measurement -/

variable {K : Type} [RCLike K] [DecidableEq K]
variable {c : Ctx K} {beta : ℝ} {M : ℕ}

/-- Updates `f`, then a recorded value. -/
def passK (f : List Pt × (ℕ → ℝ) → List Pt × (ℕ → ℝ)) (k : ℕ) (V : List Pt × (ℕ → ℝ) → ℝ) (p : List Pt × (ℕ → ℝ)) :
    (List Pt × ℝ) × (ℕ → ℝ) := recordStep k V (f p)

variable {f : List Pt × (ℕ → ℝ) → List Pt × (ℕ → ℝ)} {k : ℕ} {V : List Pt × (ℕ → ℝ) → ℝ} {r : ℕ} {δ : ℝ}

theorem stateOf_passK (p : List Pt × (ℕ → ℝ)) : stateOf (passK f k V) p = ((f p).1, dropS k (f p).2) := rfl

theorem passK_state_samples {A : (List Pt → ENNReal) → List Pt → ENNReal} (hf : Samples f A) : Samples (stateOf (passK f k V)) A :=
  ((drop_samples k).comp hf).congr_fun fun _ => rfl

theorem passK_nextMean {A : (List Pt → ENNReal) → List Pt → ENNReal} (hf : Samples f A) (hV : Measurable V) {C : ℝ}
    (hC : ∀ z, |V z| ≤ C) (x : List Pt) :
    nextMean (passK f k V) x = meanAfter (stateOf (passK f k V)) 1 (fun y => ∫ v, V (y, v) ∂streams) x :=
  hf.integral x hV hC

/-- Averages of the recorded values converge in mean square. -/
theorem passK_square {B : ℝ} (hB : ∀ a b, ‖c.G0 a b‖ ≤ B) (hG : MeasurableG0 c.G0) (hR : Renews f (Live c beta M) [] r δ)
    (hE : KeepsEnsemble c beta M f) (hV : Measurable V) (hk : FirstOnly k V) {C : ℝ} (hC : ∀ z, |V z| ≤ C)
    (hs : ∀ x y u, x.Perm y → V (x, u) = V (y, u)) (n : ℕ) : ∀ x ∈ Live c beta M,
    ∫ u, devSum (passK f k V) (ensVal c beta M fun y => ∫ v, V (y, v) ∂streams) n (x, u) ^ 2 ∂streams ≤ n * (12 * C ^ 2 * r / δ) := by
  obtain ⟨A, hA, hA2⟩ := hE.law
  have hst := passK_state_samples (k := k) (V := V) hA
  have hR' := hR.transfer (measurable_live hG) hA hst
  have hE' : KeepsEnsemble c beta M (stateOf (passK f k V)) := ⟨A, hst, hA2⟩
  obtain ⟨A2, hA3⟩ := recordStep_samples hV hk
  have hg : Measurable fun y => ∫ v, V (y, v) ∂streams := mean_measurable hV
  have hgC : ∀ y, |∫ v, V (y, v) ∂streams| ≤ C := fun y => mean_bound fun v => hC _
  have hcen := hE'.centre hB hG hg hgC fun x y h => integral_congr_ae (Filter.Eventually.of_forall fun u => hs x y u h)
  refine mean_square (hA3.comp hA) hR' (fun p => hC _) ?_ n
  intro n a b hab
  refine hcen (1 + n) a b fun x hx => ?_
  have : a ≤ meanAfter (stateOf (passK f k V)) n (nextMean (passK f k V)) x ∧ meanAfter (stateOf (passK f k V)) n (nextMean (passK f k V)) x ≤ b := hab x hx
  rw [show nextMean (passK f k V) = meanAfter (stateOf (passK f k V)) 1 fun y => ∫ v, V (y, v) ∂streams from
    funext fun x => passK_nextMean hA hV hC x] at this
  rw [hR'.meanAfter_add hg hgC]
  exact this

/-- The same after some updates that are not followed by measurements. -/
theorem passK_square_late {B : ℝ} (hB : ∀ a b, ‖c.G0 a b‖ ≤ B) (hG : MeasurableG0 c.G0) (hR : Renews f (Live c beta M) [] r δ)
    (hE : KeepsEnsemble c beta M f) (hV : Measurable V) (hk : FirstOnly k V) {C : ℝ} (hC : ∀ z, |V z| ≤ C)
    (hs : ∀ x y u, x.Perm y → V (x, u) = V (y, u)) (k0 n : ℕ) {x : List Pt} (hx : x ∈ Live c beta M) :
    ∫ u, devSum (passK f k V) (ensVal c beta M fun y => ∫ v, V (y, v) ∂streams) n (f^[k0] (x, u)) ^ 2 ∂streams ≤
      n * (12 * C ^ 2 * r / δ) := by
  obtain ⟨A, hA, hA2⟩ := hE.law
  obtain ⟨A2, hA3⟩ := recordStep_samples hV hk
  have hK : Samples (passK f k V) _ := hA3.comp hA
  set m := ensVal c beta M fun y => ∫ v, V (y, v) ∂streams with hm
  have hmC : |m| ≤ C := by
    have hg : Measurable fun y => ∫ v, V (y, v) ∂streams := mean_measurable hV
    have hgC : ∀ y, |∫ v, V (y, v) ∂streams| ≤ C := fun y => mean_bound fun v => hC _
    have hcen := hE.centre hB hG hg hgC fun x y h => integral_congr_ae (Filter.Eventually.of_forall fun u => hs x y u h)
    exact abs_le.2 (hcen 0 (-C) C fun y _ => by rw [meanAfter_zero]; exact abs_le.1 (hgC y))
  have hsq : ∀ w, |devSum (passK f k V) m n w ^ 2| ≤ (n * (2 * C)) ^ 2 := by
    intro w
    rw [abs_of_nonneg (sq_nonneg _)]
    have := devSum_bound (K := passK f k V) (fun p => hC _) hmC n w
    exact sq_le_sq' (abs_le.1 this).1 (abs_le.1 this).2
  have hdm : Measurable fun w => devSum (passK f k V) m n w ^ 2 := (devSum_meas hK.meas m n).pow_const 2
  rw [(hA.iterate k0).integral x hdm hsq]
  have hstay := hR.stays k0 x hx
  have hq := passK_square (r := r) (δ := δ) hB hG hR hE hV hk hC hs n
  have hfm : Measurable fun u => ∫ v, devSum (passK f k V) m n ((f^[k0] (x, u)).1, v) ^ 2 ∂streams :=
    (mean_measurable hdm).comp (fst_meas (hA.iterate k0).meas x)
  have hint : Integrable (fun u => ∫ v, devSum (passK f k V) m n ((f^[k0] (x, u)).1, v) ^ 2 ∂streams) streams :=
    bdd_integrable hfm fun u => mean_bound fun v => hsq _
  calc _ ≤ ∫ u : ℕ → ℝ, (n * (12 * C ^ 2 * r / δ) : ℝ) ∂streams :=
        integral_mono_ae hint (integrable_const _) (by filter_upwards [hstay] with u hu using hq _ hu)
    _ = _ := by simp

/-- Averages of the recorded values converge with probability one. -/
theorem passK_strong {B : ℝ} (hB : ∀ a b, ‖c.G0 a b‖ ≤ B) (hG : MeasurableG0 c.G0) (hR : Renews f (Live c beta M) [] r δ)
    (hE : KeepsEnsemble c beta M f) (hV : Measurable V) (hk : FirstOnly k V) {C : ℝ} (hC : ∀ z, |V z| ≤ C)
    (hs : ∀ x y u, x.Perm y → V (x, u) = V (y, u)) (k0 : ℕ) {x : List Pt} (hx : x ∈ Live c beta M) :
    ∀ᵐ u ∂streams, Filter.Tendsto (fun n : ℕ => (∑ j ∈ Finset.range n, recorded (passK f k V) j (f^[k0] (x, u))) / n) Filter.atTop
      (nhds (ensVal c beta M fun y => ∫ v, V (y, v) ∂streams)) := by
  obtain ⟨A, hA, hA2⟩ := hE.law
  obtain ⟨A2, hA3⟩ := recordStep_samples hV hk
  have hK : Samples (passK f k V) _ := hA3.comp hA
  set m := ensVal c beta M fun y => ∫ v, V (y, v) ∂streams with hm
  have hfx : Measurable fun u => f^[k0] (x, u) := (hA.iterate k0).meas.comp measurable_prodMk_left
  have h := strong_law (μ := streams) (d := fun j u => recorded (passK f k V) j (f^[k0] (x, u)) - m)
    (fun j => ((recorded_meas hK.meas j).comp hfx).sub_const m) (b := C + |m|)
    (fun j u => (abs_sub _ _).trans (by have := hC (f ((stateOf (passK f k V))^[j] (f^[k0] (x, u)))); exact add_le_add this le_rfl))
    (C := 12 * C ^ 2 * r / δ) (fun n => passK_square_late hB hG hR hE hV hk hC hs k0 n hx)
  filter_upwards [h] with u hu
  have h1 : Filter.Tendsto (fun n : ℕ => (∑ j ∈ Finset.range n, (recorded (passK f k V) j (f^[k0] (x, u)) - m)) / n + m) Filter.atTop (nhds (0 + m)) :=
    hu.add_const m
  rw [zero_add] at h1
  refine h1.congr' ?_
  filter_upwards [Filter.eventually_ge_atTop 1] with n hn
  have : (n : ℝ) ≠ 0 := by positivity
  rw [Finset.sum_sub_distrib, Finset.sum_const, Finset.card_range, nsmul_eq_mul]
  field_simp
  ring

end CTInt
