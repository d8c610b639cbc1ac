import Verif.Proofs.Streams
import Verif.Proofs.FlipBalance

/-!
# Programs that consume random numbers, as measurable functions

A program takes a state and a stream and returns a state and the rest of the stream.
-/

set_option linter.all false

namespace CTInt

open MeasureTheory Set

/-- `f` is measurable; the mean of any function of its result and the unused numbers is given by `Op`. -/
structure Samples {Z W : Type} [MeasurableSpace Z] [MeasurableSpace W] (f : Z × (ℕ → ℝ) → W × (ℕ → ℝ))
    (Op : (W → ENNReal) → Z → ENNReal) : Prop where
  meas : Measurable f
  law : ∀ G : W × (ℕ → ℝ) → ENNReal, Measurable G → ∀ z, ∫⁻ u, G (f (z, u)) ∂streams = Op (fun w => ∫⁻ u, G (w, u) ∂streams) z

section
variable {Z W V C : Type} [MeasurableSpace Z] [MeasurableSpace W] [MeasurableSpace V] [MeasurableSpace C]

theorem Samples.comp {f : Z × (ℕ → ℝ) → W × (ℕ → ℝ)} {g : W × (ℕ → ℝ) → V × (ℕ → ℝ)} {A : (W → ENNReal) → Z → ENNReal}
    {B : (V → ENNReal) → W → ENNReal} (hg : Samples g B) (hf : Samples f A) : Samples (fun z => g (f z)) fun H => A (B H) := by
  refine ⟨hg.meas.comp hf.meas, fun G hG z => ?_⟩
  rw [hf.law (fun z => G (g z)) (hG.comp hg.meas) z]
  congr 1
  funext w
  exact hg.law G hG w

theorem Samples.congr {f : Z × (ℕ → ℝ) → W × (ℕ → ℝ)} {A B : (W → ENNReal) → Z → ENNReal} (hf : Samples f A)
    (h : ∀ H, Measurable H → ∀ z, A H z = B H z) : Samples f B := by
  refine ⟨hf.meas, fun G hG z => ?_⟩
  rw [hf.law G hG z]
  exact h _ hG.lintegral_prod_right' z

theorem Samples.congr_fun {f g : Z × (ℕ → ℝ) → W × (ℕ → ℝ)} {A : (W → ENNReal) → Z → ENNReal} (hf : Samples f A)
    (h : ∀ z, f z = g z) : Samples g A := by
  rw [← show f = g from funext h]; exact hf

theorem Samples.map {h : Z → W} (hh : Measurable h) : Samples (fun z : Z × (ℕ → ℝ) => (h z.1, z.2)) fun H z => H (h z) :=
  ⟨(hh.comp measurable_fst).prodMk measurable_snd, fun _ _ _ => rfl⟩

theorem Samples.id : Samples (fun z : Z × (ℕ → ℝ) => z) fun H z => H z := ⟨measurable_id, fun _ _ _ => rfl⟩

/-- A program for every value of a discrete variable. -/
theorem Samples.family [Countable C] [DiscreteMeasurableSpace C] {f : C → Z × (ℕ → ℝ) → W × (ℕ → ℝ)} {A : C → (W → ENNReal) → Z → ENNReal}
    (h : ∀ c, Samples (f c) (A c)) :
    Samples (fun z : (C × Z) × (ℕ → ℝ) => f z.1.1 (z.1.2, z.2)) fun H z => A z.1 H z.2 := by
  refine ⟨?_, fun G hG z => (h z.1).law G hG z.2⟩
  have : Measurable fun z : C × (Z × (ℕ → ℝ)) => f z.1 z.2 := measurable_from_prod_countable_right fun c => (h c).meas
  exact this.comp ((measurable_fst.comp measurable_fst).prodMk ((measurable_snd.comp measurable_fst).prodMk measurable_snd))

/-- Several rounds. -/
theorem Samples.iterate {f : Z × (ℕ → ℝ) → Z × (ℕ → ℝ)} {A : (Z → ENNReal) → Z → ENNReal} (h : Samples f A) (n : ℕ) :
    Samples (f^[n]) (A^[n]) := by
  induction n with
  | zero => exact Samples.id
  | succ n ih =>
    have := ih.comp h
    rw [Function.iterate_succ, Function.iterate_succ' A]
    exact this

/-- One number. -/
theorem Samples.one : Samples (fun z : Z × (ℕ → ℝ) => ((z.1, z.2 0), dropS 1 z.2)) fun H z => ∫⁻ r, H (z, r) ∂uniform01 := by
  have hm : Measurable fun z : Z × (ℕ → ℝ) => ((z.1, z.2 0), dropS 1 z.2) :=
    (measurable_fst.prodMk ((measurable_pi_apply 0).comp measurable_snd)).prodMk ((dropS_measurable 1).comp measurable_snd)
  refine ⟨hm, fun G hG z => ?_⟩
  have hG' : Measurable fun q : ℝ × (ℕ → ℝ) => G ((z, q.1), q.2) := hG.comp ((measurable_const.prodMk measurable_fst).prodMk measurable_snd)
  have := lintegral_map (μ := streams) hG' splitS.measurable
  rw [streams_split, lintegral_prod _ hG'.aemeasurable] at this
  exact this.symm

theorem lintegral_lt {x : ℝ} (hx : 0 ≤ x) (a b : ENNReal) :
    ∫⁻ r, (if r < x then a else b) ∂uniform01 = ENNReal.ofReal (min 1 x) * a + (1 - ENNReal.ofReal (min 1 x)) * b := by
  have hm : MeasurableSet {r : ℝ | r < x} := measurableSet_Iio
  rw [← lintegral_add_compl _ hm]
  have e1 : ∫⁻ r in {r : ℝ | r < x}, (if r < x then a else b) ∂uniform01 = ∫⁻ r in {r : ℝ | r < x}, a ∂uniform01 :=
    setLIntegral_congr_fun hm fun r hr => if_pos hr
  have e2 : ∫⁻ r in {r : ℝ | r < x}ᶜ, (if r < x then a else b) ∂uniform01 = ∫⁻ r in {r : ℝ | r < x}ᶜ, b ∂uniform01 :=
    setLIntegral_congr_fun hm.compl fun r hr => if_neg hr
  rw [e1, e2, setLIntegral_const, setLIntegral_const, measure_compl hm (measure_ne_top _ _), measure_univ, uniform01_lt x hx, mul_comm,
    mul_comm b]

/-- A decision. -/
theorem Samples.decide {a b : Z → W} {x : Z → ℝ} (ha : Measurable a) (hb : Measurable b) (hx : Measurable x) (h0 : ∀ z, 0 ≤ x z) :
    Samples (fun z : Z × (ℕ → ℝ) => (if z.2 0 < x z.1 then a z.1 else b z.1, dropS 1 z.2)) fun H z =>
      ENNReal.ofReal (min 1 (x z)) * H (a z) + (1 - ENNReal.ofReal (min 1 (x z))) * H (b z) := by
  have hm : Measurable fun z : Z × ℝ => if z.2 < x z.1 then a z.1 else b z.1 :=
    Measurable.ite (measurableSet_lt measurable_snd (hx.comp measurable_fst)) (ha.comp measurable_fst) (hb.comp measurable_fst)
  refine ((Samples.map hm).comp Samples.one).congr fun H hH z => ?_
  simp only []
  rw [← lintegral_lt (h0 z)]
  refine lintegral_congr fun r => ?_
  split <;> rfl

theorem lintegral_index {n : ℕ} (hn : 0 < n) (h : ℕ → ENNReal) :
    ∫⁻ r, h ⌊r * n⌋₊ ∂uniform01 = ∑ k ∈ Finset.range n, ENNReal.ofReal (1 / n) * h k := by
  have hm : Measurable fun r : ℝ => ⌊r * (n : ℝ)⌋₊ := Nat.measurable_floor.comp (measurable_id.mul_const _)
  have hh : Measurable h := measurable_from_top
  have := lintegral_map (μ := uniform01) hh hm
  rw [← this]
  have hn' : (0 : ℝ) < n := by exact_mod_cast hn
  have e : uniform01.map (fun r : ℝ => ⌊r * (n : ℝ)⌋₊) = ∑ k ∈ Finset.range n, ENNReal.ofReal (1 / n) • Measure.dirac k := by
    refine Measure.ext_of_singleton fun k => ?_
    rw [Measure.map_apply hm (measurableSet_singleton k), Measure.finset_sum_apply]
    simp only [Measure.smul_apply, smul_eq_mul, Measure.dirac_apply' _ (measurableSet_singleton k)]
    by_cases hk : k < n
    · have : (fun r : ℝ => ⌊r * (n : ℝ)⌋₊) ⁻¹' {k} = {r | ⌊r * (n : ℝ)⌋₊ = k} := rfl
      rw [this, uniform01_floor hk, Finset.sum_eq_single k]
      · simp
      · intro j _ hj; simp [hj]
      · intro h; exact absurd (Finset.mem_range.2 hk) h
    · rw [Finset.sum_eq_zero]
      · refine measure_mono_null ?_ (show uniform01 (Ico 0 1)ᶜ = 0 from ?_)
        · intro r hr h01
          apply hk
          have : ⌊r * (n : ℝ)⌋₊ = k := hr
          rw [← this, Nat.floor_lt (mul_nonneg h01.1 hn'.le)]
          nlinarith [h01.2]
        · unfold uniform01
          rw [Measure.restrict_apply measurableSet_Ico.compl]
          simp
      · intro j hj
        have : j ≠ k := fun q => hk (q ▸ Finset.mem_range.1 hj)
        simp [this]
  rw [e, lintegral_finsetSum_measure]
  refine Finset.sum_congr rfl fun k _ => ?_
  rw [lintegral_smul_measure, lintegral_dirac, smul_eq_mul]

end

/-! ## Drawing until -/

/-- The first place where an index outside `T` is drawn; 0 if there is none. -/
theorem untilEx (T : Finset ℕ) (N : ℕ) (u : ℕ → ℝ) : ∃ k, ⌊u k * (N : ℝ)⌋₊ ∉ T ∨ ∀ j, ⌊u j * (N : ℝ)⌋₊ ∈ T := by
  by_cases h : ∀ j, ⌊u j * (N : ℝ)⌋₊ ∈ T
  · exact ⟨0, Or.inr h⟩
  · push Not at h
    obtain ⟨k, hk⟩ := h
    exact ⟨k, Or.inl hk⟩

open Classical in
/-- That place. -/
noncomputable def untilIx (T : Finset ℕ) (N : ℕ) (u : ℕ → ℝ) : ℕ := Nat.find (untilEx T N u)

/-- The index drawn there and the rest of the stream. -/
noncomputable def untilS (T : Finset ℕ) (N : ℕ) (u : ℕ → ℝ) : ℕ × (ℕ → ℝ) :=
  (⌊u (untilIx T N u) * (N : ℝ)⌋₊, dropS (untilIx T N u + 1) u)

theorem untilIx_measurable (T : Finset ℕ) (N : ℕ) : Measurable (untilIx T N) := by
  classical
  unfold untilIx
  refine measurable_find _ fun k => ?_
  have h1 : ∀ j, Measurable fun u : ℕ → ℝ => ⌊u j * (N : ℝ)⌋₊ := fun j => Nat.measurable_floor.comp ((measurable_pi_apply j).mul_const _)
  have h2 : ∀ j, MeasurableSet {u : ℕ → ℝ | ⌊u j * (N : ℝ)⌋₊ ∈ T} := fun j => h1 j (MeasurableSet.of_discrete (s := (T : Set ℕ)))
  have : {u : ℕ → ℝ | ⌊u k * (N : ℝ)⌋₊ ∉ T ∨ ∀ j, ⌊u j * (N : ℝ)⌋₊ ∈ T} =
      {u | ⌊u k * (N : ℝ)⌋₊ ∈ T}ᶜ ∪ ⋂ j, {u | ⌊u j * (N : ℝ)⌋₊ ∈ T} := by
    ext u; simp
  rw [this]
  exact (h2 k).compl.union (MeasurableSet.iInter h2)

theorem untilS_measurable (T : Finset ℕ) (N : ℕ) : Measurable (untilS T N) := by
  have : Measurable fun z : ℕ × (ℕ → ℝ) => (⌊z.2 z.1 * (N : ℝ)⌋₊, dropS (z.1 + 1) z.2) := by
    refine measurable_from_prod_countable_right fun k => ?_
    exact (Nat.measurable_floor.comp ((measurable_pi_apply k).mul_const _)).prodMk (dropS_measurable (k + 1))
  exact this.comp ((untilIx_measurable T N).prodMk measurable_id)

theorem untilS_now {T : Finset ℕ} {N : ℕ} {u : ℕ → ℝ} (h : ⌊u 0 * (N : ℝ)⌋₊ ∉ T) : untilS T N u = (⌊u 0 * (N : ℝ)⌋₊, dropS 1 u) := by
  have : untilIx T N u = 0 := by
    classical
    unfold untilIx
    rw [Nat.find_eq_zero]
    exact Or.inl h
  unfold untilS
  rw [this]

theorem untilS_later {T : Finset ℕ} {N : ℕ} {u : ℕ → ℝ} (h : ⌊u 0 * (N : ℝ)⌋₊ ∈ T) (h2 : ∃ k, ⌊u k * (N : ℝ)⌋₊ ∉ T) :
    untilS T N u = untilS T N (dropS 1 u) := by
  classical
  obtain ⟨k0, hk0⟩ := h2
  have hno : ¬ ∀ j, ⌊u j * (N : ℝ)⌋₊ ∈ T := fun q => hk0 (q k0)
  have hno' : ¬ ∀ j, ⌊dropS 1 u j * (N : ℝ)⌋₊ ∈ T := by
    intro q
    cases k0 with
    | zero => exact hk0 h
    | succ k0 => exact hk0 (by have := q k0; unfold dropS at this; rwa [Nat.add_comm] at this)
  have e : untilIx T N u = untilIx T N (dropS 1 u) + 1 := by
    unfold untilIx
    rw [Nat.find_eq_iff]
    constructor
    · have := Nat.find_spec (untilEx T N (dropS 1 u))
      rcases this with h | h
      · left
        unfold dropS at h
        rwa [Nat.add_comm] at h
      · exact absurd h hno'
    · intro n hn
      cases n with
      | zero => push Not; exact ⟨h, k0, hk0⟩
      | succ n =>
        have := Nat.find_min (untilEx T N (dropS 1 u)) (m := n) (by omega)
        push Not at this
        push Not
        refine ⟨?_, k0, hk0⟩
        have h1 := this.1
        unfold dropS at h1
        rwa [Nat.add_comm] at h1
  unfold untilS
  rw [e]
  refine Prod.ext ?_ ?_
  · show ⌊u _ * (N : ℝ)⌋₊ = ⌊u (1 + _) * (N : ℝ)⌋₊
    rw [Nat.add_comm]
  · show dropS (_ + 1 + 1) u = dropS (_ + 1) (dropS 1 u)
    rw [dropS_drop]
    exact congrArg (fun k => dropS k u) (by omega)

theorem GoodS.hits {u : ℕ → ℝ} (hu : GoodS u) {T : Finset ℕ} {N : ℕ} (hT : ∀ x ∈ T, x < N) (hc : T.card < N) :
    ∃ k, ⌊u k * (N : ℝ)⌋₊ ∉ T := by
  obtain ⟨x, hx, hxT⟩ : ∃ x ∈ Finset.range N, x ∉ T := by
    by_contra h
    push Not at h
    have := Finset.card_le_card (show Finset.range N ⊆ T from h)
    rw [Finset.card_range] at this
    omega
  obtain ⟨k, _, hk⟩ := hu.1 N x (Finset.mem_range.1 hx) 0
  exact ⟨k, by rw [hk]; exact hxT⟩

theorem untilS_law {T : Finset ℕ} {N : ℕ} (hT : ∀ x ∈ T, x < N) (hc : T.card < N) {G : ℕ × (ℕ → ℝ) → ENNReal} (hG : Measurable G) :
    ∫⁻ u, G (untilS T N u) ∂streams =
      ∑ k ∈ Finset.range N \ T, ENNReal.ofReal (1 / ((N - T.card : ℕ) : ℝ)) * ∫⁻ u, G (k, u) ∂streams := by
  have hm := untilS_measurable T N
  have e : streams.map (untilS T N) = ∑ k ∈ Finset.range N \ T, ENNReal.ofReal (1 / ((N - T.card : ℕ) : ℝ)) • streams.map fun u => (k, u) := by
    refine Measure.ext fun A hA => ?_
    rw [Measure.map_apply hm hA, Measure.finset_sum_apply]
    have := law_until (E := untilS T N ⁻¹' A) (D := fun k => {u | (k, u) ∈ A}) hT hc ?_ ?_
    · rw [this]
      refine Finset.sum_congr rfl fun k _ => ?_
      have h2 : Measurable fun u : ℕ → ℝ => (k, u) := measurable_prodMk_left
      rw [Measure.smul_apply, Measure.map_apply h2 hA, smul_eq_mul]
      rfl
    · intro u _ h
      show untilS T N u ∈ A ↔ _
      rw [untilS_now h]
      exact Iff.rfl
    · intro u hu h
      show untilS T N u ∈ A ↔ untilS T N (dropS 1 u) ∈ A
      rw [untilS_later h (hu.hits hT hc)]
  rw [← lintegral_map hG hm, e, lintegral_finsetSum_measure]
  refine Finset.sum_congr rfl fun k _ => ?_
  have h2 : Measurable fun u : ℕ → ℝ => (k, u) := measurable_prodMk_left
  rw [lintegral_smul_measure, lintegral_map hG h2, smul_eq_mul]

/-- Drawing until. -/
theorem Samples.until {Z : Type} [MeasurableSpace Z] {T : Finset ℕ} {N : ℕ} (hT : ∀ x ∈ T, x < N) (hc : T.card < N) :
    Samples (fun z : Z × (ℕ → ℝ) => ((z.1, (untilS T N z.2).1), (untilS T N z.2).2)) fun H z =>
      ∑ k ∈ Finset.range N \ T, ENNReal.ofReal (1 / ((N - T.card : ℕ) : ℝ)) * H (z, k) := by
  have hm : Measurable fun z : Z × (ℕ → ℝ) => untilS T N z.2 := (untilS_measurable T N).comp measurable_snd
  refine ⟨(measurable_fst.prodMk (measurable_fst.comp hm)).prodMk (measurable_snd.comp hm), fun G hG z => ?_⟩
  exact untilS_law hT hc (G := fun q => G ((z, q.1), q.2)) (hG.comp ((measurable_const.prodMk measurable_fst).prodMk measurable_snd))

end CTInt
