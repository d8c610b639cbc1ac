import Verif.Proofs.Ergodic

/-!
# Averages of the numbers recorded by a program that keeps a measure

The measure is kept only for functions that do not distinguish related states (lists of vertices in another order).
-/

set_option linter.all false

namespace CTInt

open MeasureTheory Set Filter

section
variable {X : Type} [MeasurableSpace X] {R : X → X → Prop} {π : Measure X} [IsProbabilityMeasure π]
  {K : X × (ℕ → ℝ) → (X × ℝ) × (ℕ → ℝ)}

/-- A measurable function that does not distinguish related states. -/
def SymOn (R : X → X → Prop) (G : X → ENNReal) : Prop := Measurable G ∧ ∀ x y, R x y → G x = G y

/-- A program that keeps the measure, for functions that do not distinguish related states. -/
def KeepsPi (R : X → X → Prop) (π : Measure X) (f : X × (ℕ → ℝ) → X × (ℕ → ℝ)) : Prop :=
  ∃ A, Samples f A ∧ ∀ G, SymOn R G → SymOn R (A G) ∧ ∫⁻ x, A G x ∂π = ∫⁻ x, G x ∂π

theorem KeepsPi.iterate {f : X × (ℕ → ℝ) → X × (ℕ → ℝ)} (h : KeepsPi R π f) (n : ℕ) : KeepsPi R π (f^[n]) := by
  obtain ⟨A, hA, hs⟩ := h
  refine ⟨_, hA.iterate n, fun G hG => ?_⟩
  induction n with
  | zero => exact ⟨hG, rfl⟩
  | succ n ih =>
    rw [Function.iterate_succ_apply']
    exact ⟨(hs _ ih.1).1, (hs _ ih.1).2.trans ih.2⟩

theorem KeepsPi.meas {f : X × (ℕ → ℝ) → X × (ℕ → ℝ)} (h : KeepsPi R π f) : Measurable f := by
  obtain ⟨A, hA, _⟩ := h; exact hA.meas

/-- The mean of a function of the result is its mean under the measure. -/
theorem KeepsPi.mean {f : X × (ℕ → ℝ) → X × (ℕ → ℝ)} (h : KeepsPi R π f) {G : X → ENNReal} (hG : SymOn R G) :
    ∫⁻ p, G (f p).1 ∂(π.prod streams) = ∫⁻ x, G x ∂π := by
  obtain ⟨A, hA, hs⟩ := h
  have hm : Measurable fun p => G (f p).1 := hG.1.comp (measurable_fst.comp hA.meas)
  rw [lintegral_prod _ hm.aemeasurable, ← (hs G hG).2]
  exact lintegral_congr fun x => (hA.op_eq hG.1 x).symm

/-- The same for a function of the result and the unused numbers. -/
theorem KeepsPi.mean_prod {f : X × (ℕ → ℝ) → X × (ℕ → ℝ)} (h : KeepsPi R π f) {G : X × (ℕ → ℝ) → ENNReal} (hG : Measurable G)
    (hR : ∀ x y, R x y → ∫⁻ u, G (x, u) ∂streams = ∫⁻ u, G (y, u) ∂streams) :
    ∫⁻ p, G (f p) ∂(π.prod streams) = ∫⁻ p, G p ∂(π.prod streams) := by
  obtain ⟨A, hA, hs⟩ := h
  have hm : Measurable fun p => G (f p) := hG.comp hA.meas
  rw [lintegral_prod _ hm.aemeasurable, lintegral_prod _ hG.aemeasurable]
  rw [← (hs (fun x => ∫⁻ u, G (x, u) ∂streams) ⟨hG.lintegral_prod_right', hR⟩).2]
  exact lintegral_congr fun x => hA.law G hG x

/-- A recording program that keeps the measure. -/
def KeepsRec (R : X → X → Prop) (π : Measure X) (K : X × (ℕ → ℝ) → (X × ℝ) × (ℕ → ℝ)) : Prop :=
  ∃ A, Samples K A ∧
    (∀ Γ : X × ℝ → ENNReal, Measurable Γ → (∀ x y v, R x y → Γ (x, v) = Γ (y, v)) → ∀ x y, R x y → A Γ x = A Γ y) ∧
    ∀ G, SymOn R G → ∫⁻ x, A (fun z => G z.1) x ∂π = ∫⁻ x, G x ∂π

theorem KeepsRec.meas (h : KeepsRec R π K) : Measurable K := by
  obtain ⟨A, hA, _⟩ := h; exact hA.meas

theorem KeepsRec.state (h : KeepsRec R π K) : KeepsPi R π (stateOf K) := by
  obtain ⟨A, hA, h1, h2⟩ := h
  have hS : Samples (stateOf K) fun H => A fun z => H z.1 :=
    ((Samples.map (h := fun z : X × ℝ => z.1) measurable_fst).comp hA).congr_fun fun _ => rfl
  refine ⟨_, hS, fun G hG => ⟨⟨?_, fun x y hxy => h1 _ (hG.1.comp measurable_fst) (fun x y v hxy => hG.2 x y hxy) x y hxy⟩, h2 G hG⟩⟩
  have : (fun x => A (fun z => G z.1) x) = fun x => ∫⁻ u, G (stateOf K (x, u)).1 ∂streams :=
    funext fun x => hS.op_eq hG.1 x
  show Measurable fun x => A (fun z => G z.1) x
  rw [this]
  exact Measurable.lintegral_prod_right' (f := fun p => G (stateOf K p).1) (hG.1.comp (measurable_fst.comp hS.meas))

/-- The numbers recorded. -/
def pathOf (K : X × (ℕ → ℝ) → (X × ℝ) × (ℕ → ℝ)) (p : X × (ℕ → ℝ)) : ℕ → ℝ := fun j => recorded K j p

theorem pathOf_meas (hK : Measurable K) : Measurable (pathOf K) := measurable_pi_lambda _ fun j => recorded_meas hK j

theorem pathOf_shift (p : X × (ℕ → ℝ)) : pathOf K (stateOf K p) = shiftS (pathOf K p) := by
  funext j; exact (recorded_succ j p).symm

/-- The first numbers recorded are in given sets. -/
noncomputable def inSets (K : X × (ℕ → ℝ) → (X × ℝ) × (ℕ → ℝ)) : ℕ → (ℕ → Set ℝ) → X × (ℕ → ℝ) → ENNReal
  | 0, _, _ => 1
  | n + 1, t, p => (t 0).indicator 1 (K p).1.2 * inSets K n (fun i => t (i + 1)) (stateOf K p)

theorem stateOf_meas (hK : Measurable K) : Measurable (stateOf K) :=
  ((measurable_fst.comp measurable_fst).comp hK).prodMk (measurable_snd.comp hK)

theorem inSets_meas (hK : Measurable K) (n : ℕ) : ∀ t : ℕ → Set ℝ, (∀ i, MeasurableSet (t i)) → Measurable (inSets K n t) := by
  induction n with
  | zero => intro t _; exact measurable_const
  | succ n ih =>
    intro t ht
    have h1 : Measurable fun p : X × (ℕ → ℝ) => (t 0).indicator (1 : ℝ → ENNReal) (K p).1.2 :=
      (measurable_one.indicator (ht 0)).comp ((measurable_snd.comp measurable_fst).comp hK)
    exact h1.mul ((ih _ fun i => ht (i + 1)).comp (stateOf_meas hK))

theorem inSets_eq (n : ℕ) : ∀ (t : ℕ → Set ℝ) (p : X × (ℕ → ℝ)),
    inSets K n t p = {p | ∀ i < n, pathOf K p i ∈ t i}.indicator 1 p := by
  induction n with
  | zero => intro t p; simp [inSets]
  | succ n ih =>
    intro t p
    rw [inSets, ih]
    have hiff : p ∈ {p | ∀ i < n + 1, pathOf K p i ∈ t i} ↔
        (K p).1.2 ∈ t 0 ∧ stateOf K p ∈ {p | ∀ i < n, pathOf K p i ∈ t (i + 1)} := by
      simp only [mem_setOf_eq, pathOf_shift]
      constructor
      · intro h
        exact ⟨h 0 (Nat.succ_pos n), fun i hi => h (i + 1) (Nat.succ_lt_succ hi)⟩
      · rintro ⟨h0, h1⟩ i hi
        cases i with
        | zero => exact h0
        | succ i => exact h1 i (Nat.lt_of_succ_lt_succ hi)
    by_cases h0 : (K p).1.2 ∈ t 0 <;> by_cases h1 : stateOf K p ∈ {p | ∀ i < n, pathOf K p i ∈ t (i + 1)}
    · rw [indicator_of_mem h0, indicator_of_mem h1, indicator_of_mem (hiff.2 ⟨h0, h1⟩)]; simp
    · rw [indicator_of_notMem h1, indicator_of_notMem fun h => h1 (hiff.1 h).2, mul_zero]
    · rw [indicator_of_notMem h0, indicator_of_notMem fun h => h0 (hiff.1 h).1, zero_mul]
    · rw [indicator_of_notMem h0, indicator_of_notMem fun h => h0 (hiff.1 h).1, zero_mul]

theorem inSets_sym (h : KeepsRec R π K) (n : ℕ) : ∀ t : ℕ → Set ℝ, (∀ i, MeasurableSet (t i)) → ∀ x y, R x y →
    ∫⁻ u, inSets K n t (x, u) ∂streams = ∫⁻ u, inSets K n t (y, u) ∂streams := by
  have hK := h.meas
  obtain ⟨A, hA, h1, h2⟩ := h
  induction n with
  | zero => intro t _ x y _; rfl
  | succ n ih =>
    intro t ht x y hxy
    set G : (X × ℝ) × (ℕ → ℝ) → ENNReal := fun q => (t 0).indicator 1 q.1.2 * inSets K n (fun i => t (i + 1)) (q.1.1, q.2) with hG
    have m1 := inSets_meas hK n _ fun i => ht (i + 1)
    have mG : Measurable G :=
      ((measurable_one.indicator (ht 0)).comp (measurable_snd.comp measurable_fst)).mul
        (m1.comp ((measurable_fst.comp measurable_fst).prodMk measurable_snd))
    have e : ∀ x, ∫⁻ u, inSets K (n + 1) t (x, u) ∂streams = A (fun w => ∫⁻ u, G (w, u) ∂streams) x := fun x => hA.law G mG x
    rw [e, e]
    refine h1 _ mG.lintegral_prod_right' (fun x y v hxy => ?_) x y hxy
    have m2 : ∀ z, Measurable fun u => inSets K n (fun i => t (i + 1)) (z, u) := fun z => m1.comp measurable_prodMk_left
    simp only [hG]
    rw [lintegral_const_mul _ (m2 x), lintegral_const_mul _ (m2 y), ih _ (fun i => ht (i + 1)) x y hxy]

/-- What is recorded from related states has the same law. -/
theorem pathOf_law (h : KeepsRec R π K) {x y : X} (hxy : R x y) :
    streams.map (fun u => pathOf K (x, u)) = streams.map fun u => pathOf K (y, u) := by
  have hP := pathOf_meas h.meas
  have hx : ∀ x : X, Measurable fun u => pathOf K (x, u) := fun x => hP.comp measurable_prodMk_left
  have pr : ∀ x : X, IsProbabilityMeasure (streams.map fun u => pathOf K (x, u)) := fun x =>
    Measure.isProbabilityMeasure_map (hx x).aemeasurable
  have := pr x
  have := pr y
  refine ext_of_generate_finite _ (generateFrom_squareCylinders (α := fun _ : ℕ => ℝ)).symm
    (isPiSystem_squareCylinders (fun _ => MeasurableSpace.isPiSystem_measurableSet) fun _ => by simp) ?_ (by simp)
  rintro S ⟨s, t, ht, rfl⟩
  have ht' : ∀ i, MeasurableSet (t i) := by simpa using ht
  have hS : MeasurableSet ((s : Set ℕ).pi t) := MeasurableSet.pi (Finset.countable_toSet _) fun i _ => ht' i
  obtain ⟨n, hn⟩ : ∃ n, ∀ i ∈ s, i < n := ⟨s.sup id + 1, fun i hi => Nat.lt_succ_of_le (Finset.le_sup (f := id) hi)⟩
  classical
  set t' : ℕ → Set ℝ := fun i => if i ∈ s then t i else univ with ht'd
  have mt' : ∀ i, MeasurableSet (t' i) := fun i => by
    by_cases hi : i ∈ s
    · simp only [ht'd, if_pos hi]; exact ht' i
    · simp only [ht'd, if_neg hi]; exact MeasurableSet.univ
  have hset : ∀ w : ℕ → ℝ, w ∈ (s : Set ℕ).pi t ↔ ∀ i < n, w i ∈ t' i := by
    intro w
    constructor
    · intro hw i _
      by_cases hi : i ∈ s
      · simp only [ht'd, if_pos hi]; exact hw i hi
      · simp only [ht'd, if_neg hi]; exact mem_univ _
    · intro hw i hi
      have := hw i (hn i hi)
      simpa only [ht'd, if_pos (show i ∈ s from hi)] using this
  have e : ∀ x, streams.map (fun u => pathOf K (x, u)) ((s : Set ℕ).pi t) = ∫⁻ u, inSets K n t' (x, u) ∂streams := by
    intro x
    rw [Measure.map_apply (hx x) hS, ← lintegral_indicator_one ((hx x) hS)]
    refine lintegral_congr fun u => ?_
    rw [inSets_eq]
    by_cases hu : pathOf K (x, u) ∈ (s : Set ℕ).pi t
    · rw [indicator_of_mem (show u ∈ (fun u => pathOf K (x, u)) ⁻¹' (s : Set ℕ).pi t from hu),
        indicator_of_mem (show (x, u) ∈ {p | ∀ i < n, pathOf K p i ∈ t' i} from (hset _).1 hu)]; rfl
    · rw [indicator_of_notMem (show u ∉ (fun u => pathOf K (x, u)) ⁻¹' (s : Set ℕ).pi t from hu),
        indicator_of_notMem (show (x, u) ∉ {p | ∀ i < n, pathOf K p i ∈ t' i} from fun h => hu ((hset _).2 h))]
  rw [e, e, inSets_sym h n t' mt' x y hxy]

/-- How likely a sequence in `B` is recorded from a state. -/
noncomputable def likely (K : X × (ℕ → ℝ) → (X × ℝ) × (ℕ → ℝ)) (B : Set (ℕ → ℝ)) (x : X) : ENNReal :=
  streams {u | pathOf K (x, u) ∈ B}

theorem likely_eq (hK : Measurable K) {B : Set (ℕ → ℝ)} (hB : MeasurableSet B) (x : X) :
    likely K B x = ∫⁻ u, (pathOf K ⁻¹' B).indicator 1 (x, u) ∂streams := by
  have hx : MeasurableSet {u | pathOf K (x, u) ∈ B} := (pathOf_meas hK).comp measurable_prodMk_left hB
  rw [likely, ← lintegral_indicator_one hx]
  rfl

theorem likely_sym (h : KeepsRec R π K) {B : Set (ℕ → ℝ)} (hB : MeasurableSet B) : SymOn R (likely K B) := by
  have hm : Measurable ((pathOf K ⁻¹' B).indicator (1 : X × (ℕ → ℝ) → ENNReal)) := measurable_one.indicator (pathOf_meas h.meas hB)
  refine ⟨?_, fun x y hxy => ?_⟩
  · rw [show likely K B = fun x => ∫⁻ u, (pathOf K ⁻¹' B).indicator 1 (x, u) ∂streams from funext (likely_eq h.meas hB)]
    exact hm.lintegral_prod_right'
  · have := pathOf_law h hxy
    have hx : ∀ x : X, Measurable fun u => pathOf K (x, u) := fun x => (pathOf_meas h.meas).comp measurable_prodMk_left
    have h2 := congrArg (fun μ : Measure (ℕ → ℝ) => μ B) this
    simp only [Measure.map_apply (hx x) hB, Measure.map_apply (hx y) hB] at h2
    exact h2

theorem likely_le_one (B : Set (ℕ → ℝ)) (x : X) : likely K B x ≤ 1 := prob_le_one

/-- The law of what is recorded, started from the measure. -/
noncomputable def recLaw (π : Measure X) (K : X × (ℕ → ℝ) → (X × ℝ) × (ℕ → ℝ)) : Measure (ℕ → ℝ) := (π.prod streams).map (pathOf K)

theorem recLaw_apply (hK : Measurable K) {B : Set (ℕ → ℝ)} (hB : MeasurableSet B) : recLaw π K B = ∫⁻ x, likely K B x ∂π := by
  rw [recLaw, Measure.map_apply (pathOf_meas hK) hB, Measure.prod_apply (pathOf_meas hK hB)]
  rfl

/-- It does not change when the first number is left out. -/
theorem recLaw_shift (h : KeepsRec R π K) : MeasurePreserving shiftS (recLaw π K) (recLaw π K) := by
  refine ⟨shiftS_meas, ?_⟩
  have hP := pathOf_meas h.meas
  ext B hB
  rw [Measure.map_apply shiftS_meas hB, recLaw, Measure.map_apply hP (shiftS_meas hB), Measure.map_apply hP hB]
  have hm : Measurable ((pathOf K ⁻¹' B).indicator (1 : X × (ℕ → ℝ) → ENNReal)) := measurable_one.indicator (hP hB)
  have e := h.state.mean_prod hm fun x y hxy => by
    rw [← likely_eq h.meas hB, ← likely_eq h.meas hB]; exact (likely_sym h hB).2 x y hxy
  rw [lintegral_indicator_one (hP hB)] at e
  rw [← e, ← lintegral_indicator_one (hP (shiftS_meas hB))]
  refine lintegral_congr fun p => ?_
  have hiff : p ∈ pathOf K ⁻¹' (shiftS ⁻¹' B) ↔ stateOf K p ∈ pathOf K ⁻¹' B := by
    simp only [mem_preimage, pathOf_shift]
  by_cases hp : p ∈ pathOf K ⁻¹' (shiftS ⁻¹' B)
  · rw [indicator_of_mem hp, indicator_of_mem (hiff.1 hp)]; rfl
  · rw [indicator_of_notMem hp, indicator_of_notMem fun h => hp (hiff.2 h)]

/-- For a set of sequences that does not depend on the first number, the probability does not change on average. -/
theorem likely_harmonic (h : KeepsRec R π K) {B : Set (ℕ → ℝ)} (hB : MeasurableSet B) (hs : ∀ w, shiftS w ∈ B ↔ w ∈ B) (n : ℕ) (x : X) :
    ∫⁻ u, likely K B ((stateOf K)^[n] (x, u)).1 ∂streams = likely K B x := by
  obtain ⟨A, hA, _⟩ := h.state.iterate n
  have hP := pathOf_meas h.meas
  have hm : Measurable ((pathOf K ⁻¹' B).indicator (1 : X × (ℕ → ℝ) → ENNReal)) := measurable_one.indicator (hP hB)
  have hinv : ∀ n p, (stateOf K)^[n] p ∈ pathOf K ⁻¹' B ↔ p ∈ pathOf K ⁻¹' B := by
    intro n
    induction n with
    | zero => intro p; rfl
    | succ n ih =>
      intro p
      rw [Function.iterate_succ_apply, ih]
      simp only [mem_preimage, pathOf_shift, hs]
  rw [← hA.op_eq (likely_sym h hB).1 x, likely_eq h.meas hB x]
  have e := hA.law _ hm x
  have e2 : (fun w => ∫⁻ u, (pathOf K ⁻¹' B).indicator (1 : X × (ℕ → ℝ) → ENNReal) (w, u) ∂streams) = likely K B :=
    funext fun w => (likely_eq h.meas hB w).symm
  rw [e2] at e
  rw [← e]
  refine lintegral_congr fun u => ?_
  by_cases hp : (x, u) ∈ pathOf K ⁻¹' B
  · rw [indicator_of_mem hp, indicator_of_mem ((hinv n (x, u)).2 hp)]; rfl
  · rw [indicator_of_notMem hp, indicator_of_notMem fun h => hp ((hinv n (x, u)).1 h)]

/-- The probability does not change along the way. -/
theorem likely_const (h : KeepsRec R π K) {B : Set (ℕ → ℝ)} (hB : MeasurableSet B) (hs : ∀ w, shiftS w ∈ B ↔ w ∈ B) (n : ℕ) :
    ∀ᵐ p ∂(π.prod streams), likely K B ((stateOf K)^[n] p).1 = likely K B p.1 := by
  set H : X → ℝ := fun x => (likely K B x).toReal with hH
  have hL := likely_sym h hB
  have hLm := hL.1
  have hfin : ∀ x, likely K B x ≠ ⊤ := fun x => ((likely_le_one B x).trans_lt ENNReal.one_lt_top).ne
  have hHm : Measurable H := hLm.ennreal_toReal
  have hH0 : ∀ x, 0 ≤ H x := fun x => ENNReal.toReal_nonneg
  have hH1 : ∀ x, H x ≤ 1 := fun x => ENNReal.toReal_le_of_le_ofReal zero_le_one (by simpa using likely_le_one B x)
  have hF := h.state.iterate n
  have hfm : Measurable fun p => ((stateOf K)^[n] p).1 := measurable_fst.comp hF.meas
  set a : X × (ℕ → ℝ) → ℝ := fun p => H ((stateOf K)^[n] p).1 with ha
  set b : X × (ℕ → ℝ) → ℝ := fun p => H p.1 with hb
  have ham : Measurable a := hHm.comp hfm
  have hbm : Measurable b := hHm.comp measurable_fst
  have ha1 : ∀ p, |a p| ≤ 1 := fun p => by rw [abs_of_nonneg (hH0 _)]; exact hH1 _
  have hb1 : ∀ p, |b p| ≤ 1 := fun p => by rw [abs_of_nonneg (hH0 _)]; exact hH1 _
  have mulb : ∀ c d : X × (ℕ → ℝ) → ℝ, (∀ p, |c p| ≤ 1) → (∀ p, |d p| ≤ 1) → ∀ p, |c p * d p| ≤ 1 := fun c d hc hd p => by
    rw [abs_mul]; exact mul_le_one₀ (hc p) (abs_nonneg _) (hd p)
  have iaa : Integrable (fun p => a p * a p) (π.prod streams) := bdd_integrable (ham.mul ham) (mulb a a ha1 ha1)
  have iab : Integrable (fun p => a p * b p) (π.prod streams) := bdd_integrable (ham.mul hbm) (mulb a b ha1 hb1)
  have ibb : Integrable (fun p => b p * b p) (π.prod streams) := bdd_integrable (hbm.mul hbm) (mulb b b hb1 hb1)
  -- the mean of the square
  have e1 : ∫ p, a p * a p ∂(π.prod streams) = ∫ x, H x * H x ∂π := by
    have s2 : SymOn R fun x => ENNReal.ofReal (H x * H x) :=
      ⟨(hHm.mul hHm).ennreal_ofReal, fun x y hxy => by simp only [hH]; rw [hL.2 x y hxy]⟩
    rw [integral_eq_lintegral_of_nonneg_ae (Eventually.of_forall fun p => mul_self_nonneg _) (ham.mul ham).aestronglyMeasurable,
      integral_eq_lintegral_of_nonneg_ae (Eventually.of_forall fun p => mul_self_nonneg _) (hHm.mul hHm).aestronglyMeasurable]
    congr 1
    exact hF.mean s2
  have e2 : ∫ p, b p * b p ∂(π.prod streams) = ∫ x, H x * H x ∂π := by
    rw [integral_prod _ ibb]
    refine integral_congr_ae (Eventually.of_forall fun x => ?_)
    simp [hb]
  have e3 : ∫ p, a p * b p ∂(π.prod streams) = ∫ x, H x * H x ∂π := by
    rw [integral_prod _ iab]
    refine integral_congr_ae (Eventually.of_forall fun x => ?_)
    show ∫ u, H ((stateOf K)^[n] (x, u)).1 * H x ∂streams = H x * H x
    rw [integral_mul_const]
    congr 1
    have hmx : Measurable fun u => likely K B ((stateOf K)^[n] (x, u)).1 := hLm.comp (hfm.comp measurable_prodMk_left)
    have := integral_toReal (μ := streams) hmx.aemeasurable (Eventually.of_forall fun u => (hfin _).lt_top)
    show ∫ u, (likely K B ((stateOf K)^[n] (x, u)).1).toReal ∂streams = _
    rw [this, likely_harmonic h hB hs n x]
  have e4 : ∫ p, (a p - b p) ^ 2 ∂(π.prod streams) = 0 := by
    have : (fun p => (a p - b p) ^ 2) = fun p => (a p * a p - 2 * (a p * b p)) + b p * b p := by funext p; ring
    have i1 : Integrable (fun p => a p * a p - 2 * (a p * b p)) (π.prod streams) := iaa.sub (iab.const_mul 2)
    rw [this, integral_add i1 ibb, integral_sub iaa (iab.const_mul 2), integral_const_mul, e1, e2, e3]
    ring
  have i4 : Integrable (fun p => (a p - b p) ^ 2) (π.prod streams) := by
    have : (fun p => (a p - b p) ^ 2) = fun p => (a p * a p - 2 * (a p * b p)) + b p * b p := by funext p; ring
    rw [this]; exact (iaa.sub (iab.const_mul 2)).add ibb
  have e5 := (integral_eq_zero_iff_of_nonneg (fun p => sq_nonneg _) i4).1 e4
  filter_upwards [e5] with p hp
  have h6 : a p = b p := by
    have : (a p - b p) ^ 2 = 0 := hp
    have := pow_eq_zero_iff (two_ne_zero) |>.1 this
    linarith
  exact (ENNReal.toReal_eq_toReal_iff' (hfin _) (hfin _)).1 h6

/-- If almost every state can lead to `e`, the probability is everywhere that from `e`. -/
theorem likely_eq_at (h : KeepsRec R π K) {B : Set (ℕ → ℝ)} (hB : MeasurableSet B) (hs : ∀ w, shiftS w ∈ B ↔ w ∈ B) {e : X}
    (hit : ∀ᵐ x ∂π, ∃ n, streams {u | ((stateOf K)^[n] (x, u)).1 = e} ≠ 0) : ∀ᵐ x ∂π, likely K B x = likely K B e := by
  have h1 : ∀ᵐ x ∂π, ∀ n, ∀ᵐ u ∂streams, likely K B ((stateOf K)^[n] (x, u)).1 = likely K B x := by
    rw [ae_all_iff]
    intro n
    exact Measure.ae_ae_of_ae_prod (likely_const h hB hs n)
  filter_upwards [h1, hit] with x hx hx2
  obtain ⟨n, hn⟩ := hx2
  by_contra hc
  refine hn (measure_mono_null (fun u hu => ?_) (MeasureTheory.ae_iff.1 (hx n)))
  show ¬ likely K B ((stateOf K)^[n] (x, u)).1 = likely K B x
  rw [show ((stateOf K)^[n] (x, u)).1 = e from hu]
  exact fun he => hc he.symm

/-- What is recorded, with the state and unused numbers left, is independent of the latter. -/
theorem rec_prod (h : KeepsRec R π K) :
    (π.prod streams).map K = ((π.prod streams).map fun p => (K p).1).prod streams := by
  have hK := h.meas
  obtain ⟨A, hA, _⟩ := h
  have h1 : Measurable fun p => (K p).1 := measurable_fst.comp hK
  have : IsProbabilityMeasure ((π.prod streams).map fun p => (K p).1) := Measure.isProbabilityMeasure_map h1.aemeasurable
  refine (Measure.prod_eq fun s t hs ht => ?_).symm
  rw [Measure.map_apply hK (hs.prod ht), Measure.map_apply h1 hs, Measure.prod_apply (hK (hs.prod ht)), Measure.prod_apply (h1 hs),
    ← lintegral_mul_const' _ _ (measure_ne_top _ _)]
  refine lintegral_congr fun x => ?_
  have e := hA.prod x
  have hx : Measurable fun u => K (x, u) := hK.comp measurable_prodMk_left
  have e2 := congrArg (fun μ : Measure ((X × ℝ) × (ℕ → ℝ)) => μ (s ×ˢ t)) e
  have := lawOf_prob hK x
  simp only [Measure.prod_prod, Measure.map_apply hx (hs.prod ht), lawOf, Measure.map_apply (fst_meas hK x) hs] at e2
  exact e2

/-- Averages do not exceed the mean. -/
theorem above_null (h : KeepsRec R π K) (hi : Integrable (fun p => (K p).1.2) (π.prod streams)) {e : X}
    (hit : ∀ᵐ x ∂π, ∃ n, streams {u | ((stateOf K)^[n] (x, u)).1 = e} ≠ 0) {ε : ℝ} (hε : 0 < ε) :
    recLaw π K (above ((∫ p, (K p).1.2 ∂(π.prod streams)) + ε)) = 0 := by
  have hK := h.meas
  have hP := pathOf_meas hK
  set m := ∫ p, (K p).1.2 ∂(π.prod streams) with hm
  set B := above (m + ε) with hBd
  have hB : MeasurableSet B := above_meas _
  have hs : ∀ w, shiftS w ∈ B ↔ w ∈ B := above_shift _
  have : IsProbabilityMeasure (recLaw π K) := Measure.isProbabilityMeasure_map hP.aemeasurable
  have hw0 : Measurable fun w : ℕ → ℝ => w 0 := measurable_pi_apply 0
  have hi0 : Integrable (fun w : ℕ → ℝ => w 0) (recLaw π K) :=
    (integrable_map_measure hw0.aestronglyMeasurable hP.aemeasurable).2 hi
  have hG := above_mean (recLaw_shift h) hi0 (m + ε)
  have hL := likely_eq_at h hB hs hit
  -- how likely sequences in `B` are
  have hfin : likely K B e ≠ ⊤ := ((likely_le_one B e).trans_lt ENNReal.one_lt_top).ne
  have hν : recLaw π K B = likely K B e := by
    rw [recLaw_apply hK hB, lintegral_congr_ae hL]; simp
  -- the mean of the first number on `B`
  have hm1 : Measurable fun p => (K p).1 := measurable_fst.comp hK
  have hv : Measurable fun p => (K p).1.2 := measurable_snd.comp hm1
  have key : ∫ w in B, w 0 ∂(recLaw π K) = (likely K B e).toReal * m := by
    rw [recLaw, setIntegral_map hB hw0.aestronglyMeasurable hP.aemeasurable]
    rw [← integral_indicator (hP hB)]
    set G : (X × ℝ) × (ℕ → ℝ) → ℝ := fun q => (pathOf K ⁻¹' B).indicator (fun _ => q.1.2) (q.1.1, q.2) with hGd
    have hset : MeasurableSet {q : (X × ℝ) × (ℕ → ℝ) | (q.1.1, q.2) ∈ pathOf K ⁻¹' B} :=
      ((measurable_fst.comp measurable_fst).prodMk measurable_snd) (hP hB)
    have hGe : G = {q : (X × ℝ) × (ℕ → ℝ) | (q.1.1, q.2) ∈ pathOf K ⁻¹' B}.indicator fun q => q.1.2 := by
      funext q
      by_cases hq : (q.1.1, q.2) ∈ pathOf K ⁻¹' B
      · simp only [hGd]; rw [indicator_of_mem hq, indicator_of_mem (show q ∈ {q : (X × ℝ) × (ℕ → ℝ) | (q.1.1, q.2) ∈ pathOf K ⁻¹' B} from hq)]
      · simp only [hGd]; rw [indicator_of_notMem hq, indicator_of_notMem (show q ∉ {q : (X × ℝ) × (ℕ → ℝ) | (q.1.1, q.2) ∈ pathOf K ⁻¹' B} from hq)]
    have hv2 : Measurable fun q : (X × ℝ) × (ℕ → ℝ) => q.1.2 := measurable_snd.comp measurable_fst
    have hGm : Measurable G := by rw [hGe]; exact hv2.indicator hset
    have e1 : ((pathOf K ⁻¹' B).indicator fun p => pathOf K p 0) = fun p => G (K p) := by
      funext p
      have hiff : (((K p).1.1, (K p).2) : X × (ℕ → ℝ)) ∈ pathOf K ⁻¹' B ↔ p ∈ pathOf K ⁻¹' B := by
        show stateOf K p ∈ pathOf K ⁻¹' B ↔ _
        simp only [mem_preimage, pathOf_shift, hs]
      by_cases hp : p ∈ pathOf K ⁻¹' B
      · rw [indicator_of_mem hp]; simp only [hGd]; rw [indicator_of_mem (hiff.2 hp)]; rfl
      · rw [indicator_of_notMem hp]; simp only [hGd]; rw [indicator_of_notMem fun h => hp (hiff.1 h)]
    rw [e1]
    have iv : Integrable (fun q : (X × ℝ) × (ℕ → ℝ) => q.1.2) ((π.prod streams).map K) :=
      (integrable_map_measure hv2.aestronglyMeasurable hK.aemeasurable).2 hi
    have iG : Integrable G ((π.prod streams).map K) := by rw [hGe]; exact iv.indicator hset
    rw [← integral_map hK.aemeasurable hGm.aestronglyMeasurable]
    have hpr : IsProbabilityMeasure ((π.prod streams).map fun p => (K p).1) := Measure.isProbabilityMeasure_map hm1.aemeasurable
    rw [rec_prod h] at iG ⊢
    rw [integral_prod _ iG]
    have e2 : ∀ z : X × ℝ, ∫ u, G (z, u) ∂streams = (likely K B z.1).toReal * z.2 := by
      intro z
      have hz : MeasurableSet {u | pathOf K (z.1, u) ∈ B} := hP.comp measurable_prodMk_left hB
      have : (fun u => G (z, u)) = {u | pathOf K (z.1, u) ∈ B}.indicator fun _ => z.2 := by
        funext u
        rfl
      rw [this, integral_indicator_const _ hz, smul_eq_mul]
      rfl
    have hLz : Measurable fun z : X × ℝ => (likely K B z.1).toReal * z.2 :=
      ((likely_sym h hB).1.comp measurable_fst).ennreal_toReal.mul measurable_snd
    simp only [e2]
    rw [integral_map hm1.aemeasurable hLz.aestronglyMeasurable]
    have e3 : (fun p => (likely K B (K p).1.1).toReal * (K p).1.2) =ᵐ[π.prod streams] fun p => (likely K B e).toReal * (K p).1.2 := by
      have c1 := likely_const h hB hs 1
      have c2 : ∀ᵐ p ∂(π.prod streams), likely K B p.1 = likely K B e :=
        Measure.quasiMeasurePreserving_fst.ae hL
      filter_upwards [c1, c2] with p hp1 hp2
      have : likely K B (K p).1.1 = likely K B e := by
        rw [← hp2, ← hp1]; rfl
      rw [this]
    rw [integral_congr_ae e3, integral_const_mul]
  rw [integral_sub hi0.integrableOn (integrable_const _).integrableOn, key, setIntegral_const, smul_eq_mul] at hG
  have hr : (recLaw π K).real B = (likely K B e).toReal := by rw [Measure.real, hν]
  rw [hr] at hG
  have h0 : (likely K B e).toReal = 0 := by
    have := ENNReal.toReal_nonneg (a := likely K B e)
    nlinarith
  rw [hν]
  exact (ENNReal.toReal_eq_zero_iff _).1 h0 |>.resolve_right hfin

/-- The program that records the negative numbers. -/
def negRec (K : X × (ℕ → ℝ) → (X × ℝ) × (ℕ → ℝ)) (p : X × (ℕ → ℝ)) : (X × ℝ) × (ℕ → ℝ) := (((K p).1.1, -(K p).1.2), (K p).2)

theorem stateOf_negRec : stateOf (negRec K) = stateOf K := rfl

theorem recorded_negRec (j : ℕ) (p : X × (ℕ → ℝ)) : recorded (negRec K) j p = - recorded K j p := rfl

theorem KeepsRec.neg (h : KeepsRec R π K) : KeepsRec R π (negRec K) := by
  obtain ⟨A, hA, h1, h2⟩ := h
  have hn : Measurable fun z : X × ℝ => (z.1, -z.2) := measurable_fst.prodMk measurable_snd.neg
  have hS : Samples (negRec K) fun H => A fun z => H (z.1, -z.2) := ((Samples.map hn).comp hA).congr_fun fun _ => rfl
  exact ⟨_, hS, fun Γ hΓ hs x y hxy => h1 _ (hΓ.comp hn) (fun x y v hxy => hs x y _ hxy) x y hxy, h2⟩

/-- Averages of what is recorded converge to the mean, from almost every state. -/
theorem averages (h : KeepsRec R π K) (hi : Integrable (fun p => (K p).1.2) (π.prod streams)) {e : X}
    (hit : ∀ᵐ x ∂π, ∃ n, streams {u | ((stateOf K)^[n] (x, u)).1 = e} ≠ 0) :
    ∀ᵐ p ∂(π.prod streams), Tendsto (fun n : ℕ => (∑ j ∈ Finset.range n, recorded K j p) / n) atTop
      (nhds (∫ p, (K p).1.2 ∂(π.prod streams))) := by
  have hP := pathOf_meas h.meas
  have hP' := pathOf_meas h.neg.meas
  have e1 : ∫ p, (negRec K p).1.2 ∂(π.prod streams) = - ∫ p, (K p).1.2 ∂(π.prod streams) := integral_neg _
  have a1 : ∀ᵐ p ∂(π.prod streams), ∀ k : ℕ, pathOf K p ∉ above ((∫ p, (K p).1.2 ∂(π.prod streams)) + 1 / (k + 1 : ℝ)) := by
    rw [ae_all_iff]
    intro k
    have := above_null h hi hit (ε := 1 / (k + 1 : ℝ)) (by positivity)
    rw [recLaw, Measure.map_apply hP (above_meas _)] at this
    rw [MeasureTheory.ae_iff]
    simp only [not_not]
    exact this
  have a2 : ∀ᵐ p ∂(π.prod streams), ∀ k : ℕ, pathOf (negRec K) p ∉ above (-(∫ p, (K p).1.2 ∂(π.prod streams)) + 1 / (k + 1 : ℝ)) := by
    rw [ae_all_iff]
    intro k
    have := above_null h.neg hi.neg (e := e) (by rw [stateOf_negRec]; exact hit) (ε := 1 / (k + 1 : ℝ)) (by positivity)
    rw [e1, recLaw, Measure.map_apply hP' (above_meas _)] at this
    rw [MeasureTheory.ae_iff]
    simp only [not_not]
    exact this
  filter_upwards [a1, a2] with p h1 h2
  exact tendsto_of_above (w := pathOf K p) h1 h2

/-- The same from one state that has positive measure, after another program that keeps the measure. -/
theorem averages_from (h : KeepsRec R π K) (hi : Integrable (fun p => (K p).1.2) (π.prod streams)) {e : X}
    (hit : ∀ᵐ x ∂π, ∃ n, streams {u | ((stateOf K)^[n] (x, u)).1 = e} ≠ 0) {f : X × (ℕ → ℝ) → X × (ℕ → ℝ)} (hf : KeepsPi R π f)
    (he : π {e} ≠ 0) :
    ∀ᵐ u ∂streams, Tendsto (fun n : ℕ => (∑ j ∈ Finset.range n, recorded K j (f (e, u))) / n) atTop
      (nhds (∫ p, (K p).1.2 ∂(π.prod streams))) := by
  set m := ∫ p, (K p).1.2 ∂(π.prod streams) with hm
  set B : Set (ℕ → ℝ) := {w | ¬ ((∀ k : ℕ, w ∉ above (m + 1 / (k + 1 : ℝ))) ∧ ∀ k : ℕ, (fun j => - w j) ∉ above (-m + 1 / (k + 1 : ℝ)))} with hBd
  have hnegm : Measurable fun w : ℕ → ℝ => fun j => - w j := measurable_pi_lambda _ fun j => (measurable_pi_apply j).neg
  have hB : MeasurableSet B := by
    refine MeasurableSet.compl (MeasurableSet.inter ?_ ?_)
    · have : {w : ℕ → ℝ | ∀ k : ℕ, w ∉ above (m + 1 / (k + 1 : ℝ))} = ⋂ k : ℕ, (above (m + 1 / (k + 1 : ℝ)))ᶜ := by ext w; simp
      show MeasurableSet {w : ℕ → ℝ | ∀ k : ℕ, w ∉ above (m + 1 / (k + 1 : ℝ))}
      rw [this]
      exact MeasurableSet.iInter fun k => (above_meas _).compl
    · have : {w : ℕ → ℝ | ∀ k : ℕ, (fun j => - w j) ∉ above (-m + 1 / (k + 1 : ℝ))} =
          ⋂ k : ℕ, ((fun w : ℕ → ℝ => fun j => - w j) ⁻¹' above (-m + 1 / (k + 1 : ℝ)))ᶜ := by ext w; simp
      show MeasurableSet {w : ℕ → ℝ | ∀ k : ℕ, (fun j => - w j) ∉ above (-m + 1 / (k + 1 : ℝ))}
      rw [this]
      exact MeasurableSet.iInter fun k => (hnegm (above_meas _)).compl
  have hP := pathOf_meas h.meas
  have hP' := pathOf_meas h.neg.meas
  have hm' : ∫ p, (negRec K p).1.2 ∂(π.prod streams) = - m := integral_neg _
  have hnull : recLaw π K B = 0 := by
    have : B ⊆ (⋃ k : ℕ, above (m + 1 / (k + 1 : ℝ))) ∪ ⋃ k : ℕ, (fun w : ℕ → ℝ => fun j => - w j) ⁻¹' above (-m + 1 / (k + 1 : ℝ)) := by
      intro w hw
      simp only [hBd, mem_setOf_eq, not_and_or, not_forall, not_not] at hw
      rcases hw with ⟨k, hk⟩ | ⟨k, hk⟩
      · exact Or.inl (mem_iUnion.2 ⟨k, hk⟩)
      · exact Or.inr (mem_iUnion.2 ⟨k, hk⟩)
    refine measure_mono_null this (measure_union_null (measure_iUnion_null fun k => ?_) (measure_iUnion_null fun k => ?_))
    · exact above_null h hi hit (ε := 1 / (k + 1 : ℝ)) (by positivity)
    · have := above_null h.neg hi.neg (e := e) (by rw [stateOf_negRec]; exact hit) (ε := 1 / (k + 1 : ℝ)) (by positivity)
      rw [hm', recLaw, Measure.map_apply hP' (above_meas _)] at this
      rw [recLaw, Measure.map_apply hP (hnegm (above_meas _))]
      exact this
  have hL := likely_sym h hB
  have hzero : ∫⁻ p, likely K B (f p).1 ∂(π.prod streams) = 0 := by
    rw [hf.mean hL, ← recLaw_apply h.meas hB, hnull]
  obtain ⟨A, hA, hs⟩ := hf
  have h1 : ∫⁻ x, A (likely K B) x ∂π = 0 := by
    rw [(hs _ hL).2, ← recLaw_apply h.meas hB, hnull]
  have h2 : A (likely K B) e = 0 := by
    have := (lintegral_eq_zero_iff (hs _ hL).1.1).1 h1
    by_contra hc
    refine he (measure_mono_null (fun x hx => ?_) (MeasureTheory.ae_iff.1 this))
    rw [show x = e from hx]
    exact hc
  have hm2 : Measurable ((pathOf K ⁻¹' B).indicator (1 : X × (ℕ → ℝ) → ENNReal)) := measurable_one.indicator (hP hB)
  have h3 := hA.law _ hm2 e
  rw [show (fun w => ∫⁻ u, (pathOf K ⁻¹' B).indicator (1 : X × (ℕ → ℝ) → ENNReal) (w, u) ∂streams) = likely K B from
    funext fun w => (likely_eq h.meas hB w).symm, h2] at h3
  have h4 := (lintegral_eq_zero_iff (hm2.comp (hA.meas.comp measurable_prodMk_left))).1 h3
  filter_upwards [h4] with u hu
  have h5 : ¬ pathOf K (f (e, u)) ∈ B := by
    intro hc
    have : (pathOf K ⁻¹' B).indicator (1 : X × (ℕ → ℝ) → ENNReal) (f (e, u)) = 0 := hu
    rw [indicator_of_mem (show f (e, u) ∈ pathOf K ⁻¹' B from hc)] at this
    exact one_ne_zero this
  simp only [hBd, mem_setOf_eq, not_not] at h5
  exact tendsto_of_above (w := pathOf K (f (e, u))) h5.1 h5.2

end

end CTInt
