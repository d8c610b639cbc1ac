import Verif.Proofs.SettleAlmost

/-!
# What almost every configuration has, a simulation from the empty configuration always has
-/

set_option linter.all false

namespace CTInt

open MeasureTheory Set

section

variable {X : Type} [MeasurableSpace X] {R : X → X → Prop} {π : Measure X} [IsProbabilityMeasure π]
variable {K : X × (ℕ → ℝ) → (X × ℝ) × (ℕ → ℝ)}

/-- If the number recorded next is almost surely in a set, all numbers are, also from one state that has positive measure. -/
theorem always_from (h : KeepsRec R π K) {S : Set ℝ} (hS : MeasurableSet S) (h1 : ∀ᵐ p ∂(π.prod streams), (K p).1.2 ∈ S) {e : X}
    {f : X × (ℕ → ℝ) → X × (ℕ → ℝ)} (hf : KeepsPi R π f) (he : π {e} ≠ 0) :
    ∀ᵐ u ∂streams, ∀ j, recorded K j (f (e, u)) ∈ S := by
  have hP := pathOf_meas h.meas
  set B0 : Set (ℕ → ℝ) := {w | w 0 ∉ S} with hB0
  have hB0m : MeasurableSet B0 := (measurable_pi_apply 0 hS).compl
  set B : Set (ℕ → ℝ) := ⋃ j : ℕ, (shiftS^[j]) ⁻¹' B0 with hBd
  have hsm : ∀ j, Measurable (shiftS^[j]) := fun j => shiftS_meas.iterate j
  have hB : MeasurableSet B := MeasurableSet.iUnion fun j => hsm j hB0m
  have h0 : recLaw π K B0 = 0 := by
    rw [recLaw, Measure.map_apply hP hB0m]
    exact h1
  have hnull : recLaw π K B = 0 := by
    refine measure_iUnion_null fun j => ?_
    rw [((recLaw_shift h).iterate j).measure_preimage hB0m.nullMeasurableSet, h0]
  have hsh : ∀ (j : ℕ) (w : ℕ → ℝ), shiftS^[j] w 0 = w j := by
    intro j
    induction j with
    | zero => intro w; rfl
    | succ j ih => intro w; rw [Function.iterate_succ_apply, ih]; rfl
  have hL := likely_sym h hB
  obtain ⟨A, hA, hs⟩ := hf
  have h1 : ∫⁻ x, A (likely K B) x ∂π = 0 := by
    rw [(hs _ hL).2, ← recLaw_apply h.meas hB, hnull]
  have h2 : A (likely K B) e = 0 := by
    have := (lintegral_eq_zero_iff (hs _ hL).1.1).1 h1
    by_contra hc
    refine he (measure_mono_null (fun x hx => ?_) (MeasureTheory.ae_iff.1 this))
    rw [show x = e from hx]
    exact hc
  have hm2 : Measurable ((pathOf K ⁻¹' B).indicator (1 : X × (ℕ → ℝ) → ENNReal)) := measurable_one.indicator (hP hB)
  have h3 := hA.law _ hm2 e
  rw [show (fun w => ∫⁻ u, (pathOf K ⁻¹' B).indicator (1 : X × (ℕ → ℝ) → ENNReal) (w, u) ∂streams) = likely K B from
    funext fun w => (likely_eq h.meas hB w).symm, h2] at h3
  have h4 := (lintegral_eq_zero_iff (hm2.comp (hA.meas.comp measurable_prodMk_left))).1 h3
  filter_upwards [h4] with u hu j
  by_contra hc
  have hm : f (e, u) ∈ pathOf K ⁻¹' B := mem_iUnion.2 ⟨j, by
    show shiftS^[j] (pathOf K (f (e, u))) 0 ∉ S
    rw [hsh]
    exact hc⟩
  have : (pathOf K ⁻¹' B).indicator (1 : X × (ℕ → ℝ) → ENNReal) (f (e, u)) = 0 := hu
  rw [indicator_of_mem hm] at this
  exact one_ne_zero this

end

variable {K : Type} [RCLike K] [DecidableEq K]
variable {c : Ctx K} {q : MeasPar K} {G : ℝ → ℕ → ℕ → ℕ → K} {m : Mgr} {kIns maxOrder : ℕ} {sz B : ℝ}

/-- With probability one every number recorded is in a set it is in for almost every configuration. -/
theorem always_almost {val : Record → ℝ} {V : List Pt × (ℕ → ℝ) → ℝ} {T : List Pt → ℝ} (h : SimOK c q G m kIns maxOrder sz)
    (hr : Regular c G B) (a : SimPar) (hp : 0 < a.steps.period) (hE : Estimates c q val V T) {S : Set ℝ} (hS : MeasurableSet S)
    (hae : ∀ᵐ x ∂ensMeasure c q.beta maxOrder, ∀ᵐ u ∂streams, V (x, u) ∈ S)
    {s : Sim K} (hs : AtStart m c q.beta maxOrder s) (h0 : s.x.w.s.verts = []) (J : ℕ → ℕ → ℕ → ℕ → ℕ → ℕ → ℕ → K) (junk : ℕ → ℕ → ℕ → K) :
    ∀ᵐ u ∂streams, ∀ n : ℕ, ∃ y : Sim K,
      Returns (fun fuel => s.passes a m q c J junk u fuel (a.steps.therm / a.steps.period + n)) y ∧ y.log.length = n ∧
      ∀ r ∈ y.log, val r.values ∈ S := by
  have hG := hr.meas
  have hKE : KeepsEnsemble c q.beta maxOrder (simRun m c (callUpdates a)) := ⟨simRun_law h.hf h.hT hG h.hb h.hm _⟩
  set f := simRun m c (callUpdates a) with hf
  set k0 := a.steps.therm / a.steps.period with hk0
  have hprob := ensMeasure_prob (c := c) (beta := q.beta) (M := maxOrder) hr.bound hG
  have hKf := ensMeasure_keeps hG hKE
  have h1 : ∀ᵐ p ∂((ensMeasure c q.beta maxOrder).prod streams), (passK f (q.nShifts + 1) V p).1.2 ∈ S := by
    have hVS : MeasurableSet (V ⁻¹' S)ᶜ := (hE.meas hS).compl
    have hm : Measurable ((V ⁻¹' S)ᶜ.indicator (1 : List Pt × (ℕ → ℝ) → ENNReal)) := measurable_one.indicator hVS
    have e := hKf.mean_prod hm fun x y hxy => lintegral_congr fun u => by
      by_cases hc : V (x, u) ∈ S
      · rw [indicator_of_notMem (by simpa using hc), indicator_of_notMem (by rw [hE.sym x y u hxy] at hc; simpa using hc)]
      · rw [indicator_of_mem (show (x, u) ∈ (V ⁻¹' S)ᶜ from hc), indicator_of_mem (show (y, u) ∈ (V ⁻¹' S)ᶜ from by
          rw [hE.sym x y u hxy] at hc; exact hc)]
        rfl
    have z : ∫⁻ p, (V ⁻¹' S)ᶜ.indicator (1 : List Pt × (ℕ → ℝ) → ENNReal) p ∂((ensMeasure c q.beta maxOrder).prod streams) = 0 := by
      rw [lintegral_indicator_one hVS, Measure.measure_prod_null hVS]
      filter_upwards [hae] with x hx
      exact hx
    have hmf : Measurable fun p => (V ⁻¹' S)ᶜ.indicator (1 : List Pt × (ℕ → ℝ) → ENNReal) (f p) := hm.comp hKf.meas
    rw [z, lintegral_eq_zero_iff hmf] at e
    filter_upwards [e] with p hp
    by_contra hc
    have hp : (V ⁻¹' S)ᶜ.indicator (1 : List Pt × (ℕ → ℝ) → ENNReal) (f p) = 0 := hp
    rw [indicator_of_mem (show f p ∈ (V ⁻¹' S)ᶜ from hc)] at hp
    exact one_ne_zero hp
  have key := always_from (passK_keeps (k := q.nShifts + 1) hG hKE hE.meas hE.first hE.sym) hS h1 (hKf.iterate k0)
    (ensMeasure_empty (ensemble_lt_top (beta := q.beta) hr.bound maxOrder) hG)
  obtain ⟨hSA, hL⟩ := hs.at h
  have hpts : ptsOf s.x.w.s.verts = [] := by rw [h0]; rfl
  filter_upwards [ae_good, key] with u hu hall n
  have hdiv := Nat.div_add_mod a.steps.therm a.steps.period
  have hmod := Nat.mod_lt a.steps.therm hp
  rw [← hk0, Nat.mul_comm] at hdiv
  obtain ⟨y, l, t1, t2, t3, t4⟩ := passes_sim h a hu J junk k0 n hSA (by rw [hs.step]; omega) (by rw [hs.step]; omega)
  rw [hs.log, List.nil_append] at t2
  refine ⟨y, t1, by rw [t2, t3], fun r hr' => ?_⟩
  have t5 := t4 val V hE.reads
  rw [hs.pos, dropS_zero, hpts] at t5
  have : val r.values ∈ l.map fun r => val r.values := List.mem_map.2 ⟨r, by rw [← t2]; exact hr', rfl⟩
  rw [t5] at this
  obtain ⟨j, -, e⟩ := List.mem_map.1 this
  rw [← e]
  exact hall j

/-- Almost every configuration has pairwise distinct times. -/
theorem ae_distinct (beta : ℝ) (tbl : List (VDef K)) (n : ℕ) :
    ∀ᵐ x : Fin n → Pt ∂tupleMeasure beta tbl n, ∀ i j, i ≠ j → (x i).2.2 ≠ (x j).2.2 := by
  have hnull : ∀ t : ℝ, pointMeasure beta tbl {p : Pt | p.2.2 = t} = 0 := by
    intro t
    unfold pointMeasure
    rw [Measure.finset_sum_apply]
    refine Finset.sum_eq_zero fun i _ => ?_
    rw [Measure.finset_sum_apply]
    refine Finset.sum_eq_zero fun f _ => ?_
    have hms : MeasurableSet {p : Pt | p.2.2 = t} := (measurable_snd.comp measurable_snd) (measurableSet_singleton t)
    rw [Measure.map_apply (measurable_point i f) hms]
    exact measure_mono_null (t := {t}) (fun y hy => hy) ((Set.toFinite _).measure_zero _)
  induction n with
  | zero => exact Filter.Eventually.of_forall fun x i => i.elim0
  | succ n ih =>
    have hq : ∀ i : Fin (n + 1), ∀ᵐ x : Fin (n + 1) → Pt ∂tupleMeasure beta tbl (n + 1), ∀ j : Fin n, (x i).2.2 ≠ (x (i.succAbove j)).2.2 := by
      intro i
      have hmp := measurePreserving_piFinSuccAbove (fun _ : Fin (n + 1) => pointMeasure beta tbl) i
      have h1 : ∀ᵐ z : Pt × (Fin n → Pt) ∂(pointMeasure beta tbl).prod (Measure.pi fun _ => pointMeasure beta tbl), ∀ j, z.1.2.2 ≠ (z.2 j).2.2 := by
        rw [ae_all_iff]
        intro j
        have hm : MeasurableSet {z : Pt × (Fin n → Pt) | z.1.2.2 = (z.2 j).2.2} :=
          measurableSet_eq_fun (measurable_snd.comp (measurable_snd.comp measurable_fst))
            (measurable_snd.comp (measurable_snd.comp ((measurable_pi_apply j).comp measurable_snd)))
        rw [MeasureTheory.ae_iff]
        simp only [ne_eq, not_not]
        rw [← (Measure.measurePreserving_swap (μ := Measure.pi fun _ : Fin n => pointMeasure beta tbl) (ν := pointMeasure beta tbl)).measure_preimage
          hm.nullMeasurableSet, Measure.measure_prod_null (measurable_swap hm)]
        refine Filter.Eventually.of_forall fun y => ?_
        exact hnull (y j).2.2
      exact hmp.quasiMeasurePreserving.ae h1
    have hall := (ae_all_iff (ι := Fin (n + 1))).2 hq
    filter_upwards [hall] with x hx i j hij
    obtain ⟨k, rfl⟩ := Fin.exists_succAbove_eq hij.symm
    exact hx i k

end CTInt
