import Verif.Proofs.MarkedSum

/-!
# Sums over configurations with operators at times that are integrated over
-/

set_option linter.all false

namespace CTInt

open NormedSpace Filter MeasureTheory

variable {A : Type} [NormedRing A] [NormedAlgebra ℝ A] [CompleteSpace A] {K : Type} [RCLike K] [DecidableEq K]

theorem timesBelow_of {Os : List (ℝ × A)} {s : ℝ} (hs : 0 ≤ s) (h1 : ∀ o ∈ Os, 0 ≤ o.1 ∧ o.1 < s) (h2 : Os.Pairwise fun o o' => o'.1 < o.1) :
    TimesBelow Os s := by
  induction Os generalizing s with
  | nil => exact hs
  | cons o Os ih =>
    have h := List.pairwise_cons.1 h2
    exact ⟨(h1 o List.mem_cons_self).2.le, ih (h1 o List.mem_cons_self).1 (fun o' ho' => ⟨(h1 o' (List.mem_cons_of_mem _ ho')).1, h.1 o' ho'⟩) h.2⟩

theorem list_prod_le {l : List ℝ} {B : ℝ} (h0 : ∀ x ∈ l, 0 ≤ x) (hB : ∀ x ∈ l, x ≤ B) : l.prod ≤ B ^ l.length := by
  induction l with
  | nil => simp
  | cons a l ih =>
    rw [List.prod_cons, List.length_cons, pow_succ, mul_comm]
    have ha := h0 a List.mem_cons_self
    have haB := hB a List.mem_cons_self
    refine mul_le_mul (ih (fun x hx => h0 x (List.mem_cons_of_mem _ hx)) fun x hx => hB x (List.mem_cons_of_mem _ hx)) haB ha (pow_nonneg (ha.trans haB) _)

variable {c : Ctx K} {β : ℝ} {v : Pt → A} {ω : A →L[ℝ] ℝ} {Ω : Type} [MeasurableSpace Ω] {μ : Measure Ω} [IsFiniteMeasure μ]
  {f : Ω → List Pt → ℝ} {Os : Ω → List (ℝ × A)} {N : ℕ} {B₀ : ℝ}

/-- What is needed of a quantity with parameters. -/
structure ParamHyp (c : Ctx K) (β : ℝ) (v : Pt → A) (ω : A →L[ℝ] ℝ) (μ : Measure Ω) (f : Ω → List Pt → ℝ) (Os : Ω → List (ℝ × A)) (N : ℕ) (B₀ : ℝ) : Prop where
  meas : Measurable fun z : List Pt × Ω => f z.2 z.1
  perm : ∀ o, ∀ x y : List Pt, x.Perm y → f o x = f o y
  cont : ∀ t k, Continuous fun τ => v (t, k, τ)
  times : ∀ᵐ o ∂μ, ∀ m ∈ Os o, 0 ≤ m.1 ∧ m.1 < β
  order : ∀ᵐ o ∂μ, (Os o).Pairwise fun m m' => m'.1 < m.1
  len : ∀ᵐ o ∂μ, (Os o).length = N
  bound : ∀ᵐ o ∂μ, ∀ m ∈ Os o, ‖m.2‖ ≤ B₀
  value : ∀ᵐ o ∂μ, ∀ x : List Pt, ValidPts β c.tbl x → ∀ w : List (ℝ × A), w.Perm (x.map (timed v) ++ Os o) → w.Pairwise (fun m m' => m'.1 < m.1) →
    f o x = ω (w.map Prod.snd).prod

section

variable (h : ParamHyp c β v ω μ f Os N B₀)
include h

theorem ParamHyp.measurable_slice (o : Ω) : Measurable (f o) := h.meas.comp (measurable_id.prodMk measurable_const)

theorem ParamHyp.integrable (n : ℕ) : Integrable (fun z : (Fin n → Pt) × Ω => stateProd c.tbl (List.ofFn z.1) * f z.2 (List.ofFn z.1))
    ((tupleMeasure β c.tbl n).prod μ) := by
  obtain ⟨B, hB⟩ := vertex_bound h.cont c.tbl β
  set B' := max B B₀ with hB'
  have hm1 : Measurable fun z : (Fin n → Pt) × Ω => stateProd c.tbl (List.ofFn z.1) :=
    (measurable_stateProd c.tbl).comp ((measurable_ofFn n).comp measurable_fst)
  have hm2 : Measurable fun z : (Fin n → Pt) × Ω => f z.2 (List.ofFn z.1) :=
    h.meas.comp (((measurable_ofFn n).comp measurable_fst).prodMk measurable_snd)
  have hm : Measurable fun z : (Fin n → Pt) × Ω => stateProd c.tbl (List.ofFn z.1) * f z.2 (List.ofFn z.1) := hm1.mul hm2
  have key : ∀ᵐ o ∂μ, ∀ᵐ x ∂tupleMeasure β c.tbl n, ‖stateProd c.tbl (List.ofFn x) * f o (List.ofFn x)‖ ≤ ‖ω‖ * (‖(1 : A)‖ * B' ^ (n + N)) := by
    filter_upwards [h.order, h.times, h.len, h.bound, h.value] with o ho ht hl hb hval
    filter_upwards [ae_distinct β c.tbl n, ae_validPts β c.tbl n, ae_no_times β c.tbl n ((Os o).map Prod.fst)] with x hx hxv hxo
    have hxp : ((List.ofFn x).map (timed v) ++ Os o).Pairwise fun p p' => p.1 ≠ p'.1 := by
      rw [List.pairwise_append, List.pairwise_map, List.pairwise_ofFn]
      refine ⟨fun i j hij => hx i j hij.ne, ho.imp fun h => h.ne', ?_⟩
      intro a ha b hb
      obtain ⟨p, hp, rfl⟩ := List.mem_map.1 ha
      obtain ⟨i, rfl⟩ := List.mem_ofFn.1 hp
      exact hxo i b.1 (List.mem_map_of_mem hb)
    obtain ⟨w, h1, h2⟩ := sort_by Prod.fst hxp
    have hs1 : ‖stateProd c.tbl (List.ofFn x)‖ ≤ 1 := by
      unfold stateProd
      have : ∀ l : List Pt, ‖(l.map fun p => ((numStates c.tbl p.1 : ℕ) : ℝ)⁻¹).prod‖ ≤ 1 := by
        intro l
        induction l with
        | nil => simp
        | cons p l ih =>
          rw [List.map_cons, List.prod_cons, norm_mul]
          refine mul_le_one₀ ?_ (norm_nonneg _) ih
          rw [norm_inv, Real.norm_natCast]
          exact Nat.cast_inv_le_one _
      exact this _
    rw [norm_mul]
    refine (mul_le_of_le_one_left (norm_nonneg _) hs1).trans ?_
    rw [hval _ hxv w h1 h2]
    refine (ω.le_opNorm _).trans (mul_le_mul_of_nonneg_left ?_ (norm_nonneg _))
    have := norm_prod_le (B := B') (x := w.map Prod.snd) fun a ha => by
      obtain ⟨m, hm', rfl⟩ := List.mem_map.1 ha
      rcases List.mem_append.1 (h1.mem_iff.1 hm') with h' | h'
      · obtain ⟨p, hp, rfl⟩ := List.mem_map.1 h'
        have := hxv p hp
        exact (hB _ this.1 _ this.2.1 _ ⟨this.2.2.1, this.2.2.2.le⟩).trans (le_max_left _ _)
      · exact (hb m h').trans (le_max_right _ _)
    rwa [List.length_map, h1.length_eq, List.length_append, List.length_map, List.length_ofFn, hl] at this
  refine Integrable.of_bound hm.aestronglyMeasurable (‖ω‖ * (‖(1 : A)‖ * B' ^ (n + N))) ?_
  have hset : MeasurableSet {z : (Fin n → Pt) × Ω | ‖stateProd c.tbl (List.ofFn z.1) * f z.2 (List.ofFn z.1)‖ ≤ ‖ω‖ * (‖(1 : A)‖ * B' ^ (n + N))} :=
    measurableSet_le hm.norm measurable_const
  rw [← (Measure.measurePreserving_swap (μ := μ) (ν := tupleMeasure β c.tbl n)).map_eq, ae_map_iff measurable_swap.aemeasurable hset]
  exact (Measure.ae_prod_iff_ae_ae (measurable_swap hset)).2 key

theorem ParamHyp.swap (M : ℕ) :
    (configSum c β M fun x => ∫ o, f o x ∂μ) = ∫ o, configSum c β M (f o) ∂μ ∧ AEStronglyMeasurable (fun o => configSum c β M (f o)) μ := by
  have hi := fun n => h.integrable n
  have e : ∀ o, configSum c β M (f o) = ∑ n ∈ Finset.range (M + 1), (1 / (n.factorial : ℝ)) *
      ∫ x : Fin n → Pt, stateProd c.tbl (List.ofFn x) * f o (List.ofFn x) ∂tupleMeasure β c.tbl n := fun o => rfl
  have hright : ∀ n, Integrable (fun o => ∫ x : Fin n → Pt, stateProd c.tbl (List.ofFn x) * f o (List.ofFn x) ∂tupleMeasure β c.tbl n) μ :=
    fun n => (hi n).integral_prod_right
  refine ⟨?_, ?_⟩
  · simp only [e]
    rw [integral_finsetSum _ fun n _ => (hright n).const_mul _]
    unfold configSum
    refine Finset.sum_congr rfl fun n _ => ?_
    rw [integral_const_mul]
    congr 1
    rw [← integral_integral_swap (hi n)]
    refine integral_congr_ae (Eventually.of_forall fun x => ?_)
    exact (integral_const_mul _ _).symm
  · simp only [e]
    exact Finset.aestronglyMeasurable_fun_sum _ fun n _ => ((hright n).const_mul _).aestronglyMeasurable

theorem ParamHyp.limit (hβ : 0 ≤ β) {H V : A} (hW : (vertexSum c.tbl fun p => ((numStates c.tbl p.1 : ℕ) : ℝ)⁻¹ • v p) = moved H V) :
    Tendsto (fun M => configSum c β M fun x => ∫ o, f o x ∂μ) atTop (nhds (∫ o, ω (chain (evolution H V) (Os o) β) ∂μ)) := by
  obtain ⟨B, hB⟩ := isCompact_Icc.exists_bound_of_continuousOn (s := Set.Icc 0 β) (moved_continuous H V).continuousOn
  have hs := fun Os : List (ℝ × A) => marked_sum (moved_continuous H V) hB (U := evolution H V) (fun τ s _ h2 _ => evolution_limit H V h2) Os (s := β)
  have val : ∀ M, ∀ᵐ o ∂μ, configSum c β M (f o) = ω (∑ n ∈ Finset.range (M + 1), marked (moved H V) (Os o) n β) := by
    intro M
    filter_upwards [h.order, h.times, h.value] with o ho ht hval
    rw [configSum_marked hβ (h.measurable_slice o) (h.perm o) h.cont ht ho hval, hW]
  refine Tendsto.congr (fun M => (h.swap M).1.symm) ?_
  refine tendsto_integral_of_dominated_convergence (fun _ => ‖ω‖ * ((‖(1 : A)‖ * Real.exp (B * β)) ^ (N + 1) * B₀ ^ N)) (fun M => (h.swap M).2)
    (integrable_const _) ?_ ?_
  · intro M
    filter_upwards [val M, h.order, h.times, h.len, h.bound] with o hv ho ht hl hb
    rw [hv]
    refine (ω.le_opNorm _).trans (mul_le_mul_of_nonneg_left ?_ (norm_nonneg _))
    obtain ⟨s1, s2, s3⟩ := hs (Os o) (timesBelow_of hβ ht ho) le_rfl
    refine (norm_sum_le _ _).trans ((s1.sum_le_tsum _ fun _ _ => norm_nonneg _).trans (s3.trans ?_))
    rw [hl]
    have p0 : 0 ≤ ‖(1 : A)‖ * Real.exp (B * β) := mul_nonneg (norm_nonneg _) (Real.exp_pos _).le
    refine mul_le_mul_of_nonneg_left ?_ (pow_nonneg p0 _)
    have := list_prod_le (l := (Os o).map fun m => ‖m.2‖) (B := B₀) (fun x hx => by obtain ⟨m, _, rfl⟩ := List.mem_map.1 hx; exact norm_nonneg _)
      (fun x hx => by obtain ⟨m, hm, rfl⟩ := List.mem_map.1 hx; exact hb m hm)
    rwa [List.length_map, hl] at this
  · have : ∀ᵐ o ∂μ, ∀ M, configSum c β M (f o) = ω (∑ n ∈ Finset.range (M + 1), marked (moved H V) (Os o) n β) := ae_all_iff.2 val
    filter_upwards [this, h.order, h.times] with o hv ho ht
    simp only [hv]
    obtain ⟨s1, s2, s3⟩ := hs (Os o) (timesBelow_of hβ ht ho) le_rfl
    exact (ω.continuous.tendsto _).comp ((tendsto_add_atTop_iff_nat 1).2 s2.tendsto_sum_nat)

end

end CTInt
