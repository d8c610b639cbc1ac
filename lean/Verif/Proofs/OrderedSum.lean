import Verif.Proofs.Ordered
import Verif.Proofs.Dyson
import Verif.Proofs.SimRun
import Verif.Spec.Average

/-!
# Sums over configurations as series of time-ordered integrals
-/

set_option linter.all false

namespace CTInt

open MeasureTheory

variable {K : Type} [RCLike K] {tbl : List (VDef K)}

theorem embedding_point (t f : ℕ) : MeasurableEmbedding fun τ : ℝ => ((t, f, τ) : Pt) where
  injective := fun a b h => (Prod.mk.inj (Prod.mk.inj h).2).2
  measurable := measurable_const.prodMk (measurable_const.prodMk measurable_id)
  measurableSet_image' := by
    intro S hS
    have : (fun τ : ℝ => ((t, f, τ) : Pt)) '' S = ({t} : Set ℕ) ×ˢ (({f} : Set ℕ) ×ˢ S) := by
      ext ⟨a, b, τ⟩
      simp only [Set.mem_image, Set.mem_prod, Set.mem_singleton_iff, Prod.mk.injEq]
      constructor
      · rintro ⟨τ', h, rfl, rfl, rfl⟩; exact ⟨rfl, rfl, h⟩
      · rintro ⟨rfl, rfl, h⟩; exact ⟨τ, h, rfl, rfl, rfl⟩
    rw [this]
    exact (measurableSet_singleton _).prod ((measurableSet_singleton _).prod hS)

theorem integral_point {E : Type} [NormedAddCommGroup E] [NormedSpace ℝ E] {s : ℝ} (hs : 0 ≤ s) (tbl : List (VDef K)) {g : Pt → E}
    (hg : ∀ t f, Continuous fun τ => g (t, f, τ)) :
    Integrable g (pointMeasure s tbl) ∧
    ∫ p, g p ∂pointMeasure s tbl = ∑ t ∈ Finset.range tbl.length, ∑ f ∈ Finset.range (numStates tbl t), ∫ τ in (0 : ℝ)..s, g (t, f, τ) := by
  have h1 : ∀ t f, Integrable g ((volume.restrict (Set.Ico 0 s)).map fun τ => ((t, f, τ) : Pt)) := by
    intro t f
    rw [(embedding_point t f).integrable_map_iff]
    exact ((hg t f).integrableOn_Icc (a := 0) (b := s)).mono_set Set.Ico_subset_Icc_self
  unfold pointMeasure
  have h2 : ∀ t, Integrable g (∑ f ∈ Finset.range (numStates tbl t), (volume.restrict (Set.Ico 0 s)).map fun τ => ((t, f, τ) : Pt)) :=
    fun t => integrable_finsetSum_measure.2 fun f _ => h1 t f
  refine ⟨integrable_finsetSum_measure.2 fun t _ => h2 t, ?_⟩
  rw [integral_finsetSum_measure fun t _ => h2 t]
  refine Finset.sum_congr rfl fun t _ => ?_
  rw [integral_finsetSum_measure fun f _ => h1 t f]
  refine Finset.sum_congr rfl fun f _ => ?_
  rw [(embedding_point t f).integral_map, intervalIntegral.integral_of_le hs, integral_Ico_eq_integral_Ioo, integral_Ioc_eq_integral_Ioo]

variable {A : Type} [NormedRing A] [NormedAlgebra ℝ A] [CompleteSpace A]

/-- The sum of what vertices of all types and states contribute at a time. -/
noncomputable def vertexSum (tbl : List (VDef K)) (v : Pt → A) (τ : ℝ) : A :=
  ∑ t ∈ Finset.range tbl.length, ∑ f ∈ Finset.range (numStates tbl t), v (t, f, τ)

theorem vertexSum_continuous {v : Pt → A} (hv : ∀ t f, Continuous fun τ => v (t, f, τ)) : Continuous (vertexSum tbl v) :=
  continuous_finset_sum _ fun t _ => continuous_finset_sum _ fun f _ => hv t f

theorem integral_point_mul {v : Pt → A} (hv : ∀ t f, Continuous fun τ => v (t, f, τ)) {D : ℝ → A} (hD : Continuous D) {s : ℝ} (hs : 0 ≤ s) :
    Integrable (fun p : Pt => v p * D p.2.2) (pointMeasure s tbl) ∧
    ∫ p : Pt, v p * D p.2.2 ∂pointMeasure s tbl = ∫ τ in (0 : ℝ)..s, vertexSum tbl v τ * D τ := by
  have hc : ∀ t f, Continuous fun τ => v (t, f, τ) * D τ := fun t f => (hv t f).mul hD
  obtain ⟨h1, h2⟩ := integral_point hs tbl (g := fun p : Pt => v p * D p.2.2) hc
  refine ⟨h1, h2.trans ?_⟩
  unfold vertexSum
  simp only [Finset.sum_mul]
  rw [intervalIntegral.integral_finset_sum fun t _ => (continuous_finset_sum _ fun f _ => hc t f).intervalIntegrable _ _]
  refine Finset.sum_congr rfl fun t _ => ?_
  rw [intervalIntegral.integral_finset_sum fun f _ => (hc t f).intervalIntegrable _ _]

theorem orderedInt_dyson {β : ℝ} {F : List Pt → ℝ} {v : Pt → A} {ω : A →L[ℝ] ℝ} (hv : ∀ t f, Continuous fun τ => v (t, f, τ))
    (hF : ∀ x : List Pt, ValidPts β tbl x → x.Pairwise (fun p p' => p'.2.2 < p.2.2) → F x = ω (x.map v).prod) (n : ℕ) :
    ∀ {s : ℝ} (hs : 0 ≤ s) (hsβ : s ≤ β) {y : List Pt} (hy : ValidPts β tbl y) (hd : y.Pairwise fun p p' => p'.2.2 < p.2.2) (ht : ∀ p ∈ y, s ≤ p.2.2),
      orderedInt tbl n s (fun x => F (y ++ x)) = ω ((y.map v).prod * dyson (vertexSum tbl v) n s) := by
  induction n with
  | zero =>
    intro s hs hsβ y hy hd ht
    show F (y ++ []) = ω (_ * 1)
    rw [List.append_nil, mul_one, hF y hy hd]
  | succ n ih =>
    intro s hs hsβ y hy hd ht
    have hD := dyson_continuous (vertexSum_continuous (tbl := tbl) hv) n
    obtain ⟨h1, h2⟩ := integral_point_mul (tbl := tbl) hv hD hs
    show ∫ p : Pt, orderedInt tbl n p.2.2 (fun x => F (y ++ (p :: x))) ∂pointMeasure s tbl = ω ((y.map v).prod * ∫ τ in (0 : ℝ)..s, vertexSum tbl v τ * dyson (vertexSum tbl v) n τ)
    rw [← h2]
    have e := (ω.comp (ContinuousLinearMap.mul ℝ A (y.map v).prod)).integral_comp_comm h1
    refine Eq.trans ?_ e
    refine integral_congr_ae ?_
    filter_upwards [ae_validPt s tbl] with p hp
    have e2 : (fun x => F (y ++ (p :: x))) = fun x => F ((y ++ [p]) ++ x) := by
      funext x
      rw [List.append_assoc, List.singleton_append]
    rw [e2, ih hp.2.2.1 (hp.2.2.2.le.trans hsβ)]
    · rw [List.map_append, List.prod_append, mul_assoc]
      simp
    · intro q hq
      rcases List.mem_append.1 hq with hq | hq
      · exact hy q hq
      · rw [List.mem_singleton.1 hq]
        exact ⟨hp.1, hp.2.1, hp.2.2.1, hp.2.2.2.trans_le hsβ⟩
    · rw [List.pairwise_append]
      refine ⟨hd, List.pairwise_singleton _ _, fun a ha b hb => ?_⟩
      rw [List.mem_singleton.1 hb]
      exact hp.2.2.2.trans_le (ht a ha)
    · intro q hq
      rcases List.mem_append.1 hq with hq | hq
      · exact hp.2.2.2.le.trans (ht q hq)
      · rw [List.mem_singleton.1 hq]

theorem norm_prod_bound {v : Pt → A} {B : ℝ} {x : List Pt} (hB : ∀ p ∈ x, ‖v p‖ ≤ B) : ‖(x.map v).prod‖ ≤ ‖(1 : A)‖ * B ^ x.length := by
  induction x with
  | nil => simp
  | cons p x ih =>
    have h0 : ‖v p‖ ≤ B := hB p (by simp)
    have h1 := ih fun q hq => hB q (List.mem_cons_of_mem _ hq)
    rw [List.map_cons, List.prod_cons, List.length_cons, pow_succ]
    calc _ ≤ ‖v p‖ * ‖(x.map v).prod‖ := norm_mul_le _ _
      _ ≤ B * (‖(1 : A)‖ * B ^ x.length) := mul_le_mul h0 h1 (norm_nonneg _) ((norm_nonneg _).trans h0)
      _ = _ := by ring

theorem sort_times {x : List Pt} (hx : x.Pairwise fun p p' => p.2.2 ≠ p'.2.2) :
    ∃ y : List Pt, x.Perm y ∧ y.Pairwise fun p p' => p'.2.2 < p.2.2 := by
  induction x with
  | nil => exact ⟨[], List.Perm.refl _, List.Pairwise.nil⟩
  | cons a x ih =>
    rw [List.pairwise_cons] at hx
    obtain ⟨y, h1, h2⟩ := ih hx.2
    refine ⟨y.filter (fun p => decide (a.2.2 < p.2.2)) ++ a :: y.filter (fun p => ! decide (a.2.2 < p.2.2)), ?_, ?_⟩
    · refine List.Perm.trans ?_ List.perm_middle.symm
      exact (h1.trans (List.filter_append_perm _ y).symm).cons a
    · have hne : ∀ p ∈ y, a.2.2 ≠ p.2.2 := fun p hp => hx.1 p (h1.mem_iff.2 hp)
      rw [List.pairwise_append, List.pairwise_cons]
      have q1 : ∀ p ∈ y.filter (fun p => decide (a.2.2 < p.2.2)), a.2.2 < p.2.2 := fun p hp => of_decide_eq_true (List.mem_filter.1 hp).2
      have q2 : ∀ p ∈ y.filter (fun p => ! decide (a.2.2 < p.2.2)), p.2.2 < a.2.2 := fun p hp => by
        have h3 := List.mem_filter.1 hp
        have h4 : ¬ a.2.2 < p.2.2 := by simpa using h3.2
        exact lt_of_le_of_ne (not_lt.1 h4) (hne p h3.1).symm
      refine ⟨h2.filter _, ⟨fun p hp => q2 p hp, h2.filter _⟩, fun p hp q hq => ?_⟩
      rcases List.mem_cons.1 hq with rfl | hq
      · exact q1 p hp
      · exact (q2 q hq).trans (q1 p hp)

/-- The sum over configurations of a quantity that in the order of times is a function of a product over the vertices. -/
theorem configSum_dyson [DecidableEq K] {c : Ctx K} {β : ℝ} (hβ : 0 ≤ β) {F : List Pt → ℝ} (hm : Measurable F) (hp : ∀ x y : List Pt, x.Perm y → F x = F y)
    {v : Pt → A} {ω : A →L[ℝ] ℝ} (hv : ∀ t f, Continuous fun τ => v (t, f, τ))
    (hF : ∀ x : List Pt, ValidPts β c.tbl x → x.Pairwise (fun p p' => p'.2.2 < p.2.2) → F x = ω (x.map v).prod) (M : ℕ) :
    configSum c β M F =
      ω (∑ n ∈ Finset.range (M + 1), dyson (vertexSum c.tbl fun p => ((numStates c.tbl p.1 : ℕ) : ℝ)⁻¹ • v p) n β) := by
  set v' : Pt → A := fun p => ((numStates c.tbl p.1 : ℕ) : ℝ)⁻¹ • v p with hv'
  have hvc : ∀ t f, Continuous fun τ => v' (t, f, τ) := fun t f => by
    show Continuous fun τ => ((numStates c.tbl t : ℕ) : ℝ)⁻¹ • v (t, f, τ)
    exact (hv t f).const_smul _
  set F' : List Pt → ℝ := fun x => (x.map fun p => ((numStates c.tbl p.1 : ℕ) : ℝ)⁻¹).prod * F x with hF'
  have hsm : ∀ x : List Pt, (x.map v').prod = (x.map fun p => ((numStates c.tbl p.1 : ℕ) : ℝ)⁻¹).prod • (x.map v).prod := by
    intro x
    induction x with
    | nil => simp
    | cons p x ih =>
      rw [List.map_cons, List.map_cons, List.map_cons, List.prod_cons, List.prod_cons, List.prod_cons, ih]
      exact smul_mul_smul_comm _ _ _ _
  have hval : ∀ x : List Pt, ValidPts β c.tbl x → x.Pairwise (fun p p' => p'.2.2 < p.2.2) → F' x = ω (x.map v').prod := by
    intro x h1 h2
    rw [hsm, map_smul, hF'] 
    simp only [hF x h1 h2, smul_eq_mul]
  have hperm : ∀ x y : List Pt, x.Perm y → F' x = F' y := by
    intro x y h
    simp only [hF']
    rw [(h.map _).prod_eq, hp x y h]
  have hmeas : Measurable F' := (measurable_stateProd c.tbl).mul hm
  obtain ⟨B, hB⟩ : ∃ B : ℝ, ∀ t < c.tbl.length, ∀ f < numStates c.tbl t, ∀ τ ∈ Set.Icc 0 β, ‖v' (t, f, τ)‖ ≤ B := by
    have hb : ∀ t f, ∃ B : ℝ, ∀ τ ∈ Set.Icc 0 β, ‖v' (t, f, τ)‖ ≤ B := fun t f =>
      isCompact_Icc.exists_bound_of_continuousOn (hvc t f).continuousOn
    choose B hB using hb
    refine ⟨∑ t ∈ Finset.range c.tbl.length, ∑ f ∈ Finset.range (numStates c.tbl t), |B t f|, fun t ht f hf τ hτ => ?_⟩
    refine (hB t f τ hτ).trans ((le_abs_self _).trans ?_)
    refine le_trans ?_ (Finset.single_le_sum (f := fun t => ∑ f ∈ Finset.range (numStates c.tbl t), |B t f|)
      (fun t _ => Finset.sum_nonneg fun f _ => abs_nonneg _) (Finset.mem_range.2 ht))
    exact Finset.single_le_sum (f := fun f => |B t f|) (fun f _ => abs_nonneg _) (Finset.mem_range.2 hf)
  have hint : ∀ n, Integrable (fun x : Fin n → Pt => F' (List.ofFn x)) (tupleMeasure β c.tbl n) := by
    intro n
    refine Integrable.of_bound (hmeas.comp (measurable_ofFn n)).aestronglyMeasurable (‖ω‖ * (‖(1 : A)‖ * B ^ n)) ?_
    filter_upwards [ae_distinct β c.tbl n, ae_validPts β c.tbl n] with x hx hxv
    have hxp : (List.ofFn x).Pairwise fun p p' => p.2.2 ≠ p'.2.2 := by
      rw [List.pairwise_ofFn]
      intro i j hij
      exact hx i j hij.ne
    obtain ⟨y, h1, h2⟩ := sort_times hxp
    have hyv : ValidPts β c.tbl y := by
      intro p hp
      exact hxv p (h1.mem_iff.2 hp)
    rw [hperm _ _ h1, hval y hyv h2]
    refine (ω.le_opNorm _).trans (mul_le_mul_of_nonneg_left ?_ (norm_nonneg _))
    have := norm_prod_bound (v := v') (B := B) (x := y) fun p hp => hB _ (hyv p hp).1 _ (hyv p hp).2.1 _ ⟨(hyv p hp).2.2.1, (hyv p hp).2.2.2.le⟩
    rwa [← h1.length_eq, List.length_ofFn] at this
  unfold configSum
  rw [map_sum]
  refine Finset.sum_congr rfl fun n _ => ?_
  have h1 := integral_ordered hperm (hint n)
  have h2 := orderedInt_dyson (tbl := c.tbl) hvc hval n hβ le_rfl (y := []) (fun p hp => by simp at hp) List.Pairwise.nil (fun p hp => by simp at hp)
  simp only [List.nil_append, List.map_nil, List.prod_nil, one_mul] at h2
  rw [h2] at h1
  refine (congrArg _ h1).trans ?_
  have : (n.factorial : ℝ) ≠ 0 := by positivity
  field_simp

end CTInt
