import Verif.Proofs.Marked

/-!
# Sums over configurations with operators at given times
-/

set_option linter.all false

namespace CTInt

open NormedSpace Filter MeasureTheory

section lists

theorem perm_map_lift {α β : Type} {f : α → β} {l : List β} {m : List α} (h : l.Perm (m.map f)) : ∃ l' : List α, l'.Perm m ∧ l'.map f = l := by
  have key : ∀ {l k : List β}, l.Perm k → ∀ m : List α, m.map f = k → ∃ l' : List α, l'.Perm m ∧ l'.map f = l := by
    intro l k hlk
    induction hlk with
    | nil => intro m hm; exact ⟨m, List.Perm.refl _, hm⟩
    | cons b _ ih =>
      intro m hm
      obtain ⟨a, m', rfl, rfl, h⟩ := List.map_eq_cons_iff.1 hm
      obtain ⟨l', h1, h2⟩ := ih m' h
      exact ⟨a :: l', h1.cons a, by rw [List.map_cons, h2]⟩
    | swap b b' k =>
      intro m hm
      obtain ⟨a, m', rfl, rfl, h⟩ := List.map_eq_cons_iff.1 hm
      obtain ⟨a', m'', rfl, rfl, h3⟩ := List.map_eq_cons_iff.1 h
      exact ⟨a' :: a :: m'', List.Perm.swap _ _ _, by simp [h3]⟩
    | trans _ _ ih1 ih2 =>
      intro m hm
      obtain ⟨l', h1, h2⟩ := ih2 m hm
      obtain ⟨l'', h3, h4⟩ := ih1 l' h2
      exact ⟨l'', h3.trans h1, h4⟩
  exact key h m rfl

theorem sort_by {α : Type} (t : α → ℝ) {x : List α} (hx : x.Pairwise fun p p' => t p ≠ t p') :
    ∃ y : List α, y.Perm x ∧ y.Pairwise fun p p' => t p' < t p := by
  induction x with
  | nil => exact ⟨[], List.Perm.refl _, List.Pairwise.nil⟩
  | cons a x ih =>
    rw [List.pairwise_cons] at hx
    obtain ⟨y, h1, h2⟩ := ih hx.2
    refine ⟨y.filter (fun p => decide (t a < t p)) ++ a :: y.filter (fun p => ! decide (t a < t p)), ?_, ?_⟩
    · refine List.Perm.trans List.perm_middle ?_
      exact ((List.filter_append_perm _ y).trans h1).cons a
    · have hne : ∀ p ∈ y, t a ≠ t p := fun p hp => hx.1 p (h1.mem_iff.1 hp)
      rw [List.pairwise_append, List.pairwise_cons]
      have q1 : ∀ p ∈ y.filter (fun p => decide (t a < t p)), t a < t p := fun p hp => of_decide_eq_true (List.mem_filter.1 hp).2
      have q2 : ∀ p ∈ y.filter (fun p => ! decide (t a < t p)), t p < t a := fun p hp => by
        have h3 := List.mem_filter.1 hp
        have h4 : ¬ t a < t p := by simpa using h3.2
        exact lt_of_le_of_ne (not_lt.1 h4) (hne p h3.1).symm
      refine ⟨h2.filter _, ⟨fun p hp => q2 p hp, h2.filter _⟩, fun p hp q hq => ?_⟩
      rcases List.mem_cons.1 hq with rfl | hq
      · exact q1 p hp
      · exact (q2 q hq).trans (q1 p hp)

end lists

variable {A : Type} [NormedRing A] [NormedAlgebra ℝ A] [CompleteSpace A] {K : Type} [RCLike K]

theorem norm_prod_le {B : ℝ} {x : List A} (hB : ∀ p ∈ x, ‖p‖ ≤ B) : ‖x.prod‖ ≤ ‖(1 : A)‖ * B ^ x.length := by
  induction x with
  | nil => simp
  | cons p x ih =>
    have h0 : ‖p‖ ≤ B := hB p (by simp)
    have h1 := ih fun q hq => hB q (List.mem_cons_of_mem _ hq)
    rw [List.prod_cons, List.length_cons, pow_succ]
    calc _ ≤ ‖p‖ * ‖x.prod‖ := norm_mul_le _ _
      _ ≤ B * (‖(1 : A)‖ * B ^ x.length) := mul_le_mul h0 h1 (norm_nonneg _) ((norm_nonneg _).trans h0)
      _ = _ := by ring

theorem vertex_bound {v : Pt → A} (hv : ∀ t f, Continuous fun τ => v (t, f, τ)) (tbl : List (VDef K)) (β : ℝ) :
    ∃ B : ℝ, ∀ t < tbl.length, ∀ f < numStates tbl t, ∀ τ ∈ Set.Icc 0 β, ‖v (t, f, τ)‖ ≤ B := by
  have hb : ∀ t f, ∃ B : ℝ, ∀ τ ∈ Set.Icc 0 β, ‖v (t, f, τ)‖ ≤ B := fun t f =>
    isCompact_Icc.exists_bound_of_continuousOn (hv t f).continuousOn
  choose B hB using hb
  refine ⟨∑ t ∈ Finset.range tbl.length, ∑ f ∈ Finset.range (numStates tbl t), |B t f|, fun t ht f hf τ hτ => ?_⟩
  refine (hB t f τ hτ).trans ((le_abs_self _).trans ?_)
  refine le_trans ?_ (Finset.single_le_sum (f := fun t => ∑ f ∈ Finset.range (numStates tbl t), |B t f|)
    (fun t _ => Finset.sum_nonneg fun f _ => abs_nonneg _) (Finset.mem_range.2 ht))
  exact Finset.single_le_sum (f := fun f => |B t f|) (fun f _ => abs_nonneg _) (Finset.mem_range.2 hf)

theorem ae_no_times (β : ℝ) (tbl : List (VDef K)) (n : ℕ) (l : List ℝ) : ∀ᵐ x : Fin n → Pt ∂tupleMeasure β tbl n, ∀ i, ∀ τ ∈ l, (x i).2.2 ≠ τ := by
  rw [ae_all_iff]
  intro i
  have h1 : ∀ᵐ p : Pt ∂pointMeasure β tbl, ∀ τ ∈ l, p.2.2 ≠ τ := by
    have : ∀ᵐ p : Pt ∂pointMeasure β tbl, ∀ τ : l.toFinset, p.2.2 ≠ τ := by
      rw [ae_all_iff]
      intro τ
      exact ae_not_time β τ tbl
    filter_upwards [this] with p hp τ hτ
    exact hp ⟨τ, List.mem_toFinset.2 hτ⟩
  exact (Measure.quasiMeasurePreserving_eval (fun _ : Fin n => pointMeasure β tbl) i).ae h1

/-- The sum over configurations of a quantity that in the order of times is a function of a product over the vertices and given
    operators at given times. -/
theorem configSum_marked [DecidableEq K] {c : Ctx K} {β : ℝ} (hβ : 0 ≤ β) {F : List Pt → ℝ} (hm : Measurable F) (hp : ∀ x y : List Pt, x.Perm y → F x = F y)
    {v : Pt → A} {ω : A →L[ℝ] ℝ} (hv : ∀ t f, Continuous fun τ => v (t, f, τ)) {Os : List (ℝ × A)} (hO : ∀ o ∈ Os, 0 ≤ o.1 ∧ o.1 < β)
    (hOs : Os.Pairwise fun o o' => o'.1 < o.1)
    (hF : ∀ x : List Pt, ValidPts β c.tbl x → ∀ w : List (ℝ × A), w.Perm (x.map (timed v) ++ Os) → w.Pairwise (fun o o' => o'.1 < o.1) →
      F x = ω (w.map Prod.snd).prod) (M : ℕ) :
    configSum c β M F =
      ω (∑ n ∈ Finset.range (M + 1), marked (vertexSum c.tbl fun p => ((numStates c.tbl p.1 : ℕ) : ℝ)⁻¹ • v p) Os n β) := by
  set v' : Pt → A := fun p => ((numStates c.tbl p.1 : ℕ) : ℝ)⁻¹ • v p with hv'
  have hvc : ∀ t f, Continuous fun τ => v' (t, f, τ) := fun t f => by
    show Continuous fun τ => ((numStates c.tbl t : ℕ) : ℝ)⁻¹ • v (t, f, τ)
    exact (hv t f).const_smul _
  set F' : List Pt → ℝ := fun x => (x.map fun p => ((numStates c.tbl p.1 : ℕ) : ℝ)⁻¹).prod * F x with hF'
  have hval : ∀ x : List Pt, ValidPts β c.tbl x → ∀ w : List (ℝ × A), w.Perm (x.map (timed v') ++ Os) → w.Pairwise (fun o o' => o'.1 < o.1) →
      F' x = ω (1 * (w.map Prod.snd).prod) := by
    intro x h1 w h2 h3
    set f' : Pt ⊕ (ℝ × A) → ℝ × A := Sum.elim (timed v') id with hf'
    set f : Pt ⊕ (ℝ × A) → ℝ × A := Sum.elim (timed v) id with hf
    set g : Pt ⊕ (ℝ × A) → ℝ := Sum.elim (fun p => ((numStates c.tbl p.1 : ℕ) : ℝ)⁻¹) (fun _ => 1) with hg
    have e1 : x.map (timed v') ++ Os = (x.map Sum.inl ++ Os.map Sum.inr).map f' := by
      simp [hf', List.map_append, Function.comp_def]
    have e2 : x.map (timed v) ++ Os = (x.map Sum.inl ++ Os.map Sum.inr).map f := by
      simp [hf, List.map_append, Function.comp_def]
    rw [e1] at h2
    obtain ⟨L, hL, rfl⟩ := perm_map_lift h2
    have h4 := hF x h1 (L.map f) (by rw [e2]; exact hL.map f) (by
      rw [List.pairwise_map] at h3 ⊢
      refine h3.imp ?_
      rintro (a | a) (b | b) h <;> exact h)
    have h5 : ∀ L : List (Pt ⊕ (ℝ × A)), ((L.map f').map Prod.snd).prod = (L.map g).prod • ((L.map f).map Prod.snd).prod := by
      intro L
      induction L with
      | nil => simp
      | cons a L ih =>
        simp only [List.map_cons, List.prod_cons, ih]
        rw [← smul_mul_smul_comm]
        congr 1
        rcases a with a | a
        · rfl
        · exact (one_smul _ _).symm
    have h6 : (L.map g).prod = (x.map fun p => ((numStates c.tbl p.1 : ℕ) : ℝ)⁻¹).prod := by
      rw [(hL.map g).prod_eq, List.map_append, List.prod_append, List.map_map, List.map_map]
      have : (Os.map (g ∘ Sum.inr)).prod = 1 := List.prod_eq_one fun y hy => by
        obtain ⟨o, _, rfl⟩ := List.mem_map.1 hy
        rfl
      rw [this, mul_one]
      rfl
    rw [one_mul, h5, map_smul, h6, ← h4, smul_eq_mul]
  have hperm : ∀ x y : List Pt, x.Perm y → F' x = F' y := by
    intro x y h
    simp only [hF']
    rw [(h.map _).prod_eq, hp x y h]
  have hmeas : Measurable F' := (measurable_stateProd c.tbl).mul hm
  obtain ⟨B, hB⟩ := vertex_bound hvc c.tbl β
  set B' : ℝ := max B ((Os.map fun o => ‖o.2‖).sum) with hB'
  have hint : ∀ n, Integrable (fun x : Fin n → Pt => F' (List.ofFn x)) (tupleMeasure β c.tbl n) := by
    intro n
    refine Integrable.of_bound (hmeas.comp (measurable_ofFn n)).aestronglyMeasurable (‖ω‖ * (‖(1 : A)‖ * B' ^ (n + Os.length))) ?_
    filter_upwards [ae_distinct β c.tbl n, ae_validPts β c.tbl n, ae_no_times β c.tbl n (Os.map Prod.fst)] with x hx hxv hxo
    have hxp : ((List.ofFn x).map (timed v') ++ Os).Pairwise fun p p' => p.1 ≠ p'.1 := by
      rw [List.pairwise_append, List.pairwise_map, List.pairwise_ofFn]
      refine ⟨fun i j hij => hx i j hij.ne, hOs.imp fun h => h.ne', ?_⟩
      intro a ha b hb
      obtain ⟨p, hp, rfl⟩ := List.mem_map.1 ha
      obtain ⟨i, rfl⟩ := List.mem_ofFn.1 hp
      exact hxo i b.1 (List.mem_map_of_mem hb)
    obtain ⟨w, h1, h2⟩ := sort_by Prod.fst hxp
    rw [hval _ hxv w h1 h2, one_mul]
    refine (ω.le_opNorm _).trans (mul_le_mul_of_nonneg_left ?_ (norm_nonneg _))
    have := norm_prod_le (B := B') (x := w.map Prod.snd) fun a ha => by
      obtain ⟨o, ho, rfl⟩ := List.mem_map.1 ha
      rcases List.mem_append.1 (h1.mem_iff.1 ho) with h | h
      · obtain ⟨p, hp, rfl⟩ := List.mem_map.1 h
        have := hxv p hp
        exact (hB _ this.1 _ this.2.1 _ ⟨this.2.2.1, this.2.2.2.le⟩).trans (le_max_left _ _)
      · refine le_trans ?_ (le_max_right _ _)
        exact List.single_le_sum (fun y hy => by obtain ⟨o, _, rfl⟩ := List.mem_map.1 hy; exact norm_nonneg _) _ (List.mem_map_of_mem h)
    rwa [List.length_map, h1.length_eq, List.length_append, List.length_map, List.length_ofFn] at this
  unfold configSum
  rw [map_sum]
  refine Finset.sum_congr rfl fun n _ => ?_
  have h1 := integral_ordered hperm (hint n)
  have h2 := orderedInt_marked (tbl := c.tbl) (ω := ω) hvc Os n (s := β) (F := F') (Y := 1) ⟨hβ, hO, hOs, hval⟩
  rw [one_mul] at h2
  rw [h2] at h1
  refine (congrArg _ h1).trans ?_
  have : (n.factorial : ℝ) ≠ 0 := by positivity
  field_simp

/-! ### The evolution between two times -/

/-- The evolution from time `τ` to time `s`, seen from the bare evolution. -/
noncomputable def evolution (H V : A) (s τ : ℝ) : A := exp (s • H) * exp (-((s - τ) • (H + V))) * exp (-(τ • H))

theorem exp_neg_mul (X : A) : exp (-X) * exp X = 1 := by
  letI : NormedAlgebra ℚ A := NormedAlgebra.restrictScalars ℚ ℝ A
  rw [← exp_add_of_commute (Commute.neg_left (Commute.refl _)), neg_add_cancel, exp_zero]

theorem exp_mul_neg (X : A) : exp X * exp (-X) = 1 := by
  letI : NormedAlgebra ℚ A := NormedAlgebra.restrictScalars ℚ ℝ A
  rw [← exp_add_of_commute (Commute.neg_right (Commute.refl _)), add_neg_cancel, exp_zero]

theorem exp_smul_add (X : A) (s t : ℝ) : exp ((s + t) • X) = exp (s • X) * exp (t • X) := by
  letI : NormedAlgebra ℚ A := NormedAlgebra.restrictScalars ℚ ℝ A
  rw [add_smul, exp_add_of_commute (((Commute.refl X).smul_left s).smul_right t)]

theorem exp_conj_unit (X Y : A) : exp (exp Y * X * exp (-Y)) = exp Y * exp X * exp (-Y) := by
  letI : NormedAlgebra ℚ A := NormedAlgebra.restrictScalars ℚ ℝ A
  exact exp_units_conj ⟨exp Y, exp (-Y), exp_mul_neg Y, exp_neg_mul Y⟩ X

theorem evolution_limit (H V : A) {τ s : ℝ} (hs : τ ≤ s) :
    Tendsto (fun M => ∑ n ∈ Finset.range (M + 1), dysonFrom (moved H V) τ oneAt n s) atTop (nhds (evolution H V s τ)) := by
  set V' := exp (τ • H) * V * exp (-(τ • H)) with hV'
  have hcomm : exp (τ • H) * H * exp (-(τ • H)) = H := by
    have : Commute (exp (τ • H)) H := by
      letI : NormedAlgebra ℚ A := NormedAlgebra.restrictScalars ℚ ℝ A
      exact ((Commute.refl H).smul_left τ).exp_left
    rw [this.eq, mul_assoc, exp_mul_neg, mul_one]
  have e1 : (fun t => moved H V (t + τ)) = moved H V' := by
    funext t
    unfold moved
    rw [exp_smul_add, ← neg_smul, neg_add, exp_smul_add, hV', neg_smul, neg_smul]
    have : exp (-(t • H)) * exp (-(τ • H)) = exp (-(τ • H)) * exp (-(t • H)) := by
      rw [← neg_smul, ← neg_smul, ← exp_smul_add, ← exp_smul_add, add_comm]
    rw [this]
    noncomm_ring
  have h := dyson_limit H V' (β := s - τ) (by linarith)
  simp only [dysonFrom_shift, e1]
  have e2 : evolved H V' (s - τ) = evolution H V s τ := by
    unfold evolved evolution
    have e3 : H + V' = exp (τ • H) * (H + V) * exp (-(τ • H)) := by
      rw [mul_add, add_mul, hcomm]
    have e4 : -((s - τ) • (exp (τ • H) * (H + V) * exp (-(τ • H)))) = exp (τ • H) * (-((s - τ) • (H + V))) * exp (-(τ • H)) := by
      rw [mul_neg, neg_mul, mul_smul_comm, smul_mul_assoc]
    rw [e3, e4, exp_conj_unit, ← mul_assoc, ← mul_assoc, ← exp_smul_add, sub_add_cancel]
  rw [← e2]
  exact h

end CTInt
