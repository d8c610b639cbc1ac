import Verif.Proofs.Points

/-!
# Insertion and removal leave the ensemble invariant
-/

set_option linter.all false

namespace CTInt

open MeasureTheory

variable {K : Type} [RCLike K] [DecidableEq K]
variable {c : Ctx K}

/-! ## The measure on points -/

theorem measurable_point (t f : ℕ) : Measurable fun τ : ℝ => ((t, f, τ) : Pt) :=
  measurable_const.prodMk (measurable_const.prodMk measurable_id)

theorem lintegral_point {beta : ℝ} {tbl : List (VDef K)} {g : Pt → ENNReal} (hg : Measurable g) :
    ∫⁻ v, g v ∂pointMeasure beta tbl = ∑ t ∈ Finset.range tbl.length, ∑ f ∈ Finset.range (numStates tbl t),
      ∫⁻ τ in Set.Ico 0 beta, g (t, f, τ) := by
  unfold pointMeasure
  rw [lintegral_finsetSum_measure]
  refine Finset.sum_congr rfl fun t _ => ?_
  rw [lintegral_finsetSum_measure]
  refine Finset.sum_congr rfl fun f _ => ?_
  rw [lintegral_map hg (measurable_point t f)]

instance pointMeasure_finite (beta : ℝ) (tbl : List (VDef K)) : IsFiniteMeasure (pointMeasure beta tbl) := by
  refine ⟨?_⟩
  rw [← lintegral_one, lintegral_point measurable_const]
  rw [ENNReal.sum_lt_top]
  intro t _
  rw [ENNReal.sum_lt_top]
  intro f _
  simp

/-- The measure of configurations with `n` vertices, without the density. -/
noncomputable abbrev tupleMeasure (beta : ℝ) (tbl : List (VDef K)) (n : ℕ) : Measure (Fin n → Pt) :=
  Measure.pi fun _ => pointMeasure beta tbl

/-! ## The density -/

/-- The probability of accepting the step from `x` to `y` with correction factor `k`. -/
noncomputable def accept (c : Ctx K) (x y : List Pt) (k : ℝ) : ENNReal := ENNReal.ofReal (min 1 ‖wt c y / wt c x * (k : K)‖)

theorem accept_le (x y : List Pt) (k : ℝ) : accept c x y k ≤ 1 := by
  unfold accept
  rw [← ENNReal.ofReal_one]
  exact ENNReal.ofReal_le_ofReal (min_le_left _ _)

/-- The factor of the density that does not depend on times. -/
noncomputable def stateProd (tbl : List (VDef K)) (x : List Pt) : ℝ := (x.map fun p => ((numStates tbl p.1 : ℕ) : ℝ)⁻¹).prod

theorem stateProd_nonneg (tbl : List (VDef K)) (x : List Pt) : 0 ≤ stateProd tbl x := by
  unfold stateProd
  apply List.prod_nonneg
  intro y hy
  obtain ⟨p, _, rfl⟩ := List.mem_map.1 hy
  positivity

theorem density_eq (x : List Pt) : density c x = ENNReal.ofReal (‖wt c x‖ * stateProd c.tbl x) := by
  unfold density target
  rw [interacting_vertAt, List.map_map]
  rfl

theorem density_perm {x y : List Pt} (h : x.Perm y) : density c x = density c y := by
  rw [density_eq, density_eq, wt_perm c h]
  unfold stateProd
  rw [(h.map _).prod_eq]

theorem accept_perm {x y x' y' : List Pt} (h : x.Perm x') (h' : y.Perm y') (k : ℝ) : accept c x y k = accept c x' y' k := by
  unfold accept
  rw [wt_perm c h, wt_perm c h']

theorem measurable_stateProd (tbl : List (VDef K)) : Measurable (stateProd tbl) := by
  refine measurable_of_length' fun n => measurable_of_tags fun k => ?_
  unfold stateProd
  have : ∀ τ : Fin n → ℝ, (List.ofFn (untag k τ)).map (fun p => ((numStates tbl p.1 : ℕ) : ℝ)⁻¹) =
      (List.finRange n).map fun i => ((numStates tbl (k i).1 : ℕ) : ℝ)⁻¹ := by
    intro τ
    rw [List.ofFn_eq_map, List.map_map]
    rfl
  simp only [this]
  exact measurable_const

theorem measurable_density (hG : MeasurableG0 c.G0) : Measurable (density c) := by
  have : density c = fun x => ENNReal.ofReal (‖wt c x‖ * stateProd c.tbl x) := funext density_eq
  rw [this]
  exact ENNReal.measurable_ofReal.comp ((measurable_wt hG).norm.mul (measurable_stateProd c.tbl))

theorem measurable_accept (hG : MeasurableG0 c.G0) {Z : Type} [MeasurableSpace Z] {x y : Z → List Pt} (hx : Measurable x)
    (hy : Measurable y) (k : ℝ) : Measurable fun z => accept c (x z) (y z) k := by
  unfold accept
  refine ENNReal.measurable_ofReal.comp (measurable_const.min (Measurable.norm ?_))
  exact (((measurable_wt hG).comp hy).div ((measurable_wt hG).comp hx)).mul_const _

theorem norm_min_ratio (a b : K) {k : ℝ} (hk : 0 ≤ k) : ‖a‖ * min 1 ‖b / a * (k : K)‖ = min ‖a‖ (‖b‖ * k) := by
  by_cases ha : a = 0
  · subst ha
    rw [norm_zero, zero_mul, min_eq_left (by positivity)]
  · have hn : 0 < ‖a‖ := norm_pos_iff.2 ha
    rw [mul_min_of_nonneg _ _ hn.le, mul_one, norm_mul, norm_div, RCLike.norm_ofReal, abs_of_nonneg hk]
    congr 1
    field_simp

/-- The density times the acceptance probability of a step. -/
theorem density_accept (x y : List Pt) {k : ℝ} (hk : 0 ≤ k) :
    density c x * accept c x y k = ENNReal.ofReal (min ‖wt c x‖ (‖wt c y‖ * k) * stateProd c.tbl x) := by
  rw [density_eq]
  unfold accept
  rw [← ENNReal.ofReal_mul (mul_nonneg (norm_nonneg _) (stateProd_nonneg _ _)), mul_right_comm, norm_min_ratio _ _ hk]

/-! ## The operators -/

/-- The probability density of a drawn vertex. -/
noncomputable def drawDensity (beta : ℝ) (tbl : List (VDef K)) (v : Pt) : ENNReal :=
  ENNReal.ofReal (1 / (beta * tbl.length * numStates tbl v.1))

/-- The mean of `F` after an attempt to insert a vertex. -/
noncomputable def insOp (c : Ctx K) (beta : ℝ) (M : ℕ) (F : List Pt → ENNReal) (x : List Pt) : ENNReal :=
  if M < x.length + 1 then F x
  else ∫⁻ v, drawDensity beta c.tbl v * (accept c x (x ++ [v]) (beta * c.tbl.length / ((x.length : ℝ) + 1)) * F (x ++ [v]) +
    (1 - accept c x (x ++ [v]) (beta * c.tbl.length / ((x.length : ℝ) + 1))) * F x) ∂pointMeasure beta c.tbl

/-- The mean of `F` after an attempt to remove a vertex. -/
noncomputable def remOp (c : Ctx K) (beta : ℝ) (F : List Pt → ENNReal) (x : List Pt) : ENNReal :=
  if x.length = 0 then F x
  else ∑ i ∈ Finset.range x.length, ENNReal.ofReal (1 / (x.length : ℝ)) *
    (accept c x (x.eraseIdx i) (x.length / (beta * c.tbl.length)) * F (x.eraseIdx i) +
      (1 - accept c x (x.eraseIdx i) (x.length / (beta * c.tbl.length))) * F x)

/-- The mean of `F` after an attempt to insert or remove a vertex, with equal probabilities. -/
noncomputable def mixOp (c : Ctx K) (beta : ℝ) (M : ℕ) (F : List Pt → ENNReal) (x : List Pt) : ENNReal :=
  2⁻¹ * insOp c beta M F x + 2⁻¹ * remOp c beta F x

/-- Measurable, and independent of the order of the vertices. -/
structure Nice (F : List Pt → ENNReal) : Prop where
  meas : Measurable F
  sym : ∀ x y : List Pt, x.Perm y → F x = F y

theorem measurable_drawDensity (beta : ℝ) (tbl : List (VDef K)) : Measurable (drawDensity beta tbl) := by
  unfold drawDensity
  refine ENNReal.measurable_ofReal.comp ?_
  have h : Measurable fun t : ℕ => 1 / (beta * tbl.length * (numStates tbl t : ℝ)) := measurable_from_top
  exact h.comp measurable_fst

/-- A drawn vertex is somewhere. -/
theorem drawDensity_total {beta : ℝ} (hb : 0 < beta) {tbl : List (VDef K)} (hT : tbl ≠ []) (hs : ∀ d ∈ tbl, 0 < d.numAf) :
    ∫⁻ v, drawDensity beta tbl v ∂pointMeasure beta tbl = 1 := by
  rw [lintegral_point (measurable_drawDensity beta tbl)]
  have hT' : (0 : ℝ) < tbl.length := by exact_mod_cast List.length_pos_iff.2 hT
  have e : ∀ t ∈ Finset.range tbl.length, ∑ f ∈ Finset.range (numStates tbl t), ∫⁻ τ in Set.Ico 0 beta, drawDensity beta tbl (t, f, τ) =
      ENNReal.ofReal (1 / tbl.length) := by
    intro t ht
    rw [Finset.mem_range] at ht
    have hn : (0 : ℝ) < numStates tbl t := by
      unfold numStates
      rw [List.getD_eq_getElem _ _ ht]
      exact_mod_cast hs _ (List.getElem_mem ht)
    unfold drawDensity
    simp only [lintegral_const, Measure.restrict_apply MeasurableSet.univ, Set.univ_inter, Real.volume_Ico, sub_zero, Finset.sum_const, Finset.card_range, nsmul_eq_mul]
    rw [← ENNReal.ofReal_mul (by positivity), ← ENNReal.ofReal_natCast, ← ENNReal.ofReal_mul (by positivity)]
    congr 1
    field_simp
  rw [Finset.sum_congr rfl e, Finset.sum_const, Finset.card_range, nsmul_eq_mul, ← ENNReal.ofReal_natCast,
    ← ENNReal.ofReal_mul (by positivity), mul_one_div_cancel hT'.ne', ENNReal.ofReal_one]

/-! ## The operators keep functions nice -/

theorem sum_eraseIdx_perm (G : List Pt → ENNReal) (hG : ∀ x y : List Pt, x.Perm y → G x = G y) {x y : List Pt} (h : x.Perm y) :
    ∑ i ∈ Finset.range x.length, G (x.eraseIdx i) = ∑ i ∈ Finset.range y.length, G (y.eraseIdx i) := by
  induction h generalizing G with
  | nil => rfl
  | @cons a x y h ih =>
    rw [List.length_cons, List.length_cons, Finset.sum_range_succ', Finset.sum_range_succ']
    simp only [List.eraseIdx_cons_succ, List.eraseIdx_cons_zero]
    rw [hG _ _ h, ih (fun z => G (a :: z)) fun u v huv => hG _ _ (huv.cons a)]
  | swap a b x =>
    simp only [List.length_cons]
    rw [Finset.sum_range_succ', Finset.sum_range_succ', Finset.sum_range_succ', Finset.sum_range_succ']
    simp only [List.eraseIdx_cons_succ, List.eraseIdx_cons_zero]
    rw [add_assoc, add_assoc, add_comm (G (a :: x)) (G (b :: x))]
    congr 1
    exact Finset.sum_congr rfl fun i _ => hG _ _ (List.Perm.swap a b _)
  | trans _ _ ih1 ih2 => rw [ih1 G hG, ih2 G hG]

theorem insOp_nice (hG : MeasurableG0 c.G0) (beta : ℝ) (M : ℕ) {F : List Pt → ENNReal} (hF : Nice F) : Nice (insOp c beta M F) := by
  constructor
  · refine measurable_of_length' fun n => ?_
    unfold insOp
    simp only [List.length_ofFn]
    by_cases h : M < n + 1
    · simp only [h, if_true]
      exact hF.meas.comp (measurable_ofFn n)
    · simp only [h, if_false]
      have hx : Measurable fun z : (Fin n → Pt) × Pt => List.ofFn z.1 := (measurable_ofFn n).comp measurable_fst
      have hy : Measurable fun z : (Fin n → Pt) × Pt => List.ofFn z.1 ++ [z.2] := measurable_snoc.comp (hx.prodMk measurable_snd)
      have ha := measurable_accept (c := c) hG hx hy (beta * c.tbl.length / ((n : ℝ) + 1))
      refine Measurable.lintegral_prod_right' (f := fun z : (Fin n → Pt) × Pt => drawDensity beta c.tbl z.2 *
        (accept c (List.ofFn z.1) (List.ofFn z.1 ++ [z.2]) (beta * c.tbl.length / ((n : ℝ) + 1)) * F (List.ofFn z.1 ++ [z.2]) +
        (1 - accept c (List.ofFn z.1) (List.ofFn z.1 ++ [z.2]) (beta * c.tbl.length / ((n : ℝ) + 1))) * F (List.ofFn z.1))) ?_
      exact ((measurable_drawDensity _ _).comp measurable_snd).mul ((ha.mul (hF.meas.comp hy)).add
        ((measurable_const.sub ha).mul (hF.meas.comp hx)))
  · intro x y h
    unfold insOp
    rw [h.length_eq, hF.sym _ _ h]
    simp only [accept_perm h (h.append_right [_]), hF.sym _ _ (h.append_right [_])]

theorem remOp_nice (hG : MeasurableG0 c.G0) (beta : ℝ) {F : List Pt → ENNReal} (hF : Nice F) : Nice (remOp c beta F) := by
  constructor
  · refine measurable_of_length' fun n => ?_
    unfold remOp
    simp only [List.length_ofFn]
    by_cases h : n = 0
    · simp only [h, if_true]
      exact hF.meas.comp (by subst h; exact measurable_ofFn 0)
    · simp only [h, if_false]
      refine Finset.measurable_sum _ fun i _ => Measurable.const_mul ?_ _
      have hx := measurable_ofFn n
      have hy : Measurable fun x : Fin n → Pt => (List.ofFn x).eraseIdx i := (measurable_eraseIdx i).comp hx
      have ha := measurable_accept (c := c) hG hx hy (n / (beta * c.tbl.length))
      exact (ha.mul (hF.meas.comp hy)).add ((measurable_const.sub ha).mul (hF.meas.comp hx))
  · intro x y h
    unfold remOp
    rw [h.length_eq, hF.sym _ _ h]
    split
    · rfl
    · have e := sum_eraseIdx_perm (fun z => ENNReal.ofReal (1 / (y.length : ℝ)) *
        (accept c x z (y.length / (beta * c.tbl.length)) * F z + (1 - accept c x z (y.length / (beta * c.tbl.length))) * F y))
        (fun u v huv => by rw [accept_perm (List.Perm.refl x) huv, hF.sym _ _ huv]) h
      rw [h.length_eq] at e
      rw [e]
      exact Finset.sum_congr rfl fun i _ => by rw [accept_perm h (List.Perm.refl _)]

theorem mixOp_nice (hG : MeasurableG0 c.G0) (beta : ℝ) (M : ℕ) {F : List Pt → ENNReal} (hF : Nice F) : Nice (mixOp c beta M F) := by
  have h1 := insOp_nice hG beta M hF
  have h2 := remOp_nice hG beta hF
  refine ⟨?_, fun x y h => ?_⟩
  · unfold mixOp
    exact (h1.meas.const_mul _).add (h2.meas.const_mul _)
  · unfold mixOp
    rw [h1.sym _ _ h, h2.sym _ _ h]

/-! ## One vertex more -/

theorem ofFn_insertNth_eraseIdx {n : ℕ} (i : Fin (n + 1)) (v : Pt) (x : Fin n → Pt) :
    (List.ofFn (i.insertNth (α := fun _ => Pt) v x)).eraseIdx i = List.ofFn x := by
  refine List.ext_getElem (by have := i.2; simp [List.length_eraseIdx]; omega) fun j h1 h2 => ?_
  have hj : j < n := by simpa using h2
  rw [List.getElem_eraseIdx]
  split
  · rename_i h
    rw [List.getElem_ofFn, List.getElem_ofFn]
    have : (⟨j, by omega⟩ : Fin (n + 1)) = i.succAbove ⟨j, hj⟩ := by
      rw [Fin.succAbove_of_castSucc_lt _ _ (by rw [Fin.lt_def]; exact h)]; rfl
    rw [this, Fin.insertNth_apply_succAbove]
  · rename_i h
    rw [List.getElem_ofFn, List.getElem_ofFn]
    have : (⟨j + 1, by omega⟩ : Fin (n + 1)) = i.succAbove ⟨j, hj⟩ := by
      rw [Fin.succAbove_of_le_castSucc _ _ (by rw [Fin.le_def]; simpa using h)]; rfl
    rw [this, Fin.insertNth_apply_succAbove]

theorem ofFn_insertNth_perm {n : ℕ} (i : Fin (n + 1)) (v : Pt) (x : Fin n → Pt) :
    (List.ofFn (i.insertNth (α := fun _ => Pt) v x)).Perm (List.ofFn x ++ [v]) := by
  have h := List.getElem_cons_eraseIdx_perm (l := List.ofFn (i.insertNth (α := fun _ => Pt) v x)) (n := (i : ℕ)) (by have := i.2; simp; omega)
  rw [ofFn_insertNth_eraseIdx, List.getElem_ofFn] at h
  have e : i.insertNth (α := fun _ => Pt) v x ⟨(i : ℕ), i.2⟩ = v := by simp
  refine h.symm.trans ?_
  rw [e]
  exact (List.perm_append_singleton v (List.ofFn x)).symm

/-- Integrals over `n + 1` points, with the point at position `i` taken out. -/
theorem lintegral_insertNth {beta : ℝ} {tbl : List (VDef K)} {n : ℕ} (i : Fin (n + 1)) {G : (Fin (n + 1) → Pt) → ENNReal} (hG : Measurable G) :
    ∫⁻ y, G y ∂tupleMeasure beta tbl (n + 1) =
      ∫⁻ v, ∫⁻ x, G (i.insertNth (α := fun _ => Pt) v x) ∂tupleMeasure beta tbl n ∂pointMeasure beta tbl := by
  have h := measurePreserving_piFinSuccAbove (α := fun _ : Fin (n + 1) => Pt) (fun _ => pointMeasure beta tbl) i
  have e : ∀ y, G y = (fun z : Pt × (Fin n → Pt) => G (i.insertNth (α := fun _ => Pt) z.1 z.2))
      (MeasurableEquiv.piFinSuccAbove (fun _ : Fin (n + 1) => Pt) i y) := by
    intro y
    show G y = G ((MeasurableEquiv.piFinSuccAbove (fun _ : Fin (n + 1) => Pt) i).symm (MeasurableEquiv.piFinSuccAbove (fun _ : Fin (n + 1) => Pt) i y))
    rw [MeasurableEquiv.symm_apply_apply]
  have hm : Measurable fun z : Pt × (Fin n → Pt) => G (i.insertNth (α := fun _ => Pt) z.1 z.2) :=
    hG.comp (MeasurableEquiv.piFinSuccAbove (fun _ : Fin (n + 1) => Pt) i).symm.measurable
  calc ∫⁻ y, G y ∂tupleMeasure beta tbl (n + 1)
      = ∫⁻ y, (fun z : Pt × (Fin n → Pt) => G (i.insertNth (α := fun _ => Pt) z.1 z.2))
          (MeasurableEquiv.piFinSuccAbove (fun _ : Fin (n + 1) => Pt) i y) ∂tupleMeasure beta tbl (n + 1) := by simp only [← e]
    _ = ∫⁻ z, G (i.insertNth (α := fun _ => Pt) z.1 z.2) ∂((pointMeasure beta tbl).prod (tupleMeasure beta tbl n)) := h.lintegral_comp hm
    _ = _ := lintegral_prod _ hm.aemeasurable

/-! ## Insertion and removal -/

/-- The two directions of a step balance. -/
theorem ins_rem_balance {beta : ℝ} (hb : 0 < beta) (hT : c.tbl ≠ []) (n : ℕ) (x : List Pt) (v : Pt) (hx : x.length = n) :
    ENNReal.ofReal (1 / (n.factorial : ℝ)) * (density c x * (drawDensity beta c.tbl v *
        accept c x (x ++ [v]) (beta * c.tbl.length / ((n : ℝ) + 1)))) =
      ENNReal.ofReal (1 / ((n + 1).factorial : ℝ)) * (density c (x ++ [v]) *
        accept c (x ++ [v]) x (((n + 1 : ℕ) : ℝ) / (beta * c.tbl.length))) := by
  have hT' : (0 : ℝ) < c.tbl.length := by exact_mod_cast List.length_pos_iff.2 hT
  rw [mul_left_comm (density c x), density_accept _ _ (by positivity), density_accept _ _ (by positivity)]
  unfold drawDensity
  have h1 := stateProd_nonneg c.tbl x
  have h2 : stateProd c.tbl (x ++ [v]) = stateProd c.tbl x * ((numStates c.tbl v.1 : ℕ) : ℝ)⁻¹ := by
    unfold stateProd
    rw [List.map_append, List.prod_append, List.map_cons, List.map_nil, List.prod_singleton]
  rw [← ENNReal.ofReal_mul (by positivity), ← ENNReal.ofReal_mul (by positivity), ← ENNReal.ofReal_mul (by positivity), h2]
  congr 1
  obtain ⟨a, ha⟩ : ∃ a, a = ‖wt c x‖ := ⟨_, rfl⟩
  obtain ⟨b, hb'⟩ : ∃ b, b = ‖wt c (x ++ [v])‖ := ⟨_, rfl⟩
  rw [← ha, ← hb']
  have hn : (0 : ℝ) < (n : ℝ) + 1 := by positivity
  have hf : (0 : ℝ) < (n.factorial : ℝ) := by exact_mod_cast Nat.factorial_pos n
  have e : min b (a * (((n + 1 : ℕ) : ℝ) / (beta * c.tbl.length))) =
      ((n : ℝ) + 1) / (beta * c.tbl.length) * min a (b * (beta * c.tbl.length / ((n : ℝ) + 1))) := by
    rw [mul_min_of_nonneg _ _ (by positivity), min_comm]
    push_cast
    congr 1
    · ring
    · field_simp
  rw [e, Nat.factorial_succ]
  push_cast
  generalize min a (b * (beta * c.tbl.length / ((n : ℝ) + 1))) = y
  generalize ((numStates c.tbl v.1 : ℕ) : ℝ) = z
  by_cases hz : z = 0
  · simp [hz]
  · field_simp

/-- One term of the ensemble. -/
noncomputable def term (c : Ctx K) (beta : ℝ) (n : ℕ) (F : List Pt → ENNReal) : ENNReal :=
  ENNReal.ofReal (1 / (n.factorial : ℝ)) * ∫⁻ x : Fin n → Pt, density c (List.ofFn x) * F (List.ofFn x) ∂tupleMeasure beta c.tbl n

/-- Accepted insertions, from configurations with `n` vertices. -/
noncomputable def upFlow (c : Ctx K) (beta : ℝ) (n : ℕ) (H : List Pt × Pt → ENNReal) : ENNReal :=
  ∫⁻ v, ∫⁻ x : Fin n → Pt, ENNReal.ofReal (1 / (n.factorial : ℝ)) * (density c (List.ofFn x) * (drawDensity beta c.tbl v *
    accept c (List.ofFn x) (List.ofFn x ++ [v]) (beta * c.tbl.length / ((n : ℝ) + 1)))) * H (List.ofFn x, v)
    ∂tupleMeasure beta c.tbl n ∂pointMeasure beta c.tbl

/-- Rejected insertions. -/
noncomputable def upStay (c : Ctx K) (beta : ℝ) (n : ℕ) (F : List Pt → ENNReal) : ENNReal :=
  ∫⁻ v, ∫⁻ x : Fin n → Pt, ENNReal.ofReal (1 / (n.factorial : ℝ)) * (density c (List.ofFn x) * (drawDensity beta c.tbl v *
    (1 - accept c (List.ofFn x) (List.ofFn x ++ [v]) (beta * c.tbl.length / ((n : ℝ) + 1))))) * F (List.ofFn x)
    ∂tupleMeasure beta c.tbl n ∂pointMeasure beta c.tbl

/-- Accepted removals, from configurations with `n + 1` vertices. -/
noncomputable def downFlow (c : Ctx K) (beta : ℝ) (n : ℕ) (H : List Pt × Pt → ENNReal) : ENNReal :=
  ∫⁻ v, ∫⁻ x : Fin n → Pt, ENNReal.ofReal (1 / ((n + 1).factorial : ℝ)) * (density c (List.ofFn x ++ [v]) *
    accept c (List.ofFn x ++ [v]) (List.ofFn x) (((n + 1 : ℕ) : ℝ) / (beta * c.tbl.length))) * H (List.ofFn x, v)
    ∂tupleMeasure beta c.tbl n ∂pointMeasure beta c.tbl

/-- Rejected removals. -/
noncomputable def downStay (c : Ctx K) (beta : ℝ) (n : ℕ) (F : List Pt → ENNReal) : ENNReal :=
  ∫⁻ v, ∫⁻ x : Fin n → Pt, ENNReal.ofReal (1 / ((n + 1).factorial : ℝ)) * (density c (List.ofFn x ++ [v]) *
    (1 - accept c (List.ofFn x ++ [v]) (List.ofFn x) (((n + 1 : ℕ) : ℝ) / (beta * c.tbl.length)))) * F (List.ofFn x ++ [v])
    ∂tupleMeasure beta c.tbl n ∂pointMeasure beta c.tbl

theorem flow_balance {beta : ℝ} (hb : 0 < beta) (hT : c.tbl ≠ []) (n : ℕ) (H : List Pt × Pt → ENNReal) :
    upFlow c beta n H = downFlow c beta n H := by
  unfold upFlow downFlow
  refine lintegral_congr fun v => lintegral_congr fun x => ?_
  rw [ins_rem_balance hb hT n _ v (by simp)]

section
variable {beta : ℝ} {n : ℕ}

theorem m_list (n : ℕ) : Measurable fun z : Pt × (Fin n → Pt) => List.ofFn z.2 := (measurable_ofFn n).comp measurable_snd

theorem m_snoc (n : ℕ) : Measurable fun z : Pt × (Fin n → Pt) => List.ofFn z.2 ++ [z.1] :=
  measurable_snoc.comp ((m_list n).prodMk measurable_fst)

theorem lintegral_swap2 {g : Pt × (Fin n → Pt) → ENNReal} (hg : Measurable g) :
    ∫⁻ v, ∫⁻ x, g (v, x) ∂tupleMeasure beta c.tbl n ∂pointMeasure beta c.tbl =
      ∫⁻ x, ∫⁻ v, g (v, x) ∂pointMeasure beta c.tbl ∂tupleMeasure beta c.tbl n :=
  lintegral_lintegral_swap hg.aemeasurable

theorem lintegral_add2 {g h : Pt × (Fin n → Pt) → ENNReal} (hg : Measurable g) (hh : Measurable h) :
    (∫⁻ v, ∫⁻ x, g (v, x) ∂tupleMeasure beta c.tbl n ∂pointMeasure beta c.tbl) +
      (∫⁻ v, ∫⁻ x, h (v, x) ∂tupleMeasure beta c.tbl n ∂pointMeasure beta c.tbl) =
      ∫⁻ v, ∫⁻ x, (g (v, x) + h (v, x)) ∂tupleMeasure beta c.tbl n ∂pointMeasure beta c.tbl := by
  rw [← lintegral_add_left hg.lintegral_prod_right']
  refine lintegral_congr fun v => ?_
  have hv : Measurable fun x : Fin n → Pt => g (v, x) := hg.comp measurable_prodMk_left
  rw [← lintegral_add_left hv]

theorem up_total (hG : MeasurableG0 c.G0) (hb : 0 < beta) (hT : c.tbl ≠ []) (hs : ∀ d ∈ c.tbl, 0 < d.numAf) {F : List Pt → ENNReal}
    (hF : Measurable F) : upFlow c beta n (fun z => F z.1) + upStay c beta n F = term c beta n F := by
  have hx := m_list n
  have hy := m_snoc n
  have ha := measurable_accept (c := c) hG hx hy (beta * c.tbl.length / ((n : ℝ) + 1))
  have hd : Measurable fun z : Pt × (Fin n → Pt) => density c (List.ofFn z.2) := (measurable_density hG).comp hx
  have hq : Measurable fun z : Pt × (Fin n → Pt) => drawDensity beta c.tbl z.1 := (measurable_drawDensity beta c.tbl).comp measurable_fst
  have hf : Measurable fun z : Pt × (Fin n → Pt) => F (List.ofFn z.2) := hF.comp hx
  have hU : Measurable fun z : Pt × (Fin n → Pt) => ENNReal.ofReal (1 / (n.factorial : ℝ)) * (density c (List.ofFn z.2) * (drawDensity beta c.tbl z.1 *
      accept c (List.ofFn z.2) (List.ofFn z.2 ++ [z.1]) (beta * c.tbl.length / ((n : ℝ) + 1)))) * F (List.ofFn z.2) := ((hd.mul (hq.mul ha)).const_mul _).mul hf
  have hL : Measurable fun z : Pt × (Fin n → Pt) => ENNReal.ofReal (1 / (n.factorial : ℝ)) * (density c (List.ofFn z.2) * (drawDensity beta c.tbl z.1 *
      (1 - accept c (List.ofFn z.2) (List.ofFn z.2 ++ [z.1]) (beta * c.tbl.length / ((n : ℝ) + 1))))) * F (List.ofFn z.2) :=
    ((hd.mul (hq.mul (measurable_const.sub ha))).const_mul _).mul hf
  unfold upFlow upStay
  rw [lintegral_add2 hU hL]
  have e : ∀ (v : Pt) (x : Fin n → Pt), ENNReal.ofReal (1 / (n.factorial : ℝ)) * (density c (List.ofFn x) * (drawDensity beta c.tbl v *
        accept c (List.ofFn x) (List.ofFn x ++ [v]) (beta * c.tbl.length / ((n : ℝ) + 1)))) * F (List.ofFn x) +
      ENNReal.ofReal (1 / (n.factorial : ℝ)) * (density c (List.ofFn x) * (drawDensity beta c.tbl v *
        (1 - accept c (List.ofFn x) (List.ofFn x ++ [v]) (beta * c.tbl.length / ((n : ℝ) + 1))))) * F (List.ofFn x) =
      (ENNReal.ofReal (1 / (n.factorial : ℝ)) * (density c (List.ofFn x) * F (List.ofFn x))) * drawDensity beta c.tbl v := by
    intro v x
    have h1 := add_tsub_cancel_of_le (accept_le (c := c) (List.ofFn x) (List.ofFn x ++ [v]) (beta * c.tbl.length / ((n : ℝ) + 1)))
    generalize accept c (List.ofFn x) (List.ofFn x ++ [v]) (beta * c.tbl.length / ((n : ℝ) + 1)) = a at h1
    calc _ = (ENNReal.ofReal (1 / (n.factorial : ℝ)) * (density c (List.ofFn x) * F (List.ofFn x))) * drawDensity beta c.tbl v * (a + (1 - a)) := by ring
      _ = _ := by rw [h1, mul_one]
  simp only [e]
  rw [lintegral_swap2 (g := fun z => (ENNReal.ofReal (1 / (n.factorial : ℝ)) * (density c (List.ofFn z.2) * F (List.ofFn z.2))) * drawDensity beta c.tbl z.1)
    (((hd.mul hf).const_mul _).mul hq)]
  simp only [lintegral_const_mul _ (measurable_drawDensity beta c.tbl), drawDensity_total hb hT hs, mul_one]
  unfold term
  rw [lintegral_const_mul]
  exact ((measurable_density hG).mul hF).comp (measurable_ofFn n)

theorem up_split (hG : MeasurableG0 c.G0) {F : List Pt → ENNReal} (hF : Measurable F) {M : ℕ} (hn : n < M) :
    term c beta n (insOp c beta M F) = upFlow c beta n (fun z => F (z.1 ++ [z.2])) + upStay c beta n F := by
  have hx := m_list n
  have hy := m_snoc n
  have ha := measurable_accept (c := c) hG hx hy (beta * c.tbl.length / ((n : ℝ) + 1))
  have hd : Measurable fun z : Pt × (Fin n → Pt) => density c (List.ofFn z.2) := (measurable_density hG).comp hx
  have hq : Measurable fun z : Pt × (Fin n → Pt) => drawDensity beta c.tbl z.1 := (measurable_drawDensity beta c.tbl).comp measurable_fst
  have hU : Measurable fun z : Pt × (Fin n → Pt) => ENNReal.ofReal (1 / (n.factorial : ℝ)) * (density c (List.ofFn z.2) * (drawDensity beta c.tbl z.1 *
      accept c (List.ofFn z.2) (List.ofFn z.2 ++ [z.1]) (beta * c.tbl.length / ((n : ℝ) + 1)))) * F (List.ofFn z.2 ++ [z.1]) := ((hd.mul (hq.mul ha)).const_mul _).mul (hF.comp hy)
  have hL : Measurable fun z : Pt × (Fin n → Pt) => ENNReal.ofReal (1 / (n.factorial : ℝ)) * (density c (List.ofFn z.2) * (drawDensity beta c.tbl z.1 *
      (1 - accept c (List.ofFn z.2) (List.ofFn z.2 ++ [z.1]) (beta * c.tbl.length / ((n : ℝ) + 1))))) * F (List.ofFn z.2) :=
    ((hd.mul (hq.mul (measurable_const.sub ha))).const_mul _).mul (hF.comp hx)
  unfold upFlow upStay
  rw [lintegral_add2 hU hL]
  rw [lintegral_swap2 (g := fun z => ENNReal.ofReal (1 / (n.factorial : ℝ)) * (density c (List.ofFn z.2) * (drawDensity beta c.tbl z.1 *
        accept c (List.ofFn z.2) (List.ofFn z.2 ++ [z.1]) (beta * c.tbl.length / ((n : ℝ) + 1)))) * F (List.ofFn z.2 ++ [z.1]) +
      ENNReal.ofReal (1 / (n.factorial : ℝ)) * (density c (List.ofFn z.2) * (drawDensity beta c.tbl z.1 *
        (1 - accept c (List.ofFn z.2) (List.ofFn z.2 ++ [z.1]) (beta * c.tbl.length / ((n : ℝ) + 1))))) * F (List.ofFn z.2))
    (hU.add hL)]
  unfold term
  rw [← lintegral_const_mul']
  · refine lintegral_congr fun x => ?_
    unfold insOp
    rw [List.length_ofFn, if_neg (by omega), ← mul_assoc, ← lintegral_const_mul']
    · refine lintegral_congr fun v => ?_
      ring
    · refine ENNReal.mul_ne_top ENNReal.ofReal_ne_top ?_
      rw [density_eq]; exact ENNReal.ofReal_ne_top
  · exact ENNReal.ofReal_ne_top

theorem down_total (hG : MeasurableG0 c.G0) {F : List Pt → ENNReal} (hF : Nice F) :
    downFlow c beta n (fun z => F (z.1 ++ [z.2])) + downStay c beta n F = term c beta (n + 1) F := by
  have hx := m_list n
  have hy := m_snoc n
  have ha := measurable_accept (c := c) hG hy hx (((n + 1 : ℕ) : ℝ) / (beta * c.tbl.length))
  have hd : Measurable fun z : Pt × (Fin n → Pt) => density c (List.ofFn z.2 ++ [z.1]) := (measurable_density hG).comp hy
  have hf : Measurable fun z : Pt × (Fin n → Pt) => F (List.ofFn z.2 ++ [z.1]) := hF.meas.comp hy
  have hU : Measurable fun z : Pt × (Fin n → Pt) => ENNReal.ofReal (1 / ((n + 1).factorial : ℝ)) * (density c (List.ofFn z.2 ++ [z.1]) *
      accept c (List.ofFn z.2 ++ [z.1]) (List.ofFn z.2) (((n + 1 : ℕ) : ℝ) / (beta * c.tbl.length))) * F (List.ofFn z.2 ++ [z.1]) := ((hd.mul ha).const_mul _).mul hf
  have hL : Measurable fun z : Pt × (Fin n → Pt) => ENNReal.ofReal (1 / ((n + 1).factorial : ℝ)) * (density c (List.ofFn z.2 ++ [z.1]) *
      (1 - accept c (List.ofFn z.2 ++ [z.1]) (List.ofFn z.2) (((n + 1 : ℕ) : ℝ) / (beta * c.tbl.length)))) * F (List.ofFn z.2 ++ [z.1]) :=
    ((hd.mul (measurable_const.sub ha)).const_mul _).mul hf
  unfold downFlow downStay
  rw [lintegral_add2 hU hL]
  have hD : Measurable fun x : Fin (n + 1) → Pt => density c (List.ofFn x) * F (List.ofFn x) :=
    ((measurable_density hG).comp (measurable_ofFn (n + 1))).mul (hF.meas.comp (measurable_ofFn (n + 1)))
  unfold term
  rw [lintegral_insertNth (Fin.last n) hD, ← lintegral_const_mul']
  · refine lintegral_congr fun v => ?_
    rw [← lintegral_const_mul']
    · refine lintegral_congr fun x => ?_
      have hp := ofFn_insertNth_perm (Fin.last n) v x
      rw [density_perm hp, hF.sym _ _ hp]
      have h1 := add_tsub_cancel_of_le (accept_le (c := c) (List.ofFn x ++ [v]) (List.ofFn x) (((n + 1 : ℕ) : ℝ) / (beta * c.tbl.length)))
      generalize accept c (List.ofFn x ++ [v]) (List.ofFn x) (((n + 1 : ℕ) : ℝ) / (beta * c.tbl.length)) = a at h1
      calc _ = ENNReal.ofReal (1 / ((n + 1).factorial : ℝ)) * (density c (List.ofFn x ++ [v]) * F (List.ofFn x ++ [v])) * (a + (1 - a)) := by ring
        _ = _ := by rw [h1, mul_one]
    · exact ENNReal.ofReal_ne_top
  · exact ENNReal.ofReal_ne_top

theorem down_split (hG : MeasurableG0 c.G0) {F : List Pt → ENNReal} (hF : Nice F) :
    term c beta (n + 1) (remOp c beta F) = downFlow c beta n (fun z => F z.1) + downStay c beta n F := by
  have hx := m_list n
  have hy := m_snoc n
  have ha := measurable_accept (c := c) hG hy hx (((n + 1 : ℕ) : ℝ) / (beta * c.tbl.length))
  have hd : Measurable fun z : Pt × (Fin n → Pt) => density c (List.ofFn z.2 ++ [z.1]) := (measurable_density hG).comp hy
  have hU : Measurable fun z : Pt × (Fin n → Pt) => ENNReal.ofReal (1 / ((n + 1).factorial : ℝ)) * (density c (List.ofFn z.2 ++ [z.1]) *
      accept c (List.ofFn z.2 ++ [z.1]) (List.ofFn z.2) (((n + 1 : ℕ) : ℝ) / (beta * c.tbl.length))) * F (List.ofFn z.2) := ((hd.mul ha).const_mul _).mul (hF.meas.comp hx)
  have hL : Measurable fun z : Pt × (Fin n → Pt) => ENNReal.ofReal (1 / ((n + 1).factorial : ℝ)) * (density c (List.ofFn z.2 ++ [z.1]) *
      (1 - accept c (List.ofFn z.2 ++ [z.1]) (List.ofFn z.2) (((n + 1 : ℕ) : ℝ) / (beta * c.tbl.length)))) * F (List.ofFn z.2 ++ [z.1]) :=
    ((hd.mul (measurable_const.sub ha)).const_mul _).mul (hF.meas.comp hy)
  unfold downFlow downStay
  rw [lintegral_add2 hU hL]
  unfold term remOp
  simp only [List.length_ofFn, Nat.succ_ne_zero, if_false, Finset.mul_sum]
  have hX := measurable_ofFn (n + 1)
  have hm : ∀ i, Measurable fun x : Fin (n + 1) → Pt => density c (List.ofFn x) * (ENNReal.ofReal (1 / ((n + 1 : ℕ) : ℝ)) *
      (accept c (List.ofFn x) ((List.ofFn x).eraseIdx i) (((n + 1 : ℕ) : ℝ) / (beta * c.tbl.length)) * F ((List.ofFn x).eraseIdx i) +
        (1 - accept c (List.ofFn x) ((List.ofFn x).eraseIdx i) (((n + 1 : ℕ) : ℝ) / (beta * c.tbl.length))) * F (List.ofFn x))) := by
    intro i
    have hY : Measurable fun x : Fin (n + 1) → Pt => (List.ofFn x).eraseIdx i := (measurable_eraseIdx i).comp hX
    have hA := measurable_accept (c := c) hG hX hY (((n + 1 : ℕ) : ℝ) / (beta * c.tbl.length))
    exact ((measurable_density hG).comp hX).mul (((hA.mul (hF.meas.comp hY)).add ((measurable_const.sub hA).mul (hF.meas.comp hX))).const_mul _)
  rw [lintegral_finset_sum _ fun i _ => hm i, Finset.mul_sum]
  have e : ∀ i ∈ Finset.range (n + 1), ENNReal.ofReal (1 / ((n + 1).factorial : ℝ)) * ∫⁻ x : Fin (n + 1) → Pt, density c (List.ofFn x) * (ENNReal.ofReal (1 / ((n + 1 : ℕ) : ℝ)) *
      (accept c (List.ofFn x) ((List.ofFn x).eraseIdx i) (((n + 1 : ℕ) : ℝ) / (beta * c.tbl.length)) * F ((List.ofFn x).eraseIdx i) +
        (1 - accept c (List.ofFn x) ((List.ofFn x).eraseIdx i) (((n + 1 : ℕ) : ℝ) / (beta * c.tbl.length))) * F (List.ofFn x))) ∂tupleMeasure beta c.tbl (n + 1) =
      ENNReal.ofReal (1 / ((n + 1 : ℕ) : ℝ)) * ∫⁻ v, ∫⁻ x : Fin n → Pt,
        (ENNReal.ofReal (1 / ((n + 1).factorial : ℝ)) * (density c (List.ofFn x ++ [v]) *
          accept c (List.ofFn x ++ [v]) (List.ofFn x) (((n + 1 : ℕ) : ℝ) / (beta * c.tbl.length))) * F (List.ofFn x) +
        ENNReal.ofReal (1 / ((n + 1).factorial : ℝ)) * (density c (List.ofFn x ++ [v]) *
          (1 - accept c (List.ofFn x ++ [v]) (List.ofFn x) (((n + 1 : ℕ) : ℝ) / (beta * c.tbl.length)))) * F (List.ofFn x ++ [v]))
        ∂tupleMeasure beta c.tbl n ∂pointMeasure beta c.tbl := by
    intro i hi
    rw [Finset.mem_range] at hi
    have hI := lintegral_insertNth (beta := beta) (tbl := c.tbl) (⟨i, hi⟩ : Fin (n + 1)) (hm i)
    rw [hI, ← lintegral_const_mul' _ _ ENNReal.ofReal_ne_top, ← lintegral_const_mul' _ _ ENNReal.ofReal_ne_top]
    refine lintegral_congr fun v => ?_
    rw [← lintegral_const_mul' _ _ ENNReal.ofReal_ne_top, ← lintegral_const_mul' _ _ ENNReal.ofReal_ne_top]
    refine lintegral_congr fun x => ?_
    have hp := ofFn_insertNth_perm (⟨i, hi⟩ : Fin (n + 1)) v x
    have he := ofFn_insertNth_eraseIdx (⟨i, hi⟩ : Fin (n + 1)) v x
    simp only at he
    rw [he, density_perm hp, hF.sym _ _ hp, accept_perm hp (List.Perm.refl _)]
    ring
  rw [Finset.sum_congr rfl e, Finset.sum_const, Finset.card_range, nsmul_eq_mul, ← mul_assoc, ← ENNReal.ofReal_natCast,
    ← ENNReal.ofReal_mul (by positivity), mul_one_div_cancel (by positivity), ENNReal.ofReal_one, one_mul]

end

theorem ensemble_term (beta : ℝ) (M : ℕ) (F : List Pt → ENNReal) : ensemble c beta M F = ∑ n ∈ Finset.range (M + 1), term c beta n F := rfl

/-- Insertion and removal, tried with equal probabilities, leave the ensemble invariant. -/
theorem mixOp_stationary (hG : MeasurableG0 c.G0) {beta : ℝ} (hb : 0 < beta) (hT : c.tbl ≠ []) (hs : ∀ d ∈ c.tbl, 0 < d.numAf) (M : ℕ)
    {F : List Pt → ENNReal} (hF : Nice F) : ensemble c beta M (mixOp c beta M F) = ensemble c beta M F := by
  have h1 : ∀ n, term c beta n (mixOp c beta M F) = 2⁻¹ * term c beta n (insOp c beta M F) + 2⁻¹ * term c beta n (remOp c beta F) := by
    intro n
    have hi := (insOp_nice (c := c) hG beta M hF).meas.comp (measurable_ofFn n)
    have hr := (remOp_nice (c := c) hG beta hF).meas.comp (measurable_ofFn n)
    have hd := (measurable_density hG).comp (measurable_ofFn n)
    unfold term mixOp
    have h2 : (2 : ENNReal)⁻¹ ≠ ⊤ := by simp
    have hm : Measurable fun x : Fin n → Pt => 2⁻¹ * (density c (List.ofFn x) * insOp c beta M F (List.ofFn x)) := (hd.mul hi).const_mul _
    have e : ∫⁻ x : Fin n → Pt, density c (List.ofFn x) * (2⁻¹ * insOp c beta M F (List.ofFn x) + 2⁻¹ * remOp c beta F (List.ofFn x))
          ∂tupleMeasure beta c.tbl n =
        2⁻¹ * (∫⁻ x : Fin n → Pt, density c (List.ofFn x) * insOp c beta M F (List.ofFn x) ∂tupleMeasure beta c.tbl n) +
          2⁻¹ * ∫⁻ x : Fin n → Pt, density c (List.ofFn x) * remOp c beta F (List.ofFn x) ∂tupleMeasure beta c.tbl n := by
      rw [← lintegral_const_mul' _ _ h2, ← lintegral_const_mul' _ _ h2, ← lintegral_add_left hm]
      refine lintegral_congr fun x => ?_
      ring
    rw [e]
    ring
  have h0 : ∀ F : List Pt → ENNReal, term c beta 0 (remOp c beta F) = term c beta 0 F := by
    intro F
    unfold term remOp
    simp
  have hM : term c beta M (insOp c beta M F) = term c beta M F := by
    unfold term insOp
    simp
  have hi : ∑ n ∈ Finset.range (M + 1), term c beta n (insOp c beta M F) =
      (∑ n ∈ Finset.range M, (downFlow c beta n (fun z => F (z.1 ++ [z.2])) + upStay c beta n F)) + term c beta M F := by
    rw [Finset.sum_range_succ, hM]
    congr 1
    refine Finset.sum_congr rfl fun n hn => ?_
    rw [up_split hG hF.meas (Finset.mem_range.1 hn), flow_balance hb hT]
  have hr : ∑ n ∈ Finset.range (M + 1), term c beta n (remOp c beta F) =
      (∑ n ∈ Finset.range M, (upFlow c beta n (fun z => F z.1) + downStay c beta n F)) + term c beta 0 F := by
    rw [Finset.sum_range_succ', h0]
    congr 1
    refine Finset.sum_congr rfl fun n hn => ?_
    rw [down_split hG hF, ← flow_balance hb hT]
  have hsum : (∑ n ∈ Finset.range M, (downFlow c beta n (fun z => F (z.1 ++ [z.2])) + upStay c beta n F)) +
      (∑ n ∈ Finset.range M, (upFlow c beta n (fun z => F z.1) + downStay c beta n F)) =
      (∑ n ∈ Finset.range M, term c beta n F) + ∑ n ∈ Finset.range M, term c beta (n + 1) F := by
    rw [← Finset.sum_add_distrib, ← Finset.sum_add_distrib]
    refine Finset.sum_congr rfl fun n _ => ?_
    rw [← up_total hG hb hT hs hF.meas, ← down_total hG hF]
    ring
  rw [ensemble_term, ensemble_term]
  simp only [h1]
  rw [Finset.sum_add_distrib, ← Finset.mul_sum, ← Finset.mul_sum, ← mul_add, hi, hr]
  have : ∀ a b s t : ENNReal, a + s + (b + t) = a + b + (s + t) := fun a b s t => by ring
  rw [this, hsum]
  have e1 : (∑ n ∈ Finset.range M, term c beta n F) + (∑ n ∈ Finset.range M, term c beta (n + 1) F) + (term c beta M F + term c beta 0 F) =
      (∑ n ∈ Finset.range (M + 1), term c beta n F) + ∑ n ∈ Finset.range (M + 1), term c beta n F := by
    have a1 := Finset.sum_range_succ (fun n => term c beta n F) M
    have a2 := Finset.sum_range_succ' (fun n => term c beta n F) M
    calc _ = (∑ n ∈ Finset.range M, term c beta n F + term c beta M F) + (∑ n ∈ Finset.range M, term c beta (n + 1) F + term c beta 0 F) := by ring
      _ = _ := by rw [← a1, ← a2]
  rw [e1, ← two_mul, ← mul_assoc, ENNReal.inv_mul_cancel two_ne_zero ENNReal.ofNat_ne_top, one_mul]

end CTInt
