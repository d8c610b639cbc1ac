import Verif.Proofs.Sampler
import Verif.Proofs.Ensemble

/-!
# Insertions and removals on lists of points: the program and its law
-/

set_option linter.all false

namespace CTInt

open MeasureTheory Set

instance listBoolSpace : MeasurableSpace (List Bool) := ⊤
instance listBoolDisc : DiscreteMeasurableSpace (List Bool) := ⟨fun _ => trivial⟩
instance listNatSpace : MeasurableSpace (List ℕ) := ⊤
instance listNatDisc : DiscreteMeasurableSpace (List ℕ) := ⟨fun _ => trivial⟩

/-- A choice between two programs. -/
theorem Samples.ite {Z W : Type} [MeasurableSpace Z] [MeasurableSpace W] {f g : Z × (ℕ → ℝ) → W × (ℕ → ℝ)} {A B : (W → ENNReal) → Z → ENNReal}
    {P : Z → Prop} [DecidablePred P] (hP : MeasurableSet {z | P z}) (hf : Samples f A) (hg : Samples g B) :
    Samples (fun z => if P z.1 then f z else g z) fun H z => if P z then A H z else B H z := by
  refine ⟨Measurable.ite (measurable_fst hP) hf.meas hg.meas, fun G hG z => ?_⟩
  by_cases h : P z
  · simp only [h, if_true]; exact hf.law G hG z
  · simp only [h, if_false]; exact hg.law G hG z

variable {K : Type} [RCLike K] [DecidableEq K]
variable {c : Ctx K} {beta : ℝ}

/-- The factor of a step between lists of points. -/
noncomputable def stepRatio (c : Ctx K) (x y : List Pt) (k : ℝ) : ℝ := ‖wt c y / wt c x * (k : K)‖

theorem measurable_stepRatio (hG : MeasurableG0 c.G0) {Z : Type} [MeasurableSpace Z] {x y : Z → List Pt} {k : Z → ℝ} (hx : Measurable x)
    (hy : Measurable y) (hk : Measurable k) : Measurable fun z => stepRatio c (x z) (y z) (k z) := by
  have h : Measurable (wt c) := measurable_wt hG
  exact (((h.comp hy).div (h.comp hx)).mul ((RCLike.continuous_ofReal (K := K)).measurable.comp hk)).norm

theorem accept_ratio (x y : List Pt) (k : ℝ) : accept c x y k = ENNReal.ofReal (min 1 (stepRatio c x y k)) := rfl

/-! ## Drawing a vertex -/

/-- The vertex drawn with three numbers. -/
noncomputable def drawPt (beta : ℝ) (tbl : List (VDef K)) (r0 r1 r2 : ℝ) : Pt :=
  (⌊r1 * tbl.length⌋₊, ⌊r2 * numStates tbl ⌊r1 * tbl.length⌋₊⌋₊, r0 * beta)

theorem measurable_drawPt (beta : ℝ) (tbl : List (VDef K)) : Measurable fun z : (ℝ × ℝ) × ℝ => drawPt beta tbl z.1.1 z.1.2 z.2 := by
  have h1 : Measurable fun z : (ℝ × ℝ) × ℝ => ⌊z.1.2 * (tbl.length : ℝ)⌋₊ :=
    Nat.measurable_floor.comp ((measurable_snd.comp measurable_fst).mul_const _)
  have h2 : Measurable fun q : ℕ × ℝ => ⌊q.2 * (numStates tbl q.1 : ℝ)⌋₊ :=
    measurable_from_prod_countable_right fun t => Nat.measurable_floor.comp (measurable_id.mul_const (numStates tbl t : ℝ))
  exact h1.prodMk ((h2.comp (h1.prodMk measurable_snd)).prodMk ((measurable_fst.comp measurable_fst).mul_const _))

theorem lintegral_time (hb : 0 < beta) {g : ℝ → ENNReal} (hg : Measurable g) :
    ∫⁻ r, g (r * beta) ∂uniform01 = ENNReal.ofReal (1 / beta) * ∫⁻ τ in Ico 0 beta, g τ := by
  unfold uniform01
  have hI : ∀ r : ℝ, (Ico (0 : ℝ) 1).indicator (fun r => g (r * beta)) r = ((Ico (0 : ℝ) beta).indicator g) (r * beta) := by
    intro r
    by_cases h : r ∈ Ico (0 : ℝ) 1
    · rw [indicator_of_mem h, indicator_of_mem]
      exact ⟨mul_nonneg h.1 hb.le, by nlinarith [h.2]⟩
    · rw [indicator_of_notMem h, indicator_of_notMem]
      intro q
      apply h
      exact ⟨by have := q.1; by_contra hc; push Not at hc; nlinarith, by have := q.2; by_contra hc; push Not at hc; nlinarith⟩
  rw [← lintegral_indicator measurableSet_Ico, ← lintegral_indicator measurableSet_Ico]
  simp only [hI]
  have hm : Measurable ((Ico (0 : ℝ) beta).indicator g) := hg.indicator measurableSet_Ico
  have e := Real.map_volume_mul_right (a := beta) hb.ne'
  have := lintegral_map (μ := volume) hm (measurable_id.mul_const beta)
  simp only [id] at this
  rw [← this, e, lintegral_smul_measure, abs_of_pos (inv_pos.2 hb), smul_eq_mul, one_div]

/-- The law of a drawn vertex. -/
theorem drawPt_law (hb : 0 < beta) {tbl : List (VDef K)} (hT : tbl ≠ []) (hs : ∀ d ∈ tbl, 0 < d.numAf) {g : Pt → ENNReal} (hg : Measurable g) :
    ∫⁻ r0, ∫⁻ r1, ∫⁻ r2, g (drawPt beta tbl r0 r1 r2) ∂uniform01 ∂uniform01 ∂uniform01 =
      ∫⁻ v, drawDensity beta tbl v * g v ∂pointMeasure beta tbl := by
  have hT' : 0 < tbl.length := List.length_pos_iff.2 hT
  have hT'' : (0 : ℝ) < tbl.length := by exact_mod_cast hT'
  have hn : ∀ t < tbl.length, 0 < numStates tbl t := by
    intro t ht
    unfold numStates
    rw [List.getD_eq_getElem _ _ ht]
    exact hs _ (List.getElem_mem ht)
  have hdg : Measurable fun v => drawDensity beta tbl v * g v := (measurable_drawDensity beta tbl).mul hg
  rw [lintegral_point hdg]
  have hgp : ∀ t f, Measurable fun τ : ℝ => g (t, f, τ) := fun t f => hg.comp (measurable_point t f)
  have e1 : ∀ r0, ∫⁻ r1, ∫⁻ r2, g (drawPt beta tbl r0 r1 r2) ∂uniform01 ∂uniform01 =
      ∑ t ∈ Finset.range tbl.length, ∑ f ∈ Finset.range (numStates tbl t),
        ENNReal.ofReal (1 / tbl.length) * (ENNReal.ofReal (1 / numStates tbl t) * g (t, f, r0 * beta)) := by
    intro r0
    unfold drawPt
    rw [lintegral_index hT' (fun t => ∫⁻ r2, g (t, ⌊r2 * (numStates tbl t : ℝ)⌋₊, r0 * beta) ∂uniform01)]
    refine Finset.sum_congr rfl fun t ht => ?_
    rw [lintegral_index (hn t (Finset.mem_range.1 ht)) (fun f => g (t, f, r0 * beta)), Finset.mul_sum]
  simp only [e1]
  rw [lintegral_finsetSum _ fun t _ => ?m1]
  case m1 =>
    refine Finset.measurable_sum _ fun f _ => ?_
    exact (((hgp t f).comp (measurable_id.mul_const beta)).const_mul _).const_mul _
  refine Finset.sum_congr rfl fun t ht => ?_
  rw [lintegral_finsetSum _ fun f _ => ?m2]
  case m2 => exact (((hgp t f).comp (measurable_id.mul_const beta)).const_mul _).const_mul _
  refine Finset.sum_congr rfl fun f _ => ?_
  have hh : Measurable fun τ : ℝ => ENNReal.ofReal (1 / tbl.length) * (ENNReal.ofReal (1 / numStates tbl t) * g (t, f, τ)) :=
    ((hgp t f).const_mul _).const_mul _
  rw [lintegral_time hb hh]
  rw [lintegral_const_mul _ ((hgp t f).const_mul _), lintegral_const_mul _ (hgp t f)]
  unfold drawDensity
  simp only
  rw [lintegral_const_mul _ (hgp t f), ← mul_assoc, ← mul_assoc, ← ENNReal.ofReal_mul (by positivity), ← ENNReal.ofReal_mul (by positivity)]
  congr 2
  have := hn t (Finset.mem_range.1 ht)
  have : (0 : ℝ) < numStates tbl t := by exact_mod_cast this
  field_simp

/-- Draw a vertex and append it to the second list. -/
noncomputable def simDraw (beta : ℝ) (tbl : List (VDef K)) (z : (List Pt × List Pt) × (ℕ → ℝ)) : (List Pt × List Pt) × (ℕ → ℝ) :=
  ((z.1.1, z.1.2 ++ [drawPt beta tbl (z.2 0) (z.2 1) (z.2 2)]), dropS 3 z.2)

/-- Its law. -/
noncomputable def drawOp (beta : ℝ) (tbl : List (VDef K)) (H : List Pt × List Pt → ENNReal) (z : List Pt × List Pt) : ENNReal :=
  ∫⁻ v, drawDensity beta tbl v * H (z.1, z.2 ++ [v]) ∂pointMeasure beta tbl

theorem simDraw_samples (hb : 0 < beta) {tbl : List (VDef K)} (hT : tbl ≠ []) (hs : ∀ d ∈ tbl, 0 < d.numAf) :
    Samples (simDraw beta tbl) (drawOp beta tbl) := by
  have hm : Measurable fun z : (((List Pt × List Pt) × ℝ) × ℝ) × ℝ =>
      (z.1.1.1.1, z.1.1.1.2 ++ [drawPt beta tbl z.1.1.2 z.1.2 z.2]) := by
    have h0 : Measurable fun z : (((List Pt × List Pt) × ℝ) × ℝ) × ℝ => z.1.1.1 := measurable_fst.comp (measurable_fst.comp measurable_fst)
    have h1 : Measurable fun z : (((List Pt × List Pt) × ℝ) × ℝ) × ℝ => ((z.1.1.2, z.1.2), z.2) :=
      ((measurable_snd.comp (measurable_fst.comp measurable_fst)).prodMk (measurable_snd.comp measurable_fst)).prodMk measurable_snd
    exact (measurable_fst.comp h0).prodMk (measurable_snoc.comp ((measurable_snd.comp h0).prodMk ((measurable_drawPt beta tbl).comp h1)))
  have := (Samples.map hm).comp (Samples.one.comp (Samples.one.comp Samples.one))
  refine (this.congr_fun (g := simDraw beta tbl) ?_).congr ?_
  · intro z
    unfold simDraw
    refine Prod.ext rfl ?_
    show dropS 1 (dropS 1 (dropS 1 z.2)) = dropS 3 z.2
    rw [dropS_drop, dropS_drop]
  · intro H hH z
    unfold drawOp
    have hg : Measurable fun v : Pt => H (z.1, z.2 ++ [v]) :=
      hH.comp (measurable_const.prodMk (measurable_snoc.comp (measurable_const.prodMk measurable_id)))
    rw [← drawPt_law hb hT hs hg]

/-! ## The turns -/

/-- Insertion of the vertex at position `j` of the second list. -/
noncomputable def simIns (c : Ctx K) (beta : ℝ) (M j : ℕ) (z : (List Pt × List Pt) × (ℕ → ℝ)) : (List Pt × List Pt) × (ℕ → ℝ) :=
  if M < z.1.1.length + 1 then z
  else (if z.2 0 < stepRatio c z.1.1 (z.1.1 ++ [z.1.2.getD j default]) (beta * c.tbl.length / ((z.1.1.length : ℝ) + 1)) then
      (z.1.1 ++ [z.1.2.getD j default], z.1.2) else z.1, dropS 1 z.2)

/-- Its law. -/
noncomputable def insTurn (c : Ctx K) (beta : ℝ) (M j : ℕ) (H : List Pt × List Pt → ENNReal) (z : List Pt × List Pt) : ENNReal :=
  if M < z.1.length + 1 then H z
  else accept c z.1 (z.1 ++ [z.2.getD j default]) (beta * c.tbl.length / ((z.1.length : ℝ) + 1)) * H (z.1 ++ [z.2.getD j default], z.2) +
    (1 - accept c z.1 (z.1 ++ [z.2.getD j default]) (beta * c.tbl.length / ((z.1.length : ℝ) + 1))) * H z

theorem measurable_ins (j : ℕ) : Measurable fun z : List Pt × List Pt => z.1 ++ [z.2.getD j default] :=
  measurable_snoc.comp (measurable_fst.prodMk ((measurable_getD j).comp measurable_snd))

theorem simIns_samples (hG : MeasurableG0 c.G0) (beta : ℝ) (M j : ℕ) : Samples (simIns c beta M j) (insTurn c beta M j) := by
  have hP : MeasurableSet {z : List Pt × List Pt | M < z.1.length + 1} := by
    have : Measurable fun z : List Pt × List Pt => z.1.length := measurable_length.comp measurable_fst
    exact this (MeasurableSet.of_discrete (s := {n | M < n + 1}))
  have hl : Measurable fun z : List Pt × List Pt => beta * c.tbl.length / ((z.1.length : ℝ) + 1) := by
    have h : Measurable fun n : ℕ => beta * c.tbl.length / ((n : ℝ) + 1) := measurable_from_top
    exact h.comp (measurable_length.comp measurable_fst)
  refine Samples.ite hP Samples.id ?_
  exact Samples.decide (a := fun z : List Pt × List Pt => (z.1 ++ [z.2.getD j default], z.2)) (b := fun z => z)
    ((measurable_ins j).prodMk measurable_snd) measurable_id (measurable_stepRatio hG measurable_fst (measurable_ins j) hl)
    fun z => norm_nonneg _

/-- Removal of a vertex of the first list. -/
noncomputable def simRem (c : Ctx K) (beta : ℝ) (z : (List Pt × List Pt) × (ℕ → ℝ)) : (List Pt × List Pt) × (ℕ → ℝ) :=
  if z.1.1.length = 0 then z
  else (if z.2 1 < stepRatio c z.1.1 (z.1.1.eraseIdx ⌊z.2 0 * z.1.1.length⌋₊) (z.1.1.length / (beta * c.tbl.length)) then
      (z.1.1.eraseIdx ⌊z.2 0 * z.1.1.length⌋₊, z.1.2) else z.1, dropS 2 z.2)

/-- Its law. -/
noncomputable def remTurn (c : Ctx K) (beta : ℝ) (H : List Pt × List Pt → ENNReal) (z : List Pt × List Pt) : ENNReal :=
  if z.1.length = 0 then H z
  else ∑ i ∈ Finset.range z.1.length, ENNReal.ofReal (1 / (z.1.length : ℝ)) *
    (accept c z.1 (z.1.eraseIdx i) (z.1.length / (beta * c.tbl.length)) * H (z.1.eraseIdx i, z.2) +
      (1 - accept c z.1 (z.1.eraseIdx i) (z.1.length / (beta * c.tbl.length))) * H z)

theorem simRem_samples (hG : MeasurableG0 c.G0) (beta : ℝ) : Samples (simRem c beta) (remTurn c beta) := by
  have hlen : Measurable fun z : List Pt × List Pt => z.1.length := measurable_length.comp measurable_fst
  have hP : MeasurableSet {z : List Pt × List Pt | z.1.length = 0} := hlen (MeasurableSet.of_discrete (s := {n | n = 0}))
  have hl : Measurable fun z : List Pt × List Pt => (z.1.length : ℝ) / (beta * c.tbl.length) := by
    have h : Measurable fun n : ℕ => (n : ℝ) / (beta * c.tbl.length) := measurable_from_top
    exact h.comp hlen
  -- the decision for a chosen position
  have hd : ∀ i : ℕ, Samples (fun z : (List Pt × List Pt) × (ℕ → ℝ) =>
      (if z.2 0 < stepRatio c z.1.1 (z.1.1.eraseIdx i) (z.1.1.length / (beta * c.tbl.length)) then (z.1.1.eraseIdx i, z.1.2) else z.1, dropS 1 z.2))
      fun H z => accept c z.1 (z.1.eraseIdx i) (z.1.length / (beta * c.tbl.length)) * H (z.1.eraseIdx i, z.2) +
        (1 - accept c z.1 (z.1.eraseIdx i) (z.1.length / (beta * c.tbl.length))) * H z := by
    intro i
    have he : Measurable fun z : List Pt × List Pt => z.1.eraseIdx i := (measurable_eraseIdx i).comp measurable_fst
    exact Samples.decide (a := fun z : List Pt × List Pt => (z.1.eraseIdx i, z.2)) (b := fun z => z) (he.prodMk measurable_snd) measurable_id
      (measurable_stepRatio hG measurable_fst he hl) fun z => norm_nonneg _
  have hm : Measurable fun z : (List Pt × List Pt) × ℝ => (⌊z.2 * (z.1.1.length : ℝ)⌋₊, z.1) := by
    have h : Measurable fun q : ℕ × ℝ => ⌊q.2 * (q.1 : ℝ)⌋₊ :=
      measurable_from_prod_countable_right fun n => Nat.measurable_floor.comp (measurable_id.mul_const (n : ℝ))
    exact (h.comp ((hlen.comp measurable_fst).prodMk measurable_snd)).prodMk measurable_fst
  have hall := (Samples.family hd).comp ((Samples.map hm).comp Samples.one)
  have := (Samples.ite hP Samples.id hall)
  refine (this.congr_fun (g := simRem c beta) ?_).congr ?_
  · intro z
    unfold simRem
    split
    · rfl
    · refine Prod.ext rfl ?_
      show dropS 1 (dropS 1 z.2) = _
      rw [dropS_drop]
  · intro H hH z
    unfold remTurn
    split
    · rfl
    · rename_i h
      exact lintegral_index (Nat.pos_of_ne_zero h) fun i => accept c z.1 (z.1.eraseIdx i) (z.1.length / (beta * c.tbl.length)) *
        H (z.1.eraseIdx i, z.2) + (1 - accept c z.1 (z.1.eraseIdx i) (z.1.length / (beta * c.tbl.length))) * H z

/-- All turns. -/
noncomputable def simTurns (c : Ctx K) (beta : ℝ) (M : ℕ) : List Bool → ℕ → (List Pt × List Pt) × (ℕ → ℝ) → (List Pt × List Pt) × (ℕ → ℝ)
  | [], _, z => z
  | true :: fl, j, z => simTurns c beta M fl (j + 1) (simIns c beta M j z)
  | false :: fl, j, z => simTurns c beta M fl j (simRem c beta z)

/-- Their law. -/
noncomputable def turnsOp (c : Ctx K) (beta : ℝ) (M : ℕ) : List Bool → ℕ → (List Pt × List Pt → ENNReal) → List Pt × List Pt → ENNReal
  | [], _, H => H
  | true :: fl, j, H => insTurn c beta M j (turnsOp c beta M fl (j + 1) H)
  | false :: fl, j, H => remTurn c beta (turnsOp c beta M fl j H)

theorem simTurns_samples (hG : MeasurableG0 c.G0) (beta : ℝ) (M : ℕ) (fl : List Bool) (j : ℕ) :
    Samples (simTurns c beta M fl j) (turnsOp c beta M fl j) := by
  induction fl generalizing j with
  | nil => exact Samples.id
  | cons b fl ih =>
    cases b with
    | true => exact (ih (j + 1)).comp (simIns_samples hG beta M j)
    | false => exact (ih j).comp (simRem_samples hG beta)

/-- The update for given flags. -/
noncomputable def simFlags (c : Ctx K) (beta : ℝ) (M : ℕ) (fl : List Bool) (z : List Pt × (ℕ → ℝ)) : List Pt × (ℕ → ℝ) :=
  let r := simTurns c beta M fl 0 ((simDraw beta c.tbl)^[fl.count true] ((z.1, []), z.2))
  (r.1.1, r.2)

/-- Its law: the turns one after the other, each with a fresh vertex. -/
noncomputable def flagsOp (c : Ctx K) (beta : ℝ) (M : ℕ) : List Bool → (List Pt → ENNReal) → List Pt → ENNReal
  | [], F => F
  | true :: fl, F => insOp c beta M (flagsOp c beta M fl F)
  | false :: fl, F => remOp c beta (flagsOp c beta M fl F)

/-! ## Drawing all vertices first makes no difference -/

theorem Samples.opMeas {Z W : Type} [MeasurableSpace Z] [MeasurableSpace W] {f : Z × (ℕ → ℝ) → W × (ℕ → ℝ)} {A : (W → ENNReal) → Z → ENNReal}
    (h : Samples f A) {H : W → ENNReal} (hH : Measurable H) : Measurable (A H) := by
  have : A H = fun z => ∫⁻ u, (fun q : W × (ℕ → ℝ) => H q.1) (f (z, u)) ∂streams := by
    funext z
    rw [h.law (fun q => H q.1) (hH.comp measurable_fst)]
    congr 1
    funext w
    simp
  rw [this]
  exact Measurable.lintegral_prod_right' (f := fun q : Z × (ℕ → ℝ) => H (f q).1) (hH.comp (measurable_fst.comp h.meas))

/-- The law is additive. -/
theorem Samples.opAdd {Z W : Type} [MeasurableSpace Z] [MeasurableSpace W] {f : Z × (ℕ → ℝ) → W × (ℕ → ℝ)} {A : (W → ENNReal) → Z → ENNReal}
    (h : Samples f A) {H H' : W → ENNReal} (hH : Measurable H) (hH' : Measurable H') (a b : ENNReal) (z : Z) :
    A (fun w => a * H w + b * H' w) z = a * A H z + b * A H' z := by
  have e : ∀ H : W → ENNReal, Measurable H → A H z = ∫⁻ u, H (f (z, u)).1 ∂streams := by
    intro H hH
    rw [h.law (fun q => H q.1) (hH.comp measurable_fst)]
    congr 1
    funext w
    simp
  have hf : Measurable fun u => (f (z, u)).1 := measurable_fst.comp (h.meas.comp measurable_prodMk_left)
  have h0 : Measurable fun w => a * H w + b * H' w := (hH.const_mul a).add (hH'.const_mul b)
  have h1 : Measurable fun u => H (f (z, u)).1 := hH.comp hf
  have h2 : Measurable fun u => H' (f (z, u)).1 := hH'.comp hf
  rw [e _ h0, e _ hH, e _ hH', lintegral_add_left (h1.const_mul a), lintegral_const_mul _ h1, lintegral_const_mul _ h2]

/-- The law of a constant: the results are somewhere. -/
theorem Samples.opConst {Z W : Type} [MeasurableSpace Z] [MeasurableSpace W] {f : Z × (ℕ → ℝ) → W × (ℕ → ℝ)} {A : (W → ENNReal) → Z → ENNReal}
    (h : Samples f A) (a : ENNReal) (z : Z) : A (fun _ => a) z = a := by
  have := h.law (fun _ => a) measurable_const z
  simpa using this.symm

section
variable (hb : 0 < beta) (hT : c.tbl ≠ []) (hs : ∀ d ∈ c.tbl, 0 < d.numAf)
include hb hT hs

theorem drawOp_ins (M : ℕ) {j : ℕ} {H : List Pt × List Pt → ENNReal} (hH : Measurable H) (x vs : List Pt) (hj : j < vs.length) :
    drawOp beta c.tbl (insTurn c beta M j H) (x, vs) = insTurn c beta M j (drawOp beta c.tbl H) (x, vs) := by
  have hg : ∀ v, (vs ++ [v]).getD j default = vs.getD j default := by
    intro v
    rw [List.getD_eq_getElem _ _ hj, List.getD_eq_getElem _ _ (by rw [List.length_append]; omega), List.getElem_append_left hj]
  have hd := measurable_drawDensity beta c.tbl
  have h1 : ∀ y : List Pt, Measurable fun v : Pt => H (y, vs ++ [v]) := fun y =>
    hH.comp (measurable_const.prodMk (measurable_snoc.comp (measurable_const.prodMk measurable_id)))
  have h2 : ∀ y : List Pt, Measurable fun v : Pt => drawDensity beta c.tbl v * H (y, vs ++ [v]) := fun y => hd.mul (h1 y)
  unfold drawOp insTurn
  simp only [hg]
  split
  · rfl
  · simp only [mul_add, mul_left_comm (drawDensity beta c.tbl _)]
    rw [lintegral_add_left ((h2 _).const_mul _), lintegral_const_mul _ (h2 _), lintegral_const_mul _ (h2 _)]

theorem drawOp_rem {H : List Pt × List Pt → ENNReal} (hH : Measurable H) (x vs : List Pt) :
    drawOp beta c.tbl (remTurn c beta H) (x, vs) = remTurn c beta (drawOp beta c.tbl H) (x, vs) := by
  have hd := measurable_drawDensity beta c.tbl
  have h1 : ∀ y : List Pt, Measurable fun v : Pt => H (y, vs ++ [v]) := fun y =>
    hH.comp (measurable_const.prodMk (measurable_snoc.comp (measurable_const.prodMk measurable_id)))
  have h2 : ∀ y : List Pt, Measurable fun v : Pt => drawDensity beta c.tbl v * H (y, vs ++ [v]) := fun y => hd.mul (h1 y)
  unfold drawOp remTurn
  simp only
  split
  · rfl
  · simp only [Finset.mul_sum]
    simp only [mul_add, mul_left_comm (drawDensity beta c.tbl _)]
    rw [lintegral_finsetSum _ fun i _ => ?m]
    case m => exact (((h2 _).const_mul _).const_mul _).add (((h2 _).const_mul _).const_mul _)
    refine Finset.sum_congr rfl fun i _ => ?_
    rw [lintegral_add_left (((h2 _).const_mul _).const_mul _), lintegral_const_mul _ ((h2 _).const_mul _),
      lintegral_const_mul _ (h2 _), lintegral_const_mul _ ((h2 _).const_mul _), lintegral_const_mul _ (h2 _)]

theorem draws_ins (n M : ℕ) {j : ℕ} {H : List Pt × List Pt → ENNReal} (hH : Measurable H) (x vs : List Pt) (hj : j < vs.length) :
    (drawOp beta c.tbl)^[n] (insTurn c beta M j H) (x, vs) = insTurn c beta M j ((drawOp beta c.tbl)^[n] H) (x, vs) := by
  have hS := simDraw_samples hb hT hs
  induction n generalizing vs with
  | zero => rfl
  | succ n ih =>
    rw [Function.iterate_succ_apply', Function.iterate_succ_apply']
    rw [← drawOp_ins hb hT hs M ((hS.iterate n).opMeas hH) x vs hj]
    exact lintegral_congr fun v => congrArg (drawDensity beta c.tbl v * ·) (ih (vs ++ [v]) (by rw [List.length_append]; omega))

theorem draws_rem (n : ℕ) {H : List Pt × List Pt → ENNReal} (hH : Measurable H) (x vs : List Pt) :
    (drawOp beta c.tbl)^[n] (remTurn c beta H) (x, vs) = remTurn c beta ((drawOp beta c.tbl)^[n] H) (x, vs) := by
  have hS := simDraw_samples hb hT hs
  induction n generalizing vs with
  | zero => rfl
  | succ n ih =>
    rw [Function.iterate_succ_apply', Function.iterate_succ_apply']
    rw [← drawOp_rem hb hT hs ((hS.iterate n).opMeas hH) x vs]
    exact lintegral_congr fun v => congrArg (drawDensity beta c.tbl v * ·) (ih (vs ++ [v]))

theorem draws_turns (hG : MeasurableG0 c.G0) (M : ℕ) {F : List Pt → ENNReal} (hF : Measurable F) (fl : List Bool) (x vs : List Pt) {j : ℕ} (hj : vs.length = j) :
    (drawOp beta c.tbl)^[fl.count true] (turnsOp c beta M fl j fun z => F z.1) (x, vs) = flagsOp c beta M fl F x := by
  have hF1 : Measurable fun z : List Pt × List Pt => F z.1 := hF.comp measurable_fst
  induction fl generalizing x vs j with
  | nil => rfl
  | cons b fl ih =>
    cases b with
    | true =>
      have e : (true :: fl).count true = fl.count true + 1 := by simp
      have hH := (simTurns_samples hG beta M fl (j + 1)).opMeas hF1
      rw [e, Function.iterate_succ_apply']
      unfold drawOp turnsOp flagsOp
      have : ∀ v, (drawOp beta c.tbl)^[fl.count true] (insTurn c beta M j (turnsOp c beta M fl (j + 1) fun z => F z.1)) (x, vs ++ [v]) =
          if M < x.length + 1 then flagsOp c beta M fl F x
          else accept c x (x ++ [v]) (beta * c.tbl.length / ((x.length : ℝ) + 1)) * flagsOp c beta M fl F (x ++ [v]) +
            (1 - accept c x (x ++ [v]) (beta * c.tbl.length / ((x.length : ℝ) + 1))) * flagsOp c beta M fl F x := by
        intro v
        rw [draws_ins hb hT hs _ M (j := j) hH x _ (by rw [List.length_append, List.length_singleton]; omega)]
        have hl : (vs ++ [v]).length = j + 1 := by rw [List.length_append, List.length_singleton, hj]
        have hv : (vs ++ [v]).getD j default = v := by
          rw [List.getD_eq_getElem _ _ (by omega), List.getElem_append_right (by omega)]
          simp [hj]
        unfold insTurn
        simp only [hv]
        rw [ih x _ hl, ih (x ++ [v]) _ hl]
      show ∫⁻ v, drawDensity beta c.tbl v * (drawOp beta c.tbl)^[fl.count true] (insTurn c beta M j (turnsOp c beta M fl (j + 1) fun z => F z.1)) (x, vs ++ [v]) ∂pointMeasure beta c.tbl = _
      simp only [this]
      unfold insOp
      split
      · rw [lintegral_mul_const _ (measurable_drawDensity beta c.tbl), drawDensity_total hb hT hs, one_mul]
      · rfl
    | false =>
      have e : (false :: fl).count true = fl.count true := by simp
      have hH := (simTurns_samples hG beta M fl j).opMeas hF1
      rw [e]
      unfold turnsOp flagsOp
      refine (draws_rem hb hT hs _ hH x vs).trans ?_
      unfold remTurn remOp
      have ih' := fun y => ih y vs hj
      split
      · exact ih' x
      · refine Finset.sum_congr rfl fun i _ => ?_
        simp only []
        rw [ih' (x.eraseIdx i), ih' x]

theorem simFlags_samples (hG : MeasurableG0 c.G0) (M : ℕ) (fl : List Bool) : Samples (simFlags c beta M fl) (flagsOp c beta M fl) := by
  have h0 : Measurable fun x : List Pt => (x, ([] : List Pt)) := measurable_id.prodMk measurable_const
  have := (Samples.map (measurable_fst (α := List Pt) (β := List Pt))).comp ((simTurns_samples hG beta M fl 0).comp
    (((simDraw_samples hb hT hs).iterate (fl.count true)).comp (Samples.map h0)))
  refine (this.congr_fun (g := simFlags c beta M fl) fun z => rfl).congr ?_
  intro H hH x
  exact draws_turns hb hT hs hG M hH fl x [] rfl

end

/-! ## The flags -/

/-- Draw a flag. -/
noncomputable def simBit (z : (List Bool × List Pt) × (ℕ → ℝ)) : (List Bool × List Pt) × (ℕ → ℝ) :=
  (if z.2 0 < 1 / 2 then (z.1.1 ++ [true], z.1.2) else (z.1.1 ++ [false], z.1.2), dropS 1 z.2)

/-- Its law. -/
noncomputable def bitOp (H : List Bool × List Pt → ENNReal) (z : List Bool × List Pt) : ENNReal :=
  2⁻¹ * H (z.1 ++ [true], z.2) + 2⁻¹ * H (z.1 ++ [false], z.2)

theorem simBit_samples : Samples simBit bitOp := by
  have h : ∀ b : Bool, Measurable fun z : List Bool × List Pt => (z.1 ++ [b], z.2) := by
    intro b
    have : Measurable fun l : List Bool => l ++ [b] := measurable_from_top
    exact (this.comp measurable_fst).prodMk measurable_snd
  refine (Samples.decide (h true) (h false) (x := fun _ => 1 / 2) measurable_const fun _ => by norm_num).congr fun H hH z => ?_
  unfold bitOp
  have e : ENNReal.ofReal (min 1 (1 / 2)) = 2⁻¹ := by
    rw [min_eq_right (by norm_num), one_div, ENNReal.ofReal_inv_of_pos (by norm_num), ENNReal.ofReal_ofNat]
  rw [e, ENNReal.one_sub_inv_two]

theorem flagsOp_append (M : ℕ) (fl fl' : List Bool) (F : List Pt → ENNReal) :
    flagsOp c beta M (fl ++ fl') F = flagsOp c beta M fl (flagsOp c beta M fl' F) := by
  induction fl with
  | nil => rfl
  | cons b fl ih => cases b <;> · rw [List.cons_append]; unfold flagsOp; rw [ih]

/-- `do_ins_rem_update` on points. -/
noncomputable def simInsRem (c : Ctx K) (beta : ℝ) (M k : ℕ) (z : List Pt × (ℕ → ℝ)) : List Pt × (ℕ → ℝ) :=
  let r := simBit^[2 * k] (([], z.1), z.2)
  simFlags c beta M r.1.1 (r.1.2, r.2)

section
variable (hb : 0 < beta) (hT : c.tbl ≠ []) (hs : ∀ d ∈ c.tbl, 0 < d.numAf)
include hb hT hs

theorem bits_flags (hG : MeasurableG0 c.G0) (M n : ℕ) {F : List Pt → ENNReal} (hF : Nice F) (b : List Bool) (x : List Pt) :
    bitOp^[n] (fun z => flagsOp c beta M z.1 F z.2) (b, x) = flagsOp c beta M b ((mixOp c beta M)^[n] F) x := by
  have hN : ∀ n, Nice ((mixOp c beta M)^[n] F) := by
    intro n
    induction n with
    | zero => exact hF
    | succ n ih => rw [Function.iterate_succ_apply']; exact mixOp_nice hG beta M ih
  induction n generalizing b with
  | zero => rfl
  | succ n ih =>
    rw [Function.iterate_succ_apply']
    unfold bitOp
    show 2⁻¹ * bitOp^[n] (fun z => flagsOp c beta M z.1 F z.2) (b ++ [true], x) + 2⁻¹ * bitOp^[n] (fun z => flagsOp c beta M z.1 F z.2) (b ++ [false], x) = _
    rw [ih, ih, flagsOp_append, flagsOp_append, Function.iterate_succ_apply']
    have e1 : flagsOp c beta M [true] ((mixOp c beta M)^[n] F) = insOp c beta M ((mixOp c beta M)^[n] F) := rfl
    have e2 : flagsOp c beta M [false] ((mixOp c beta M)^[n] F) = remOp c beta ((mixOp c beta M)^[n] F) := rfl
    rw [e1, e2]
    exact ((simFlags_samples hb hT hs hG M b).opAdd (insOp_nice hG beta M (hN n)).meas (remOp_nice hG beta (hN n)).meas 2⁻¹ 2⁻¹ x).symm

/-- The mean of `F` after `do_ins_rem_update`. -/
theorem simInsRem_law (hG : MeasurableG0 c.G0) (M k : ℕ) :
    ∃ A, Samples (simInsRem c beta M k) A ∧ ∀ F, Nice F → A F = (mixOp c beta M)^[2 * k] F := by
  have h0 : Measurable fun x : List Pt => (([] : List Bool), x) := measurable_const.prodMk measurable_id
  have := (Samples.family (simFlags_samples hb hT hs hG M)).comp ((simBit_samples.iterate (2 * k)).comp (Samples.map h0))
  refine ⟨_, this.congr_fun (g := simInsRem c beta M k) fun z => rfl, ?_⟩
  intro F hF
  funext x
  exact bits_flags hb hT hs hG M (2 * k) hF [] x

end

end CTInt
