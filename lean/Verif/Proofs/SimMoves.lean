import Verif.Proofs.SimInsRem
import Verif.Proofs.MoveKernels

/-!
# Spin flips and shifts on lists of points: the programs and their laws
-/

set_option linter.all false

namespace CTInt

open MeasureTheory Set

variable {K : Type} [RCLike K] [DecidableEq K]
variable {c : Ctx K} {beta : ℝ}

/-! ## The selection of vertices -/

/-- Another vertex can be selected. -/
def CanPick (l : List ℕ) (N : ℕ) : Prop := l.Nodup ∧ (∀ i ∈ l, i < N) ∧ l.length < N

open Classical in
/-- Select one more vertex, if possible. -/
noncomputable def simPick (z : (List ℕ × List Pt) × (ℕ → ℝ)) : (List ℕ × List Pt) × (ℕ → ℝ) :=
  if CanPick z.1.1 z.1.2.length then
    ((z.1.1 ++ [(untilS z.1.1.toFinset z.1.2.length z.2).1], z.1.2), (untilS z.1.1.toFinset z.1.2.length z.2).2)
  else z

open Classical in
/-- Its law. -/
noncomputable def pickStepOp (H : List ℕ × List Pt → ENNReal) (z : List ℕ × List Pt) : ENNReal :=
  if CanPick z.1 z.2.length then
    ∑ k ∈ Finset.range z.2.length \ z.1.toFinset, ENNReal.ofReal (1 / ((z.2.length - z.1.toFinset.card : ℕ) : ℝ)) * H (z.1 ++ [k], z.2)
  else H z

theorem simPick_samples : Samples simPick pickStepOp := by
  classical
  have hd : ∀ q : List ℕ × ℕ, Samples (fun z : List Pt × (ℕ → ℝ) => if CanPick q.1 q.2 then
        ((q.1 ++ [(untilS q.1.toFinset q.2 z.2).1], z.1), (untilS q.1.toFinset q.2 z.2).2) else ((q.1, z.1), z.2))
      fun (H : List ℕ × List Pt → ENNReal) x => if CanPick q.1 q.2 then
        ∑ k ∈ Finset.range q.2 \ q.1.toFinset, ENNReal.ofReal (1 / ((q.2 - q.1.toFinset.card : ℕ) : ℝ)) * H (q.1 ++ [k], x)
      else H (q.1, x) := by
    intro q
    by_cases h : CanPick q.1 q.2
    · simp only [h, if_true]
      have hm : Measurable fun z : List Pt × ℕ => (q.1 ++ [z.2], z.1) := by
        have : Measurable fun k : ℕ => q.1 ++ [k] := measurable_from_top
        exact (this.comp measurable_snd).prodMk measurable_fst
      refine (Samples.map hm).comp (Samples.until (Z := List Pt) ?_ ?_)
      · intro x hx
        rw [List.mem_toFinset] at hx
        exact h.2.1 x hx
      · exact lt_of_le_of_lt (List.toFinset_card_le _) h.2.2
    · simp only [h, if_false]
      exact Samples.map (measurable_const.prodMk measurable_id)
  have h0 : Measurable fun z : List ℕ × List Pt => ((z.1, z.2.length), z.2) :=
    (measurable_fst.prodMk (measurable_length.comp measurable_snd)).prodMk measurable_snd
  exact (Samples.family hd).comp (Samples.map h0)

theorem CanPick.snoc {l : List ℕ} {N k : ℕ} (h1 : l.Nodup) (h2 : ∀ i ∈ l, i < N) (hk : k ∈ Finset.range N \ l.toFinset) :
    (l ++ [k]).Nodup ∧ ∀ i ∈ l ++ [k], i < N := by
  rw [Finset.mem_sdiff, Finset.mem_range, List.mem_toFinset] at hk
  constructor
  · rw [List.nodup_append]
    refine ⟨h1, by simp, ?_⟩
    intro x hx y hy e
    rw [List.mem_singleton] at hy
    exact hk.2 (by rw [← hy, ← e]; exact hx)
  · intro x hx
    rw [List.mem_append, List.mem_singleton] at hx
    rcases hx with hx | rfl
    · exact h2 x hx
    · exact hk.1

theorem nodup_lt_length {l : List ℕ} {N : ℕ} (h1 : l.Nodup) (h2 : ∀ i ∈ l, i < N) : l.length ≤ N := by
  have h3 : l.toFinset ⊆ Finset.range N := by
    intro x hx
    rw [List.mem_toFinset] at hx
    exact Finset.mem_range.2 (h2 x hx)
  have := Finset.card_le_card h3
  rwa [List.toFinset_card_of_nodup h1, Finset.card_range] at this

theorem picks_mean (H : List ℕ × List Pt → ENNReal) (n : ℕ) (l : List ℕ) (x : List Pt) (h1 : l.Nodup) (h2 : ∀ i ∈ l, i < x.length) :
    pickStepOp^[n] H (l, x) = pickMean x.length (fun L => H (L, x)) l (min n (x.length - l.length)) := by
  induction n generalizing l with
  | zero => simp [pickMean]
  | succ n ih =>
    rw [Function.iterate_succ_apply']
    unfold pickStepOp
    by_cases h : l.length < x.length
    · have hc : CanPick l x.length := ⟨h1, h2, h⟩
      rw [if_pos hc]
      have e : min (n + 1) (x.length - l.length) = min n (x.length - (l.length + 1)) + 1 := by omega
      rw [e]
      unfold pickMean
      rw [List.toFinset_card_of_nodup h1]
      refine Finset.sum_congr rfl fun k hk => ?_
      obtain ⟨h3, h4⟩ := CanPick.snoc h1 h2 hk
      have := ih (l ++ [k]) h3 h4
      rw [List.length_append, List.length_singleton] at this
      exact congrArg _ this
    · have hc : ¬ CanPick l x.length := fun q => h q.2.2
      rw [if_neg hc]
      have := ih l h1 h2
      have e : x.length - l.length = 0 := by omega
      rw [e, Nat.min_zero] at this
      rw [e, Nat.min_zero]
      exact this

theorem pickMean_congr {N : ℕ} {F G : List ℕ → ENNReal} (h : ∀ L : List ℕ, L.Nodup → (∀ i ∈ L, i < N) → F L = G L) (n : ℕ) (l : List ℕ)
    (h1 : l.Nodup) (h2 : ∀ i ∈ l, i < N) : pickMean N F l n = pickMean N G l n := by
  induction n generalizing l with
  | zero => exact h l h1 h2
  | succ n ih =>
    unfold pickMean
    refine Finset.sum_congr rfl fun k hk => ?_
    obtain ⟨h3, h4⟩ := CanPick.snoc h1 h2 hk
    rw [ih _ h3 h4]

/-- First select, then do something with the selected vertices. -/
noncomputable def simSelect (f : List ℕ → List Pt × (ℕ → ℝ) → List Pt × (ℕ → ℝ)) (k : ℕ) (z : List Pt × (ℕ → ℝ)) : List Pt × (ℕ → ℝ) :=
  let r := simPick^[k] (([], z.1), z.2)
  f r.1.1 (r.1.2, r.2)

theorem simSelect_law {f : List ℕ → List Pt × (ℕ → ℝ) → List Pt × (ℕ → ℝ)} {A : List ℕ → (List Pt → ENNReal) → List Pt → ENNReal}
    (hf : ∀ l, Samples (f l) (A l)) (k : ℕ) :
    Samples (simSelect f k) fun F x => pickMean x.length (fun L => A L F x) [] (min k x.length) := by
  have h0 : Measurable fun x : List Pt => (([] : List ℕ), x) := measurable_const.prodMk measurable_id
  have := (Samples.family hf).comp ((simPick_samples.iterate k).comp (Samples.map h0))
  refine (this.congr_fun (g := simSelect f k) fun z => rfl).congr fun H hH x => ?_
  exact picks_mean (fun z => A z.1 H z.2) k [] x List.nodup_nil (by simp)

/-! ## Spin flips -/

/-- The excluded state. -/
def nowState (m f : ℕ) : Finset ℕ := Finset.range m ∩ {f}

theorem range_nowState (m f : ℕ) : Finset.range m \ nowState m f = otherStates m f := by
  unfold nowState otherStates
  ext k
  simp

theorem nowState_lt {m f : ℕ} : ∀ x ∈ nowState m f, x < m := by
  intro x hx
  unfold nowState at hx
  exact Finset.mem_range.1 (Finset.mem_inter.1 hx).1

theorem card_nowState (m f : ℕ) : m - (nowState m f).card = (otherStates m f).card := by
  have h : nowState m f ⊆ Finset.range m := Finset.inter_subset_left
  rw [← range_nowState, Finset.card_sdiff_of_subset h, Finset.card_range]

/-- Try to flip vertex `i`. -/
noncomputable def simFlip (c : Ctx K) (i : ℕ) (z : List Pt × (ℕ → ℝ)) : List Pt × (ℕ → ℝ) :=
  let v := z.1.getD i default
  let m := numStates c.tbl v.1
  if m ≤ 1 then z
  else
    let r := untilS (nowState m v.2.1) m z.2
    let y := z.1.set i (v.1, r.1, v.2.2)
    (if r.2 0 < stepRatio c z.1 y 1 then y else z.1, dropS 1 r.2)

theorem set_getD_self (x : List Pt) (i : ℕ) : x.set i (x.getD i default) = x := by
  refine List.ext_getElem (by simp) fun j h1 h2 => ?_
  rw [List.getElem_set]
  split
  · rename_i e
    subst e
    rw [List.getD_eq_getElem _ _ h2]
  · rfl

theorem accept_total (x y : List Pt) (k : ℝ) (a : ENNReal) : accept c x y k * a + (1 - accept c x y k) * a = a := by
  rw [← add_mul, add_tsub_cancel_of_le (accept_le _ _ _), one_mul]

theorem simFlip_samples (hG : MeasurableG0 c.G0) (i : ℕ) : Samples (simFlip c i) (moveOp c (flipK c.tbl) i) := by
  classical
  -- for given type and state
  have hy : ∀ t : ℕ, Measurable fun z : ℕ × List Pt => z.2.set i (t, z.1, (z.2.getD i default).2.2) := by
    intro t
    have h : Measurable fun z : ℕ × List Pt => ((t, z.1, (z.2.getD i default).2.2) : Pt) :=
      measurable_const.prodMk (measurable_fst.prodMk (measurable_snd.comp (measurable_snd.comp ((measurable_getD i).comp measurable_snd))))
    exact (measurable_set i).comp (measurable_snd.prodMk h)
  have hd : ∀ t : ℕ, Samples (fun z : (ℕ × List Pt) × (ℕ → ℝ) =>
      (if z.2 0 < stepRatio c z.1.2 (z.1.2.set i (t, z.1.1, (z.1.2.getD i default).2.2)) 1 then
        z.1.2.set i (t, z.1.1, (z.1.2.getD i default).2.2) else z.1.2, dropS 1 z.2)) fun H z =>
      accept c z.2 (z.2.set i (t, z.1, (z.2.getD i default).2.2)) 1 * H (z.2.set i (t, z.1, (z.2.getD i default).2.2)) +
        (1 - accept c z.2 (z.2.set i (t, z.1, (z.2.getD i default).2.2)) 1) * H z.2 := fun t =>
    Samples.decide (hy t) measurable_snd (measurable_stepRatio hG measurable_snd (hy t) measurable_const) fun z => norm_nonneg _
  have hq : ∀ q : ℕ × ℕ, Samples (fun z : List Pt × (ℕ → ℝ) => if numStates c.tbl q.1 ≤ 1 then z else
      (if (untilS (nowState (numStates c.tbl q.1) q.2) (numStates c.tbl q.1) z.2).2 0 < stepRatio c z.1
          (z.1.set i (q.1, (untilS (nowState (numStates c.tbl q.1) q.2) (numStates c.tbl q.1) z.2).1, (z.1.getD i default).2.2)) 1 then
        z.1.set i (q.1, (untilS (nowState (numStates c.tbl q.1) q.2) (numStates c.tbl q.1) z.2).1, (z.1.getD i default).2.2) else z.1,
        dropS 1 (untilS (nowState (numStates c.tbl q.1) q.2) (numStates c.tbl q.1) z.2).2))
      fun (H : List Pt → ENNReal) x => if numStates c.tbl q.1 ≤ 1 then H x else
        ∑ k ∈ otherStates (numStates c.tbl q.1) q.2, ENNReal.ofReal (1 / ((otherStates (numStates c.tbl q.1) q.2).card : ℝ)) *
          (accept c x (x.set i (q.1, k, (x.getD i default).2.2)) 1 * H (x.set i (q.1, k, (x.getD i default).2.2)) +
            (1 - accept c x (x.set i (q.1, k, (x.getD i default).2.2)) 1) * H x) := by
    intro q
    by_cases h : numStates c.tbl q.1 ≤ 1
    · simp only [h, if_true]
      exact Samples.id
    · simp only [h, if_false]
      have hsw : Measurable fun z : List Pt × ℕ => (z.2, z.1) := measurable_snd.prodMk measurable_fst
      have hc := otherStates_pos (f := q.2) h
      rw [← card_nowState] at hc
      have hu := Samples.until (Z := List Pt) (T := nowState (numStates c.tbl q.1) q.2) (N := numStates c.tbl q.1) nowState_lt (by omega)
      rw [range_nowState, card_nowState] at hu
      exact (hd q.1).comp ((Samples.map hsw).comp hu)
  have h0 : Measurable fun x : List Pt => (((x.getD i default).1, (x.getD i default).2.1), x) :=
    ((measurable_fst.comp (measurable_getD i)).prodMk (measurable_fst.comp (measurable_snd.comp (measurable_getD i)))).prodMk measurable_id
  have := (Samples.family hq).comp (Samples.map h0)
  refine (this.congr_fun (g := simFlip c i) fun z => rfl).congr fun H hH x => ?_
  unfold moveOp
  rw [lintegral_flipK]
  simp only
  by_cases h : numStates c.tbl (x.getD i default).1 ≤ 1
  · rw [if_pos h, if_pos h, set_getD_self, accept_total]
  · rw [if_neg h, if_neg h]

/-- Try to flip several vertices. -/
noncomputable def simFlips (c : Ctx K) : List ℕ → List Pt × (ℕ → ℝ) → List Pt × (ℕ → ℝ)
  | [], z => z
  | i :: l, z => simFlips c l (simFlip c i z)

theorem simFlips_samples (hG : MeasurableG0 c.G0) (l : List ℕ) : Samples (simFlips c l) (moveOps c (flipK c.tbl) l) := by
  induction l with
  | nil => exact Samples.id
  | cons i l ih => exact ih.comp (simFlip_samples hG i)

/-- The mean after a spin-flip update of up to `k` vertices. -/
theorem simSpinFlip_law (hG : MeasurableG0 c.G0) (k : ℕ) : Samples (simSelect (simFlips c) k) (pickOp c (flipK c.tbl) k) :=
  simSelect_law (simFlips_samples hG) k

/-! ## Shifts -/

/-- The copy with a shifted time. -/
noncomputable def shiftPt (beta step : ℝ) (v : Pt) (r : ℝ) : Pt := (v.1, v.2.1, mymod (v.2.2 + (r - 1 / 2) * step) beta)

/-- The positions of the present vertices, the position of the next copy, and all vertices. -/
abbrev ShiftSt := (List ℕ × ℕ) × List Pt

/-- The vertices at the given positions. -/
def curPts (vis : List ℕ) (y : List Pt) : List Pt := vis.map fun i => y.getD i default

/-- The positions after the vertex at `i` was replaced by the copy at `k`. -/
def replaced (vis : List ℕ) (i k : ℕ) : List ℕ := (vis.filter fun j => j ≠ i) ++ [k]

/-- Append a copy of vertex `i`. -/
noncomputable def simCopy (beta step : ℝ) (i : ℕ) (z : ShiftSt × (ℕ → ℝ)) : ShiftSt × (ℕ → ℝ) :=
  ((z.1.1, z.1.2 ++ [shiftPt beta step (z.1.2.getD i default) (z.2 0)]), dropS 1 z.2)

/-- Its law. -/
noncomputable def copyOp (beta step : ℝ) (i : ℕ) (H : ShiftSt → ENNReal) (z : ShiftSt) : ENNReal :=
  ∫⁻ w, H (z.1, z.2 ++ [w]) ∂shiftK beta step (z.2.getD i default)

theorem simCopy_samples (beta step : ℝ) (i : ℕ) : Samples (simCopy beta step i) (copyOp beta step i) := by
  have hm : Measurable fun z : ShiftSt × ℝ => (z.1.1, z.1.2 ++ [shiftPt beta step (z.1.2.getD i default) z.2]) := by
    have h2 : Measurable fun z : ShiftSt × ℝ => z.1.2 := measurable_snd.comp measurable_fst
    have h : Measurable fun z : ShiftSt × ℝ => shiftPt beta step (z.1.2.getD i default) z.2 :=
      (measurable_shift beta step).comp (((measurable_getD i).comp h2).prodMk measurable_snd)
    exact (measurable_fst.comp measurable_fst).prodMk (measurable_snoc.comp (h2.prodMk h))
  refine ((Samples.map hm).comp Samples.one).congr fun H hH z => ?_
  unfold copyOp
  have hg : Measurable fun w : Pt => H (z.1, z.2 ++ [w]) :=
    hH.comp (measurable_const.prodMk (measurable_snoc.comp (measurable_const.prodMk measurable_id)))
  rw [lintegral_shiftK beta step _ hg]
  rfl

/-- All copies. -/
noncomputable def simCopies (beta step : ℝ) : List ℕ → ShiftSt × (ℕ → ℝ) → ShiftSt × (ℕ → ℝ)
  | [], z => z
  | i :: l, z => simCopies beta step l (simCopy beta step i z)

/-- Their law. -/
noncomputable def copiesOp (beta step : ℝ) : List ℕ → (ShiftSt → ENNReal) → ShiftSt → ENNReal
  | [], H => H
  | i :: l, H => copyOp beta step i (copiesOp beta step l H)

theorem simCopies_samples (beta step : ℝ) (l : List ℕ) : Samples (simCopies beta step l) (copiesOp beta step l) := by
  induction l with
  | nil => exact Samples.id
  | cons i l ih => exact ih.comp (simCopy_samples beta step i)

/-- Decide on the replacement of vertex `i` by the next copy. -/
noncomputable def simReplace (c : Ctx K) (i : ℕ) (z : ShiftSt × (ℕ → ℝ)) : ShiftSt × (ℕ → ℝ) :=
  (if z.2 0 < stepRatio c (curPts z.1.1.1 z.1.2) (curPts (replaced z.1.1.1 i z.1.1.2) z.1.2) 1 then
    ((replaced z.1.1.1 i z.1.1.2, z.1.1.2 + 1), z.1.2) else ((z.1.1.1, z.1.1.2 + 1), z.1.2), dropS 1 z.2)

/-- Its law. -/
noncomputable def replaceOp (c : Ctx K) (i : ℕ) (H : ShiftSt → ENNReal) (z : ShiftSt) : ENNReal :=
  accept c (curPts z.1.1 z.2) (curPts (replaced z.1.1 i z.1.2) z.2) 1 * H ((replaced z.1.1 i z.1.2, z.1.2 + 1), z.2) +
    (1 - accept c (curPts z.1.1 z.2) (curPts (replaced z.1.1 i z.1.2) z.2) 1) * H ((z.1.1, z.1.2 + 1), z.2)

theorem measurable_curPts (vis : List ℕ) : Measurable (curPts vis) := measurable_reindex fun _ => vis

theorem measurable_curPts' : Measurable fun z : ShiftSt => curPts z.1.1 z.2 :=
  measurable_from_prod_countable_right fun q => measurable_curPts q.1

theorem simReplace_samples (hG : MeasurableG0 c.G0) (i : ℕ) : Samples (simReplace c i) (replaceOp c i) := by
  have h1 : Measurable fun q : List ℕ × ℕ => (replaced q.1 i q.2, q.2 + 1) := Measurable.of_discrete
  have h2 : Measurable fun q : List ℕ × ℕ => (q.1, q.2 + 1) := Measurable.of_discrete
  have hr : Measurable fun z : ShiftSt => curPts (replaced z.1.1 i z.1.2) z.2 :=
    measurable_from_prod_countable_right fun q => measurable_curPts (replaced q.1 i q.2)
  exact Samples.decide (a := fun z : ShiftSt => ((replaced z.1.1 i z.1.2, z.1.2 + 1), z.2)) (b := fun z : ShiftSt => ((z.1.1, z.1.2 + 1), z.2))
    ((h1.comp measurable_fst).prodMk measurable_snd) ((h2.comp measurable_fst).prodMk measurable_snd)
    (measurable_stepRatio hG measurable_curPts' hr measurable_const) fun z => norm_nonneg _

/-- All decisions. -/
noncomputable def simReplaces (c : Ctx K) : List ℕ → ShiftSt × (ℕ → ℝ) → ShiftSt × (ℕ → ℝ)
  | [], z => z
  | i :: l, z => simReplaces c l (simReplace c i z)

/-- Their law. -/
noncomputable def replacesOp (c : Ctx K) : List ℕ → (ShiftSt → ENNReal) → ShiftSt → ENNReal
  | [], H => H
  | i :: l, H => replaceOp c i (replacesOp c l H)

theorem simReplaces_samples (hG : MeasurableG0 c.G0) (l : List ℕ) : Samples (simReplaces c l) (replacesOp c l) := by
  induction l with
  | nil => exact Samples.id
  | cons i l ih => exact ih.comp (simReplace_samples hG i)

/-- Try to shift the selected vertices. -/
noncomputable def simShifts (c : Ctx K) (beta step : ℝ) (l : List ℕ) (z : List Pt × (ℕ → ℝ)) : List Pt × (ℕ → ℝ) :=
  let r := simReplaces c l (simCopies beta step l (((List.range z.1.length, z.1.length), z.1), z.2))
  (curPts r.1.1.1 r.1.2, r.2)

/-- Its law. -/
noncomputable def shiftsOp (c : Ctx K) (beta step : ℝ) (l : List ℕ) (F : List Pt → ENNReal) (x : List Pt) : ENNReal :=
  copiesOp beta step l (replacesOp c l fun z => F (curPts z.1.1 z.2)) ((List.range x.length, x.length), x)

theorem simShifts_samples (hG : MeasurableG0 c.G0) (beta step : ℝ) (l : List ℕ) : Samples (simShifts c beta step l) (shiftsOp c beta step l) := by
  have h0 : Measurable fun x : List Pt => ((List.range x.length, x.length), x) := by
    have h : Measurable fun n : ℕ => (List.range n, n) := Measurable.of_discrete
    exact (h.comp measurable_length).prodMk measurable_id
  have := (Samples.map measurable_curPts').comp ((simReplaces_samples hG l).comp ((simCopies_samples beta step l).comp (Samples.map h0)))
  exact this.congr_fun (g := simShifts c beta step l) fun z => rfl

/-! ## Drawing all displacements first makes no difference -/

theorem getD_snoc {y : List Pt} {j : ℕ} (h : j < y.length) (w : Pt) : (y ++ [w]).getD j default = y.getD j default := by
  rw [List.getD_eq_getElem _ _ h, List.getD_eq_getElem _ _ (by rw [List.length_append]; omega), List.getElem_append_left h]

theorem curPts_snoc {y : List Pt} {vis : List ℕ} (h : ∀ j ∈ vis, j < y.length) (w : Pt) : curPts vis (y ++ [w]) = curPts vis y := by
  unfold curPts
  exact List.map_congr_left fun j hj => getD_snoc (h j hj) w

theorem replaced_lt {vis : List ℕ} {i k N : ℕ} (h : ∀ j ∈ vis, j < N) (hk : k < N) : ∀ j ∈ replaced vis i k, j < N := by
  intro j hj
  unfold replaced at hj
  rw [List.mem_append, List.mem_filter, List.mem_singleton] at hj
  rcases hj with hj | rfl
  · exact h j hj.1
  · exact hk

theorem copies_replace (hb : 0 < beta) (step : ℝ) (hG : MeasurableG0 c.G0) (l : List ℕ) (i : ℕ) {H : ShiftSt → ENNReal} (hH : Measurable H) (vis : List ℕ) (k : ℕ) (y : List Pt)
    (hv : ∀ j ∈ vis, j < y.length) (hk : k < y.length) :
    copiesOp beta step l (replaceOp c i H) ((vis, k), y) = replaceOp c i (copiesOp beta step l H) ((vis, k), y) := by
  induction l generalizing y with
  | nil => rfl
  | cons a l ih =>
    have hm := (simCopies_samples beta step l).opMeas hH
    have h1 : ∀ q : List ℕ × ℕ, Measurable fun w : Pt => copiesOp beta step l H (q, y ++ [w]) := fun q =>
      hm.comp (measurable_const.prodMk (measurable_snoc.comp (measurable_const.prodMk measurable_id)))
    have e : ∀ w, copiesOp beta step l (replaceOp c i H) ((vis, k), y ++ [w]) =
        accept c (curPts vis y) (curPts (replaced vis i k) y) 1 * copiesOp beta step l H ((replaced vis i k, k + 1), y ++ [w]) +
        (1 - accept c (curPts vis y) (curPts (replaced vis i k) y) 1) * copiesOp beta step l H ((vis, k + 1), y ++ [w]) := by
      intro w
      have hlt : ∀ {j}, j < y.length → j < (y ++ [w]).length := fun h => by rw [List.length_append]; omega
      rw [ih (y ++ [w]) (fun j hj => hlt (hv j hj)) (hlt hk)]
      unfold replaceOp
      simp only
      rw [curPts_snoc hv, curPts_snoc (replaced_lt hv hk)]
    show ∫⁻ w, copiesOp beta step l (replaceOp c i H) ((vis, k), y ++ [w]) ∂shiftK beta step (y.getD a default) = _
    simp only [e]
    rw [lintegral_add_left ((h1 _).const_mul _), lintegral_const_mul _ (h1 _), lintegral_const_mul _ (h1 _)]
    rfl

/-- The invariant: `x` is the list of present vertices, in another order, and the vertices still to be shifted are where they were. -/
structure ShiftRel (x : List Pt) (vis : List ℕ) (y : List Pt) (l : List ℕ) : Prop where
  perm : x.Perm (curPts vis y)
  vnd : vis.Nodup
  vlt : ∀ j ∈ vis, j < y.length
  lnd : l.Nodup
  lvis : ∀ j ∈ l, j ∈ vis
  llt : ∀ j ∈ l, j < x.length
  same : ∀ j ∈ l, x.getD j default = y.getD j default

theorem filter_perm {vis : List ℕ} (h : vis.Nodup) {i : ℕ} (hi : i ∈ vis) : vis.Perm (i :: vis.filter fun j => j ≠ i) := by
  have := List.perm_cons_erase hi
  rw [List.Nodup.erase_eq_filter h] at this
  refine this.trans ?_
  apply List.Perm.of_eq
  congr 1
  refine List.filter_congr fun j _ => ?_
  simp only [bne, decide_not]
  rfl

theorem set_perm {x : List Pt} {i : ℕ} (hi : i < x.length) (w : Pt) : (x.set i w).Perm (w :: x.eraseIdx i) := by
  have h := List.getElem_cons_eraseIdx_perm (l := x.set i w) (n := i) (by simpa using hi)
  rw [List.getElem_set_self, List.eraseIdx_set_eq] at h
  exact h.symm

theorem ShiftRel.step {x : List Pt} {vis : List ℕ} {y : List Pt} {i : ℕ} {l : List ℕ} (h : ShiftRel x vis y (i :: l)) (w : Pt) :
    ShiftRel x vis (y ++ [w]) l ∧ ShiftRel (x.set i w) (replaced vis i y.length) (y ++ [w]) l := by
  have hlt : ∀ {j}, j < y.length → j < (y ++ [w]).length := fun h => by rw [List.length_append]; omega
  have hi := h.llt i List.mem_cons_self
  have hiv := h.lvis i List.mem_cons_self
  have hnd := List.nodup_cons.1 h.lnd
  have hly : ∀ j ∈ l, j < y.length := fun j hj => h.vlt j (h.lvis j (List.mem_cons_of_mem _ hj))
  have hsame : ∀ j ∈ l, x.getD j default = (y ++ [w]).getD j default := by
    intro j hj
    rw [getD_snoc (hly j hj), h.same j (List.mem_cons_of_mem _ hj)]
  refine ⟨⟨?_, h.vnd, fun j hj => hlt (h.vlt j hj), hnd.2, fun j hj => h.lvis j (List.mem_cons_of_mem _ hj),
    fun j hj => h.llt j (List.mem_cons_of_mem _ hj), hsame⟩, ⟨?_, ?_, ?_, hnd.2, ?_, ?_, ?_⟩⟩
  · rw [curPts_snoc h.vlt]; exact h.perm
  · have hf : ∀ j ∈ vis.filter fun j => j ≠ i, j < y.length := fun j hj => h.vlt j (List.mem_filter.1 hj).1
    have e1 : curPts (replaced vis i y.length) (y ++ [w]) = curPts (vis.filter fun j => j ≠ i) y ++ [w] := by
      unfold replaced
      show List.map _ (_ ++ _) = _
      rw [List.map_append]
      have := curPts_snoc hf w
      unfold curPts at this ⊢
      rw [this]
      congr 1
      simp
    rw [e1]
    refine (set_perm hi w).trans (((List.Perm.cons w ?_)).trans (List.perm_append_singleton w _).symm)
    have p1 : (x.getD i default :: x.eraseIdx i).Perm x := by
      rw [List.getD_eq_getElem _ _ hi]
      exact List.getElem_cons_eraseIdx_perm hi
    have p2 : (curPts vis y).Perm (y.getD i default :: curPts (vis.filter fun j => j ≠ i) y) :=
      (filter_perm h.vnd hiv).map _
    have p3 := p1.trans (h.perm.trans p2)
    rw [h.same i List.mem_cons_self] at p3
    exact p3.cons_inv
  · unfold replaced
    rw [List.nodup_append]
    refine ⟨h.vnd.filter _, by simp, ?_⟩
    intro a ha b hb e
    rw [List.mem_singleton] at hb
    have := h.vlt a (List.mem_filter.1 ha).1
    omega
  · exact replaced_lt (fun j hj => hlt (h.vlt j hj)) (by simp)
  · intro j hj
    unfold replaced
    rw [List.mem_append, List.mem_filter]
    refine Or.inl ⟨h.lvis j (List.mem_cons_of_mem _ hj), ?_⟩
    have : j ≠ i := fun e => hnd.1 (e ▸ hj)
    simp [this]
  · intro j hj
    rw [List.length_set]
    exact h.llt j (List.mem_cons_of_mem _ hj)
  · intro j hj
    have hne : i ≠ j := fun e => hnd.1 (e ▸ hj)
    rw [← hsame j hj]
    have hjx := h.llt j (List.mem_cons_of_mem _ hj)
    rw [List.getD_eq_getElem _ _ hjx, List.getD_eq_getElem _ _ (by simpa using hjx), List.getElem_set_ne hne]

theorem copies_moves (hb : 0 < beta) (step : ℝ) (hG : MeasurableG0 c.G0) {F : List Pt → ENNReal} (hF : Nice F) (l : List ℕ) (x : List Pt) (vis : List ℕ) (y : List Pt)
    (h : ShiftRel x vis y l) :
    copiesOp beta step l (replacesOp c l fun z => F (curPts z.1.1 z.2)) ((vis, y.length), y) = moveOps c (shiftK beta step) l F x := by
  have hF1 : Measurable fun z : ShiftSt => F (curPts z.1.1 z.2) := hF.meas.comp measurable_curPts'
  induction l generalizing x vis y with
  | nil => exact (hF.sym _ _ h.perm).symm
  | cons i l ih =>
    have hm := (simReplaces_samples hG l).opMeas hF1
    have hi := h.lvis i List.mem_cons_self
    show ∫⁻ w, copiesOp beta step l (replaceOp c i (replacesOp c l fun z => F (curPts z.1.1 z.2))) ((vis, y.length), y ++ [w])
      ∂shiftK beta step (y.getD i default) = moveOp c (shiftK beta step) i (moveOps c (shiftK beta step) l F) x
    unfold moveOp
    rw [h.same i List.mem_cons_self]
    refine lintegral_congr fun w => ?_
    have hlt : ∀ {j}, j < y.length → j < (y ++ [w]).length := fun h => by rw [List.length_append]; omega
    rw [copies_replace hb step hG l i hm vis y.length (y ++ [w]) (fun j hj => hlt (h.vlt j hj)) (by simp)]
    obtain ⟨h1, h2⟩ := h.step w
    have e1 := ih _ _ _ h1
    have e2 := ih _ _ _ h2
    have el : (y ++ [w]).length = y.length + 1 := by simp
    rw [el] at e1 e2
    unfold replaceOp
    simp only
    rw [e1, e2, accept_perm h1.perm h2.perm]

theorem shiftsOp_eq (hb : 0 < beta) (step : ℝ) (hG : MeasurableG0 c.G0) {F : List Pt → ENNReal} (hF : Nice F) {l : List ℕ} {x : List Pt} (h1 : l.Nodup)
    (h2 : ∀ i ∈ l, i < x.length) : shiftsOp c beta step l F x = moveOps c (shiftK beta step) l F x := by
  refine copies_moves hb step hG hF l x _ x ⟨?_, List.nodup_range, ?_, h1, ?_, h2, fun _ _ => rfl⟩
  · apply List.Perm.of_eq
    unfold curPts
    refine List.ext_getElem (by simp) fun j h1 h2 => ?_
    rw [List.getElem_map, List.getElem_range, List.getD_eq_getElem _ _ h1]
  · intro j hj; exact List.mem_range.1 hj
  · intro j hj; exact List.mem_range.2 (h2 j hj)

/-- The mean after a shift update of up to `k` vertices. -/
theorem simShift_law (hb : 0 < beta) (step : ℝ) (hG : MeasurableG0 c.G0) (k : ℕ) :
    ∃ A, Samples (simSelect (simShifts c beta step) k) A ∧ ∀ F, Nice F → A F = pickOp c (shiftK beta step) k F := by
  refine ⟨_, simSelect_law (simShifts_samples hG beta step) k, fun F hF => ?_⟩
  funext x
  unfold pickOp
  exact pickMean_congr (fun L h1 h2 => shiftsOp_eq hb step hG hF h1 h2) _ _ List.nodup_nil (by simp)

end CTInt
