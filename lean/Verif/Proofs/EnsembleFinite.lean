import Verif.Proofs.SimRun
import Mathlib.LinearAlgebra.Matrix.AbsoluteValue

/-!
# The partition function is finite and not zero
-/

set_option linter.all false

namespace CTInt

open MeasureTheory

variable {K : Type} [RCLike K] [DecidableEq K]
variable {c : Ctx K}

/-- A bound on the auxiliary fields. -/
noncomputable def alphaBound (tbl : List (VDef K)) : ℝ :=
  (tbl.map fun d => ∑ s ∈ Finset.range d.numAf, ∑ r ∈ Finset.range d.rank, ‖d.alpha s r‖).sum

/-- A bound on the couplings. -/
noncomputable def uBound (tbl : List (VDef K)) : ℝ := 1 + (tbl.map fun d => ‖d.U‖).sum

/-- A bound on the ranks. -/
def rankBound (tbl : List (VDef K)) : ℕ := (tbl.map fun d => d.rank).sum

theorem le_map_sum {α : Type} {l : List α} {f : α → ℝ} (hf : ∀ a ∈ l, 0 ≤ f a) {a : α} (ha : a ∈ l) : f a ≤ (l.map f).sum := by
  induction l with
  | nil => cases ha
  | cons b l ih =>
    rw [List.map_cons, List.sum_cons]
    have h0 : 0 ≤ (l.map f).sum := List.sum_nonneg fun y hy => by
      obtain ⟨z, hz, rfl⟩ := List.mem_map.1 hy
      exact hf z (List.mem_cons_of_mem _ hz)
    rcases List.mem_cons.1 ha with rfl | ha
    · linarith
    · have := ih (fun a ha => hf a (List.mem_cons_of_mem _ ha)) ha
      have := hf b (by simp)
      linarith

theorem alphaBound_nonneg (tbl : List (VDef K)) : 0 ≤ alphaBound tbl := by
  unfold alphaBound
  exact List.sum_nonneg fun y hy => by
    obtain ⟨z, hz, rfl⟩ := List.mem_map.1 hy
    positivity

theorem alpha_le {tbl : List (VDef K)} {d : VDef K} (hd : d ∈ tbl) {s r : ℕ} (hs : s < d.numAf) (hr : r < d.rank) :
    ‖d.alpha s r‖ ≤ alphaBound tbl := by
  refine le_trans ?_ (le_map_sum (f := fun d : VDef K => ∑ s ∈ Finset.range d.numAf, ∑ r ∈ Finset.range d.rank, ‖d.alpha s r‖)
    (fun a _ => by positivity) hd)
  refine le_trans ?_ (Finset.single_le_sum (f := fun s => ∑ r ∈ Finset.range d.rank, ‖d.alpha s r‖)
    (fun i _ => by positivity) (Finset.mem_range.2 hs))
  exact Finset.single_le_sum (f := fun r => ‖d.alpha s r‖) (fun i _ => by positivity) (Finset.mem_range.2 hr)

theorem rank_le {tbl : List (VDef K)} {d : VDef K} (hd : d ∈ tbl) : d.rank ≤ rankBound tbl :=
  List.single_le_sum (fun _ _ => Nat.zero_le _) _ (List.mem_map_of_mem hd)

theorem u_le {tbl : List (VDef K)} {d : VDef K} (hd : d ∈ tbl) : ‖d.U‖ ≤ uBound tbl := by
  have := le_map_sum (f := fun d : VDef K => ‖d.U‖) (fun a _ => norm_nonneg _) hd
  unfold uBound
  linarith

theorem one_le_uBound (tbl : List (VDef K)) : 1 ≤ uBound tbl := by
  unfold uBound
  have : 0 ≤ (tbl.map fun d => ‖d.U‖).sum := List.sum_nonneg fun y hy => by
    obtain ⟨z, hz, rfl⟩ := List.mem_map.1 hy
    positivity
  linarith

/-- The norm as an absolute value. -/
def normAbs (K : Type) [RCLike K] : AbsoluteValue K ℝ where
  toFun x := ‖x‖
  map_mul' := norm_mul
  nonneg' := norm_nonneg
  eq_zero' _ := norm_eq_zero
  add_le' := norm_add_le

/-- Determinants of bounded matrices. -/
theorem detN_le {n : ℕ} {g : ℕ → ℕ → K} {x : ℝ} (h : ∀ i < n, ∀ j < n, ‖g i j‖ ≤ x) : ‖detN n g‖ ≤ n.factorial * x ^ n := by
  have := Matrix.det_le (A := toM n n g) (abv := normAbs K) (x := x) (fun i j => by
    show ‖toM n n g i j‖ ≤ x
    rw [toM_apply]
    exact h i i.2 j j.2)
  rw [Fintype.card_fin, nsmul_eq_mul] at this
  exact this

variable {beta B : ℝ}

theorem validPts_term {x : List Pt} (hx : ValidPts beta c.tbl x) {v : Vert} (hv : v ∈ x.map vertAt) :
    termOf c.tbl v ∈ c.tbl ∧ v.af.toNat < (termOf c.tbl v).numAf ∧ v.nonInt = false := by
  obtain ⟨p, hp, rfl⟩ := List.mem_map.1 hv
  obtain ⟨h1, h2, -⟩ := hx p hp
  refine ⟨?_, ?_, rfl⟩
  · show c.tbl.getD p.1 default ∈ c.tbl
    rw [List.getD_eq_getElem _ _ h1]
    exact List.getElem_mem _
  · have : (vertAt p).af.toNat = p.2.1 := by unfold vertAt; simp
    rw [this]
    exact h2

theorem rowsOf_length_le {x : List Pt} (hx : ValidPts beta c.tbl x) (fl : ℕ) :
    (rowsOf c.NI c.tbl (x.map vertAt) fl).length ≤ x.length * rankBound c.tbl := by
  unfold rowsOf
  rw [List.length_flatMap]
  have : ∀ v ∈ x.map vertAt, (rowsV c.NI c.tbl fl v).length ≤ rankBound c.tbl := by
    intro v hv
    unfold rowsV
    rw [List.length_map]
    refine le_trans (List.length_filter_le _ _) ?_
    rw [List.length_range]
    exact rank_le (validPts_term hx hv).1
  have h2 := List.sum_le_card_nsmul ((x.map vertAt).map fun v => (rowsV c.NI c.tbl fl v).length) (rankBound c.tbl) (by
    intro y hy
    obtain ⟨v, hv, rfl⟩ := List.mem_map.1 hy
    exact this v hv)
  simpa using h2

theorem rowG_le (hB : ∀ a b, ‖c.G0 a b‖ ≤ B) {x : List Pt} (hx : ValidPts beta c.tbl x) (fl i : ℕ) {j : ℕ}
    (hj : j < (rowsOf c.NI c.tbl (x.map vertAt) fl).length) :
    ‖rowG c.G0 (rowsOf c.NI c.tbl (x.map vertAt) fl) i j‖ ≤ 1 + B + alphaBound c.tbl := by
  have h0 := alphaBound_nonneg c.tbl
  have hal : ‖((rowsOf c.NI c.tbl (x.map vertAt) fl).getD j default).al‖ ≤ alphaBound c.tbl := by
    rw [List.getD_eq_getElem _ _ hj]
    have hm := List.getElem_mem hj
    generalize (rowsOf c.NI c.tbl (x.map vertAt) fl)[j] = w at hm
    unfold rowsOf at hm
    obtain ⟨v, hv, hw⟩ := List.mem_flatMap.1 hm
    unfold rowsV at hw
    obtain ⟨r, hr, rfl⟩ := List.mem_map.1 hw
    have hr := List.mem_range.1 (List.mem_filter.1 hr).1
    obtain ⟨q1, q2, q3⟩ := validPts_term hx hv
    show ‖fieldOf c.NI c.tbl v r‖ ≤ _
    unfold fieldOf
    rw [q3]
    simp only [Bool.false_eq_true, if_false]
    exact alpha_le q1 q2 hr
  unfold rowG specG
  refine le_trans (norm_sub_le _ _) ?_
  have := hB ((rowsOf c.NI c.tbl (x.map vertAt) fl).getD i default).an ((rowsOf c.NI c.tbl (x.map vertAt) fl).getD j default).cr
  split
  · linarith
  · rw [norm_zero]; linarith

theorem wt_le (hB : ∀ a b, ‖c.G0 a b‖ ≤ B) {x : List Pt} (hx : ValidPts beta c.tbl x) :
    ‖wt c x‖ ≤ ((x.length * rankBound c.tbl).factorial * (1 + B + alphaBound c.tbl) ^ (x.length * rankBound c.tbl)) ^ c.nf *
      uBound c.tbl ^ x.length := by
  have hB0 : 0 ≤ B := le_trans (norm_nonneg _) (hB default default)
  have h0 := alphaBound_nonneg c.tbl
  unfold wt weight
  rw [norm_mul]
  refine mul_le_mul ?_ ?_ (norm_nonneg _) (by positivity)
  · unfold detWeight
    rw [interacting_vertAt, norm_prod]
    refine le_trans (Finset.prod_le_prod (fun _ _ => norm_nonneg _) fun fl _ => ?_) (le_of_eq (by rw [Finset.prod_const, Finset.card_range]))
    refine le_trans (detN_le fun i _ j hj => rowG_le hB hx fl i hj) ?_
    have hl := rowsOf_length_le hx fl
    have h1 : ((rowsOf c.NI c.tbl (x.map vertAt) fl).length.factorial : ℝ) ≤ ((x.length * rankBound c.tbl).factorial : ℝ) := by
      exact_mod_cast Nat.factorial_le hl
    exact mul_le_mul h1 (pow_le_pow_right₀ (by linarith) hl) (by positivity) (by positivity)
  · unfold uWeight
    rw [interacting_vertAt, List.map_map]
    have : ∀ l : List Pt, (∀ p ∈ l, p ∈ x) →
        ‖(l.map ((fun v => - (termOf c.tbl v).U) ∘ vertAt)).prod‖ ≤ uBound c.tbl ^ l.length := by
      intro l hl
      induction l with
      | nil => simp
      | cons p l ih =>
        rw [List.map_cons, List.prod_cons, norm_mul, List.length_cons, pow_succ, mul_comm]
        refine mul_le_mul (ih fun q hq => hl q (List.mem_cons_of_mem _ hq)) ?_ (norm_nonneg _) (by have := one_le_uBound c.tbl; positivity)
        rw [Function.comp, norm_neg]
        exact u_le (validPts_term hx (List.mem_map_of_mem (hl p (by simp)))).1
    exact this x fun _ h => h

theorem stateProd_le (tbl : List (VDef K)) (x : List Pt) : stateProd tbl x ≤ 1 := by
  unfold stateProd
  induction x with
  | nil => simp
  | cons p x ih =>
    rw [List.map_cons, List.prod_cons]
    have h1 : ((numStates tbl p.1 : ℕ) : ℝ)⁻¹ ≤ 1 := by
      cases numStates tbl p.1 with
      | zero => simp
      | succ n => exact inv_le_one_of_one_le₀ (by push_cast; linarith [(Nat.cast_nonneg n : (0:ℝ) ≤ n)])
    have h2 := stateProd_nonneg tbl x
    unfold stateProd at h2
    nlinarith

theorem ensemble_lt_top (hB : ∀ a b, ‖c.G0 a b‖ ≤ B) (M : ℕ) : ensemble c beta M 1 < ⊤ := by
  unfold ensemble
  rw [ENNReal.sum_lt_top]
  intro n _
  refine ENNReal.mul_lt_top ENNReal.ofReal_lt_top ?_
  have : ∫⁻ x : Fin n → Pt, density c (List.ofFn x) * (1 : List Pt → ENNReal) (List.ofFn x) ∂tupleMeasure beta c.tbl n ≤
      ∫⁻ x : Fin n → Pt, ENNReal.ofReal (((n * rankBound c.tbl).factorial * (1 + B + alphaBound c.tbl) ^ (n * rankBound c.tbl)) ^ c.nf *
      uBound c.tbl ^ n) ∂tupleMeasure beta c.tbl n := by
    refine lintegral_mono_ae ?_
    filter_upwards [ae_validPts beta c.tbl n] with x hx
    rw [Pi.one_apply, mul_one, density_eq]
    refine ENNReal.ofReal_le_ofReal ?_
    have h1 := wt_le hB hx
    rw [List.length_ofFn] at h1
    have h2 := stateProd_le c.tbl (List.ofFn x)
    have h3 := stateProd_nonneg c.tbl (List.ofFn x)
    have h4 := norm_nonneg (wt c (List.ofFn x))
    nlinarith
  refine lt_of_le_of_lt this ?_
  rw [lintegral_const]
  exact ENNReal.mul_lt_top ENNReal.ofReal_lt_top (measure_lt_top _ _)

theorem one_le_ensemble (c : Ctx K) (beta : ℝ) (M : ℕ) : 1 ≤ ensemble c beta M 1 := by
  unfold ensemble
  refine le_trans ?_ (Finset.single_le_sum (f := fun n : ℕ => ENNReal.ofReal (1 / (n.factorial : ℝ)) *
    ∫⁻ x : Fin n → Pt, density c (List.ofFn x) * (1 : List Pt → ENNReal) (List.ofFn x) ∂Measure.pi fun _ => pointMeasure beta c.tbl)
    (fun _ _ => zero_le') (Finset.mem_range.2 (Nat.succ_pos M)))
  have hd : density c [] = 1 := by
    unfold density target weight detWeight uWeight interacting
    simp only [List.map_nil, List.filter_nil, rowsOf, List.flatMap_nil, List.length_nil]
    simp [detN]
  have : ∀ x : Fin 0 → Pt, density c (List.ofFn x) * (1 : List Pt → ENNReal) (List.ofFn x) = 1 := by
    intro x
    rw [List.ofFn_zero, hd]
    simp
  simp only [this]
  simp

end CTInt
