import Verif.Proofs.FockPick

/-!
# Sums over configurations with one vertex picked out
-/

set_option linter.all false

namespace CTInt

open MeasureTheory Filter

variable {K : Type} [RCLike K] [DecidableEq K]

theorem ofFn_erase {n : ℕ} (x : Fin (n + 1) → Pt) (j : Fin (n + 1)) :
    (List.ofFn x).take j ++ (List.ofFn x).drop (j + 1) = List.ofFn fun i => x (j.succAbove i) := by
  rw [← List.eraseIdx_eq_take_drop_succ]
  refine List.ext_getElem ?_ ?_
  · rw [List.length_eraseIdx_of_lt (by rw [List.length_ofFn]; exact j.2), List.length_ofFn, List.length_ofFn]
    rfl
  · intro i h1 h2
    rw [List.length_ofFn] at h2
    rw [List.getElem_eraseIdx]
    split_ifs with hi
    · rw [List.getElem_ofFn, List.getElem_ofFn, Fin.succAbove_of_castSucc_lt _ _ (by rw [Fin.lt_def]; exact hi)]
      rfl
    · rw [List.getElem_ofFn, List.getElem_ofFn, Fin.succAbove_of_le_castSucc _ _ (by rw [Fin.le_def]; simpa using hi)]
      rfl

theorem splits_ofFn {M : Type} [AddCommMonoid M] {n : ℕ} (x : Fin (n + 1) → Pt) (P : Pt → List Pt → M) :
    ((splits (List.ofFn x)).map fun y => P y.2.1 (y.1 ++ y.2.2)).sum = ∑ j : Fin (n + 1), P (x j) (List.ofFn fun i => x (j.succAbove i)) := by
  rw [splits_eq, List.map_map, sum_range_map, List.length_ofFn, ← Fin.sum_univ_eq_sum_range (fun q => _) (n + 1)]
  refine Finset.sum_congr rfl fun j _ => ?_
  simp only [Function.comp_apply]
  rw [ofFn_erase, List.getD_eq_getElem _ _ (by rw [List.length_ofFn]; exact j.2), List.getElem_ofFn]

theorem stateProd_erase (tbl : List (VDef K)) {n : ℕ} (x : Fin (n + 1) → Pt) (j : Fin (n + 1)) :
    stateProd tbl (List.ofFn x) = stateProd tbl (List.ofFn fun i => x (j.succAbove i)) * ((numStates tbl (x j).1 : ℕ) : ℝ)⁻¹ := by
  unfold stateProd
  rw [List.map_ofFn, List.map_ofFn, List.prod_ofFn, List.prod_ofFn, Fin.prod_univ_succAbove _ j, mul_comm]
  rfl

variable {c : Ctx K} {β : ℝ} {ν : Measure ℝ} [SFinite ν]

/-- Pick one of the vertices. -/
theorem preserving_pick (c : Ctx K) (β : ℝ) (ν : Measure ℝ) [SFinite ν] (n : ℕ) (j : Fin (n + 1)) :
    MeasurePreserving (fun z : (Fin (n + 1) → Pt) × ℝ => ((fun i => z.1 (j.succAbove i)), (z.1 j, z.2)))
      ((tupleMeasure β c.tbl (n + 1)).prod ν) ((tupleMeasure β c.tbl n).prod ((pointMeasure β c.tbl).prod ν)) := by
  have h1 := measurePreserving_piFinSuccAbove (fun _ : Fin (n + 1) => pointMeasure β c.tbl) j
  have h2 := (Measure.measurePreserving_swap (μ := pointMeasure β c.tbl) (ν := tupleMeasure β c.tbl n)).comp h1
  have h3 := h2.prod (MeasurePreserving.id ν)
  exact (measurePreserving_prodAssoc (tupleMeasure β c.tbl n) (pointMeasure β c.tbl) ν).comp h3

theorem config_pick {P : Pt → ℝ → List Pt → K}
    (hint : ∀ n, Integrable (fun z : (Fin n → Pt) × (Pt × ℝ) => stateProd c.tbl (List.ofFn z.1) • (((numStates c.tbl z.2.1.1 : ℕ) : ℝ)⁻¹ • P z.2.1 z.2.2 (List.ofFn z.1)))
      ((tupleMeasure β c.tbl n).prod ((pointMeasure β c.tbl).prod ν))) (L : K →L[ℝ] ℝ) (M : ℕ) :
    (configSum c β (M + 1) fun x => L (∫ t, ((splits x).map fun y => P y.2.1 t (y.1 ++ y.2.2)).sum ∂ν)) =
      configSum c β M fun x => L (∫ o : Pt × ℝ, ((numStates c.tbl o.1.1 : ℕ) : ℝ)⁻¹ • P o.1 o.2 x ∂(pointMeasure β c.tbl).prod ν) := by
  set J : ℕ → K := fun n => ∫ z : (Fin n → Pt) × (Pt × ℝ), stateProd c.tbl (List.ofFn z.1) • (((numStates c.tbl z.2.1.1 : ℕ) : ℝ)⁻¹ • P z.2.1 z.2.2 (List.ofFn z.1))
      ∂(tupleMeasure β c.tbl n).prod ((pointMeasure β c.tbl).prod ν) with hJ
  -- right side
  have hr : ∀ n, ∫ x : Fin n → Pt, stateProd c.tbl (List.ofFn x) * L (∫ o : Pt × ℝ, ((numStates c.tbl o.1.1 : ℕ) : ℝ)⁻¹ • P o.1 o.2 (List.ofFn x) ∂(pointMeasure β c.tbl).prod ν)
      ∂tupleMeasure β c.tbl n = L (J n) := by
    intro n
    rw [hJ]
    simp only
    rw [integral_prod _ (hint n), ← L.integral_comp_comm (hint n).integral_prod_left]
    refine integral_congr_ae (Eventually.of_forall fun x => ?_)
    show _ * _ = L (∫ o : Pt × ℝ, stateProd c.tbl (List.ofFn x) • _ ∂_)
    rw [integral_smul, map_smul, smul_eq_mul]
  -- left side
  have hl : ∀ n, ∫ x : Fin (n + 1) → Pt, stateProd c.tbl (List.ofFn x) * L (∫ t, ((splits (List.ofFn x)).map fun y => P y.2.1 t (y.1 ++ y.2.2)).sum ∂ν)
      ∂tupleMeasure β c.tbl (n + 1) = ((n + 1 : ℕ) : ℝ) * L (J n) := by
    intro n
    have hQ : ∀ j : Fin (n + 1), Integrable (fun z : (Fin (n + 1) → Pt) × ℝ => stateProd c.tbl (List.ofFn fun i => z.1 (j.succAbove i)) •
        (((numStates c.tbl (z.1 j).1 : ℕ) : ℝ)⁻¹ • P (z.1 j) z.2 (List.ofFn fun i => z.1 (j.succAbove i)))) ((tupleMeasure β c.tbl (n + 1)).prod ν) :=
      fun j => (preserving_pick c β ν n j).integrable_comp_of_integrable (hint n)
    have hsum : ∀ (x : Fin (n + 1) → Pt) (t : ℝ), stateProd c.tbl (List.ofFn x) • ((splits (List.ofFn x)).map fun y => P y.2.1 t (y.1 ++ y.2.2)).sum =
        ∑ j : Fin (n + 1), stateProd c.tbl (List.ofFn fun i => x (j.succAbove i)) • (((numStates c.tbl (x j).1 : ℕ) : ℝ)⁻¹ • P (x j) t (List.ofFn fun i => x (j.succAbove i))) := by
      intro x t
      rw [splits_ofFn x (fun p y => P p t y), Finset.smul_sum]
      refine Finset.sum_congr rfl fun j _ => ?_
      rw [smul_smul, ← stateProd_erase]
    have hI : Integrable (fun z : (Fin (n + 1) → Pt) × ℝ => stateProd c.tbl (List.ofFn z.1) • ((splits (List.ofFn z.1)).map fun y => P y.2.1 z.2 (y.1 ++ y.2.2)).sum)
        ((tupleMeasure β c.tbl (n + 1)).prod ν) := by
      simp only [hsum]
      exact integrable_finset_sum _ fun j _ => hQ j
    have e1 : ∫ z : (Fin (n + 1) → Pt) × ℝ, stateProd c.tbl (List.ofFn z.1) • ((splits (List.ofFn z.1)).map fun y => P y.2.1 z.2 (y.1 ++ y.2.2)).sum
        ∂(tupleMeasure β c.tbl (n + 1)).prod ν = ((n + 1 : ℕ) : ℝ) • J n := by
      simp only [hsum]
      rw [integral_finsetSum _ fun j _ => hQ j]
      have : ∀ j ∈ (Finset.univ : Finset (Fin (n + 1))), ∫ z : (Fin (n + 1) → Pt) × ℝ, stateProd c.tbl (List.ofFn fun i => z.1 (j.succAbove i)) •
          (((numStates c.tbl (z.1 j).1 : ℕ) : ℝ)⁻¹ • P (z.1 j) z.2 (List.ofFn fun i => z.1 (j.succAbove i))) ∂(tupleMeasure β c.tbl (n + 1)).prod ν = J n := by
        intro j _
        have hp := preserving_pick c β ν n j
        rw [hJ]
        simp only
        rw [← hp.map_eq, integral_map hp.measurable.aemeasurable (by rw [hp.map_eq]; exact (hint n).aestronglyMeasurable)]
      rw [Finset.sum_congr rfl this, Finset.sum_const, Finset.card_univ, Fintype.card_fin, ← Nat.cast_smul_eq_nsmul ℝ]
    rw [← smul_eq_mul, ← map_smul, ← e1, integral_prod _ hI, ← L.integral_comp_comm hI.integral_prod_left]
    refine integral_congr_ae (Eventually.of_forall fun x => ?_)
    show _ * _ = L (∫ t, stateProd c.tbl (List.ofFn x) • _ ∂_)
    rw [integral_smul, map_smul, smul_eq_mul]
  unfold configSum
  rw [Finset.sum_range_succ']
  have h0 : (1 / ((Nat.factorial 0 : ℕ) : ℝ)) * ∫ x : Fin 0 → Pt, ((List.ofFn x).map fun p => ((numStates c.tbl p.1 : ℕ) : ℝ)⁻¹).prod *
      L (∫ t, ((splits (List.ofFn x)).map fun y => P y.2.1 t (y.1 ++ y.2.2)).sum ∂ν) ∂Measure.pi (fun _ => pointMeasure β c.tbl) = 0 := by
    simp [splits]
  rw [h0, add_zero]
  refine Finset.sum_congr rfl fun n _ => ?_
  refine (congrArg (fun r => (1 / (((n + 1).factorial : ℕ) : ℝ)) * r) (hl n)).trans (Eq.trans ?_ (congrArg (fun r => (1 / ((n.factorial : ℕ) : ℝ)) * r) (hr n)).symm)
  have := Nat.cast_ne_zero (R := ℝ).2 (Nat.factorial_ne_zero n)
  rw [Nat.factorial_succ]
  push_cast
  field_simp

end CTInt
