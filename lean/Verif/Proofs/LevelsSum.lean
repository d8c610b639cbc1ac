import Verif.Proofs.Levels
import Verif.Proofs.Always
import Verif.Spec.Average
import Mathlib.MeasureTheory.Integral.Pi
import Mathlib.Analysis.SpecialFunctions.Exponential

/-!
# The sum over all configurations for levels coupled by densities
-/

set_option linter.all false

namespace CTInt

open MeasureTheory

variable {β : ℝ} {nf ns : ℕ} {e : ℕ → ℕ → ℝ}

/-- A function of type and state only. -/
theorem integral_point_const (hβ : 0 ≤ β) (tbl : List (VDef ℝ)) (g : ℕ → ℕ → ℝ) :
    Integrable (fun p : Pt => g p.1 p.2.1) (pointMeasure β tbl) ∧
    ∫ p : Pt, g p.1 p.2.1 ∂pointMeasure β tbl = β * ∑ t ∈ Finset.range tbl.length, ∑ f ∈ Finset.range (numStates tbl t), g t f := by
  have hm : Measurable fun p : Pt => g p.1 p.2.1 :=
    (Measurable.of_discrete (f := fun z : ℕ × ℕ => g z.1 z.2)).comp (measurable_fst.prodMk (measurable_fst.comp measurable_snd))
  have h1 : ∀ t f, Integrable (fun p : Pt => g p.1 p.2.1) ((volume.restrict (Set.Ico 0 β)).map fun τ => ((t, f, τ) : Pt)) := by
    intro t f
    rw [integrable_map_measure hm.aestronglyMeasurable (measurable_point t f).aemeasurable]
    exact (integrable_const (μ := volume.restrict (Set.Ico 0 β)) (g t f) : Integrable (fun _ : ℝ => g t f) (volume.restrict (Set.Ico 0 β)))
  unfold pointMeasure
  have h2 : ∀ t, Integrable (fun p : Pt => g p.1 p.2.1) (∑ f ∈ Finset.range (numStates tbl t),
      (volume.restrict (Set.Ico 0 β)).map fun τ => ((t, f, τ) : Pt)) := fun t => integrable_finsetSum_measure.2 fun f _ => h1 t f
  refine ⟨integrable_finsetSum_measure.2 fun t _ => h2 t, ?_⟩
  rw [integral_finsetSum_measure fun t _ => h2 t, Finset.mul_sum]
  refine Finset.sum_congr rfl fun t _ => ?_
  rw [integral_finsetSum_measure fun f _ => h1 t f, Finset.mul_sum]
  refine Finset.sum_congr rfl fun f _ => ?_
  rw [integral_map (measurable_point t f).aemeasurable hm.aestronglyMeasurable]
  show ∫ τ in Set.Ico 0 β, g t f = _
  rw [setIntegral_const]
  simp [Measure.real, hβ]

/-- The sum over types and states of the terms is the interaction energy. -/
theorem terms_sum (tbl : List (VDef ℝ)) (S : Finset (ℕ × ℕ)) :
    ∑ t ∈ Finset.range tbl.length, ∑ f ∈ Finset.range (numStates tbl t), ((numStates tbl t : ℕ) : ℝ)⁻¹ * - fieldTerm S (tbl.getD t default) f =
      - interaction tbl S := by
  have h1 : ∀ t, ∑ f ∈ Finset.range (numStates tbl t), ((numStates tbl t : ℕ) : ℝ)⁻¹ * - fieldTerm S (tbl.getD t default) f =
      - ((∑ a ∈ Finset.range (tbl.getD t default).numAf, fieldTerm S (tbl.getD t default) a) / (tbl.getD t default).numAf) := by
    intro t
    rw [← Finset.mul_sum, Finset.sum_neg_distrib]
    show ((tbl.getD t default).numAf : ℝ)⁻¹ * -(∑ a ∈ Finset.range (tbl.getD t default).numAf, fieldTerm S (tbl.getD t default) a) = _
    rw [div_eq_inv_mul]
    ring
  rw [Finset.sum_congr rfl fun t _ => h1 t, Finset.sum_neg_distrib]
  congr 1
  unfold interaction
  rw [← Fin.sum_univ_fun_getElem tbl fun d => (∑ a ∈ Finset.range d.numAf, fieldTerm S d a) / d.numAf, Finset.sum_range]
  refine Finset.sum_congr rfl fun t _ => ?_
  rw [List.getD_eq_getElem?_getD, List.getElem?_eq_getElem t.2]
  rfl

/-- The sum of the weights, with a factor that depends on the number of vertices and one that depends on the state. -/
theorem levels_sum_factor {c : Ctx ℝ} (hβ : 0 ≤ β) (X : Finset (ℕ × ℕ) → ℝ) (h : ℕ → ℝ) {F : List Pt → ℝ}
    (hF : ∀ x : List Pt, ValidPts β c.tbl x → x.Pairwise (fun p p' => p.2.2 ≠ p'.2.2) →
      F x = (∑ S ∈ states c.nf ns, X S * (x.map fun p => - fieldTerm S (c.tbl.getD p.1 default) p.2.1).prod * Real.exp (-β * levelEnergy e S)) /
        statesZ β c.nf ns (levelEnergy e) * h x.length) (M : ℕ) :
    configSum c β M F =
      (∑ S ∈ states c.nf ns, X S * (∑ n ∈ Finset.range (M + 1), h n * ((-β * interaction c.tbl S) ^ n / n.factorial)) *
        Real.exp (-β * levelEnergy e S)) / statesZ β c.nf ns (levelEnergy e) := by
  set Z := statesZ β c.nf ns (levelEnergy e) with hZ
  have key : ∀ n, ∫ x : Fin n → Pt, ((List.ofFn x).map fun p => ((numStates c.tbl p.1 : ℕ) : ℝ)⁻¹).prod *
      F (List.ofFn x) ∂Measure.pi (fun _ => pointMeasure β c.tbl) =
      ∑ S ∈ states c.nf ns, X S * h n * (-β * interaction c.tbl S) ^ n * Real.exp (-β * levelEnergy e S) / Z := by
    intro n
    set g : Finset (ℕ × ℕ) → Pt → ℝ := fun S p => ((numStates c.tbl p.1 : ℕ) : ℝ)⁻¹ * - fieldTerm S (c.tbl.getD p.1 default) p.2.1 with hg
    have hae : (fun x : Fin n → Pt => ((List.ofFn x).map fun p => ((numStates c.tbl p.1 : ℕ) : ℝ)⁻¹).prod *
        F (List.ofFn x)) =ᵐ[Measure.pi fun _ => pointMeasure β c.tbl]
        fun x => ∑ S ∈ states c.nf ns, (X S * h n * Real.exp (-β * levelEnergy e S) / Z) * ∏ i, g S (x i) := by
      filter_upwards [ae_validPts β c.tbl n, ae_distinct β c.tbl n] with x hx hd
      have hpw : (List.ofFn x).Pairwise fun p p' => p.2.2 ≠ p'.2.2 := by
        rw [List.pairwise_ofFn]
        intro i j hij
        exact hd i j hij.ne
      rw [hF _ hx hpw, List.length_ofFn, div_mul_eq_mul_div, mul_div_assoc', Finset.sum_mul, Finset.mul_sum, Finset.sum_div]
      refine Finset.sum_congr rfl fun S _ => ?_
      have : ∏ i, g S (x i) = ((List.ofFn x).map fun p => ((numStates c.tbl p.1 : ℕ) : ℝ)⁻¹).prod *
          ((List.ofFn x).map fun p => - fieldTerm S (c.tbl.getD p.1 default) p.2.1).prod := by
        rw [← List.prod_map_mul, List.map_ofFn, List.prod_ofFn]
        rfl
      rw [this]
      ring
    rw [integral_congr_ae hae]
    have hI : ∀ S, Integrable (g S) (pointMeasure β c.tbl) ∧ ∫ p, g S p ∂pointMeasure β c.tbl = -β * interaction c.tbl S := by
      intro S
      obtain ⟨h1, h2⟩ := integral_point_const hβ c.tbl fun t f => ((numStates c.tbl t : ℕ) : ℝ)⁻¹ * - fieldTerm S (c.tbl.getD t default) f
      refine ⟨h1, h2.trans ?_⟩
      rw [terms_sum]
      ring
    rw [integral_finset_sum]
    · refine Finset.sum_congr rfl fun S _ => ?_
      rw [integral_const_mul, integral_fintype_prod_eq_pow, (hI S).2, Fintype.card_fin]
      ring
    · intro S _
      exact (Integrable.fintype_prod (f := fun _ : Fin n => g S) fun _ => (hI S).1).const_mul _
  unfold configSum
  rw [Finset.sum_congr rfl fun n _ => by rw [key n]]
  simp only [Finset.mul_sum]
  rw [Finset.sum_comm, Finset.sum_div]
  refine Finset.sum_congr rfl fun S _ => ?_
  rw [Finset.sum_mul, Finset.sum_div]
  refine Finset.sum_congr rfl fun n _ => ?_
  ring

/-- The sum of the weights, with a factor that depends on the number of vertices. -/
theorem levels_sum {c : Ctx ℝ} (hβ : 0 ≤ β) (hT : ∀ d ∈ c.tbl, DensityTerm c.nf ns d) (hG : LevelsG0 β c.nf ns e c.G0) (h : ℕ → ℝ) (M : ℕ) :
    (configSum c β M fun x => weight c.NI c.nf c.G0 c.tbl (x.map vertAt) * h x.length) =
      (∑ S ∈ states c.nf ns, (∑ n ∈ Finset.range (M + 1), h n * ((-β * interaction c.tbl S) ^ n / n.factorial)) *
        Real.exp (-β * levelEnergy e S)) / statesZ β c.nf ns (levelEnergy e) := by
  rw [levels_sum_factor (e := e) (ns := ns) hβ (fun _ => 1) h (fun x hx hd => by rw [levels_weight hT hG hx hd]; simp only [one_mul])]
  simp only [one_mul]

end CTInt
