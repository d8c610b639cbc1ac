import Verif.Proofs.Minor
import Verif.Proofs.Always
import Mathlib.MeasureTheory.Integral.Prod

/-!
# Integrals over configurations as integrals over configurations in the order of their times
-/

set_option linter.all false

namespace CTInt

open MeasureTheory

variable {K : Type} [RCLike K] {tbl : List (VDef K)}

theorem measurableSet_earlier (u : ℝ) : MeasurableSet {q : Pt | q.2.2 < u} :=
  measurableSet_lt (measurable_snd.comp measurable_snd) measurable_const

theorem pointMeasure_restrict {s u : ℝ} (hu : u ≤ s) : (pointMeasure s tbl).restrict {q : Pt | q.2.2 < u} = pointMeasure u tbl := by
  ext S hS
  rw [Measure.restrict_apply hS]
  unfold pointMeasure
  rw [Measure.finsetSum_apply, Measure.finsetSum_apply]
  refine Finset.sum_congr rfl fun t _ => ?_
  rw [Measure.finsetSum_apply, Measure.finsetSum_apply]
  refine Finset.sum_congr rfl fun f _ => ?_
  have hm : Measurable fun τ : ℝ => ((t, f, τ) : Pt) := measurable_const.prodMk (measurable_const.prodMk measurable_id)
  refine (Measure.map_apply hm (hS.inter (measurableSet_earlier u))).trans ((Eq.trans ?_ (Measure.map_apply hm hS).symm))
  rw [Measure.restrict_apply (hm (hS.inter (measurableSet_earlier u))), Measure.restrict_apply (hm hS)]
  congr 1
  ext τ
  simp only [Set.mem_inter_iff, Set.mem_preimage, Set.mem_setOf_eq, Set.mem_Ico]
  constructor
  · rintro ⟨⟨h1, h2⟩, h3, h4⟩; exact ⟨h1, h3, h2⟩
  · rintro ⟨h1, h3, h2⟩; exact ⟨⟨h1, h2⟩, h3, h2.trans_le hu⟩

theorem tupleMeasure_restrict {s u : ℝ} (hu : u ≤ s) (n : ℕ) :
    (tupleMeasure s tbl n).restrict {x | ∀ j, (x j).2.2 < u} = tupleMeasure u tbl n := by
  have e : {x : Fin n → Pt | ∀ j, (x j).2.2 < u} = Set.univ.pi fun _ => {q : Pt | q.2.2 < u} := by
    ext x; simp [Set.mem_pi]
  rw [e]
  unfold tupleMeasure
  rw [Measure.restrict_pi_pi]
  simp only [pointMeasure_restrict hu]

/-- Point `i` is the last in time. -/
def LastAt (n : ℕ) (i : Fin (n + 1)) : Set (Fin (n + 1) → Pt) := {x | ∀ j : Fin n, (x (i.succAbove j)).2.2 < (x i).2.2}

theorem measurable_timeAt {n : ℕ} (i : Fin n) : Measurable fun x : Fin n → Pt => (x i).2.2 :=
  (measurable_snd.comp measurable_snd).comp (measurable_pi_apply i)

theorem measurableSet_lastAt (n : ℕ) (i : Fin (n + 1)) : MeasurableSet (LastAt n i) := by
  have : LastAt n i = ⋂ j : Fin n, {x | (x (i.succAbove j)).2.2 < (x i).2.2} := by ext x; simp [LastAt]
  rw [this]
  exact MeasurableSet.iInter fun j => measurableSet_lt (measurable_timeAt _) (measurable_timeAt _)

theorem lastAt_sum {n : ℕ} {x : Fin (n + 1) → Pt} (hx : ∀ i j, i ≠ j → (x i).2.2 ≠ (x j).2.2) (g : (Fin (n + 1) → Pt) → ℝ) :
    ∑ i, (LastAt n i).indicator g x = g x := by
  obtain ⟨i, _, hi⟩ := Finset.exists_max_image Finset.univ (fun i => (x i).2.2) Finset.univ_nonempty
  rw [Finset.sum_eq_single i]
  · rw [Set.indicator_of_mem]
    intro j
    exact lt_of_le_of_ne (hi _ (Finset.mem_univ _)) (hx _ _ (Fin.succAbove_ne i j))
  · intro k _ hk
    rw [Set.indicator_of_notMem]
    intro h
    obtain ⟨j, rfl⟩ := Fin.exists_succAbove_eq hk.symm
    exact absurd (hi k (Finset.mem_univ _)) (not_le.2 (h j))
  · intro h; exact absurd (Finset.mem_univ _) h

theorem ordered_step {s : ℝ} {n : ℕ} {F : List Pt → ℝ} (hF : ∀ x y : List Pt, x.Perm y → F x = F y)
    (hi : Integrable (fun x : Fin (n + 1) → Pt => F (List.ofFn x)) (tupleMeasure s tbl (n + 1))) :
    (∫ x : Fin (n + 1) → Pt, F (List.ofFn x) ∂tupleMeasure s tbl (n + 1) =
      (n + 1) * ∫ p : Pt, ∫ x : Fin n → Pt, F (p :: List.ofFn x) ∂tupleMeasure p.2.2 tbl n ∂pointMeasure s tbl) ∧
    ∀ᵐ p : Pt ∂pointMeasure s tbl, Integrable (fun x : Fin n → Pt => F (p :: List.ofFn x)) (tupleMeasure p.2.2 tbl n) := by
  have hins : ∀ (i : Fin (n + 1)) (p : Pt) (x : Fin n → Pt), F (List.ofFn (i.insertNth (α := fun _ => Pt) p x)) = F (p :: List.ofFn x) := fun i p x =>
    hF _ _ ((ofFn_insertNth_perm i p x).trans (List.perm_append_singleton _ _))
  set f : Pt × (Fin n → Pt) → ℝ := fun z => F (z.1 :: List.ofFn z.2) with hf
  set S : Set (Pt × (Fin n → Pt)) := {z | ∀ j, (z.2 j).2.2 < z.1.2.2} with hS
  have hSm : MeasurableSet S := by
    have : S = ⋂ j : Fin n, {z | (z.2 j).2.2 < z.1.2.2} := by ext z; simp [hS]
    rw [this]
    exact MeasurableSet.iInter fun j => measurableSet_lt ((measurable_timeAt j).comp measurable_snd) ((measurable_snd.comp measurable_snd).comp measurable_fst)
  have hmp := fun i : Fin (n + 1) => measurePreserving_piFinSuccAbove (α := fun _ : Fin (n + 1) => Pt) (fun _ => pointMeasure s tbl) i
  have hcomp : ∀ (i : Fin (n + 1)) (x : Fin (n + 1) → Pt), f (MeasurableEquiv.piFinSuccAbove (fun _ : Fin (n + 1) => Pt) i x) = F (List.ofFn x) := by
    intro i x
    rw [hf]
    simp only []
    rw [← hins i]
    congr 2
    exact (MeasurableEquiv.piFinSuccAbove (fun _ : Fin (n + 1) => Pt) i).symm_apply_apply x
  have hfi : Integrable f ((pointMeasure s tbl).prod (tupleMeasure s tbl n)) := by
    rw [← (hmp 0).integrable_comp_emb (MeasurableEquiv.measurableEmbedding _)]
    exact hi.congr (Filter.Eventually.of_forall fun x => (hcomp 0 x).symm)
  have hslice : ∀ᵐ p : Pt ∂pointMeasure s tbl, Integrable (fun x : Fin n → Pt => f (p, x)) (tupleMeasure s tbl n) := hfi.prod_right_ae
  have hvalid := ae_validPt s tbl
  constructor
  · have h1 : ∀ i : Fin (n + 1), ∫ x, (LastAt n i).indicator (fun x => F (List.ofFn x)) x ∂tupleMeasure s tbl (n + 1) =
        ∫ z, S.indicator f z ∂(pointMeasure s tbl).prod (tupleMeasure s tbl n) := by
      intro i
      rw [← (hmp i).integral_comp (MeasurableEquiv.measurableEmbedding _)]
      refine integral_congr_ae (Filter.Eventually.of_forall fun x => ?_)
      show (LastAt n i).indicator (fun x => F (List.ofFn x)) x = S.indicator f (MeasurableEquiv.piFinSuccAbove (fun _ : Fin (n + 1) => Pt) i x)
      by_cases hx : x ∈ LastAt n i
      · rw [Set.indicator_of_mem hx, Set.indicator_of_mem (show _ ∈ S from fun j => hx j), hcomp]
      · rw [Set.indicator_of_notMem hx, Set.indicator_of_notMem (show _ ∉ S from fun h => hx fun j => h j)]
    have h2 : ∫ x, F (List.ofFn x) ∂tupleMeasure s tbl (n + 1) =
        ∑ i : Fin (n + 1), ∫ x, (LastAt n i).indicator (fun x => F (List.ofFn x)) x ∂tupleMeasure s tbl (n + 1) := by
      rw [← integral_finsetSum _ fun i _ => hi.indicator (measurableSet_lastAt n i)]
      refine integral_congr_ae ?_
      filter_upwards [ae_distinct s tbl (n + 1)] with x hx
      exact (lastAt_sum hx fun x => F (List.ofFn x)).symm
    rw [h2, Finset.sum_congr rfl fun i _ => h1 i, Finset.sum_const, Finset.card_univ, Fintype.card_fin, nsmul_eq_mul]
    push_cast
    congr 1
    rw [integral_prod _ (hfi.indicator hSm)]
    refine integral_congr_ae ?_
    filter_upwards [hvalid] with p hp
    have e : ∀ x, S.indicator f (p, x) = {x : Fin n → Pt | ∀ j, (x j).2.2 < p.2.2}.indicator (fun x => F (p :: List.ofFn x)) x := by
      intro x
      by_cases hx : ∀ j, (x j).2.2 < p.2.2
      · rw [Set.indicator_of_mem (show (p, x) ∈ S from hx), Set.indicator_of_mem (show x ∈ {x : Fin n → Pt | ∀ j, (x j).2.2 < p.2.2} from hx)]
      · rw [Set.indicator_of_notMem (show (p, x) ∉ S from hx), Set.indicator_of_notMem (show x ∉ {x : Fin n → Pt | ∀ j, (x j).2.2 < p.2.2} from hx)]
    have hm : MeasurableSet {x : Fin n → Pt | ∀ j, (x j).2.2 < p.2.2} := by
      have : {x : Fin n → Pt | ∀ j, (x j).2.2 < p.2.2} = ⋂ j : Fin n, {x | (x j).2.2 < p.2.2} := by ext x; simp
      rw [this]
      exact MeasurableSet.iInter fun j => measurableSet_lt (measurable_timeAt j) measurable_const
    simp only [e]
    rw [integral_indicator hm, tupleMeasure_restrict hp.2.2.2.le]
  · filter_upwards [hslice, hvalid] with p h1 hp
    rw [← tupleMeasure_restrict (tbl := tbl) hp.2.2.2.le]
    exact h1.restrict

/-- The integral over configurations of `n` points before `s`, in the order of their times, latest first. -/
noncomputable def orderedInt (tbl : List (VDef K)) : ℕ → ℝ → (List Pt → ℝ) → ℝ
  | 0, _, F => F []
  | n + 1, s, F => ∫ p : Pt, orderedInt tbl n p.2.2 (fun x => F (p :: x)) ∂pointMeasure s tbl

theorem integral_ordered {n : ℕ} : ∀ {s : ℝ} {F : List Pt → ℝ} (hF : ∀ x y : List Pt, x.Perm y → F x = F y)
    (hi : Integrable (fun x : Fin n → Pt => F (List.ofFn x)) (tupleMeasure s tbl n)),
    ∫ x : Fin n → Pt, F (List.ofFn x) ∂tupleMeasure s tbl n = n.factorial * orderedInt tbl n s F := by
  induction n with
  | zero =>
    intro s F hF hi
    rw [show tupleMeasure s tbl 0 = Measure.dirac isEmptyElim from Measure.pi_of_empty _ _, integral_dirac]
    simp [orderedInt]
  | succ n ih =>
    intro s F hF hi
    obtain ⟨h1, h2⟩ := ordered_step hF hi
    rw [h1]
    have : ∫ p : Pt, ∫ x : Fin n → Pt, F (p :: List.ofFn x) ∂tupleMeasure p.2.2 tbl n ∂pointMeasure s tbl =
        ∫ p : Pt, n.factorial * orderedInt tbl n p.2.2 (fun x => F (p :: x)) ∂pointMeasure s tbl := by
      refine integral_congr_ae ?_
      filter_upwards [h2] with p hp
      exact ih (F := fun x => F (p :: x)) (fun x y hxy => hF _ _ (hxy.cons p)) hp
    rw [this, integral_const_mul, Nat.factorial_succ]
    simp only [orderedInt]
    push_cast
    ring

end CTInt
