import Verif.Proofs.SimInsRem
import Verif.Props.PairDist

/-!
# The law of rejection sampling
-/

set_option linter.all false

namespace CTInt

open MeasureTheory Set

/-! ## Two numbers and the rest of a stream -/

/-- Streams are two numbers and a stream. -/
def splitS2 : (ℕ → ℝ) ≃ᵐ (ℝ × ℝ) × (ℕ → ℝ) :=
  (splitS.trans ((MeasurableEquiv.refl ℝ).prodCongr splitS)).trans MeasurableEquiv.prodAssoc.symm

theorem splitS2_apply (u : ℕ → ℝ) : splitS2 u = ((u 0, u 1), dropS 2 u) := by
  have : splitS2 u = ((u 0, dropS 1 u 0), dropS 1 (dropS 1 u)) := rfl
  rw [this, dropS_drop]
  rfl

theorem streams_split2 : streams.map splitS2 = (uniform01.prod uniform01).prod streams := by
  have h1 : MeasurePreserving splitS streams (uniform01.prod streams) := ⟨splitS.measurable, streams_split⟩
  have h2 : MeasurePreserving (Prod.map id splitS) (uniform01.prod streams) (uniform01.prod (uniform01.prod streams)) :=
    (MeasurePreserving.id uniform01).prod h1
  have h3 : MeasurePreserving (MeasurableEquiv.prodAssoc : (ℝ × ℝ) × (ℕ → ℝ) ≃ᵐ ℝ × ℝ × (ℕ → ℝ))
      ((uniform01.prod uniform01).prod streams) (uniform01.prod (uniform01.prod streams)) := measurePreserving_prodAssoc _ _ _
  have h4 := h3.symm.comp (h2.comp h1)
  exact h4.map_eq

theorem streams_and2 (A : Set (ℝ × ℝ)) (B : Set (ℕ → ℝ)) :
    streams {u | (u 0, u 1) ∈ A ∧ dropS 2 u ∈ B} = (uniform01.prod uniform01) A * streams B := by
  have e : {u : ℕ → ℝ | (u 0, u 1) ∈ A ∧ dropS 2 u ∈ B} = splitS2 ⁻¹' (A ×ˢ B) := by
    ext u
    rw [mem_preimage, splitS2_apply]
    rfl
  rw [e, ← splitS2.map_apply, streams_split2, Measure.prod_prod]

theorem streams_event2 {S : Set ((ℝ × ℝ) × (ℕ → ℝ))} (hS : MeasurableSet S) :
    streams {u | ((u 0, u 1), dropS 2 u) ∈ S} = ∫⁻ a, ∫⁻ b, streams {w | ((a, b), w) ∈ S} ∂uniform01 ∂uniform01 := by
  have e : {u : ℕ → ℝ | ((u 0, u 1), dropS 2 u) ∈ S} = splitS2 ⁻¹' S := by
    ext u
    rw [mem_preimage, splitS2_apply]
    rfl
  rw [e, ← splitS2.map_apply, streams_split2, Measure.prod_apply hS, lintegral_prod]
  · rfl
  · exact (measurable_measure_prodMk_left hS).aemeasurable

theorem streams_event1 {S : Set (ℝ × (ℕ → ℝ))} (hS : MeasurableSet S) :
    streams {u | (u 0, dropS 1 u) ∈ S} = ∫⁻ a, streams {w | (a, w) ∈ S} ∂uniform01 := by
  have e : {u : ℕ → ℝ | (u 0, dropS 1 u) ∈ S} = splitS ⁻¹' S := rfl
  rw [e, ← splitS.map_apply, streams_split, Measure.prod_apply hS]
  rfl

/-! ## The loop -/

/-- The test of one round. -/
def rejAcc (P : ℝ → ℝ) (Pmax beta : ℝ) (a b : ℝ) : Prop := b < 1 / Pmax * P (beta * a)

/-- Round `k` is the first one that passes. -/
def rejHit (P : ℝ → ℝ) (Pmax beta : ℝ) (k : ℕ) (u : ℕ → ℝ) : Prop :=
  (∀ j < k, ¬ rejAcc P Pmax beta (u (2 * j)) (u (2 * j + 1))) ∧ rejAcc P Pmax beta (u (2 * k)) (u (2 * k + 1))

theorem rejHit_succ (P : ℝ → ℝ) (Pmax beta : ℝ) (k : ℕ) (u : ℕ → ℝ) :
    rejHit P Pmax beta (k + 1) u ↔ ¬ rejAcc P Pmax beta (u 0) (u 1) ∧ rejHit P Pmax beta k (dropS 2 u) := by
  have e : ∀ j, dropS 2 u (2 * j) = u (2 * (j + 1)) ∧ dropS 2 u (2 * j + 1) = u (2 * (j + 1) + 1) := by
    intro j
    constructor
    · show u (2 + 2 * j) = _; congr 1; omega
    · show u (2 + (2 * j + 1)) = _; congr 1; omega
  unfold rejHit
  rw [(e k).1, (e k).2]
  constructor
  · rintro ⟨h1, h2⟩
    refine ⟨h1 0 (by omega), fun j hj => ?_, h2⟩
    rw [(e j).1, (e j).2]
    exact h1 (j + 1) (by omega)
  · rintro ⟨h0, h1, h2⟩
    refine ⟨fun j hj => ?_, h2⟩
    rcases j with _ | j
    · exact h0
    · have := h1 j (by omega)
      rw [(e j).1, (e j).2] at this
      exact this

theorem rejHit_unique {P : ℝ → ℝ} {Pmax beta : ℝ} {k k' : ℕ} {u : ℕ → ℝ} (h : rejHit P Pmax beta k u)
    (h' : rejHit P Pmax beta k' u) : k = k' := by
  rcases lt_trichotomy k k' with q | q | q
  · exact absurd h.2 (h'.1 k q)
  · exact q
  · exact absurd h'.2 (h.1 k' q)

theorem rejection_shift (P : ℝ → ℝ) (Pmax beta : ℝ) (u : ℕ → ℝ) (fuel q p : ℕ) :
    rejection P Pmax beta u fuel (q + p) = (rejection P Pmax beta (dropS q u) fuel p).shift q := by
  induction fuel generalizing p with
  | zero => rfl
  | succ f ih =>
    unfold rejection
    have e : dropS q u p = u (q + p) := rfl
    have e' : dropS q u (p + 1) = u (q + p + 1) := rfl
    simp only [e, e']
    by_cases h : P (beta * u (q + p)) ≤ Pmax
    · rw [Run.assert_true h]
      simp only [Run.bind_ok]
      split
      · rfl
      · exact ih (p + 2)
    · unfold Run.assert
      rw [if_neg h]; rfl

theorem rejection_returns {P : ℝ → ℝ} {Pmax beta : ℝ} {u : ℕ → ℝ} (hP : ∀ k, P (beta * u k) ≤ Pmax) (p : ℕ) (x : ℝ) (p' : ℕ) :
    Returns (fun fuel => rejection P Pmax beta u fuel p) (x, p') ↔
      ∃ k, rejHit P Pmax beta k (dropS p u) ∧ x = beta * u (p + 2 * k) ∧ p' = p + 2 * k + 2 := by
  have one : ∀ (fuel p : ℕ), rejection P Pmax beta u (fuel + 1) p =
      if u (p + 1) < 1 / Pmax * P (beta * u p) then .ok (beta * u p, p + 2) else rejection P Pmax beta u fuel (p + 2) := by
    intro fuel p
    conv_lhs => unfold rejection
    simp only []
    rw [Run.assert_true (hP p)]
    rfl
  have fwd : ∀ (k p : ℕ), rejHit P Pmax beta k (dropS p u) → ∀ fuel ≥ k + 1,
      rejection P Pmax beta u fuel p = .ok (beta * u (p + 2 * k), p + 2 * k + 2) := by
    intro k
    induction k with
    | zero =>
      intro p h fuel hf
      obtain ⟨f, rfl⟩ : ∃ f, fuel = f + 1 := ⟨fuel - 1, by omega⟩
      rw [one]
      exact if_pos h.2
    | succ k ih =>
      intro p h fuel hf
      obtain ⟨f, rfl⟩ : ∃ f, fuel = f + 1 := ⟨fuel - 1, by omega⟩
      rw [rejHit_succ, dropS_drop] at h
      rw [one]
      refine (if_neg h.1).trans ?_
      rw [ih (p + 2) h.2 f (by omega), show p + 2 + 2 * k = p + 2 * (k + 1) by ring]
  constructor
  · rintro ⟨F, hF⟩
    have key : ∀ (f p : ℕ), rejection P Pmax beta u f p = .ok (x, p') → ∃ k, rejHit P Pmax beta k (dropS p u) := by
      intro f
      induction f with
      | zero => intro p h; cases h
      | succ f ih =>
        intro p h
        rw [one] at h
        by_cases q : rejAcc P Pmax beta (u p) (u (p + 1))
        · exact ⟨0, fun j hj => by omega, q⟩
        · obtain ⟨k, hk⟩ := ih (p + 2) ((if_neg q).symm.trans h)
          exact ⟨k + 1, (rejHit_succ _ _ _ _ _).2 ⟨q, by rw [dropS_drop]; exact hk⟩⟩
    obtain ⟨k, hk⟩ := key F p (hF F le_rfl)
    have a := fwd k p hk (max F (k + 1)) (le_max_right _ _)
    have b := hF (max F (k + 1)) (le_max_left _ _)
    simp only at b
    rw [a] at b
    injection b with b
    injection b with b1 b2
    exact ⟨k, hk, b1.symm, b2.symm⟩
  · rintro ⟨k, hk, rfl, rfl⟩
    exact ⟨k + 1, fwd k p hk⟩

/-! ## The law -/

section law
variable {P : ℝ → ℝ} {Pmax beta : ℝ}

theorem measurableSet_rejAcc (hP : Measurable P) : MeasurableSet {z : ℝ × ℝ | rejAcc P Pmax beta z.1 z.2} :=
  measurableSet_lt measurable_snd ((hP.comp (measurable_fst.const_mul beta)).const_mul _)

theorem measurableSet_rejHit (hP : Measurable P) (k : ℕ) : MeasurableSet {u : ℕ → ℝ | rejHit P Pmax beta k u} := by
  have h : ∀ j, MeasurableSet {u : ℕ → ℝ | rejAcc P Pmax beta (u (2 * j)) (u (2 * j + 1))} := by
    intro j
    have h : Measurable fun u : ℕ → ℝ => (u (2 * j), u (2 * j + 1)) :=
      (measurable_pi_apply (2 * j)).prodMk (measurable_pi_apply (2 * j + 1))
    exact h (measurableSet_rejAcc (beta := beta) (Pmax := Pmax) hP)
  have e : {u : ℕ → ℝ | rejHit P Pmax beta k u} =
      (⋂ j, ⋂ (_ : j < k), {u : ℕ → ℝ | rejAcc P Pmax beta (u (2 * j)) (u (2 * j + 1))}ᶜ) ∩
        {u : ℕ → ℝ | rejAcc P Pmax beta (u (2 * k)) (u (2 * k + 1))} := by
    ext u
    simp only [rejHit, mem_setOf_eq, mem_inter_iff, mem_iInter, mem_compl_iff]
  rw [e]
  exact (MeasurableSet.iInter fun j => MeasurableSet.iInter fun _ => (h j).compl).inter (h k)

/-- The first round that passes is `k`, and what it delivers, with the rest of the stream, is in `C`. -/
def rejEv (P : ℝ → ℝ) (Pmax beta : ℝ) (C : Set (ℝ × (ℕ → ℝ))) (k : ℕ) : Set (ℕ → ℝ) :=
  {u | rejHit P Pmax beta k u ∧ (beta * u (2 * k), dropS (2 * k + 2) u) ∈ C}

theorem measurableSet_rejEv (hP : Measurable P) {C : Set (ℝ × (ℕ → ℝ))} (hC : MeasurableSet C) (k : ℕ) :
    MeasurableSet (rejEv P Pmax beta C k) := by
  have h : Measurable fun u : ℕ → ℝ => (beta * u (2 * k), dropS (2 * k + 2) u) :=
    ((measurable_pi_apply (2 * k)).const_mul beta).prodMk (dropS_measurable (2 * k + 2))
  exact (measurableSet_rejHit hP k).inter (h hC)

theorem rejEv_zero (hP : Measurable P) (hb : 0 < beta) (hmax : 0 < Pmax) (h0 : ∀ x ∈ Ico 0 beta, 0 ≤ P x ∧ P x ≤ Pmax)
    {C : Set (ℝ × (ℕ → ℝ))} (hC : MeasurableSet C) :
    streams (rejEv P Pmax beta C 0) =
      ENNReal.ofReal (1 / beta) * (ENNReal.ofReal (1 / Pmax) * ∫⁻ x in Ico 0 beta, ENNReal.ofReal (P x) * streams {w | (x, w) ∈ C}) := by
  have e : rejEv P Pmax beta C 0 =
      {u | ((u 0, u 1), dropS 2 u) ∈ {z : (ℝ × ℝ) × (ℕ → ℝ) | rejAcc P Pmax beta z.1.1 z.1.2 ∧ (beta * z.1.1, z.2) ∈ C}} := by
    ext u
    simp only [rejEv, rejHit, mem_setOf_eq, Nat.not_lt_zero, false_implies, implies_true, true_and, mul_zero, zero_add]
  have hS : MeasurableSet {z : (ℝ × ℝ) × (ℕ → ℝ) | rejAcc P Pmax beta z.1.1 z.1.2 ∧ (beta * z.1.1, z.2) ∈ C} :=
    (measurable_fst (measurableSet_rejAcc hP)).inter
      ((((measurable_fst.comp measurable_fst).const_mul beta).prodMk measurable_snd) hC)
  rw [e, streams_event2 hS]
  have hst : Measurable fun x : ℝ => streams {w | (x, w) ∈ C} := measurable_measure_prodMk_left hC
  have hin : ∀ a : ℝ, ∫⁻ b, streams {w | ((a, b), w) ∈ {z : (ℝ × ℝ) × (ℕ → ℝ) | rejAcc P Pmax beta z.1.1 z.1.2 ∧ (beta * z.1.1, z.2) ∈ C}} ∂uniform01 =
      uniform01 {b | b < 1 / Pmax * P (beta * a)} * streams {w | (beta * a, w) ∈ C} := by
    intro a
    have : ∀ b : ℝ, streams {w | ((a, b), w) ∈ {z : (ℝ × ℝ) × (ℕ → ℝ) | rejAcc P Pmax beta z.1.1 z.1.2 ∧ (beta * z.1.1, z.2) ∈ C}} =
        ({b : ℝ | b < 1 / Pmax * P (beta * a)}).indicator (fun _ => streams {w | (beta * a, w) ∈ C}) b := by
      intro b
      by_cases q : b < 1 / Pmax * P (beta * a)
      · rw [indicator_of_mem (show b ∈ {b : ℝ | b < 1 / Pmax * P (beta * a)} from q)]
        congr 1
        ext w
        exact ⟨fun h => h.2, fun h => ⟨q, h⟩⟩
      · rw [indicator_of_notMem (show b ∉ {b : ℝ | b < 1 / Pmax * P (beta * a)} from q)]
        rw [show {w | ((a, b), w) ∈ {z : (ℝ × ℝ) × (ℕ → ℝ) | rejAcc P Pmax beta z.1.1 z.1.2 ∧ (beta * z.1.1, z.2) ∈ C}} = ∅ from ?_]
        · exact measure_empty
        · ext w
          simp only [mem_setOf_eq, mem_empty_iff_false, iff_false]
          exact fun h => q h.1
    simp only [this]
    have hm : MeasurableSet {b : ℝ | b < 1 / Pmax * P (beta * a)} := measurableSet_Iio
    rw [lintegral_indicator hm, lintegral_const, Measure.restrict_apply_univ, mul_comm]
  simp only [hin]
  have hae : ∀ᵐ a ∂uniform01, uniform01 {b | b < 1 / Pmax * P (beta * a)} * streams {w | (beta * a, w) ∈ C} =
      (fun x => ENNReal.ofReal (1 / Pmax) * (ENNReal.ofReal (P x) * streams {w | (x, w) ∈ C})) (a * beta) := by
    unfold uniform01
    rw [ae_restrict_iff' measurableSet_Ico]
    refine Filter.Eventually.of_forall fun a ha => ?_
    have hx : a * beta ∈ Ico 0 beta := ⟨mul_nonneg ha.1 hb.le, by nlinarith [ha.2]⟩
    obtain ⟨h1, h2⟩ := h0 _ hx
    have h3 := uniform01_lt (1 / Pmax * P (a * beta)) (by positivity)
    unfold uniform01 at h3
    rw [mul_comm beta a, h3, min_eq_right, ENNReal.ofReal_mul (by positivity), mul_assoc]
    rw [one_div, ← div_eq_inv_mul, div_le_one hmax]
    exact h2
  have hm : Measurable fun x => ENNReal.ofReal (P x) * streams {w | (x, w) ∈ C} := hP.ennreal_ofReal.mul hst
  rw [lintegral_congr_ae hae, lintegral_time hb (g := fun x => ENNReal.ofReal (1 / Pmax) * (ENNReal.ofReal (P x) * streams {w | (x, w) ∈ C}))
    (hm.const_mul _), lintegral_const_mul _ hm]

theorem rejEv_succ (C : Set (ℝ × (ℕ → ℝ))) (k : ℕ) :
    streams (rejEv P Pmax beta C (k + 1)) =
      (uniform01.prod uniform01) {z | rejAcc P Pmax beta z.1 z.2}ᶜ * streams (rejEv P Pmax beta C k) := by
  rw [← streams_and2]
  congr 1
  ext u
  simp only [rejEv, mem_setOf_eq, mem_compl_iff, rejHit_succ, dropS_drop, and_assoc]
  rw [show dropS 2 u (2 * k) = u (2 * (k + 1)) from congrArg u (by omega), show 2 + (2 * k + 2) = 2 * (k + 1) + 2 by omega]

theorem rejEv_measure (hP : Measurable P) (hb : 0 < beta) (hmax : 0 < Pmax) (h0 : ∀ x ∈ Ico 0 beta, 0 ≤ P x ∧ P x ≤ Pmax)
    (hpos : 0 < ∫⁻ x in Ico 0 beta, ENNReal.ofReal (P x)) {C : Set (ℝ × (ℕ → ℝ))} (hC : MeasurableSet C) :
    streams (⋃ k, rejEv P Pmax beta C k) =
      (∫⁻ x in Ico 0 beta, ENNReal.ofReal (P x) * streams {w | (x, w) ∈ C}) / ∫⁻ x in Ico 0 beta, ENNReal.ofReal (P x) := by
  obtain ⟨q, hq⟩ : ∃ q, q = (uniform01.prod uniform01) {z | rejAcc P Pmax beta z.1 z.2} := ⟨_, rfl⟩
  have hqle : q ≤ 1 := by rw [hq]; exact prob_le_one
  have hacc : streams (rejEv P Pmax beta univ 0) = q := by
    have := streams_and2 {z | rejAcc P Pmax beta z.1 z.2} univ
    rw [measure_univ, mul_one] at this
    rw [hq, ← this]
    congr 1
    ext u
    simp only [rejEv, rejHit, mem_setOf_eq, Nat.not_lt_zero, false_implies, implies_true, true_and, mul_zero, zero_add, mem_univ, and_true]
  have hqv := rejEv_zero hP hb hmax h0 (C := univ) MeasurableSet.univ
  rw [hacc] at hqv
  simp only [mem_univ, setOf_true, measure_univ, mul_one] at hqv
  have hk : ∀ k, streams (rejEv P Pmax beta C k) = (1 - q) ^ k * streams (rejEv P Pmax beta C 0) := by
    intro k
    induction k with
    | zero => rw [pow_zero, one_mul]
    | succ k ih =>
      rw [rejEv_succ, ih, measure_compl (measurableSet_rejAcc hP) (measure_ne_top _ _), measure_univ, ← hq, ← mul_assoc, pow_succ, mul_comm (1 - q)]
  rw [measure_iUnion (fun i j hij => ?_) (measurableSet_rejEv hP hC)]
  · rw [tsum_congr hk, ENNReal.tsum_mul_right, ENNReal.tsum_geometric, ENNReal.sub_sub_cancel ENNReal.one_ne_top hqle, hqv, rejEv_zero hP hb hmax h0 hC]
    obtain ⟨c, hc⟩ : ∃ c, c = ENNReal.ofReal (1 / beta) * ENNReal.ofReal (1 / Pmax) := ⟨_, rfl⟩
    have c0 : c ≠ 0 := by
      rw [hc, ← ENNReal.ofReal_mul (by positivity), ne_eq, ENNReal.ofReal_eq_zero, not_le]
      positivity
    have ct : c ≠ ⊤ := by rw [hc]; exact ENNReal.mul_ne_top ENNReal.ofReal_ne_top ENNReal.ofReal_ne_top
    have as : ∀ I, ENNReal.ofReal (1 / beta) * (ENNReal.ofReal (1 / Pmax) * I) = c * I := fun I => by rw [hc, mul_assoc]
    rw [as, as, mul_comm, ← div_eq_mul_inv, ENNReal.mul_div_mul_left _ _ c0 ct]
  · rw [Function.onFun, Set.disjoint_left]
    intro u hi hj
    exact hij (rejHit_unique hi.1 hj.1)

end law
end CTInt
