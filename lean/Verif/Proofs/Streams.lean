import Verif.Spec.Streams
import Verif.Proofs.ManagerTotal
import Mathlib.MeasureTheory.Function.Floor

/-!
# Streams of random numbers
-/

set_option linter.all false

namespace CTInt

open MeasureTheory Set

/-- A stream with a number in front. -/
def consS (z : ℝ × (ℕ → ℝ)) (k : ℕ) : ℝ := match k with | 0 => z.1 | k + 1 => z.2 k

theorem consS_measurable : Measurable consS := by
  rw [measurable_pi_iff]
  intro k
  cases k with
  | zero => exact measurable_fst
  | succ k => exact (measurable_pi_apply k).comp measurable_snd

theorem dropS_measurable (p : ℕ) : Measurable (dropS p) := by
  rw [measurable_pi_iff]
  intro k
  exact measurable_pi_apply (p + k)

/-- Streams are a number and a stream. -/
def splitS : (ℕ → ℝ) ≃ᵐ ℝ × (ℕ → ℝ) where
  toFun u := (u 0, dropS 1 u)
  invFun := consS
  left_inv u := by
    funext k
    cases k with
    | zero => rfl
    | succ k => show u (1 + k) = u (k + 1); rw [Nat.add_comm]
  right_inv z := by
    refine Prod.ext rfl ?_
    funext k
    show consS z (1 + k) = z.2 k
    rw [Nat.add_comm]; rfl
  measurable_toFun := (measurable_pi_apply 0).prodMk (dropS_measurable 1)
  measurable_invFun := consS_measurable

/-- The first number is uniform and independent of the others, which are again a stream. -/
theorem streams_cons : (uniform01.prod streams).map consS = streams := by
  refine Measure.eq_infinitePi _ fun s t ht => ?_
  rw [Measure.map_apply consS_measurable (MeasurableSet.pi s.countable_toSet fun i _ => ht i)]
  have e : consS ⁻¹' (Set.pi (s : Set ℕ) t) =
      (if 0 ∈ s then t 0 else univ) ×ˢ Set.pi ((s.preimage Nat.succ (Nat.succ_injective.injOn)) : Set ℕ) (fun i => t (i + 1)) := by
    ext z
    simp only [Set.mem_preimage, Set.mem_pi, Set.mem_prod, Finset.coe_preimage, Finset.mem_coe]
    constructor
    · intro h
      refine ⟨?_, fun i hi => h (i + 1) hi⟩
      split
      · rename_i h0; exact h 0 h0
      · trivial
    · rintro ⟨h0, h1⟩ i hi
      cases i with
      | zero => rw [if_pos hi] at h0; exact h0
      | succ i => exact h1 i hi
  rw [e, Measure.prod_prod]
  unfold streams
  rw [Measure.infinitePi_pi _ (fun i _ => ht (i + 1))]
  have hsucc : ∏ i ∈ s.preimage Nat.succ (Nat.succ_injective.injOn), uniform01 (t (i + 1)) =
      ∏ i ∈ s.filter (· ≠ 0), uniform01 (t i) := by
    refine Finset.prod_bij (fun i _ => i + 1) ?_ ?_ ?_ ?_
    · intro i hi
      rw [Finset.mem_preimage] at hi
      simp only [Finset.mem_filter]
      exact ⟨hi, by omega⟩
    · intro i _ j _ h; simpa using h
    · intro j hj
      rw [Finset.mem_filter] at hj
      obtain ⟨i, rfl⟩ : ∃ i, j = i + 1 := ⟨j - 1, by omega⟩
      exact ⟨i, by rw [Finset.mem_preimage]; exact hj.1, rfl⟩
    · intro i _; rfl
  rw [hsucc]
  by_cases h0 : 0 ∈ s
  · rw [if_pos h0, ← Finset.prod_filter_mul_prod_filter_not s (· ≠ 0), mul_comm]
    congr 1
    have : s.filter (fun x => ¬ x ≠ 0) = {0} := by
      ext x
      simp only [Finset.mem_filter, Finset.mem_singleton, not_not]
      exact ⟨fun h => h.2, fun h => ⟨h ▸ h0, h⟩⟩
    rw [this, Finset.prod_singleton]
  · rw [if_neg h0, measure_univ, one_mul, Finset.filter_true_of_mem]
    intro x hx q
    exact h0 (q ▸ hx)

theorem streams_split : streams.map splitS = uniform01.prod streams := by
  conv_lhs => rw [← streams_cons]
  rw [Measure.map_map splitS.measurable consS_measurable]
  have : (splitS : (ℕ → ℝ) → ℝ × (ℕ → ℝ)) ∘ consS = id := by
    funext z; exact splitS.right_inv z
  rw [this, Measure.map_id]

/-- An event about the first number and an event about the rest. -/
theorem streams_and (A : Set ℝ) (B : Set (ℕ → ℝ)) :
    streams {u | u 0 ∈ A ∧ dropS 1 u ∈ B} = uniform01 A * streams B := by
  have e : {u : ℕ → ℝ | u 0 ∈ A ∧ dropS 1 u ∈ B} = splitS ⁻¹' (A ×ˢ B) := rfl
  rw [e, ← splitS.map_apply, streams_split, Measure.prod_prod]

theorem streams_drop1 (B : Set (ℕ → ℝ)) : streams {u | dropS 1 u ∈ B} = streams B := by
  have := streams_and univ B
  simpa using this

theorem dropS_drop (p q : ℕ) (u : ℕ → ℝ) : dropS p (dropS q u) = dropS (q + p) u := by
  funext k; show u (q + (p + k)) = u (q + p + k); rw [Nat.add_assoc]

theorem dropS_zero (u : ℕ → ℝ) : dropS 0 u = u := by
  funext k; show u (0 + k) = u k; rw [Nat.zero_add]

theorem streams_drop (p : ℕ) (B : Set (ℕ → ℝ)) : streams {u | dropS p u ∈ B} = streams B := by
  induction p with
  | zero => simp only [dropS_zero]; rfl
  | succ p ih =>
    have : {u : ℕ → ℝ | dropS (p + 1) u ∈ B} = {u | dropS 1 u ∈ {u | dropS p u ∈ B}} := by
      ext u
      simp only [Set.mem_setOf_eq, dropS_drop, Nat.add_comm 1 p]
    rw [this, streams_drop1, ih]

theorem ae_drop {Q : (ℕ → ℝ) → Prop} (p : ℕ) (h : ∀ᵐ u ∂streams, Q u) : ∀ᵐ u ∂streams, Q (dropS p u) := by
  rw [ae_iff] at h ⊢
  exact (streams_drop p {u | ¬ Q u}).trans h

theorem uniform01_floor {n k : ℕ} (hk : k < n) : uniform01 {r | ⌊r * n⌋₊ = k} = ENNReal.ofReal (1 / n) := by
  have hn : (0 : ℝ) < n := by exact_mod_cast (by omega : 0 < n)
  have hkn : (k : ℝ) + 1 ≤ n := by exact_mod_cast hk
  have hm : MeasurableSet {r : ℝ | ⌊r * n⌋₊ = k} :=
    (Nat.measurable_floor.comp (measurable_id.mul_const _)) (measurableSet_singleton k)
  unfold uniform01
  rw [Measure.restrict_apply hm]
  have : {r : ℝ | ⌊r * n⌋₊ = k} ∩ Set.Ico 0 1 = Set.Ico ((k : ℝ) / n) ((k + 1) / n) := by
    ext r
    simp only [Set.mem_inter_iff, Set.mem_setOf_eq, Set.mem_Ico]
    rw [div_le_iff₀ hn, lt_div_iff₀ hn]
    constructor
    · rintro ⟨h2, h0, h1⟩
      rwa [Nat.floor_eq_iff (by positivity)] at h2
    · rintro ⟨h1, h2⟩
      have h0 : 0 ≤ r := by
        by_contra hc
        have : r * n < 0 := mul_neg_of_neg_of_pos (not_le.mp hc) hn
        have : (0 : ℝ) ≤ k := by positivity
        linarith
      refine ⟨(Nat.floor_eq_iff (by positivity)).mpr ⟨h1, h2⟩, h0, ?_⟩
      by_contra hc
      have : (n : ℝ) ≤ r * n := by nlinarith
      linarith
  rw [this, Real.volume_Ico]
  congr 1
  field_simp
  ring

theorem uniform01_lt (x : ℝ) (hx : 0 ≤ x) : uniform01 {r | r < x} = ENNReal.ofReal (min 1 x) := by
  unfold uniform01
  rw [show {r : ℝ | r < x} = Set.Iio x from rfl, Measure.restrict_apply measurableSet_Iio]
  have : Set.Iio x ∩ Set.Ico 0 1 = Set.Ico 0 (min 1 x) := by
    ext r; simp only [mem_inter_iff, mem_Iio, mem_Ico, lt_min_iff]; tauto
  rw [this, Real.volume_Ico, sub_zero]

/-- Almost every stream consists of numbers in [0,1). -/
theorem ae_range : ∀ᵐ u ∂streams, ∀ k, 0 ≤ u k ∧ u k < 1 := by
  rw [ae_all_iff]
  intro k
  have h := streams_drop k {u | ¬ (0 ≤ u 0 ∧ u 0 < 1)}
  have h2 := streams_and {r | ¬ (0 ≤ r ∧ r < 1)} univ
  have h3 : uniform01 {r | ¬ (0 ≤ r ∧ r < 1)} = 0 := by
    unfold uniform01
    have hm : MeasurableSet {r : ℝ | ¬ (0 ≤ r ∧ r < 1)} := (measurableSet_Ico (a := (0 : ℝ)) (b := 1)).compl
    rw [Measure.restrict_apply hm]
    have : {r : ℝ | ¬ (0 ≤ r ∧ r < 1)} ∩ Set.Ico 0 1 = ∅ := by
      ext r; simp only [mem_inter_iff, mem_setOf_eq, mem_Ico, mem_empty_iff_false]; tauto
    rw [this, measure_empty]
  rw [h3, zero_mul] at h2
  simp only [mem_univ, and_true, mem_setOf_eq] at h2
  rw [ae_iff]
  rw [← h2, ← h]
  congr 1

/-- A stream avoids a value for ever with probability zero. -/
theorem ae_hits {N x : ℕ} (hx : x < N) : ∀ᵐ u ∂streams, ∃ k, ⌊u k * (N : ℝ)⌋₊ = x := by
  rw [ae_iff]
  have hN : (0 : ℝ) < N := by exact_mod_cast (by omega : 0 < N)
  have hm : MeasurableSet {r : ℝ | ⌊r * N⌋₊ = x} :=
    (Nat.measurable_floor.comp (measurable_id.mul_const _)) (measurableSet_singleton x)
  have e : {u : ℕ → ℝ | ¬ ∃ k, ⌊u k * (N : ℝ)⌋₊ = x} =
      {u | u 0 ∈ {r : ℝ | ⌊r * N⌋₊ = x}ᶜ ∧ dropS 1 u ∈ {u : ℕ → ℝ | ¬ ∃ k, ⌊u k * (N : ℝ)⌋₊ = x}} := by
    ext u
    simp only [mem_setOf_eq, not_exists, mem_compl_iff]
    constructor
    · intro h; exact ⟨h 0, fun k => h (1 + k)⟩
    · rintro ⟨h0, h1⟩ k
      cases k with
      | zero => exact h0
      | succ k => have := h1 k; unfold dropS at this; rwa [Nat.add_comm] at this
  have h := congrArg streams e
  rw [streams_and, measure_compl hm (measure_ne_top _ _), measure_univ, uniform01_floor hx] at h
  by_contra hne
  have hfin : streams {u : ℕ → ℝ | ¬ ∃ k, ⌊u k * (N : ℝ)⌋₊ = x} ≠ ⊤ := measure_ne_top _ _
  have hlt : (1 - ENNReal.ofReal (1 / N)) * streams {u : ℕ → ℝ | ¬ ∃ k, ⌊u k * (N : ℝ)⌋₊ = x} <
      1 * streams {u : ℕ → ℝ | ¬ ∃ k, ⌊u k * (N : ℝ)⌋₊ = x} := by
    refine (ENNReal.mul_lt_mul_iff_left hne hfin).2 ?_
    refine ENNReal.sub_lt_self ENNReal.one_ne_top one_ne_zero ?_
    rw [ne_eq, ENNReal.ofReal_eq_zero, not_le]
    positivity
  rw [one_mul, ← h] at hlt
  exact lt_irrefl _ hlt

/-- Almost every stream is fair. -/
theorem ae_fair : ∀ᵐ u ∂streams, Fair u := by
  unfold Fair
  rw [ae_all_iff]; intro N
  rw [ae_all_iff]; intro x
  rw [ae_all_iff]; intro hx
  rw [ae_all_iff]; intro m
  filter_upwards [ae_drop m (ae_hits hx)] with u hu
  obtain ⟨k, hk⟩ := hu
  exact ⟨m + k, Nat.le_add_right _ _, hk⟩

/-- The streams all statements are about: numbers in [0,1), every index of every range again and again. -/
def GoodS (u : ℕ → ℝ) : Prop := Fair u ∧ ∀ k, 0 ≤ u k ∧ u k < 1

theorem ae_good : ∀ᵐ u ∂streams, GoodS u := by
  filter_upwards [ae_fair, ae_range] with u h1 h2 using ⟨h1, h2⟩

theorem GoodS.drop {u : ℕ → ℝ} (h : GoodS u) (p : ℕ) : GoodS (dropS p u) := by
  refine ⟨fun N x hx m => ?_, fun k => h.2 (p + k)⟩
  obtain ⟨k, hk, e⟩ := h.1 N x hx (p + m)
  refine ⟨k - p, by omega, ?_⟩
  unfold dropS
  rw [show p + (k - p) = k by omega]
  exact e

/-- Splitting by the first index drawn. -/
theorem law_index {n : ℕ} (hn : 0 < n) {E : Set (ℕ → ℝ)} {D : ℕ → Set (ℕ → ℝ)}
    (h : ∀ u, GoodS u → (u ∈ E ↔ dropS 1 u ∈ D ⌊u 0 * (n : ℝ)⌋₊)) :
    streams E = ∑ k ∈ Finset.range n, ENNReal.ofReal (1 / n) * streams (D k) := by
  have hmeas : ∀ k : ℕ, MeasurableSet {u : ℕ → ℝ | ⌊u 0 * (n : ℝ)⌋₊ < k} := fun k =>
    (Nat.measurable_floor.comp ((measurable_pi_apply 0).mul_const _)) (measurableSet_Iio (a := k))
  have hpart : ∀ m, streams (E ∩ {u | ⌊u 0 * (n : ℝ)⌋₊ < m}) =
      ∑ k ∈ Finset.range m, streams (E ∩ {u | ⌊u 0 * (n : ℝ)⌋₊ = k}) := by
    intro m
    induction m with
    | zero => simp
    | succ m ih =>
      rw [Finset.sum_range_succ, ← ih, ← measure_inter_add_diff (E ∩ {u | ⌊u 0 * (n : ℝ)⌋₊ < m + 1}) (hmeas m)]
      congr 2
      · ext u; simp only [mem_inter_iff, mem_setOf_eq]; constructor
        · rintro ⟨⟨a, _⟩, b⟩; exact ⟨a, b⟩
        · rintro ⟨a, b⟩; exact ⟨⟨a, by omega⟩, b⟩
      · ext u; simp only [mem_inter_iff, mem_setOf_eq, mem_diff]; constructor
        · rintro ⟨⟨a, _⟩, b⟩; exact ⟨a, by omega⟩
        · rintro ⟨a, b⟩; exact ⟨⟨a, by omega⟩, by omega⟩
  have h1 : streams E = streams (E ∩ {u | ⌊u 0 * (n : ℝ)⌋₊ < n}) := by
    refine measure_congr ?_
    filter_upwards [ae_good] with u hu
    have hlt : ⌊u 0 * (n : ℝ)⌋₊ < n := by
      have hn' : (0 : ℝ) < n := by exact_mod_cast hn
      rw [Nat.floor_lt (mul_nonneg (hu.2 0).1 hn'.le)]
      nlinarith [(hu.2 0).2]
    show (u ∈ E) = (u ∈ E ∩ _)
    simp only [mem_inter_iff, mem_setOf_eq, hlt, and_true]
  rw [h1, hpart]
  refine Finset.sum_congr rfl fun k hk => ?_
  rw [Finset.mem_range] at hk
  have : streams (E ∩ {u | ⌊u 0 * (n : ℝ)⌋₊ = k}) = streams {u | u 0 ∈ {r : ℝ | ⌊r * n⌋₊ = k} ∧ dropS 1 u ∈ D k} := by
    refine measure_congr ?_
    filter_upwards [ae_good] with u hu
    show (u ∈ E ∩ _) = _
    simp only [mem_inter_iff, mem_setOf_eq, eq_iff_iff]
    rw [h u hu]
    constructor
    · rintro ⟨a, b⟩; rw [b] at a; exact ⟨b, a⟩
    · rintro ⟨b, a⟩; exact ⟨by rw [b]; exact a, b⟩
  rw [this, streams_and, uniform01_floor hk]

/-- Splitting by the outcome of a decision that comes first. -/
theorem law_coin {x : ℝ} (hx : 0 ≤ x) {E D1 D2 : Set (ℕ → ℝ)}
    (h1 : ∀ u, GoodS u → u 0 < x → (u ∈ E ↔ dropS 1 u ∈ D1)) (h2 : ∀ u, GoodS u → ¬ u 0 < x → (u ∈ E ↔ dropS 1 u ∈ D2)) :
    streams E = ENNReal.ofReal (min 1 x) * streams D1 + (1 - ENNReal.ofReal (min 1 x)) * streams D2 := by
  have hm : MeasurableSet {u : ℕ → ℝ | u 0 < x} := (measurable_pi_apply 0) measurableSet_Iio
  rw [← measure_inter_add_diff E hm]
  congr 1
  · have : streams (E ∩ {u | u 0 < x}) = streams {u | u 0 ∈ {r : ℝ | r < x} ∧ dropS 1 u ∈ D1} := by
      refine measure_congr ?_
      filter_upwards [ae_good] with u hu
      show (u ∈ E ∩ _) = _
      simp only [mem_inter_iff, mem_setOf_eq, eq_iff_iff]
      constructor
      · rintro ⟨a, b⟩; exact ⟨b, (h1 u hu b).1 a⟩
      · rintro ⟨b, a⟩; exact ⟨(h1 u hu b).2 a, b⟩
    rw [this, streams_and, uniform01_lt _ hx]
  · have : streams (E \ {u | u 0 < x}) = streams {u | u 0 ∈ {r : ℝ | r < x}ᶜ ∧ dropS 1 u ∈ D2} := by
      refine measure_congr ?_
      filter_upwards [ae_good] with u hu
      show (u ∈ E \ _) = _
      simp only [mem_diff, mem_setOf_eq, mem_compl_iff, eq_iff_iff]
      constructor
      · rintro ⟨a, b⟩; exact ⟨b, (h2 u hu b).1 a⟩
      · rintro ⟨b, a⟩; exact ⟨(h2 u hu b).2 a, b⟩
    rw [this, streams_and, measure_compl (show MeasurableSet {r : ℝ | r < x} from measurableSet_Iio) (measure_ne_top _ _),
      measure_univ, uniform01_lt _ hx]

/-- A loop that draws indices until one is not in `T`: the result is uniform on the other indices. -/
theorem law_until {n : ℕ} {T : Finset ℕ} (hT : ∀ x ∈ T, x < n) (hc : T.card < n) {E : Set (ℕ → ℝ)} {D : ℕ → Set (ℕ → ℝ)}
    (h1 : ∀ u, GoodS u → ⌊u 0 * (n : ℝ)⌋₊ ∉ T → (u ∈ E ↔ dropS 1 u ∈ D ⌊u 0 * (n : ℝ)⌋₊))
    (h2 : ∀ u, GoodS u → ⌊u 0 * (n : ℝ)⌋₊ ∈ T → (u ∈ E ↔ dropS 1 u ∈ E)) :
    streams E = ∑ k ∈ Finset.range n \ T, ENNReal.ofReal (1 / ((n - T.card : ℕ) : ℝ)) * streams (D k) := by
  classical
  have hn : 0 < n := by omega
  have h := law_index hn (E := E) (D := fun k => if k ∈ T then E else D k) (by
    intro u hu
    by_cases hk : ⌊u 0 * (n : ℝ)⌋₊ ∈ T
    · rw [if_pos hk]; exact h2 u hu hk
    · rw [if_neg hk]; exact h1 u hu hk)
  have hsub : T ⊆ Finset.range n := fun x hx => Finset.mem_range.2 (hT x hx)
  rw [← Finset.sum_sdiff hsub] at h
  have e1 : ∑ k ∈ T, ENNReal.ofReal (1 / n) * streams (if k ∈ T then E else D k) =
      T.card * (ENNReal.ofReal (1 / n) * streams E) := by
    rw [Finset.sum_congr rfl (fun k hk => by rw [if_pos hk]), Finset.sum_const, nsmul_eq_mul]
  have e2 : ∑ k ∈ Finset.range n \ T, ENNReal.ofReal (1 / n) * streams (if k ∈ T then E else D k) =
      ENNReal.ofReal (1 / n) * ∑ k ∈ Finset.range n \ T, streams (D k) := by
    rw [Finset.mul_sum]
    exact Finset.sum_congr rfl (fun k hk => by rw [if_neg (Finset.mem_sdiff.1 hk).2])
  rw [e1, e2] at h
  rw [← Finset.mul_sum]
  have hfin : ∑ k ∈ Finset.range n \ T, streams (D k) ≠ ⊤ := by
    rw [ENNReal.sum_ne_top]; intro k _; exact measure_ne_top _ _
  have hE : streams E ≠ ⊤ := measure_ne_top _ _
  obtain ⟨q, hq⟩ : ∃ q, q = (streams E).toReal := ⟨_, rfl⟩
  obtain ⟨d, hd⟩ : ∃ d, d = (∑ k ∈ Finset.range n \ T, streams (D k)).toReal := ⟨_, rfl⟩
  have hnR : (0 : ℝ) < n := by exact_mod_cast hn
  have hr := congrArg ENNReal.toReal h
  rw [ENNReal.toReal_add (ENNReal.mul_ne_top ENNReal.ofReal_ne_top hfin)
    (ENNReal.mul_ne_top (ENNReal.natCast_ne_top _) (ENNReal.mul_ne_top ENNReal.ofReal_ne_top hE)),
    ENNReal.toReal_mul, ENNReal.toReal_mul, ENNReal.toReal_mul, ENNReal.toReal_ofReal (by positivity), ENNReal.toReal_natCast,
    ← hq, ← hd] at hr
  have hc' : (0 : ℝ) < ((n - T.card : ℕ) : ℝ) := by exact_mod_cast (by omega : 0 < n - T.card)
  rw [← ENNReal.toReal_eq_toReal_iff' hE (ENNReal.mul_ne_top ENNReal.ofReal_ne_top hfin), ENNReal.toReal_mul,
    ENNReal.toReal_ofReal (by positivity), ← hq, ← hd]
  rw [Nat.cast_sub hc.le] at hc' ⊢
  field_simp at hr ⊢
  linarith

/-! ## Calls with fuel -/

theorem Returns.bind_iff {α β : Type} {f : ℕ → Run α} {g : ℕ → α → Run β} {x : α} (h : Returns f x) (r : β) :
    Returns (fun n => f n >>= g n) r ↔ Returns (fun n => g n x) r := by
  obtain ⟨F, hF⟩ := h
  constructor
  · rintro ⟨F', h'⟩
    refine ⟨max F F', fun n hn => ?_⟩
    have := h' n (le_trans (le_max_right _ _) hn)
    simp only [hF n (le_trans (le_max_left _ _) hn), Run.bind_ok] at this
    exact this
  · rintro ⟨F', h'⟩
    refine ⟨max F F', fun n hn => ?_⟩
    show (f n >>= g n) = _
    rw [hF n (le_trans (le_max_left _ _) hn)]
    exact h' n (le_trans (le_max_right _ _) hn)

theorem Returns.unique {α : Type} {f : ℕ → Run α} {x y : α} (h : Returns f x) (h' : Returns f y) : x = y := by
  obtain ⟨F, hF⟩ := h
  obtain ⟨F', hF'⟩ := h'
  have a := hF (max F F') (le_max_left _ _)
  rw [hF' (max F F') (le_max_right _ _)] at a
  injection a with a
  exact a.symm

theorem Returns.const {α : Type} {x y : α} : Returns (fun _ => .ok x) y ↔ x = y := by
  constructor
  · rintro ⟨F, h⟩; have := h F le_rfl; injection this
  · rintro rfl; exact ⟨0, fun _ _ => rfl⟩

theorem returns_congr {α : Type} {f g : ℕ → Run α} (h : ∀ n, f n = g n) (r : α) : Returns f r ↔ Returns g r := by
  rw [show f = g from funext h]

/-- A call that may use one more iteration. -/
theorem Returns.succ_iff {α : Type} {f g : ℕ → Run α} (h : ∀ n, f (n + 1) = g n) (r : α) : Returns f r ↔ Returns g r := by
  constructor
  · rintro ⟨F, hF⟩
    exact ⟨F, fun n hn => by rw [← h n]; exact hF (n + 1) (by omega)⟩
  · rintro ⟨F, hF⟩
    refine ⟨F + 1, fun n hn => ?_⟩
    obtain ⟨k, rfl⟩ : ∃ k, n = k + 1 := ⟨n - 1, by omega⟩
    rw [h k]; exact hF k (by omega)

end CTInt
