import Verif.Props.Green
import Verif.Spec.Ensemble
import Mathlib.MeasureTheory.Function.SpecialFunctions.RCLike
import Mathlib.MeasureTheory.Constructions.BorelSpace.Order
import Mathlib.MeasureTheory.Function.Floor

/-!
# The interpolated table is a bounded measurable function of the times
-/

set_option linter.all false

namespace CTInt

open MeasureTheory

variable {K : Type} [RCLike K]

theorem measurable_mycast {f : ℝ → ℂ} (hf : Measurable f) : Measurable fun t => (mycast (f t) : K) := by
  unfold mycast
  have h1 : Measurable fun t => (f t).re := Complex.measurable_re.comp hf
  have h2 : Measurable fun t => (f t).im := Complex.measurable_im.comp hf
  exact (RCLike.measurable_ofReal.comp h1).add ((RCLike.measurable_ofReal.comp h2).mul_const _)

theorem norm_mycast_le (z : ℂ) : ‖(mycast z : K)‖ ≤ 2 * ‖z‖ := by
  unfold mycast
  refine le_trans (norm_add_le _ _) ?_
  rw [norm_mul, RCLike.norm_ofReal, RCLike.norm_ofReal]
  have h1 := Complex.abs_re_le_norm z
  have h2 := Complex.abs_im_le_norm z
  have h3 : ‖(RCLike.I : K)‖ ≤ 1 := by
    rcases RCLike.I_eq_zero_or_im_I_eq_one (K := K) with h | h
    · rw [h, norm_zero]; exact zero_le_one
    · exact le_of_eq (RCLike.norm_I_of_ne_zero (by intro h0; rw [h0] at h; simp at h))
  have h4 := abs_nonneg z.im
  nlinarith [mul_le_mul_of_nonneg_left h3 h4]

namespace Green

/-- The index of the interval. -/
noncomputable def idxAt (g : Green K) (t : ℝ) : ℕ := if ⌊t * g.invDtau⌋₊ = g.ntau - 1 then g.ntau - 2 else ⌊t * g.invDtau⌋₊

/-- The polynomial of an interval. -/
noncomputable def polyAt (g : Green K) (f s1 s2 i : ℕ) (t : ℝ) : ℂ :=
  ((g.co f s1 s2 i 3 * ((t - i * g.dtau : ℝ) : ℂ) + g.co f s1 s2 i 2) * ((t - i * g.dtau : ℝ) : ℂ) + g.co f s1 s2 i 1) *
    ((t - i * g.dtau : ℝ) : ℂ) + g.co f s1 s2 i 0

/-- The interpolated value, 0 outside. -/
noncomputable def valAt (g : Green K) (f s1 s2 : ℕ) (t : ℝ) : K :=
  if 0 ≤ t ∧ t ≤ g.beta ∧ g.idxAt t < g.ntau - 1 then mycast (g.polyAt f s1 s2 (g.idxAt t) t) else 0

/-- The continuation to all times. -/
noncomputable def contAt (g : Green K) (f s1 s2 : ℕ) (t : ℝ) : K :=
  (-1) ^ ⌊t / g.beta⌋ * g.valAt f s1 s2 (t - ⌊t / g.beta⌋ * g.beta)

/-- The function of two operators. -/
noncomputable def g0 (g : Green K) (c cdag : Op) : K :=
  if c.time ≠ cdag.time then g.contAt c.flavor c.site cdag.site (c.time - cdag.time)
  else if cdag.small < c.small then g.valAt c.flavor c.site cdag.site 0 else - g.valAt c.flavor c.site cdag.site g.beta

theorem measurable_idxAt (g : Green K) : Measurable g.idxAt := by
  have h1 : Measurable fun t : ℝ => ⌊t * g.invDtau⌋₊ := Nat.measurable_floor.comp (measurable_id.mul_const _)
  have h2 : Measurable fun n : ℕ => if n = g.ntau - 1 then g.ntau - 2 else n := Measurable.of_discrete
  exact h2.comp h1

theorem measurable_polyAt (g : Green K) (f s1 s2 : ℕ) : Measurable fun t => g.polyAt f s1 s2 (g.idxAt t) t := by
  have hi := g.measurable_idxAt
  have hc : ∀ p, Measurable fun t => g.co f s1 s2 (g.idxAt t) p := fun p =>
    (Measurable.of_discrete (f := fun i : ℕ => g.co f s1 s2 i p)).comp hi
  have hh : Measurable fun t : ℝ => ((t - (g.idxAt t : ℝ) * g.dtau : ℝ) : ℂ) := by
    refine Complex.measurable_ofReal.comp (measurable_id.sub ?_)
    exact ((Measurable.of_discrete (f := fun i : ℕ => (i : ℝ))).comp hi).mul_const _
  unfold polyAt
  exact ((((((hc 3).mul hh).add (hc 2)).mul hh).add (hc 1)).mul hh).add (hc 0)

theorem measurable_valAt (g : Green K) (f s1 s2 : ℕ) : Measurable (g.valAt f s1 s2) := by
  unfold valAt
  refine Measurable.ite ?_ (measurable_mycast (g.measurable_polyAt f s1 s2)) measurable_const
  have h1 : MeasurableSet {t : ℝ | 0 ≤ t} := measurableSet_Ici
  have h2 : MeasurableSet {t : ℝ | t ≤ g.beta} := measurableSet_Iic
  have h3 : MeasurableSet {t : ℝ | g.idxAt t < g.ntau - 1} := g.measurable_idxAt (measurableSet_Iio (a := g.ntau - 1))
  exact h1.inter (h2.inter h3)

theorem measurable_contAt (g : Green K) (f s1 s2 : ℕ) : Measurable (g.contAt f s1 s2) := by
  have hfl : Measurable fun t : ℝ => ⌊t / g.beta⌋ := Int.measurable_floor.comp (measurable_id.div_const _)
  have h1 : Measurable fun t : ℝ => ((-1 : K)) ^ ⌊t / g.beta⌋ :=
    (Measurable.of_discrete (f := fun z : ℤ => (-1 : K) ^ z)).comp hfl
  have h2 : Measurable fun t : ℝ => t - (⌊t / g.beta⌋ : ℝ) * g.beta :=
    measurable_id.sub (((Measurable.of_discrete (f := fun z : ℤ => (z : ℝ))).comp hfl).mul_const _)
  exact h1.mul ((g.measurable_valAt f s1 s2).comp h2)

theorem measurable_g0 (g : Green K) : MeasurableG0 g.g0 := by
  intro f s a f' s' a'
  unfold g0
  simp only []
  refine Measurable.ite ?_ ((g.measurable_contAt f s s').comp (measurable_fst.sub measurable_snd)) ?_
  · exact (measurableSet_eq_fun measurable_fst measurable_snd).compl
  · by_cases h : a' < a
    · simp only [h, if_true]; exact measurable_const
    · simp only [h, if_false]; exact measurable_const

/-- A bound on the values of one entry. -/
noncomputable def bnd (g : Green K) (f s1 s2 : ℕ) : ℝ :=
  2 * ∑ i ∈ Finset.range (g.ntau - 1), (((‖g.co f s1 s2 i 3‖ * (|g.beta| + i * |g.dtau|) + ‖g.co f s1 s2 i 2‖) *
    (|g.beta| + i * |g.dtau|) + ‖g.co f s1 s2 i 1‖) * (|g.beta| + i * |g.dtau|) + ‖g.co f s1 s2 i 0‖)

theorem bnd_nonneg (g : Green K) (f s1 s2 : ℕ) : 0 ≤ g.bnd f s1 s2 := by unfold bnd; positivity

theorem valAt_le (g : Green K) (f s1 s2 : ℕ) (t : ℝ) : ‖g.valAt f s1 s2 t‖ ≤ g.bnd f s1 s2 := by
  unfold valAt
  split
  · rename_i h
    obtain ⟨h0, h1, h2⟩ := h
    refine le_trans (norm_mycast_le _) ?_
    unfold bnd
    refine mul_le_mul_of_nonneg_left ?_ (by norm_num)
    generalize g.idxAt t = i at h2 ⊢
    refine le_trans ?_ (Finset.single_le_sum (f := fun i : ℕ => (((‖g.co f s1 s2 i 3‖ * (|g.beta| + i * |g.dtau|) + ‖g.co f s1 s2 i 2‖) *
      (|g.beta| + i * |g.dtau|) + ‖g.co f s1 s2 i 1‖) * (|g.beta| + i * |g.dtau|) + ‖g.co f s1 s2 i 0‖))
      (fun i _ => by positivity) (Finset.mem_range.2 h2))
    have hh : ‖((t - i * g.dtau : ℝ) : ℂ)‖ ≤ |g.beta| + i * |g.dtau| := by
      rw [Complex.norm_real]
      refine le_trans (norm_sub_le _ _) (add_le_add ?_ ?_)
      · rw [Real.norm_eq_abs, abs_of_nonneg h0]; exact le_trans h1 (le_abs_self _)
      · rw [norm_mul]; simp
    unfold polyAt
    generalize ((t - i * g.dtau : ℝ) : ℂ) = h at hh
    have e1 : ‖g.co f s1 s2 i 3 * h + g.co f s1 s2 i 2‖ ≤ ‖g.co f s1 s2 i 3‖ * (|g.beta| + i * |g.dtau|) + ‖g.co f s1 s2 i 2‖ := by
      refine le_trans (norm_add_le _ _) (by rw [norm_mul]; gcongr)
    have e2 : ‖(g.co f s1 s2 i 3 * h + g.co f s1 s2 i 2) * h + g.co f s1 s2 i 1‖ ≤
        (‖g.co f s1 s2 i 3‖ * (|g.beta| + i * |g.dtau|) + ‖g.co f s1 s2 i 2‖) * (|g.beta| + i * |g.dtau|) + ‖g.co f s1 s2 i 1‖ := by
      refine le_trans (norm_add_le _ _) (by rw [norm_mul]; gcongr)
    refine le_trans (norm_add_le _ _) (by rw [norm_mul]; gcongr)
  · rw [norm_zero]; exact g.bnd_nonneg f s1 s2

theorem g0_le (g : Green K) (c cdag : Op) : ‖g.g0 c cdag‖ ≤ g.bnd c.flavor c.site cdag.site := by
  unfold g0
  split
  · unfold contAt
    rw [norm_mul, norm_zpow, norm_neg, norm_one, one_zpow, one_mul]
    exact g.valAt_le _ _ _ _
  · split
    · exact g.valAt_le _ _ _ _
    · rw [norm_neg]; exact g.valAt_le _ _ _ _

theorem interpolate_valAt (g : Green K) (hT : 2 ≤ g.ntau) (hβ : 0 < g.beta)
    (hd : g.dtau = g.beta / ((g.ntau : ℝ) - 1)) (hi : g.invDtau = 1 / g.dtau) {f s1 s2 : ℕ} (hf : f < g.nf)
    (h1 : s1 < g.ns) (h2 : s2 < g.ns) (t : ℝ) (h0 : 0 ≤ t) (hb : t ≤ g.beta) :
    g.interpolate f s1 s2 t = .ok (g.valAt f s1 s2 t) := by
  have hs := Green.idx_spec hβ hT h0 hb
  simp only [← hd, ← hi] at hs
  have hlt : g.idxAt t < g.ntau - 1 := by unfold idxAt; exact hs.1
  unfold interpolate valAt
  rw [if_pos ⟨h0, hb, hlt⟩, Res.assert_true ⟨h0, hb⟩]
  simp only [Res.bind_ok]
  have : (if ⌊t * g.invDtau⌋₊ = g.ntau - 1 then g.ntau - 2 else ⌊t * g.invDtau⌋₊) = g.idxAt t := rfl
  rw [this, Res.assert_true hlt]
  simp only [Res.bind_ok]
  rw [Res.assert_true ⟨hf, h1, h2⟩]
  rfl

theorem contAt_antiperiodic (g : Green K) (hβ : 0 < g.beta) (f s1 s2 : ℕ) :
    IsAntiperiodic g.beta (g.valAt f s1 s2) (g.contAt f s1 s2) := by
  refine ⟨?_, ?_⟩
  · intro t h0 h1
    have : ⌊t / g.beta⌋ = 0 := by
      rw [Int.floor_eq_zero_iff]
      exact ⟨div_nonneg h0 hβ.le, (div_lt_one hβ).2 h1⟩
    simp [contAt, this]
  · intro t
    have e : (t + g.beta) / g.beta = t / g.beta + 1 := by rw [add_div, div_self hβ.ne']
    have h1 : (-1 : K) ≠ 0 := by norm_num
    unfold contAt
    simp only [e, Int.floor_add_one]
    rw [zpow_add_one₀ h1, show t + g.beta - ((⌊t / g.beta⌋ + 1 : ℤ) : ℝ) * g.beta = t - ⌊t / g.beta⌋ * g.beta by push_cast; ring]
    ring

open Classical in
/-- The function of two operators, 0 for sites and flavors without table. -/
noncomputable def g0in (g : Green K) (c cdag : Op) : K :=
  if c.flavor < g.nf ∧ c.site < g.ns ∧ cdag.site < g.ns then g.g0 c cdag else 0

theorem measurable_g0in (g : Green K) : MeasurableG0 g.g0in := by
  intro f s a f' s' a'
  unfold g0in
  simp only []
  by_cases h : f < g.nf ∧ s < g.ns ∧ s' < g.ns
  · simp only [if_pos h]; exact g.measurable_g0 f s a f' s' a'
  · simp only [if_neg h]; exact measurable_const

theorem g0in_le (g : Green K) (c cdag : Op) : ‖g.g0in c cdag‖ ≤
    ∑ f ∈ Finset.range g.nf, ∑ s1 ∈ Finset.range g.ns, ∑ s2 ∈ Finset.range g.ns, g.bnd f s1 s2 := by
  have h0 := g.bnd_nonneg
  unfold g0in
  split
  · rename_i h
    refine le_trans (g.g0_le c cdag) ?_
    refine le_trans ?_ (Finset.single_le_sum (f := fun f => ∑ s1 ∈ Finset.range g.ns, ∑ s2 ∈ Finset.range g.ns, g.bnd f s1 s2)
      (fun i _ => Finset.sum_nonneg fun _ _ => Finset.sum_nonneg fun _ _ => h0 _ _ _) (Finset.mem_range.2 h.1))
    refine le_trans ?_ (Finset.single_le_sum (f := fun s1 => ∑ s2 ∈ Finset.range g.ns, g.bnd c.flavor s1 s2)
      (fun i _ => Finset.sum_nonneg fun _ _ => h0 _ _ _) (Finset.mem_range.2 h.2.1))
    exact Finset.single_le_sum (f := fun s2 => g.bnd c.flavor c.site s2) (fun i _ => h0 _ _ _) (Finset.mem_range.2 h.2.2)
  · rw [norm_zero]
    exact Finset.sum_nonneg fun _ _ => Finset.sum_nonneg fun _ _ => Finset.sum_nonneg fun _ _ => h0 _ _ _

end Green
end CTInt
