import Verif.Proofs.OrderedSum
import Mathlib.Analysis.Normed.Ring.InfiniteSum

/-!
# Time-ordered integrals with operators at given times
-/

set_option linter.all false

namespace CTInt

open NormedSpace Filter MeasureTheory

variable {A : Type} [NormedRing A] [NormedAlgebra ℝ A] [CompleteSpace A]

/-- The terms of the series that starts at time `τ` with the terms `c`. -/
noncomputable def dysonFrom (W : ℝ → A) (τ : ℝ) (c : ℕ → A) : ℕ → ℝ → A
  | 0 => fun _ => c 0
  | n + 1 => fun s => c (n + 1) + ∫ t in τ..s, W t * dysonFrom W τ c n t

/-- The terms of the series with the operators `Os` at their times, latest first. -/
noncomputable def marked (W : ℝ → A) : List (ℝ × A) → ℕ → ℝ → A
  | [] => dyson W
  | o :: Os => dysonFrom W o.1 fun n => o.2 * marked W Os n o.1

theorem dysonFrom_continuous {W : ℝ → A} (hW : Continuous W) (τ : ℝ) (c : ℕ → A) (n : ℕ) : Continuous (dysonFrom W τ c n) := by
  induction n with
  | zero => exact continuous_const
  | succ n ih =>
    exact continuous_const.add (intervalIntegral.continuous_primitive (fun a b => (hW.mul ih).intervalIntegrable a b) τ)

theorem marked_continuous {W : ℝ → A} (hW : Continuous W) (Os : List (ℝ × A)) (n : ℕ) : Continuous (marked W Os n) := by
  cases Os with
  | nil => exact dyson_continuous hW n
  | cons o Os => exact dysonFrom_continuous hW _ _ n

theorem marked_zero (W : ℝ → A) (Os : List (ℝ × A)) (s : ℝ) : marked W Os 0 s = (Os.map Prod.snd).prod := by
  induction Os generalizing s with
  | nil => rfl
  | cons o Os ih =>
    rw [List.map_cons, List.prod_cons, ← ih o.1]
    rfl

/-- The starting terms 1, 0, 0, ... -/
def oneAt : ℕ → A := fun n => if n = 0 then 1 else 0

theorem dysonFrom_mul {W : ℝ → A} (hW : Continuous W) (τ : ℝ) (c : ℕ → A) (n : ℕ) (s : ℝ) :
    dysonFrom W τ c n s = ∑ z ∈ Finset.antidiagonal n, dysonFrom W τ oneAt z.1 s * c z.2 := by
  induction n generalizing s with
  | zero => simp [dysonFrom, oneAt]
  | succ n ih =>
    rw [Finset.Nat.sum_antidiagonal_succ]
    show c (n + 1) + ∫ t in τ..s, W t * dysonFrom W τ c n t = (if 0 = 0 then (1 : A) else 0) * c (n + 1) + ∑ z ∈ Finset.antidiagonal n, ((if z.1 + 1 = 0 then (1 : A) else 0) + ∫ t in τ..s, W t * dysonFrom W τ oneAt z.1 t) * c z.2
    simp only [Nat.succ_ne_zero, if_false, if_true, one_mul, zero_add]
    congr 1
    simp only [ih]
    have hc : ∀ k, Continuous fun t => W t * dysonFrom W τ oneAt k t := fun k => hW.mul (dysonFrom_continuous hW _ _ k)
    simp only [Finset.mul_sum, ← mul_assoc]
    rw [intervalIntegral.integral_finset_sum fun z _ => ((hc z.1).mul continuous_const).intervalIntegrable _ _]
    refine Finset.sum_congr rfl fun z _ => ?_
    exact ((ContinuousLinearMap.mul ℝ A).flip (c z.2)).intervalIntegral_comp_comm ((hc z.1).intervalIntegrable _ _)

theorem dysonFrom_shift (W : ℝ → A) (τ : ℝ) (n : ℕ) (s : ℝ) : dysonFrom W τ oneAt n s = dyson (fun t => W (t + τ)) n (s - τ) := by
  induction n generalizing s with
  | zero => simp [dysonFrom, dyson, oneAt]
  | succ n ih =>
    show (if n + 1 = 0 then (1 : A) else 0) + ∫ t in τ..s, W t * dysonFrom W τ oneAt n t = ∫ t in (0 : ℝ)..(s - τ), W (t + τ) * dyson (fun t => W (t + τ)) n t
    rw [if_neg (by omega), zero_add]
    have := intervalIntegral.integral_comp_add_right (a := 0) (b := s - τ) (fun t => W t * dysonFrom W τ oneAt n t) τ
    rw [zero_add, sub_add_cancel] at this
    rw [← this]
    refine intervalIntegral.integral_congr fun t _ => ?_
    simp only [ih, add_sub_cancel_right]

theorem dyson_norm {W : ℝ → A} (hW : Continuous W) {β B : ℝ} (hB : ∀ t ∈ Set.Icc 0 β, ‖W t‖ ≤ B) (n : ℕ) :
    ∀ s ∈ Set.Icc 0 β, ‖dyson W n s‖ ≤ ‖(1 : A)‖ * (B ^ n * s ^ n / n.factorial) := by
  intro s hs
  have hB0 : 0 ≤ B := (norm_nonneg _).trans (hB s hs)
  induction n generalizing s with
  | zero => simp [dyson]
  | succ n ih =>
    have h1 := intervalIntegral.norm_integral_le_of_norm_le (a := 0) (b := s) (μ := volume)
      (f := fun t => W t * dyson W n t)
      (g := fun t => B * ‖(1 : A)‖ * B ^ n / n.factorial * t ^ n) hs.1
      (Eventually.of_forall fun t ht => by
        have ht' : t ∈ Set.Icc 0 β := ⟨ht.1.le, ht.2.trans hs.2⟩
        refine (norm_mul_le _ _).trans ((mul_le_mul (hB t ht') (ih t ht') (norm_nonneg _) hB0).trans (le_of_eq ?_))
        ring) ((continuous_const.mul (continuous_pow _)).intervalIntegrable _ _)
    refine h1.trans (le_of_eq ?_)
    rw [intervalIntegral.integral_const_mul, integral_pow]
    have hf : ((n + 1).factorial : ℝ) = (n + 1) * n.factorial := by rw [Nat.factorial_succ]; push_cast; ring
    have : (n.factorial : ℝ) ≠ 0 := by positivity
    have : (n : ℝ) + 1 ≠ 0 := by positivity
    rw [hf]
    field_simp
    simp
    ring

theorem dyson_summable {W : ℝ → A} (hW : Continuous W) {β B : ℝ} (hB : ∀ t ∈ Set.Icc 0 β, ‖W t‖ ≤ B) {s : ℝ} (hs : s ∈ Set.Icc 0 β) :
    Summable (fun n => ‖dyson W n s‖) ∧ ∑' n, ‖dyson W n s‖ ≤ ‖(1 : A)‖ * Real.exp (B * β) := by
  have hB0 : 0 ≤ B := (norm_nonneg _).trans (hB s hs)
  have h1 : HasSum (fun n : ℕ => ‖(1 : A)‖ * ((B * β) ^ n / n.factorial)) (‖(1 : A)‖ * Real.exp (B * β)) := by
    have := (NormedSpace.expSeries_div_hasSum_exp (𝔸 := ℝ) (B * β)).mul_left ‖(1 : A)‖
    rwa [← Real.exp_eq_exp_ℝ] at this
  have h2 : ∀ n, ‖dyson W n s‖ ≤ ‖(1 : A)‖ * ((B * β) ^ n / n.factorial) := fun n => by
    refine (dyson_norm hW hB n s hs).trans (mul_le_mul_of_nonneg_left ?_ (norm_nonneg _))
    rw [← mul_pow]
    have : B * s ≤ B * β := mul_le_mul_of_nonneg_left hs.2 hB0
    have h3 : 0 ≤ B * s := mul_nonneg hB0 hs.1
    gcongr
  have h4 : Summable fun n => ‖dyson W n s‖ := Summable.of_nonneg_of_le (fun _ => norm_nonneg _) h2 h1.summable
  exact ⟨h4, (h4.tsum_le_tsum h2 h1.summable).trans h1.tsum_eq.le⟩

theorem dysonFrom_summable {W : ℝ → A} (hW : Continuous W) {β B : ℝ} (hB : ∀ t ∈ Set.Icc 0 β, ‖W t‖ ≤ B) {τ s : ℝ} (hτ : 0 ≤ τ) (hs : τ ≤ s)
    (hsβ : s ≤ β) : Summable (fun n => ‖dysonFrom W τ oneAt n s‖) ∧ ∑' n, ‖dysonFrom W τ oneAt n s‖ ≤ ‖(1 : A)‖ * Real.exp (B * β) := by
  simp only [dysonFrom_shift]
  have hB0 : 0 ≤ B := (norm_nonneg _).trans (hB s ⟨hτ.trans hs, hsβ⟩)
  have := dyson_summable (W := fun t => W (t + τ)) (hW.comp (continuous_id.add continuous_const)) (β := s - τ) (B := B)
    (fun t ht => hB _ ⟨add_nonneg ht.1 hτ, by linarith [ht.2]⟩) (s := s - τ) ⟨by linarith, le_rfl⟩
  refine ⟨this.1, this.2.trans (mul_le_mul_of_nonneg_left (Real.exp_le_exp.2 ?_) (norm_nonneg _))⟩
  exact mul_le_mul_of_nonneg_left (by linarith) hB0

/-- The value of the series with operators at given times: evolution between them. -/
noncomputable def chain (U : ℝ → ℝ → A) : List (ℝ × A) → ℝ → A
  | [], s => U s 0
  | o :: Os, s => U s o.1 * (o.2 * chain U Os o.1)

/-- The times are in order, latest first, not after `s`. -/
def TimesBelow : List (ℝ × A) → ℝ → Prop
  | [], s => 0 ≤ s
  | o :: Os, s => o.1 ≤ s ∧ TimesBelow Os o.1

theorem TimesBelow.nonneg {Os : List (ℝ × A)} {s : ℝ} (h : TimesBelow Os s) : 0 ≤ s := by
  induction Os generalizing s with
  | nil => exact h
  | cons o Os ih => exact (ih h.2).trans h.1

theorem marked_sum {W : ℝ → A} (hW : Continuous W) {β B : ℝ} (hB : ∀ t ∈ Set.Icc 0 β, ‖W t‖ ≤ B) {U : ℝ → ℝ → A}
    (hU : ∀ τ s, 0 ≤ τ → τ ≤ s → s ≤ β → Tendsto (fun M => ∑ n ∈ Finset.range (M + 1), dysonFrom W τ oneAt n s) atTop (nhds (U s τ)))
    (Os : List (ℝ × A)) : ∀ {s : ℝ}, TimesBelow Os s → s ≤ β → Summable (fun n => ‖marked W Os n s‖) ∧
      HasSum (fun n => marked W Os n s) (chain U Os s) ∧
      ∑' n, ‖marked W Os n s‖ ≤ (‖(1 : A)‖ * Real.exp (B * β)) ^ (Os.length + 1) * (Os.map fun o => ‖o.2‖).prod := by
  have hsumU : ∀ τ s, 0 ≤ τ → τ ≤ s → s ≤ β → HasSum (fun n => dysonFrom W τ oneAt n s) (U s τ) := by
    intro τ s h1 h2 h3
    have h4 := (dysonFrom_summable hW hB h1 h2 h3).1.of_norm
    have h5 := (tendsto_add_atTop_iff_nat 1).2 h4.hasSum.tendsto_sum_nat
    rw [tendsto_nhds_unique (hU τ s h1 h2 h3) h5]
    exact h4.hasSum
  have hd0 : ∀ n s, dyson W n s = dysonFrom W 0 oneAt n s := fun n s => by
    rw [dysonFrom_shift]; simp
  induction Os with
  | nil =>
    intro s hs hsβ
    have hs : 0 ≤ s := hs
    show Summable (fun n => ‖dyson W n s‖) ∧ HasSum (fun n => dyson W n s) (U s 0) ∧ ∑' n, ‖dyson W n s‖ ≤ (‖(1 : A)‖ * Real.exp (B * β)) ^ 1 * 1
    rw [pow_one, mul_one]
    refine ⟨(dyson_summable hW hB ⟨hs, hsβ⟩).1, ?_, (dyson_summable hW hB ⟨hs, hsβ⟩).2⟩
    simp only [hd0]
    exact hsumU 0 s le_rfl hs hsβ
  | cons o Os ih =>
    intro s hs hsβ
    obtain ⟨h1, h2, h3⟩ := ih hs.2 (hs.1.trans hsβ)
    have hτ := hs.2.nonneg
    obtain ⟨k1, k2⟩ := dysonFrom_summable hW hB hτ hs.1 hsβ
    have hm : ∀ n, ‖o.2 * marked W Os n o.1‖ ≤ ‖o.2‖ * ‖marked W Os n o.1‖ := fun n => norm_mul_le _ _
    have c1 : Summable fun n => ‖o.2 * marked W Os n o.1‖ := Summable.of_nonneg_of_le (fun _ => norm_nonneg _) hm (h1.mul_left _)
    have c2 : ∑' n, ‖o.2 * marked W Os n o.1‖ ≤ ‖o.2‖ * ∑' n, ‖marked W Os n o.1‖ := by
      rw [← tsum_mul_left]
      exact c1.tsum_le_tsum hm (h1.mul_left _)
    have e : ∀ n, marked W (o :: Os) n s = ∑ z ∈ Finset.antidiagonal n, dysonFrom W o.1 oneAt z.1 s * (o.2 * marked W Os z.2 o.1) :=
      fun n => dysonFrom_mul hW _ _ n s
    have d1 := summable_norm_sum_mul_antidiagonal_of_summable_norm k1 c1
    have d2 := tsum_mul_tsum_eq_tsum_sum_antidiagonal_of_summable_norm k1 c1
    simp only [e]
    refine ⟨d1, ?_, ?_⟩
    · have h5 : ∑' n, dysonFrom W o.1 oneAt n s = U s o.1 := (hsumU _ _ hτ hs.1 hsβ).tsum_eq
      have h6 : ∑' n, o.2 * marked W Os n o.1 = o.2 * chain U Os o.1 := (h2.mul_left _).tsum_eq
      rw [h5, h6] at d2
      have := d1.of_norm.hasSum
      rw [← d2] at this
      exact this
    · have n1 : Summable fun n => ∑ z ∈ Finset.antidiagonal n, ‖dysonFrom W o.1 oneAt z.1 s‖ * ‖o.2 * marked W Os z.2 o.1‖ := by
        have := summable_norm_sum_mul_antidiagonal_of_summable_norm (f := fun n => ‖dysonFrom W o.1 oneAt n s‖) (g := fun n => ‖o.2 * marked W Os n o.1‖)
          (by simpa using k1) (by simpa using c1)
        refine this.congr fun n => ?_
        rw [Real.norm_of_nonneg]
        exact Finset.sum_nonneg fun z _ => mul_nonneg (norm_nonneg _) (norm_nonneg _)
      have n2 := tsum_mul_tsum_eq_tsum_sum_antidiagonal_of_summable_norm (f := fun n => ‖dysonFrom W o.1 oneAt n s‖) (g := fun n => ‖o.2 * marked W Os n o.1‖)
          (by simpa using k1) (by simpa using c1)
      have n3 := d1.tsum_le_tsum (fun n => (norm_sum_le _ _).trans (Finset.sum_le_sum fun z _ => norm_mul_le _ _)) n1
      refine n3.trans ?_
      rw [← n2, List.length_cons, List.map_cons, List.prod_cons]
      have p0 : 0 ≤ ‖(1 : A)‖ * Real.exp (B * β) := mul_nonneg (norm_nonneg _) (Real.exp_pos _).le
      calc _ ≤ (‖(1 : A)‖ * Real.exp (B * β)) * (‖o.2‖ * ((‖(1 : A)‖ * Real.exp (B * β)) ^ (Os.length + 1) * (Os.map fun o => ‖o.2‖).prod)) := by
            refine mul_le_mul k2 (c2.trans (mul_le_mul_of_nonneg_left h3 (norm_nonneg _))) (tsum_nonneg fun _ => norm_nonneg _) p0
        _ = _ := by ring

/-! ### Integrals over configurations -/

variable {K : Type} [RCLike K] {tbl : List (VDef K)}

/-- A vertex with its time. -/
def timed (v : Pt → A) (p : Pt) : ℝ × A := (p.2.2, v p)

theorem restrict_later {E : Type} [NormedAddCommGroup E] [NormedSpace ℝ E] [CompleteSpace E] {s τ : ℝ} (hτ : τ ≤ s) {g : Pt → E}
    (hg : Integrable g (pointMeasure s tbl)) :
    ∫ p, g p ∂pointMeasure s tbl = ∫ p, g p ∂pointMeasure τ tbl + ∫ p in {q : Pt | q.2.2 < τ}ᶜ, g p ∂pointMeasure s tbl := by
  rw [← pointMeasure_restrict hτ]
  exact (integral_add_compl (measurableSet_earlier τ) hg).symm

theorem ae_not_time (s τ : ℝ) (tbl : List (VDef K)) : ∀ᵐ p : Pt ∂pointMeasure s tbl, p.2.2 ≠ τ := by
  rw [MeasureTheory.ae_iff]
  have hS : MeasurableSet {p : Pt | ¬ p.2.2 ≠ τ} := by
    have : {p : Pt | ¬ p.2.2 ≠ τ} = {p : Pt | p.2.2 = τ} := by ext p; simp
    rw [this]
    exact measurableSet_eq_fun (measurable_snd.comp measurable_snd) measurable_const
  unfold pointMeasure
  rw [Measure.finsetSum_apply]
  refine Finset.sum_eq_zero fun t _ => ?_
  rw [Measure.finsetSum_apply]
  refine Finset.sum_eq_zero fun f _ => ?_
  have hm : Measurable fun τ : ℝ => ((t, f, τ) : Pt) := measurable_const.prodMk (measurable_const.prodMk measurable_id)
  refine (Measure.map_apply hm hS).trans ?_
  rw [Measure.restrict_apply (hm hS)]
  refine measure_mono_null (t := {τ}) ?_ Real.volume_singleton
  rintro u ⟨hu, -⟩
  simpa using hu

/-- What is needed of a quantity with operators `Os` at given times; `Y` stands left of everything. -/
structure MarkHyp (tbl : List (VDef K)) (v : Pt → A) (ω : A →L[ℝ] ℝ) (Os : List (ℝ × A)) (s : ℝ) (F : List Pt → ℝ) (Y : A) : Prop where
  time : 0 ≤ s
  before : ∀ o ∈ Os, 0 ≤ o.1 ∧ o.1 < s
  order : Os.Pairwise fun o o' => o'.1 < o.1
  value : ∀ x : List Pt, ValidPts s tbl x → ∀ w : List (ℝ × A), w.Perm (x.map (timed v) ++ Os) → w.Pairwise (fun o o' => o'.1 < o.1) →
    F x = ω (Y * (w.map Prod.snd).prod)

theorem MarkHyp.first {v : Pt → A} {ω : A →L[ℝ] ℝ} {Os : List (ℝ × A)} {s : ℝ} {F : List Pt → ℝ} {Y : A} (h : MarkHyp tbl v ω Os s F Y) {p : Pt}
    (hp : p.1 < tbl.length ∧ p.2.1 < numStates tbl p.1 ∧ p.2.2 ∈ Set.Ico 0 s) (hop : ∀ o ∈ Os, o.1 < p.2.2) :
    MarkHyp tbl v ω Os p.2.2 (fun x => F (p :: x)) (Y * v p) := by
  refine ⟨hp.2.2.1, fun o ho => ⟨(h.before o ho).1, hop o ho⟩, h.order, ?_⟩
  intro x hx w hw hd
  rw [h.value (p :: x) ?_ (timed v p :: w) ?_ ?_]
  · rw [List.map_cons, List.prod_cons, mul_assoc]
    rfl
  · intro q hq
    rcases List.mem_cons.1 hq with rfl | hq
    · exact hp
    · have := hx q hq
      exact ⟨this.1, this.2.1, this.2.2.1, this.2.2.2.trans hp.2.2.2⟩
  · rw [List.map_cons, List.cons_append]
    exact hw.cons _
  · rw [List.pairwise_cons]
    refine ⟨fun o ho => ?_, hd⟩
    rcases List.mem_append.1 (hw.mem_iff.1 ho) with h | h
    · obtain ⟨q, hq, rfl⟩ := List.mem_map.1 h
      exact (hx q hq).2.2.2
    · exact hop o h

theorem MarkHyp.tail {v : Pt → A} {ω : A →L[ℝ] ℝ} {o : ℝ × A} {Os : List (ℝ × A)} {s : ℝ} {F : List Pt → ℝ} {Y : A} (h : MarkHyp tbl v ω (o :: Os) s F Y) :
    MarkHyp tbl v ω Os o.1 F (Y * o.2) := by
  have ho := h.before o List.mem_cons_self
  have hord := List.pairwise_cons.1 h.order
  refine ⟨ho.1, fun o' h' => ⟨(h.before o' (List.mem_cons_of_mem _ h')).1, hord.1 o' h'⟩, hord.2, ?_⟩
  intro x hx w hw hd
  rw [h.value x (fun q hq => ⟨(hx q hq).1, (hx q hq).2.1, (hx q hq).2.2.1, (hx q hq).2.2.2.trans ho.2⟩) (o :: w) ?_ ?_]
  · rw [List.map_cons, List.prod_cons, mul_assoc]
  · exact (hw.cons o).trans List.perm_middle.symm
  · rw [List.pairwise_cons]
    refine ⟨fun o' h' => ?_, hd⟩
    rcases List.mem_append.1 (hw.mem_iff.1 h') with h | h
    · obtain ⟨q, hq, rfl⟩ := List.mem_map.1 h
      exact (hx q hq).2.2.2
    · exact hord.1 o' h

theorem MarkHyp.zero {v : Pt → A} {ω : A →L[ℝ] ℝ} {Os : List (ℝ × A)} {s : ℝ} {F : List Pt → ℝ} {Y : A} (h : MarkHyp tbl v ω Os s F Y) :
    orderedInt tbl 0 s F = ω (Y * marked (vertexSum tbl v) Os 0 s) := by
  rw [marked_zero]
  exact h.value [] (fun q hq => by simp at hq) Os (List.Perm.refl _) h.order

section

variable {v : Pt → A} {ω : A →L[ℝ] ℝ} (hv : ∀ t f, Continuous fun τ => v (t, f, τ))
include hv

theorem nil_step {m : ℕ} (hm : ∀ {s : ℝ} {F : List Pt → ℝ} {Y : A}, MarkHyp tbl v ω [] s F Y → orderedInt tbl m s F = ω (Y * marked (vertexSum tbl v) [] m s))
    {s : ℝ} {F : List Pt → ℝ} {Y : A} (h : MarkHyp tbl v ω [] s F Y) :
    orderedInt tbl (m + 1) s F = ω (Y * marked (vertexSum tbl v) [] (m + 1) s) ∧
      Integrable (fun p : Pt => orderedInt tbl m p.2.2 fun x => F (p :: x)) (pointMeasure s tbl) := by
  have hW := vertexSum_continuous (tbl := tbl) hv
  obtain ⟨h1, h2⟩ := integral_point_mul (tbl := tbl) hv (dyson_continuous hW m) h.time
  have e : ∀ᵐ p : Pt ∂pointMeasure s tbl, (ω.comp (ContinuousLinearMap.mul ℝ A Y)) (v p * dyson (vertexSum tbl v) m p.2.2) =
      orderedInt tbl m p.2.2 fun x => F (p :: x) := by
    filter_upwards [ae_validPt s tbl] with p hp
    rw [hm (h.first hp (fun o ho => by simp at ho)), mul_assoc]
    rfl
  refine ⟨?_, ((ω.comp (ContinuousLinearMap.mul ℝ A Y)).integrable_comp h1).congr e⟩
  show ∫ p : Pt, orderedInt tbl m p.2.2 (fun x => F (p :: x)) ∂pointMeasure s tbl = ω (Y * ∫ τ in (0 : ℝ)..s, vertexSum tbl v τ * dyson (vertexSum tbl v) m τ)
  rw [← h2, ← integral_congr_ae e]
  exact (ω.comp (ContinuousLinearMap.mul ℝ A Y)).integral_comp_comm h1

theorem cons_step {o : ℝ × A} {Os : List (ℝ × A)} {m : ℕ}
    (hm : ∀ {s : ℝ} {F : List Pt → ℝ} {Y : A}, MarkHyp tbl v ω (o :: Os) s F Y → orderedInt tbl m s F = ω (Y * marked (vertexSum tbl v) (o :: Os) m s))
    (ht : ∀ {s : ℝ} {F : List Pt → ℝ} {Y : A}, MarkHyp tbl v ω Os s F Y → orderedInt tbl (m + 1) s F = ω (Y * marked (vertexSum tbl v) Os (m + 1) s) ∧
      Integrable (fun p : Pt => orderedInt tbl m p.2.2 fun x => F (p :: x)) (pointMeasure s tbl))
    {s : ℝ} {F : List Pt → ℝ} {Y : A} (h : MarkHyp tbl v ω (o :: Os) s F Y) :
    orderedInt tbl (m + 1) s F = ω (Y * marked (vertexSum tbl v) (o :: Os) (m + 1) s) ∧
      Integrable (fun p : Pt => orderedInt tbl m p.2.2 fun x => F (p :: x)) (pointMeasure s tbl) := by
  have hW := vertexSum_continuous (tbl := tbl) hv
  have ho := h.before o List.mem_cons_self
  have hD := marked_continuous hW (o :: Os) m
  obtain ⟨h1, h2⟩ := integral_point_mul (tbl := tbl) hv hD h.time
  obtain ⟨h1', h2'⟩ := integral_point_mul (tbl := tbl) hv hD ho.1
  set ω' := ω.comp (ContinuousLinearMap.mul ℝ A Y) with hω'
  set S : Set Pt := {q : Pt | q.2.2 < o.1}ᶜ with hS
  have hSm : MeasurableSet S := (measurableSet_earlier o.1).compl
  have e : ∀ᵐ p : Pt ∂(pointMeasure s tbl).restrict S, ω' (v p * marked (vertexSum tbl v) (o :: Os) m p.2.2) =
      orderedInt tbl m p.2.2 fun x => F (p :: x) := by
    filter_upwards [ae_restrict_of_ae (ae_validPt s tbl), ae_restrict_of_ae (ae_not_time s o.1 tbl), ae_restrict_mem hSm] with p hp hne hpS
    have hlt : o.1 < p.2.2 := lt_of_le_of_ne (not_lt.1 hpS) hne.symm
    rw [hm (h.first hp fun o' h' => ?_), mul_assoc]
    · rfl
    · rcases List.mem_cons.1 h' with rfl | h'
      · exact hlt
      · exact ((List.pairwise_cons.1 h.order).1 o' h').trans hlt
  have i1 : Integrable (fun p : Pt => orderedInt tbl m p.2.2 fun x => F (p :: x)) ((pointMeasure s tbl).restrict S) :=
    (ω'.integrable_comp h1).restrict.congr e
  have i2 := (ht h.tail).2
  have i3 : Integrable (fun p : Pt => orderedInt tbl m p.2.2 fun x => F (p :: x)) (pointMeasure s tbl) := by
    rw [← pointMeasure_restrict ho.2.le] at i2
    have := IntegrableOn.union (s := {q : Pt | q.2.2 < o.1}) (t := S) i2 i1
    rwa [hS, Set.union_compl_self, integrableOn_univ] at this
  refine ⟨?_, i3⟩
  show ∫ p : Pt, orderedInt tbl m p.2.2 (fun x => F (p :: x)) ∂pointMeasure s tbl =
    ω (Y * (o.2 * marked (vertexSum tbl v) Os (m + 1) o.1 + ∫ t in o.1..s, vertexSum tbl v t * marked (vertexSum tbl v) (o :: Os) m t))
  rw [restrict_later ho.2.le i3, mul_add, map_add]
  congr 1
  · have := (ht h.tail).1
    rw [mul_assoc] at this
    exact this
  · rw [← integral_congr_ae e]
    have h3 := restrict_later ho.2.le (ω'.integrable_comp h1)
    have c : Continuous fun t => vertexSum tbl v t * marked (vertexSum tbl v) (o :: Os) m t := hW.mul hD
    have h4 : ∫ p, ω' (v p * marked (vertexSum tbl v) (o :: Os) m p.2.2) ∂pointMeasure s tbl = ω' (∫ t in (0 : ℝ)..s, vertexSum tbl v t * marked (vertexSum tbl v) (o :: Os) m t) := by
      rw [← h2]; exact ω'.integral_comp_comm h1
    have h5 : ∫ p, ω' (v p * marked (vertexSum tbl v) (o :: Os) m p.2.2) ∂pointMeasure o.1 tbl = ω' (∫ t in (0 : ℝ)..o.1, vertexSum tbl v t * marked (vertexSum tbl v) (o :: Os) m t) := by
      rw [← h2']; exact ω'.integral_comp_comm h1'
    rw [h4, h5] at h3
    have h6 : ∫ p, ω' (v p * marked (vertexSum tbl v) (o :: Os) m p.2.2) ∂(pointMeasure s tbl).restrict S =
        ω' (∫ t in o.1..s, vertexSum tbl v t * marked (vertexSum tbl v) (o :: Os) m t) := by
      rw [← intervalIntegral.integral_interval_sub_left (c.intervalIntegrable _ _) (c.intervalIntegrable _ _), map_sub]
      linarith
    rw [h6]
    rfl

theorem orderedInt_marked (Os : List (ℝ × A)) : ∀ (n : ℕ) {s : ℝ} {F : List Pt → ℝ} {Y : A}, MarkHyp tbl v ω Os s F Y →
      orderedInt tbl n s F = ω (Y * marked (vertexSum tbl v) Os n s) := by
  have key : ∀ (Os : List (ℝ × A)) (n : ℕ), (∀ {s : ℝ} {F : List Pt → ℝ} {Y : A}, MarkHyp tbl v ω Os s F Y →
      orderedInt tbl n s F = ω (Y * marked (vertexSum tbl v) Os n s)) ∧ 
      ∀ {s : ℝ} {F : List Pt → ℝ} {Y : A}, MarkHyp tbl v ω Os s F Y → orderedInt tbl (n + 1) s F = ω (Y * marked (vertexSum tbl v) Os (n + 1) s) ∧
      Integrable (fun p : Pt => orderedInt tbl n p.2.2 fun x => F (p :: x)) (pointMeasure s tbl) := by
    intro Os
    induction Os with
    | nil =>
      intro n
      induction n with
      | zero => exact ⟨fun h => h.zero, fun h => nil_step hv (fun h => h.zero) h⟩
      | succ n ih => exact ⟨fun h => (ih.2 h).1, fun h => nil_step hv (fun h => (ih.2 h).1) h⟩
    | cons o Os ihO =>
      intro n
      induction n with
      | zero => exact ⟨fun h => h.zero, fun h => cons_step hv (fun h => h.zero) (fun h => (ihO 0).2 h) h⟩
      | succ n ih => exact ⟨fun h => (ih.2 h).1, fun h => cons_step hv (fun h => (ih.2 h).1) (fun h => (ihO (n + 1)).2 h) h⟩
  intro n s F Y h
  exact (key Os n).1 h

end

end CTInt
