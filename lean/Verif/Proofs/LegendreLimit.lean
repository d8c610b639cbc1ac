import Verif.Props.Matsubara
import Mathlib.Topology.ContinuousMap.Weierstrass

/-!
# The expansion in Legendre polynomials converges
-/

set_option linter.all false

namespace CTInt

open Polynomial Filter

/-- Legendre polynomials span the polynomials. -/
theorem leg_span (p : ℝ[X]) : p ∈ Submodule.span ℝ (Set.range legendreP) := by
  obtain ⟨W, hW⟩ : ∃ W, W = Submodule.span ℝ (Set.range legendreP) := ⟨_, rfl⟩
  have hP : ∀ l, legendreP l ∈ W := fun l => hW ▸ Submodule.subset_span ⟨l, rfl⟩
  have hC : ∀ (r : ℝ) {q : ℝ[X]}, q ∈ W → C r * q ∈ W := fun r q hq => by
    rw [← Polynomial.smul_eq_C_mul]
    exact Submodule.smul_mem _ _ hq
  have hX1 : ∀ l, X * legendreP l ∈ W := by
    intro l
    rcases l with _ | l
    · rw [leg_zero, mul_one, ← leg_one]
      exact hP 1
    · have e := leg_rec l
      have h3 : X * legendreP (l + 1) = C (1 / (2 * (l : ℝ) + 3)) * (C ((l : ℝ) + 2) * legendreP (l + 2) + C ((l : ℝ) + 1) * legendreP l) := by
        rw [e]
        have : C (1 / (2 * (l : ℝ) + 3)) * C (2 * (l : ℝ) + 3) = 1 := by
          rw [← C_mul, one_div_mul_cancel (by positivity), C_1]
        linear_combination (-X * legendreP (l + 1)) * this
      rw [h3]
      exact hC _ (W.add_mem (hC _ (hP _)) (hC _ (hP _)))
  have hX : ∀ q ∈ W, X * q ∈ W := by
    intro q hq
    rw [hW] at hq
    induction hq using Submodule.span_induction with
    | mem b hb =>
      obtain ⟨l, rfl⟩ := hb
      exact hX1 l
    | zero => rw [mul_zero]; exact W.zero_mem
    | add x y _ _ hx hy => rw [mul_add]; exact W.add_mem hx hy
    | smul r x _ hx => rw [mul_smul_comm]; exact W.smul_mem _ hx
  have hpow : ∀ k : ℕ, X ^ k ∈ W := by
    intro k
    induction k with
    | zero => rw [pow_zero, ← leg_zero]; exact hP 0
    | succ k ih => rw [pow_succ']; exact hX _ ih
  rw [← hW]
  induction p using Polynomial.induction_on' with
  | add p q hp hq => exact W.add_mem hp hq
  | monomial k r =>
    rw [← C_mul_X_pow_eq_monomial]
    exact hC r (hpow k)

/-- What is orthogonal to enough Legendre polynomials is orthogonal to a polynomial. -/
theorem leg_enough (β : ℝ) (p : ℝ[X]) : ∃ N, ∀ n ≥ N, ∀ D : ℝ → ℂ, Continuous D →
    (∀ l < n, ∫ τ in (0 : ℝ)..β, (((legendreP l).eval (2 * τ / β - 1) : ℝ) : ℂ) * D τ = 0) →
    ∫ τ in (0 : ℝ)..β, ((p.eval (2 * τ / β - 1) : ℝ) : ℂ) * D τ = 0 := by
  have hc : ∀ (q : ℝ[X]) (D : ℝ → ℂ), Continuous D → Continuous fun τ : ℝ => ((q.eval (2 * τ / β - 1) : ℝ) : ℂ) * D τ := fun q D hD =>
    (Complex.continuous_ofReal.comp (q.continuous.comp (by fun_prop))).mul hD
  have hp := leg_span p
  induction hp using Submodule.span_induction with
  | mem b hb =>
    obtain ⟨l, rfl⟩ := hb
    exact ⟨l + 1, fun n hn D _ h => h l (by omega)⟩
  | zero => exact ⟨0, fun n _ D _ _ => by simp⟩
  | add x y _ _ hx hy =>
    obtain ⟨N1, h1⟩ := hx
    obtain ⟨N2, h2⟩ := hy
    refine ⟨max N1 N2, fun n hn D hD h => ?_⟩
    have e : ∀ τ : ℝ, (((x + y).eval (2 * τ / β - 1) : ℝ) : ℂ) * D τ =
        ((x.eval (2 * τ / β - 1) : ℝ) : ℂ) * D τ + ((y.eval (2 * τ / β - 1) : ℝ) : ℂ) * D τ := fun τ => by
      rw [eval_add]; push_cast; ring
    simp only [e]
    rw [intervalIntegral.integral_add ((hc x D hD).intervalIntegrable _ _) ((hc y D hD).intervalIntegrable _ _),
      h1 n (le_trans (le_max_left _ _) hn) D hD h, h2 n (le_trans (le_max_right _ _) hn) D hD h, add_zero]
  | smul r x _ hx =>
    obtain ⟨N1, h1⟩ := hx
    refine ⟨N1, fun n hn D hD h => ?_⟩
    have e : ∀ τ : ℝ, (((r • x).eval (2 * τ / β - 1) : ℝ) : ℂ) * D τ = (r : ℂ) * (((x.eval (2 * τ / β - 1) : ℝ) : ℂ) * D τ) := fun τ => by
      rw [eval_smul, smul_eq_mul]; push_cast; ring
    simp only [e]
    rw [intervalIntegral.integral_const_mul, h1 n hn D hD h, mul_zero]

theorem expansion_continuous (β : ℝ) (nl : ℕ) (s : ℕ → ℂ) : Continuous (expansion β nl s) := by
  unfold expansion
  exact continuous_finset_sum _ fun l _ => (Complex.continuous_ofReal.comp (continuous_const.mul ((legendreP l).continuous.comp (by fun_prop)))).mul continuous_const

variable {β : ℝ} {S : ℝ → ℂ}

/-- The rest of the expansion is orthogonal to the Legendre polynomials used. -/
theorem rest_orth (hβ : 0 < β) (hS : Continuous S) {n l : ℕ} (hl : l < n) :
    ∫ τ in (0 : ℝ)..β, (((legendreP l).eval (2 * τ / β - 1) : ℝ) : ℂ) * (S τ - expansion β n (legendreCoeff β S) τ) = 0 := by
  have h1 := C61_coefficients hβ hl (legendreCoeff β S)
  have hE := expansion_continuous β n (legendreCoeff β S)
  have hk : Continuous fun τ : ℝ => ((Real.sqrt (2 * l + 1) * (legendreP l).eval (2 * τ / β - 1) : ℝ) : ℂ) :=
    Complex.continuous_ofReal.comp (continuous_const.mul ((legendreP l).continuous.comp (by fun_prop)))
  have h2 : ∫ τ in (0 : ℝ)..β, (((Real.sqrt (2 * l + 1) * (legendreP l).eval (2 * τ / β - 1) : ℝ) : ℂ) * S τ -
      ((Real.sqrt (2 * l + 1) * (legendreP l).eval (2 * τ / β - 1) : ℝ) : ℂ) * expansion β n (legendreCoeff β S) τ) = 0 := by
    have k1 : Continuous fun τ : ℝ => ((Real.sqrt (2 * l + 1) * (legendreP l).eval (2 * τ / β - 1) : ℝ) : ℂ) * S τ := hk.mul hS
    have k2 : Continuous fun τ : ℝ => ((Real.sqrt (2 * l + 1) * (legendreP l).eval (2 * τ / β - 1) : ℝ) : ℂ) * expansion β n (legendreCoeff β S) τ :=
      hk.mul hE
    rw [intervalIntegral.integral_sub (k1.intervalIntegrable _ _) (k2.intervalIntegrable _ _)]
    unfold legendreCoeff at h1 ⊢
    rw [h1, sub_self]
  have e : ∀ τ : ℝ, ((Real.sqrt (2 * l + 1) * (legendreP l).eval (2 * τ / β - 1) : ℝ) : ℂ) * S τ -
      ((Real.sqrt (2 * l + 1) * (legendreP l).eval (2 * τ / β - 1) : ℝ) : ℂ) * expansion β n (legendreCoeff β S) τ =
      (Real.sqrt (2 * l + 1) : ℂ) * ((((legendreP l).eval (2 * τ / β - 1) : ℝ) : ℂ) * (S τ - expansion β n (legendreCoeff β S) τ)) := fun τ => by
    push_cast; ring
  simp only [e] at h2
  rw [intervalIntegral.integral_const_mul] at h2
  refine (mul_eq_zero.1 h2).resolve_left ?_
  have : Real.sqrt (2 * (l : ℝ) + 1) ≠ 0 := (Real.sqrt_pos.2 (by positivity)).ne'
  exact_mod_cast this

/-- Bessel's inequality. -/
theorem rest_norm (hβ : 0 < β) (hS : Continuous S) (n : ℕ) :
    ∫ τ in (0 : ℝ)..β, ‖S τ - expansion β n (legendreCoeff β S) τ‖ ^ 2 ≤ ∫ τ in (0 : ℝ)..β, ‖S τ‖ ^ 2 := by
  obtain ⟨E, hE⟩ : ∃ E, E = expansion β n (legendreCoeff β S) := ⟨_, rfl⟩
  have cE : Continuous E := hE ▸ expansion_continuous β n _
  have cD : Continuous fun τ => S τ - E τ := hS.sub cE
  have h0 : ∫ τ in (0 : ℝ)..β, starRingEnd ℂ (E τ) * (S τ - E τ) = 0 := by
    have e : ∀ τ, starRingEnd ℂ (E τ) * (S τ - E τ) = ∑ l ∈ Finset.range n,
        ((Real.sqrt (2 * l + 1) / β : ℝ) : ℂ) * starRingEnd ℂ (legendreCoeff β S l) * ((((legendreP l).eval (2 * τ / β - 1) : ℝ) : ℂ) * (S τ - E τ)) := by
      intro τ
      have e1 : E τ = ∑ l ∈ Finset.range n, ((Real.sqrt (2 * l + 1) / β * (legendreP l).eval (2 * τ / β - 1) : ℝ) : ℂ) * legendreCoeff β S l := by
        rw [hE]; rfl
      obtain ⟨d, hd⟩ : ∃ d, d = S τ - E τ := ⟨_, rfl⟩
      rw [← hd, e1, map_sum, Finset.sum_mul]
      refine Finset.sum_congr rfl fun l _ => ?_
      rw [map_mul, Complex.conj_ofReal]
      push_cast
      ring
    simp only [e]
    rw [intervalIntegral.integral_finset_sum]
    · refine Finset.sum_eq_zero fun l hl => ?_
      rw [intervalIntegral.integral_const_mul, hE, rest_orth hβ hS (Finset.mem_range.1 hl), mul_zero]
    · intro l _
      exact ((continuous_const (y := ((Real.sqrt (2 * l + 1) / β : ℝ) : ℂ) * starRingEnd ℂ (legendreCoeff β S l))).mul
        ((Complex.continuous_ofReal.comp ((legendreP l).continuous.comp (by fun_prop))).mul cD)).intervalIntegrable _ _
  have hre : ∫ τ in (0 : ℝ)..β, (starRingEnd ℂ (E τ) * (S τ - E τ)).re = 0 := by
    have := intervalIntegral.intervalIntegral_re (𝕜 := ℂ) (μ := MeasureTheory.volume) (a := 0) (b := β) (f := fun τ => starRingEnd ℂ (E τ) * (S τ - E τ))
      (((Complex.continuous_conj.comp cE).mul cD).intervalIntegrable _ _)
    rw [h0] at this
    simpa using this
  have hpt : ∀ τ, ‖S τ‖ ^ 2 = ‖E τ‖ ^ 2 + 2 * (starRingEnd ℂ (E τ) * (S τ - E τ)).re + ‖S τ - E τ‖ ^ 2 := by
    intro τ
    rw [← Complex.normSq_eq_norm_sq, ← Complex.normSq_eq_norm_sq, ← Complex.normSq_eq_norm_sq]
    simp only [Complex.normSq_apply, Complex.mul_re, Complex.conj_re, Complex.conj_im, Complex.sub_re, Complex.sub_im]
    ring
  have c1 : Continuous fun τ => ‖E τ‖ ^ 2 := cE.norm.pow 2
  have c2 : Continuous fun τ => 2 * (starRingEnd ℂ (E τ) * (S τ - E τ)).re :=
    continuous_const.mul (Complex.continuous_re.comp ((Complex.continuous_conj.comp cE).mul cD))
  have c3 : Continuous fun τ => ‖S τ - E τ‖ ^ 2 := cD.norm.pow 2
  have c12 : Continuous fun τ => ‖E τ‖ ^ 2 + 2 * (starRingEnd ℂ (E τ) * (S τ - E τ)).re := c1.add c2
  rw [← hE]
  simp only [hpt]
  rw [intervalIntegral.integral_add (c12.intervalIntegrable _ _) (c3.intervalIntegrable _ _),
    intervalIntegral.integral_add (c1.intervalIntegrable _ _) (c2.intervalIntegrable _ _), intervalIntegral.integral_const_mul, hre, mul_zero, add_zero]
  have : 0 ≤ ∫ τ in (0 : ℝ)..β, ‖E τ‖ ^ 2 := intervalIntegral.integral_nonneg hβ.le fun τ _ => by positivity
  linarith

/-- Integrals with continuous functions. -/
theorem rest_weak (hβ : 0 < β) (hS : Continuous S) {f : ℝ → ℝ} (hf : Continuous f) :
    Tendsto (fun n => ∫ τ in (0 : ℝ)..β, ((f τ : ℝ) : ℂ) * (S τ - expansion β n (legendreCoeff β S) τ)) atTop (nhds 0) := by
  obtain ⟨B, hB⟩ : ∃ B, B = (β + ∫ τ in (0 : ℝ)..β, ‖S τ‖ ^ 2) / 2 := ⟨_, rfl⟩
  have hBp : 0 < B := by
    have : 0 ≤ ∫ τ in (0 : ℝ)..β, ‖S τ‖ ^ 2 := intervalIntegral.integral_nonneg hβ.le fun τ _ => by positivity
    rw [hB]; linarith
  rw [Metric.tendsto_atTop]
  intro ε hε
  obtain ⟨p, hp⟩ := exists_polynomial_near_of_continuousOn (-1) 1 (fun x => f (β * (x + 1) / 2)) (hf.comp (by fun_prop)).continuousOn (ε / (2 * B)) (by positivity)
  obtain ⟨N, hN⟩ := leg_enough β p
  refine ⟨N, fun n hn => ?_⟩
  obtain ⟨D, hD⟩ : ∃ D : ℝ → ℂ, D = fun τ => S τ - expansion β n (legendreCoeff β S) τ := ⟨_, rfl⟩
  have cD : Continuous D := hD ▸ hS.sub (expansion_continuous β n _)
  have h0 := hN n hn D cD fun l hl => by rw [hD]; exact rest_orth hβ hS hl
  have h1 : ∫ τ in (0 : ℝ)..β, ‖D τ‖ ≤ B := by
    have := rest_norm hβ hS n
    have q : ∫ τ in (0 : ℝ)..β, ‖D τ‖ ≤ ∫ τ in (0 : ℝ)..β, (1 + ‖D τ‖ ^ 2) / 2 :=
      intervalIntegral.integral_mono_on hβ.le (cD.norm.intervalIntegrable _ _) (((continuous_const.add (cD.norm.pow 2)).div_const 2).intervalIntegrable _ _)
        fun τ _ => by nlinarith [sq_nonneg (‖D τ‖ - 1)]
    have q2 : ∫ τ in (0 : ℝ)..β, (1 + ‖D τ‖ ^ 2) / 2 = (β + ∫ τ in (0 : ℝ)..β, ‖D τ‖ ^ 2) / 2 := by
      rw [intervalIntegral.integral_div, intervalIntegral.integral_add ((continuous_const (y := (1 : ℝ))).intervalIntegrable _ _)
        ((show Continuous fun τ => ‖D τ‖ ^ 2 from cD.norm.pow 2).intervalIntegrable _ _)]
      simp
    rw [q2] at q
    rw [hB]
    have e : ∫ τ in (0 : ℝ)..β, ‖D τ‖ ^ 2 ≤ ∫ τ in (0 : ℝ)..β, ‖S τ‖ ^ 2 := by rw [hD]; exact this
    linarith
  have cp : Continuous fun τ : ℝ => ((p.eval (2 * τ / β - 1) : ℝ) : ℂ) := Complex.continuous_ofReal.comp (p.continuous.comp (by fun_prop))
  have cf : Continuous fun τ : ℝ => ((f τ : ℝ) : ℂ) := Complex.continuous_ofReal.comp hf
  have h2 : ∫ τ in (0 : ℝ)..β, ((f τ : ℝ) : ℂ) * D τ = ∫ τ in (0 : ℝ)..β, (((f τ : ℝ) : ℂ) - ((p.eval (2 * τ / β - 1) : ℝ) : ℂ)) * D τ := by
    simp only [sub_mul]
    have k1 : Continuous fun τ : ℝ => ((f τ : ℝ) : ℂ) * D τ := cf.mul cD
    have k2 : Continuous fun τ : ℝ => ((p.eval (2 * τ / β - 1) : ℝ) : ℂ) * D τ := cp.mul cD
    rw [intervalIntegral.integral_sub (k1.intervalIntegrable _ _) (k2.intervalIntegrable _ _), h0, sub_zero]
  have h3 : ‖∫ τ in (0 : ℝ)..β, (((f τ : ℝ) : ℂ) - ((p.eval (2 * τ / β - 1) : ℝ) : ℂ)) * D τ‖ ≤ ∫ τ in (0 : ℝ)..β, ε / (2 * B) * ‖D τ‖ := by
    refine (intervalIntegral.norm_integral_le_integral_norm hβ.le).trans ?_
    refine intervalIntegral.integral_mono_on hβ.le (((cf.sub cp).mul cD).norm.intervalIntegrable _ _) ((continuous_const.mul cD.norm).intervalIntegrable _ _) fun τ hτ => ?_
    rw [norm_mul]
    refine mul_le_mul_of_nonneg_right ?_ (norm_nonneg _)
    have hx : 2 * τ / β - 1 ∈ Set.Icc (-1 : ℝ) 1 := by
      have a1 : 0 ≤ τ / β := div_nonneg hτ.1 hβ.le
      have a2 : τ / β ≤ 1 := (div_le_one hβ).2 hτ.2
      rw [mul_div_assoc]
      exact ⟨by linarith, by linarith⟩
    have := hp _ hx
    rw [show β * (2 * τ / β - 1 + 1) / 2 = τ by field_simp; ring] at this
    rw [← Complex.ofReal_sub, Complex.norm_real, Real.norm_eq_abs, abs_sub_comm]
    exact this.le
  rw [dist_zero_right]
  have e : ∫ τ in (0 : ℝ)..β, ((f τ : ℝ) : ℂ) * (S τ - expansion β n (legendreCoeff β S) τ) = ∫ τ in (0 : ℝ)..β, ((f τ : ℝ) : ℂ) * D τ := by rw [hD]
  rw [e, h2]
  refine h3.trans_lt ?_
  rw [intervalIntegral.integral_const_mul]
  calc ε / (2 * B) * ∫ τ in (0 : ℝ)..β, ‖D τ‖ ≤ ε / (2 * B) * B := mul_le_mul_of_nonneg_left h1 (by positivity)
    _ = ε / 2 := by field_simp
    _ < ε := by linarith

/-- The Fourier transforms of the expansions converge. -/
theorem fourier_expansion_limit (hβ : 0 < β) (hS : Continuous S) (k : ℕ) :
    Tendsto (fun nl => fourier β (expansion β nl (legendreCoeff β S)) k) atTop (nhds (fourier β S k)) := by
  have h1 := rest_weak hβ hS (f := fun τ => Real.cos (omega β k * τ)) (by fun_prop)
  have h2 := rest_weak hβ hS (f := fun τ => Real.sin (omega β k * τ)) (by fun_prop)
  have h3 := (h1.add (h2.const_mul Complex.I)).const_sub (fourier β S k)
  rw [mul_zero, add_zero, sub_zero] at h3
  refine h3.congr fun n => ?_
  obtain ⟨E, hE⟩ : ∃ E, E = expansion β n (legendreCoeff β S) := ⟨_, rfl⟩
  have cE : Continuous E := hE ▸ expansion_continuous β n _
  rw [← hE]
  have cc : Continuous fun τ : ℝ => ((Real.cos (omega β k * τ) : ℝ) : ℂ) * (S τ - E τ) := (Complex.continuous_ofReal.comp (by fun_prop)).mul (hS.sub cE)
  have cs : Continuous fun τ : ℝ => Complex.I * (((Real.sin (omega β k * τ) : ℝ) : ℂ) * (S τ - E τ)) :=
    continuous_const.mul ((Complex.continuous_ofReal.comp (by fun_prop)).mul (hS.sub cE))
  have ce : Continuous fun τ : ℝ => Complex.exp (Complex.I * omega β k * τ) * S τ := (cont_exp (omega β k)).mul hS
  have ccs : Continuous fun τ : ℝ => ((Real.cos (omega β k * τ) : ℝ) : ℂ) * (S τ - E τ) + Complex.I * (((Real.sin (omega β k * τ) : ℝ) : ℂ) * (S τ - E τ)) :=
    cc.add cs
  unfold fourier
  rw [← intervalIntegral.integral_const_mul, ← intervalIntegral.integral_add (cc.intervalIntegrable _ _) (cs.intervalIntegrable _ _),
    ← intervalIntegral.integral_sub (ce.intervalIntegrable _ _) (ccs.intervalIntegrable _ _)]
  refine intervalIntegral.integral_congr fun τ _ => ?_
  have : Complex.exp (Complex.I * omega β k * τ) = ((Real.cos (omega β k * τ) : ℝ) : ℂ) + Complex.I * ((Real.sin (omega β k * τ) : ℝ) : ℂ) := by
    rw [show Complex.I * (omega β k : ℂ) * τ = ((omega β k * τ : ℝ) : ℂ) * Complex.I by push_cast; ring, Complex.exp_mul_I]
    push_cast
    ring
  simp only [this, Pi.add_apply]
  ring

end CTInt
