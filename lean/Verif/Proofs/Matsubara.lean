import Verif.Props.Legendre
import Verif.Spec.Matsubara
import Mathlib.MeasureTheory.Integral.IntervalIntegral.IntegrationByParts
import Mathlib.MeasureTheory.Integral.IntervalIntegral.FundThmCalculus
import Mathlib.Analysis.Calculus.Deriv.Polynomial
import Mathlib.Analysis.SpecialFunctions.Integrals.Basic
import Mathlib.Algebra.Polynomial.Roots
import Mathlib.Topology.Algebra.Polynomial

/-!
# Legendre polynomials and spherical Bessel functions
-/

set_option linter.all false

namespace CTInt

open Polynomial

/-! ## Derivatives -/

theorem leg_rec (n : ℕ) : C ((n : ℝ) + 2) * legendreP (n + 2) =
    C (2 * (n : ℝ) + 3) * (X * legendreP (n + 1)) - C ((n : ℝ) + 1) * legendreP n := by
  apply Polynomial.funext
  intro x
  have h2 : ((n : ℝ) + 2) ≠ 0 := by positivity
  simp only [eval_mul, eval_sub, eval_C, eval_X]
  rw [legendreP_rec]
  field_simp
  ring

theorem leg_zero : legendreP 0 = 1 := Polynomial.funext fun x => by rw [legendreP_zero]; simp
theorem leg_one : legendreP 1 = X := Polynomial.funext fun x => by rw [legendreP_one]; simp

theorem leg_AB (n : ℕ) : derivative (legendreP (n + 1)) = X * derivative (legendreP n) + C ((n : ℝ) + 1) * legendreP n ∧
    X * derivative (legendreP (n + 1)) = derivative (legendreP n) + C ((n : ℝ) + 1) * legendreP (n + 1) := by
  induction n with
  | zero => simp [leg_zero, leg_one]
  | succ n ih =>
    obtain ⟨hA, hB⟩ := ih
    have h2 : ((n : ℝ) + 2) ≠ 0 := by positivity
    have hC : (C ((n : ℝ) + 2) : ℝ[X]) ≠ 0 := C_ne_zero.2 h2
    have hr := leg_rec n
    have hd := congrArg derivative hr
    simp only [derivative_sub, derivative_mul, derivative_C, derivative_X, zero_mul, zero_add, one_mul] at hd
    have c2 : (C (2 : ℝ) : ℝ[X]) = 2 := rfl
    have c3 : (C (3 : ℝ) : ℝ[X]) = 3 := rfl
    have e1 : derivative (legendreP (n + 1 + 1)) = X * derivative (legendreP (n + 1)) +
        C (((n + 1 : ℕ) : ℝ) + 1) * legendreP (n + 1) := by
      apply mul_left_cancel₀ hC
      push_cast
      simp only [map_add, map_mul, map_one, c2, c3] at hr hd hA hB ⊢
      linear_combination hd + (C (n : ℝ) + 1) * hB
    refine ⟨e1, ?_⟩
    push_cast at e1 ⊢
    simp only [map_add, map_mul, map_one, c2, c3] at hr hd hA hB e1 ⊢
    linear_combination X * e1 - hr + X * hB - hA

theorem leg_diff (n : ℕ) : derivative (legendreP (n + 2)) - derivative (legendreP n) =
    C (2 * (n : ℝ) + 3) * legendreP (n + 1) := by
  have h1 := (leg_AB (n + 1)).1
  have h2 := (leg_AB n).2
  have c2 : (C (2 : ℝ) : ℝ[X]) = 2 := rfl
  have c3 : (C (3 : ℝ) : ℝ[X]) = 3 := rfl
  push_cast at h1
  simp only [map_add, map_mul, map_one, c2, c3] at h1 h2 ⊢
  linear_combination h1 + h2

/-- Legendre's differential equation. -/
theorem leg_ode (n : ℕ) : derivative ((X ^ 2 - 1) * derivative (legendreP n)) = C ((n : ℝ) * (n + 1)) * legendreP n := by
  cases n with
  | zero => simp [leg_zero]
  | succ n =>
    obtain ⟨hA, hB⟩ := leg_AB n
    have h : (X ^ 2 - 1) * derivative (legendreP (n + 1)) = C ((n : ℝ) + 1) * (X * legendreP (n + 1) - legendreP n) := by
      linear_combination X * hB - hA
    rw [h]
    simp only [derivative_sub, derivative_mul, derivative_C, derivative_X, zero_mul, zero_add, one_mul]
    push_cast
    have c2 : (C (2 : ℝ) : ℝ[X]) = 2 := rfl
    simp only [map_add, map_mul, map_one, c2] at hB ⊢
    linear_combination (C (n : ℝ) + 1) * hB

theorem leg_at_one (n : ℕ) : (legendreP n).eval 1 = 1 ∧ (legendreP (n + 1)).eval 1 = 1 := by
  induction n with
  | zero => exact ⟨legendreP_zero 1, legendreP_one 1⟩
  | succ n ih =>
    refine ⟨ih.2, ?_⟩
    have h2 : ((n : ℝ) + 2) ≠ 0 := by positivity
    rw [legendreP_rec, ih.1, ih.2]
    field_simp
    ring

theorem leg_at_neg (n : ℕ) : (legendreP n).eval (-1) = (-1) ^ n ∧ (legendreP (n + 1)).eval (-1) = (-1) ^ (n + 1) := by
  induction n with
  | zero => exact ⟨by rw [legendreP_zero]; simp, by rw [legendreP_one]; simp⟩
  | succ n ih =>
    refine ⟨ih.2, ?_⟩
    have h2 : ((n : ℝ) + 2) ≠ 0 := by positivity
    rw [legendreP_rec, ih.1, ih.2]
    field_simp
    ring

/-! ## Orthogonality -/

theorem int_deriv (p : ℝ[X]) (a b : ℝ) : ∫ x in a..b, (derivative p).eval x = p.eval b - p.eval a := by
  apply intervalIntegral.integral_eq_sub_of_hasDerivAt
  · intro x _; exact p.hasDerivAt x
  · exact (derivative p).continuous.intervalIntegrable _ _

theorem leg_orth {n m : ℕ} (h : n ≠ m) : ∫ x in (-1 : ℝ)..1, (legendreP n).eval x * (legendreP m).eval x = 0 := by
  have e : derivative ((X ^ 2 - 1) * derivative (legendreP n) * legendreP m - legendreP n * ((X ^ 2 - 1) * derivative (legendreP m))) =
      C ((n : ℝ) * (n + 1) - m * (m + 1)) * (legendreP n * legendreP m) := by
    rw [derivative_sub, derivative_mul, derivative_mul (f := legendreP n), leg_ode, leg_ode]
    simp only [map_sub]
    ring
  have hi := int_deriv ((X ^ 2 - 1) * derivative (legendreP n) * legendreP m - legendreP n * ((X ^ 2 - 1) * derivative (legendreP m))) (-1) 1
  rw [e] at hi
  simp only [eval_mul, eval_sub, eval_C, eval_pow, eval_X, eval_one] at hi
  rw [intervalIntegral.integral_const_mul] at hi
  norm_num at hi
  rcases hi with hi | hi
  · exfalso
    apply h
    have : ((n : ℝ) - m) * (n + m + 1) = 0 := by linarith
    rcases mul_eq_zero.1 this with q | q
    · exact_mod_cast sub_eq_zero.1 q
    · exfalso; have : (0 : ℝ) < n + m + 1 := by positivity
      linarith
  · exact hi

theorem leg_int (p : ℝ[X]) : IntervalIntegrable (fun x => p.eval x) MeasureTheory.volume (-1) 1 :=
  p.continuous.intervalIntegrable _ _

theorem int_mul (p q : ℝ[X]) : ∫ x in (-1 : ℝ)..1, p.eval x * q.eval x = ∫ x in (-1 : ℝ)..1, (p * q).eval x := by
  simp only [eval_mul]

theorem leg_norm (n : ℕ) : ∫ x in (-1 : ℝ)..1, (legendreP n).eval x * (legendreP n).eval x = 2 / (2 * n + 1) := by
  induction n with
  | zero => simp [leg_zero]; norm_num
  | succ n ih =>
    -- ∫ x P_{n+1} P_n from the recursion for n+2
    have r1 := leg_rec n
    have a1 : ∫ x in (-1 : ℝ)..1, ((C (2 * (n : ℝ) + 3) * (X * legendreP (n + 1)) - C ((n : ℝ) + 1) * legendreP n) * legendreP n).eval x = 0 := by
      rw [← r1]
      simp only [eval_mul, eval_C, mul_assoc]
      rw [intervalIntegral.integral_const_mul, leg_orth (by omega), mul_zero]
    have a2 : ∫ x in (-1 : ℝ)..1, ((C (2 * (n : ℝ) + 3) * (X * legendreP (n + 1)) - C ((n : ℝ) + 1) * legendreP n) * legendreP n).eval x =
        (2 * n + 3) * (∫ x in (-1 : ℝ)..1, (X * legendreP (n + 1) * legendreP n).eval x) -
        (n + 1) * ∫ x in (-1 : ℝ)..1, (legendreP n).eval x * (legendreP n).eval x := by
      rw [int_mul, ← intervalIntegral.integral_const_mul, ← intervalIntegral.integral_const_mul,
        ← intervalIntegral.integral_sub ((leg_int _).const_mul _) ((leg_int _).const_mul _)]
      congr 1; ext x
      simp only [eval_mul, eval_sub, eval_C, eval_X]
      ring
    rw [a2, ih] at a1
    -- N_{n+1}
    have b : (∫ x in (-1 : ℝ)..1, (X * legendreP (n + 1) * legendreP n).eval x) * (2 * n + 1) =
        (n + 1) * ∫ x in (-1 : ℝ)..1, (legendreP (n + 1)).eval x * (legendreP (n + 1)).eval x := by
      cases n with
      | zero => simp [leg_zero, leg_one]
      | succ k =>
        have r2 := leg_rec k
        have c1 : ∫ x in (-1 : ℝ)..1, (C ((k : ℝ) + 2) * legendreP (k + 2) * legendreP (k + 2)).eval x =
            ∫ x in (-1 : ℝ)..1, ((C (2 * (k : ℝ) + 3) * (X * legendreP (k + 1)) - C ((k : ℝ) + 1) * legendreP k) * legendreP (k + 2)).eval x := by
          rw [r2]
        have c2 : ∫ x in (-1 : ℝ)..1, ((C (2 * (k : ℝ) + 3) * (X * legendreP (k + 1)) - C ((k : ℝ) + 1) * legendreP k) * legendreP (k + 2)).eval x =
            (2 * k + 3) * (∫ x in (-1 : ℝ)..1, (X * legendreP (k + 2) * legendreP (k + 1)).eval x) -
            (k + 1) * ∫ x in (-1 : ℝ)..1, (legendreP k).eval x * (legendreP (k + 2)).eval x := by
          rw [int_mul, ← intervalIntegral.integral_const_mul, ← intervalIntegral.integral_const_mul,
            ← intervalIntegral.integral_sub ((leg_int _).const_mul _) ((leg_int _).const_mul _)]
          congr 1; ext x
          simp only [eval_mul, eval_sub, eval_C, eval_X]
          ring
        rw [c2, leg_orth (by omega), mul_zero, sub_zero] at c1
        simp only [eval_mul, eval_C, mul_assoc] at c1
        rw [intervalIntegral.integral_const_mul] at c1
        push_cast
        rw [show (k : ℝ) + 1 + 1 = k + 2 by ring, c1]
        simp only [eval_mul, mul_assoc]
        ring
    push_cast
    have h1 : (2 * (n : ℝ) + 1) ≠ 0 := by positivity
    have h3 : (2 * (n : ℝ) + 3) ≠ 0 := by positivity
    have h0 : ((n : ℝ) + 1) ≠ 0 := by positivity
    rw [show (2 * ((n : ℝ) + 1) + 1) = 2 * n + 3 by ring]
    apply mul_left_cancel₀ h0
    rw [← b]
    field_simp at a1 ⊢
    linarith

/-! ## Fourier transform -/

/-- ∫ P_l(x) exp(izx) dx over [-1,1]. -/
noncomputable def legFourier (l : ℕ) (z : ℝ) : ℂ :=
  ∫ x in (-1 : ℝ)..1, (((legendreP l).eval x : ℝ) : ℂ) * Complex.exp (Complex.I * z * x)

theorem hasDeriv_exp (z : ℝ) (x : ℝ) :
    HasDerivAt (fun x : ℝ => Complex.exp (Complex.I * z * x)) (Complex.I * z * Complex.exp (Complex.I * z * x)) x := by
  have h : HasDerivAt (fun x : ℝ => Complex.I * z * (x : ℂ)) (Complex.I * z * 1) x :=
    (Complex.ofRealCLM.hasDerivAt (x := x)).const_mul (Complex.I * z)
  have := h.cexp
  rw [mul_one] at this
  rw [mul_comm (Complex.I * z)]
  exact this

theorem hasDeriv_poly (p : ℝ[X]) (x : ℝ) : HasDerivAt (fun x : ℝ => ((p.eval x : ℝ) : ℂ)) (((derivative p).eval x : ℝ) : ℂ) x :=
  (p.hasDerivAt x).ofReal_comp

theorem cont_exp (z : ℝ) : Continuous fun x : ℝ => Complex.exp (Complex.I * z * x) := by fun_prop
theorem cont_poly (p : ℝ[X]) : Continuous fun x : ℝ => ((p.eval x : ℝ) : ℂ) := Complex.continuous_ofReal.comp p.continuous

/-- Integration by parts. -/
theorem fourier_parts (p : ℝ[X]) (z : ℝ) :
    ∫ x in (-1 : ℝ)..1, (((derivative p).eval x : ℝ) : ℂ) * Complex.exp (Complex.I * z * x) =
      ((p.eval 1 : ℝ) : ℂ) * Complex.exp (Complex.I * z) - ((p.eval (-1) : ℝ) : ℂ) * Complex.exp (-(Complex.I * z)) -
      Complex.I * z * ∫ x in (-1 : ℝ)..1, ((p.eval x : ℝ) : ℂ) * Complex.exp (Complex.I * z * x) := by
  have h := intervalIntegral.integral_deriv_mul_eq_sub
    (u := fun x : ℝ => ((p.eval x : ℝ) : ℂ)) (v := fun x : ℝ => Complex.exp (Complex.I * z * x))
    (u' := fun x : ℝ => (((derivative p).eval x : ℝ) : ℂ)) (v' := fun x : ℝ => Complex.I * z * Complex.exp (Complex.I * z * x))
    (a := -1) (b := 1) (fun x _ => hasDeriv_poly p x) (fun x _ => hasDeriv_exp z x)
    ((cont_poly _).intervalIntegrable _ _) (((cont_exp z).const_smul (Complex.I * z)).intervalIntegrable _ _)
  have i1 : IntervalIntegrable (fun x : ℝ => (((derivative p).eval x : ℝ) : ℂ) * Complex.exp (Complex.I * z * x))
      MeasureTheory.volume (-1) 1 := ((cont_poly _).mul (cont_exp z)).intervalIntegrable _ _
  have i2 : IntervalIntegrable (fun x : ℝ => ((p.eval x : ℝ) : ℂ) * (Complex.I * z * Complex.exp (Complex.I * z * x)))
      MeasureTheory.volume (-1) 1 := ((cont_poly _).mul ((cont_exp z).const_smul (Complex.I * z))).intervalIntegrable _ _
  rw [intervalIntegral.integral_add i1 i2] at h
  have e : ∀ x : ℝ, ((p.eval x : ℝ) : ℂ) * (Complex.I * z * Complex.exp (Complex.I * z * x)) =
      Complex.I * z * (((p.eval x : ℝ) : ℂ) * Complex.exp (Complex.I * z * x)) := fun x => by ring
  simp only [e] at h
  rw [intervalIntegral.integral_const_mul] at h
  push_cast at h
  rw [mul_one, show Complex.I * (z : ℂ) * -1 = -(Complex.I * z) by ring] at h
  linear_combination h

theorem exp_sum (z : ℝ) : Complex.exp (Complex.I * z) + Complex.exp (-(Complex.I * z)) = 2 * (Real.cos z : ℂ) ∧
    Complex.exp (Complex.I * z) - Complex.exp (-(Complex.I * z)) = 2 * Complex.I * (Real.sin z : ℂ) := by
  rw [show Complex.I * (z : ℂ) = z * Complex.I by ring, show -((z : ℂ) * Complex.I) = (-z : ℂ) * Complex.I by ring,
    Complex.exp_mul_I, Complex.exp_mul_I, Complex.cos_neg, Complex.sin_neg]
  push_cast
  constructor <;> ring

theorem legFourier_eq {z : ℝ} (hz : z ≠ 0) (l : ℕ) : legFourier l z = 2 * Complex.I ^ l * (sphJ l z : ℂ) ∧
    legFourier (l + 1) z = 2 * Complex.I ^ (l + 1) * (sphJ (l + 1) z : ℂ) := by
  have hzc : (z : ℂ) ≠ 0 := by exact_mod_cast hz
  have hI := Complex.I_mul_I
  have hI0 := Complex.I_ne_zero
  induction l with
  | zero =>
    obtain ⟨e1, e2⟩ := exp_sum z
    have h0 : legFourier 0 z = 2 * (sphJ 0 z : ℂ) := by
      have h := fourier_parts X z
      simp only [derivative_X, eval_one, eval_X] at h
      have h1 := fourier_parts 1 z
      simp only [derivative_one, eval_zero, eval_one, Complex.ofReal_zero, zero_mul, intervalIntegral.integral_zero,
        Complex.ofReal_one, one_mul] at h1
      unfold legFourier
      simp only [leg_zero, eval_one, Complex.ofReal_one, one_mul]
      rw [e2] at h1
      unfold sphJ
      push_cast
      field_simp
      have h2 : Complex.I * (z * ∫ x in (-1 : ℝ)..1, Complex.exp (Complex.I * z * x)) = Complex.I * (2 * Complex.sin z) := by
        push_cast at h1
        linear_combination h1
      have h3 := mul_left_cancel₀ hI0 h2
      exact h3
    refine ⟨by rw [h0]; ring, ?_⟩
    have h := fourier_parts X z
    simp only [derivative_X, eval_one, eval_X, Complex.ofReal_one, one_mul] at h
    have h0' : ∫ x in (-1 : ℝ)..1, Complex.exp (Complex.I * z * x) = 2 * (sphJ 0 z : ℂ) := by
      rw [← h0]; unfold legFourier; simp [leg_zero]
    rw [h0'] at h
    unfold legFourier
    simp only [zero_add, leg_one, eval_X]
    have h4 : Complex.I * (z * ∫ x in (-1 : ℝ)..1, ((x : ℝ) : ℂ) * Complex.exp (Complex.I * z * x)) =
        2 * (Real.cos z : ℂ) - 2 * (sphJ 0 z : ℂ) := by
      rw [← e1]
      push_cast at h ⊢
      linear_combination h
    apply mul_left_cancel₀ hzc
    apply mul_left_cancel₀ hI0
    rw [h4]
    unfold sphJ
    push_cast
    field_simp
    linear_combination (z * Complex.cos z - Complex.sin z) * Complex.I_sq
  | succ l ih =>
    refine ⟨ih.2, ?_⟩
    have h := fourier_parts (legendreP (l + 2) - legendreP l) z
    rw [derivative_sub, leg_diff] at h
    simp only [eval_sub, eval_mul, eval_C, (leg_at_one _).1, (leg_at_neg _).1] at h
    rw [show ((-1 : ℝ) ^ (l + 2) - (-1) ^ l) = 0 by ring] at h
    simp only [Complex.ofReal_mul, Complex.ofReal_sub, sub_self, Complex.ofReal_zero, zero_mul, zero_sub, mul_assoc, sub_mul] at h
    have i1 : ∀ k, IntervalIntegrable (fun x : ℝ => (((legendreP k).eval x : ℝ) : ℂ) * Complex.exp (Complex.I * ((z : ℂ) * x)))
        MeasureTheory.volume (-1) 1 := fun k => ((cont_poly _).mul (by fun_prop)).intervalIntegrable _ _
    rw [intervalIntegral.integral_const_mul, intervalIntegral.integral_sub (i1 _) (i1 _)] at h
    have q : ∀ k, ∫ x in (-1 : ℝ)..1, (((legendreP k).eval x : ℝ) : ℂ) * Complex.exp (Complex.I * ((z : ℂ) * x)) = legFourier k z := by
      intro k; unfold legFourier; simp only [mul_assoc]
    rw [q, q, q, ih.1, ih.2] at h
    apply mul_left_cancel₀ hzc
    apply mul_left_cancel₀ hI0
    show Complex.I * (z * legFourier (l + 2) z) = Complex.I * (z * (2 * Complex.I ^ (l + 2) * (sphJ (l + 2) z : ℂ)))
    rw [sphJ]
    push_cast at h ⊢
    have e : Complex.I * (z * legFourier (l + 2) z) = Complex.I * z * (2 * Complex.I ^ l * (sphJ l z : ℂ)) -
        (2 * l + 3) * (2 * Complex.I ^ (l + 1) * (sphJ (l + 1) z : ℂ)) := by linear_combination h
    rw [e]
    have i2 : Complex.I ^ (l + 2) = - Complex.I ^ l := by rw [pow_add, Complex.I_sq]; ring
    rw [i2, pow_succ]
    field_simp
    ring

end CTInt
