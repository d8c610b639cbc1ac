import Verif.Spec.Legendre
import Mathlib.Analysis.SpecialFunctions.Complex.Circle
import Mathlib.MeasureTheory.Integral.IntervalIntegral.Basic
import Mathlib.Analysis.SpecialFunctions.Trigonometric.Basic

/-!
# Specification: Matsubara frequencies and Legendre expansions of functions of time
-/

set_option linter.all false

namespace CTInt

/-- The spherical Bessel functions for z ≠ 0: j₀ = sin z / z, j₁ = sin z / z² - cos z / z and
    j_{l+2} = (2l+3)/z j_{l+1} - j_l (DLMF 10.49.3, 10.51.1). -/
noncomputable def sphJ : ℕ → ℝ → ℝ
  | 0, z => Real.sin z / z
  | 1, z => Real.sin z / z ^ 2 - Real.cos z / z
  | l + 2, z => (2 * l + 3) / z * sphJ (l + 1) z - sphJ l z

/-- The fermionic frequency (2n+1) π / β. -/
noncomputable def omega (β : ℝ) (n : ℕ) : ℝ := (2 * n + 1) * Real.pi / β

/-- The function of time with Legendre coefficients `s l`, l < nl:
    S(τ) = Σ_l √(2l+1)/β P_l(2τ/β - 1) s_l. -/
noncomputable def expansion (β : ℝ) (nl : ℕ) (s : ℕ → ℂ) (τ : ℝ) : ℂ :=
  ∑ l ∈ Finset.range nl, ((Real.sqrt (2 * l + 1) / β * (legendreP l).eval (2 * τ / β - 1) : ℝ) : ℂ) * s l

/-- Its Fourier transform: ∫₀^β exp(iω_n τ) S(τ) dτ. -/
noncomputable def fourier (β : ℝ) (S : ℝ → ℂ) (n : ℕ) : ℂ :=
  ∫ τ in (0 : ℝ)..β, Complex.exp (Complex.I * omega β n * τ) * S τ

/-- Its Legendre coefficients: √(2l+1) ∫₀^β P_l(2τ/β - 1) S(τ) dτ. -/
noncomputable def legendreCoeff (β : ℝ) (S : ℝ → ℂ) (l : ℕ) : ℂ :=
  ∫ τ in (0 : ℝ)..β, ((Real.sqrt (2 * l + 1) * (legendreP l).eval (2 * τ / β - 1) : ℝ) : ℂ) * S τ

end CTInt
