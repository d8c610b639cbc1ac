import Verif.Model.Measure
import Mathlib.Analysis.SpecialFunctions.Trigonometric.Basic

/-!
# From Legendre coefficients to Matsubara frequencies: src/legendre.h 25-34 and src/postprocess.hpp 141-158

`boost::math::sph_bessel(l, x)` is a parameter `sj`.  Matrices are functions on ℕ × ℕ; the elements the code has are those
with `im < nm`, `il < nl`.
-/

set_option linter.all false

namespace CTInt

/-- The local variables of the two loops: the matrix `Tnl_`, `sign_tmp` and `ztmp`. -/
structure TnlLoop where
  T : ℕ → ℕ → ℂ
  sign : ℝ
  z : ℂ

/-- The constructor of `LegendreTransformer`, legendre.h 25-34: the matrix `Tnl_`.  The real factor
    `std::sqrt(2*il+1.0) * sph_bessel(...)` is converted to a complex number as in `operator*(complex<double>, double)`. -/
noncomputable def tnl (sj : ℕ → ℝ → ℝ) (nm nl : ℕ) : ℕ → ℕ → ℂ :=
  ((List.range nm).foldl (fun (s : TnlLoop) im =>
    let r := (List.range nl).foldl (fun (s : TnlLoop) il =>
      { s with
        T := Function.update s.T im (Function.update (s.T im) il
          ((s.sign : ℂ) * s.z * (Real.sqrt (2 * il + 1) : ℂ) * (sj il (1 / 2 * (2 * im + 1) * Real.pi) : ℂ)))
        z := s.z * Complex.I }) { s with z := Complex.I }
    { r with sign := r.sign * -1 }) ⟨fun _ _ => 0, 1, Complex.I⟩).T

/-- postprocess.hpp 141-158 (and 54-70): from `Sl[n_legendre][n_site][n_site][n_flavors]` to
    `Sw[n_matsubara][n_site][n_site][n_flavors]`; `Eigen`'s matrix product is a sum of products. -/
noncomputable def postFreq (nf ns nm nl : ℕ) (T : ℕ → ℕ → ℂ) (Sl : ℕ → ℂ) : Res (ℕ → ℂ) :=
  Res.foldl (fun Sw f => Res.foldl (fun Sw a => Res.foldl (fun Sw b => Res.foldl (fun (Sw : ℕ → ℂ) n => do
        let vec : ℕ → ℂ := fun l => Sl (off4 ns ns nf l a b f)
        Res.assert (n < nm ∧ a < ns ∧ b < ns ∧ f < nf)
        pure (Function.update Sw (off4 ns ns nf n a b f) ((List.range nl).map fun l => T n l * vec l).sum))
      Sw (List.range nm)) Sw (List.range ns)) Sw (List.range ns)) (fun _ => 0) (List.range nf)

end CTInt
