import Verif.Base.Res
import Mathlib.Analysis.Real.Sqrt

/-!
# Legendre polynomials: src/legendre.h

`double` is modelled by ℝ.  The transformation matrix `Tnl_` (lines 25-34) is in Model/Matsubara.lean.
-/

set_option linter.all false

namespace CTInt

/-- `LegendreTransformer`, legendre.h 20-105.  The vectors `inv_l_`, `sqrt_2l_1` have `nl` elements. -/
structure Legendre where
  nl : ℕ
  invL : ℕ → ℝ
  sqrt : ℕ → ℝ

namespace Legendre

/-- The constructor, legendre.h 35-40: `sqrt_2l_1[0]` is written whatever the size. -/
noncomputable def create (nl : ℕ) : Res Legendre := do
  Res.assert (0 < nl)
  let s0 : Legendre := ⟨nl, fun _ => 0, Function.update (fun _ => 0) 0 1⟩
  pure ((List.range' 1 (nl - 1)).foldl (fun s l =>
    { s with invL := Function.update s.invL l (1 / (l : ℝ))
             sqrt := Function.update s.sqrt l (Real.sqrt (2 * l + 1)) }) s0)

/-- `compute_legendre(x, val)` for one `x`, legendre.h 55-68; `val` has `size` elements. -/
noncomputable def compute (t : Legendre) (x : ℝ) (size : ℕ) (val : ℕ → ℝ) : Res (ℕ → ℝ) := do
  Res.assert (t.nl ≤ size)
  pure ((List.range t.nl).foldl (fun val l => Function.update val l
    (if l = 0 then 1
     else if l = 1 then x
     else ((2 * l - 1) * x * val (l - 1) - (l - 1) * val (l - 2)) * t.invL l)) val)

/-- `compute_legendre(xval, val)` for many points, legendre.h 70-98; `val[l][ix]` is defined for `l < rows`. -/
noncomputable def computeAll (t : Legendre) (xs : List ℝ) (rows : ℕ) (val : ℕ → ℕ → ℝ) : Res (ℕ → ℕ → ℝ) := do
  Res.assert (t.nl ≤ rows)
  pure ((List.range t.nl).foldl (fun val l =>
    (List.range xs.length).foldl (fun (val : ℕ → ℕ → ℝ) ix => Function.update val l (Function.update (val l) ix
      (if l = 0 then 1
       else if l = 1 then xs.getD ix 0
       else ((2 * l - 1) * xs.getD ix 0 * val (l - 1) ix - (l - 1) * val (l - 2) ix) * t.invL l))) val) val)

end Legendre
end CTInt
