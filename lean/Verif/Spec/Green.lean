import Verif.Spec.Spline
import Verif.Model.Green

/-!
# What the bare Green function should be
-/

set_option linter.all false

namespace CTInt

variable {K : Type} [RCLike K]

/-- `F` is the antiperiodic continuation of the values of `G` on `[0, β)` to all times. -/
structure IsAntiperiodic (β : ℝ) (G F : ℝ → K) : Prop where
  agree : ∀ t, 0 ≤ t → t < β → F t = G t
  anti : ∀ t, F (t + β) = - F t

/-- The line of the file that holds the value for flavour `f`, sites `s1`, `s2` and grid point `t`. -/
def GFile.line (file : GFile) (f s1 s2 t : ℕ) : Option GRow :=
  file.rows[((f * file.ns.toNat + s1) * file.ns.toNat + s2) * file.ntau.toNat + t]?

/-- The lines of the file are all there, in lexicographic order of their indices. -/
def GFile.Ordered (file : GFile) : Prop :=
  ∀ f s1 s2 t : ℕ, (f : ℤ) < file.nf → (s1 : ℤ) < file.ns → (s2 : ℤ) < file.ns → (t : ℤ) < file.ntau →
    ∃ row, file.line f s1 s2 t = some row ∧ row.f = f ∧ row.i = s1 ∧ row.j = s2 ∧ row.t = t

/-- The value in the file, as a number of type `K` (the imaginary part is dropped if `K` is real). -/
noncomputable def GFile.value (file : GFile) (f s1 s2 t : ℕ) : K :=
  match file.line f s1 s2 t with
  | some row => (RCLike.ofReal row.re : K) + RCLike.ofReal row.im * RCLike.I
  | none => 0

/-- The grid of times. -/
noncomputable def GFile.grid (file : GFile) (β : ℝ) (t : ℕ) : ℝ := β * t / ((file.ntau : ℝ) - 1)

end CTInt
