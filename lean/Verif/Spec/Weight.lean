import Verif.Spec.Inverse
import Verif.Base.Types

/-!
# Specification: the matrices of the interaction expansion for one flavor

`al j` is the auxiliary-field value of the operator pair at position `j`; `NI` marks an operator pair of a
non-interacting vertex.  `g0 i j` is the bare Green function between annihilator `i` and creator `j`.
-/

namespace CTInt

variable {K : Type} [Field K] [DecidableEq K]

/-- f = α / (α - 1), and 1 for a non-interacting vertex (the limit of large α). -/
def specF (NI α : K) : K := if α = NI then 1 else α / (α - 1)

/-- A = F - G0 (F - 1), with F the diagonal matrix of the `f`. -/
def specA (f : ℕ → K) (g0 : ℕ → ℕ → K) : ℕ → ℕ → K :=
  fun i j => (if i = j then f j else 0) - g0 i j * (f j - 1)

/-- G0 - α. -/
def specG (al : ℕ → K) (g0 : ℕ → ℕ → K) : ℕ → ℕ → K :=
  fun i j => g0 i j - if i = j then al j else 0

/-- Bare Green function between the listed annihilators and creators. -/
noncomputable def specG0 (G0 : Op → Op → K) (an cr : List Op) : ℕ → ℕ → K :=
  fun i j => G0 (an.getD i default) (cr.getD j default)

/-- A from scratch for the listed operators and fields. -/
noncomputable def flavorA (NI : K) (G0 : Op → Op → K) (an cr : List Op) (al : List K) : ℕ → ℕ → K :=
  specA (fun j => specF NI (al.getD j 0)) (specG0 G0 an cr)

/-- G0 - α from scratch for the listed operators and fields. -/
noncomputable def flavorG (G0 : Op → Op → K) (an cr : List Op) (al : List K) : ℕ → ℕ → K :=
  specG (fun j => al.getD j 0) (specG0 G0 an cr)

/-- An auxiliary-field value the expansion can use: not the marker, and neither 0 nor 1. -/
def GoodAlpha (NI α : K) : Prop := α ≠ NI ∧ α ≠ 0 ∧ α ≠ 1

end CTInt
