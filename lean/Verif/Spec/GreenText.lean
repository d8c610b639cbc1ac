import Verif.Spec.Green
import Verif.Spec.UMatrix
import Verif.Model.GreenText

/-!
# The words of a file with a bare Green function
-/

set_option linter.all false

namespace CTInt

/-- The words `l` write the line `r`: four integers and two numbers, each either with or without decimal point. -/
def GRow.Writes (r : GRow) (l : List Tok) : Prop :=
  ∃ a b : Tok, l = [.int r.f, .int r.i, .int r.j, .int r.t, a, b] ∧ a.Spells r.re ∧ b.Spells r.im ∧
    ∀ z, a ≠ .cplx z ∧ b ≠ .cplx z

/-- The words `l` write the lines `rows`, one after the other. -/
def WritesRows (rows : List GRow) (l : List Tok) : Prop :=
  ∃ ls : List (List Tok), l = ls.flatten ∧ List.Forall₂ GRow.Writes rows ls

/-- The words `l` write the first line of `file`. -/
def GFile.WritesHead (file : GFile) (l : List Tok) : Prop :=
  ∃ b : Tok, l = [.int file.nf, .int file.ns, .int file.ntau, b] ∧ b.Spells file.beta ∧ ∀ z, b ≠ .cplx z

/-- The words `l` write `file`. -/
def GFile.Writes (file : GFile) (l : List Tok) : Prop :=
  ∃ h b, l = h ++ b ∧ file.WritesHead h ∧ WritesRows file.rows b

/-- The number of lines a complete file has. -/
def GFile.size (file : GFile) : ℕ := file.nf.toNat * (file.ns.toNat * (file.ns.toNat * file.ntau.toNat))

end CTInt
