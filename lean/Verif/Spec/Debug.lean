import Verif.Spec.Machine

/-!
# Specification: calls whose extra assertions hold, and what the self-check compares
-/

set_option linter.all false

namespace CTInt

variable {K : Type} [Field K] [DecidableEq K]

/-- The only fields the flips `ps` of `cfg` bring back to the value they had in `base` are those of vertices that were
    not interacting in `base`: a trial may undo an insertion made in the same batch, nothing else. -/
def ReturnsInserted (NI : K) (tbl : List (VDef K)) (base cfg : List Vert) (ps : List (ℕ × ℤ)) : Prop :=
  ∀ x ∈ ps, ∀ r < (termOf tbl (cfg.getD x.1 default)).rank,
    fieldOf NI tbl (cfg.getD x.1 default) r ≠ fieldOf NI tbl (base.getD x.1 default) r →
    fieldOf NI tbl (flipTo (cfg.getD x.1 default) x.2) r = fieldOf NI tbl (base.getD x.1 default) r →
    fieldOf NI tbl (base.getD x.1 default) r = NI

/-- Every trial of the sequence of calls undoes nothing but insertions. -/
def UndoesInsertions (NI : K) (tbl : List (VDef K)) : Abs → List Call → Prop
  | _, [] => True
  | a, call :: calls =>
    (match call with
      | .flip pos spins _ => ReturnsInserted NI tbl a.base a.cfg (pos.zip spins)
      | _ => True) ∧ UndoesInsertions NI tbl (a.step call) calls

/-- The rank stored in each vertex is that of its type. -/
def RanksOK (tbl : List (VDef K)) (vs : List Vert) : Prop := ∀ v ∈ vs, v.rank = ((termOf tbl v).rank : ℤ)

end CTInt
