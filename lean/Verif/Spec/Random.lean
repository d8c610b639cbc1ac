import Verif.Base.Types
import Mathlib.Analysis.SpecialFunctions.Exp

/-!
# Specification: selections
-/

set_option linter.all false

namespace CTInt

/-- `l` lists the first `l.length` different values of the sequence `d`, in order of first appearance, and `p` is
    the number of terms looked at. -/
structure FirstDistinct (d : ℕ → ℕ) (l : List ℕ) (p : ℕ) : Prop where
  nodup : l.Nodup
  seen : ∀ s < p, d s ∈ l
  first : ∀ i (hi : i < l.length), ∃ t < p, d t = l[i] ∧ ∀ s < t, d s ∈ l.take i

/-- Positions `i`, `j` hold interacting vertices of types `t1`, `t2`. -/
structure ValidPair (vs : List Vert) (t1 t2 : ℕ) (i j : ℕ) : Prop where
  lt1 : i < vs.length
  lt2 : j < vs.length
  int1 : vs[i].nonInt = false
  int2 : vs[j].nonInt = false
  type1 : vs[i].type = t1
  type2 : vs[j].type = t2

end CTInt
