import Verif.Spec.Balance
import Verif.Spec.Streams

/-!
# Specification: the states of the auxiliary fields of a configuration
-/

set_option linter.all false

namespace CTInt

variable {K : Type} [RCLike K] [DecidableEq K]

open Classical in
/-- All configurations with the same vertices: every vertex in each of the states of its auxiliary field. -/
noncomputable def fieldStates (tbl : List (VDef K)) : List Vert → Finset (List Vert)
  | [] => {[]}
  | v :: vs => (Finset.range (termOf tbl v).numAf ×ˢ fieldStates tbl vs).image
      fun z => { v with af := (z.1 : ℤ), nonInt := false } :: z.2

end CTInt
