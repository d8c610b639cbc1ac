import Verif.Model.Manager

/-!
# Model of the generation of vertex pairs (src/U_matrix.h, src/update_manager.hpp)

Random numbers are a stream `u` read from position `p` on, as in `Model/Random`.
-/

set_option linter.all false

namespace CTInt

variable {K : Type} [RCLike K] [DecidableEq K]

/-- The body of the last loop of `generate_valid_vertex_pair2`, U_matrix.h 620-629 (and of `generate_valid_vertex_pair`,
    592-601, after the time has been drawn): the state of a vertex of type `t` is drawn; a vertex of density type makes
    the function throw, after it has been appended. -/
noncomputable def pairVertex (tbl : List (VDef K)) (u : ℕ → ℝ) (t : ℕ) (time : ℝ) (p : ℕ) : Res (Vert × ℕ) := do
  let d ← Res.get tbl t
  Res.throwIf (d.isDensity = true) .logicError
  pure (⟨t, (⌊u p * d.numAf⌋₊ : ℤ), (d.rank : ℤ), time, false, false, 0⟩, p + 1)

/-- `generate_valid_vertex_pair2`, U_matrix.h 606-632: `P` is `normalized_prob_dist`. -/
noncomputable def generatePair2 (tbl : List (VDef K)) (t1 t2 : ℕ) (P : ℝ → ℝ) (beta : ℝ) (u : ℕ → ℝ) (fuel p : ℕ) :
    Run (List Vert × ℕ) := do
  let (x, p') ← rejection P (P 0) beta u fuel (p + 1)
  Run.assert (t1 < t2)
  let (v, p') ← Run.lift (pairVertex tbl u t1 (mymod (beta * u p) beta) p')
  let (w, p') ← Run.lift (pairVertex tbl u t2 (mymod (mymod (beta * u p) beta + x) beta) p')
  pure ([v, w], p')

/-- `gen_itime_vertices_insertion` for two vertices, update_manager.hpp 562-569: one of the pairs of types is drawn. -/
noncomputable def genPairInsertion (pairs : List (ℕ × ℕ)) (tbl : List (VDef K)) (P : ℝ → ℝ) (beta : ℝ) (u : ℕ → ℝ)
    (fuel p : ℕ) : Run (List Vert × ℕ) :=
  if pairs.length = 0 then .ok ([], p)
  else do
    let q ← Run.lift (Res.get pairs ⌊pairs.length * u p⌋₊)
    generatePair2 tbl q.1 q.2 P beta u fuel (p + 1)

end CTInt
