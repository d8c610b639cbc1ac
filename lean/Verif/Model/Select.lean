import Verif.Model.PairGen

/-!
# Model of the selection of vertices by kind (src/U_matrix.h 475-727 and 779-815)

Functions that draw vertices to add and positions of vertices to remove.  The update manager of this commit uses none of
them.  Numbers of vertices, `int` in the code, are natural numbers.
-/

set_option linter.all false

namespace CTInt

variable {K : Type} [RCLike K] [DecidableEq K]

/-- The predicates `all_type`, `density_type`, `non_density_type` and `non_density_type_in_window`, U_matrix.h 475-576. -/
inductive Kind where
  | all
  | density
  | nonDensity
  | window (x : Window)

namespace Kind

/-- `operator()`, U_matrix.h 477, 487, 544-547, 570. -/
def accepts : Kind → Vert → Prop
  | .all, _ => True
  | .density, v => v.isDensity = true
  | .nonDensity, v => v.isDensity = false
  | .window x, v => x.accepts v

/-- `random_time`, U_matrix.h 479-482, 489-492, 549-556, 572-575. -/
noncomputable def time (beta : ℝ) : Kind → ℝ → Res ℝ
  | .window x, r => x.randomTime r beta
  | _, r => do
    Res.assert (0 ≤ r ∧ r ≤ 1)
    pure (r * beta)

/-- `get_vertices(pred)`, U_matrix.h 293-307, with the lists of `find_non_density_vertices` (343-357); a definition is given
    by its position in the table, which is its `id()`. -/
def types (tbl : List (VDef K)) : Kind → List ℕ
  | .all => List.range tbl.length
  | .density => (List.range tbl.length).filter fun t => (tbl.getD t default).isDensity
  | _ => (List.range tbl.length).filter fun t => !(tbl.getD t default).isDensity

end Kind

/-- The loop of `generate_itime_vertices`, U_matrix.h 644-651. -/
noncomputable def genLoop (k : Kind) (tbl : List (VDef K)) (beta : ℝ) (u : ℕ → ℝ) : ℕ → ℕ → Res (List Vert × ℕ)
  | 0, p => pure ([], p)
  | n + 1, p => do
    let time ← k.time beta (u p)
    let t ← Res.get (k.types tbl) ⌊u (p + 1) * (k.types tbl).length⌋₊
    let d ← Res.get tbl t
    let (l, p') ← genLoop k tbl beta u n (p + 3)
    pure (⟨t, (⌊u (p + 2) * d.numAf⌋₊ : ℤ), (d.rank : ℤ), time, d.isDensity, false, 0⟩ :: l, p')

/-- `generate_itime_vertices`, U_matrix.h 634-653. -/
noncomputable def generateVertices (k : Kind) (tbl : List (VDef K)) (beta : ℝ) (u : ℕ → ℝ) (n p : ℕ) : Res (List Vert × ℕ) :=
  if (k.types tbl).length = 0 then pure ([], p) else genLoop k tbl beta u n p

/-- `generate_valid_vertex_pair`, U_matrix.h 578-604. -/
noncomputable def generatePair (k : Kind) (tbl : List (VDef K)) (pairs : List (ℕ × ℕ)) (beta : ℝ) (u : ℕ → ℝ) (p : ℕ) :
    Res (List Vert × ℕ) :=
  if pairs.length = 0 then pure ([], p)
  else do
    let q ← Res.get pairs ⌊u p * pairs.length⌋₊
    let t1 ← k.time beta (u (p + 1))
    let (v, p) ← pairVertex tbl u q.1 t1 (p + 2)
    let t2 ← k.time beta (u p)
    let (w, p) ← pairVertex tbl u q.2 t2 (p + 1)
    pure ([v, w], p)

open Classical in
/-- The loop that fills `pos`, U_matrix.h 788-795: the entries written so far; `pos` has `n` entries. -/
noncomputable def activePositions (k : Kind) (vs : List Vert) (n : ℕ) : Res (List ℕ) :=
  Res.foldl (fun pos iv => do
    let v ← Res.get vs iv
    if k.accepts v then do
      Res.assert (pos.length < n)
      pure (pos ++ [iv])
    else pure pos) [] (List.range vs.length)

open Classical in
/-- `pick_up_itime_vertices`, U_matrix.h 779-815, with its asserts. -/
noncomputable def pickVertices (k : Kind) (vs : List Vert) (u : ℕ → ℝ) (fuel n p : ℕ) : Run (List ℕ × ℕ) :=
  let na := vs.countP fun v => decide (k.accepts v)
  if na < n then .ok ([], p)
  else do
    let pos ← Run.lift (activePositions k vs na)
    Run.assert (pos.length = na)
    let (ind, p) ← pickNumbers u fuel na n p
    let l ← Run.lift (Res.mapM (Res.get pos) ind)
    let _ ← Run.lift (Res.mapM (fun i => do
      let v ← Res.get vs i
      Res.assert (k.accepts v)) l)
    pure (l, p)

open Classical in
/-- The first loop of `count_valid_vertex_pair`, U_matrix.h 660-667: `vs_win`.  `pos` is reserved but stays empty, so that
    every write `pos[vs_win.size()-1] = idx` is outside of it. -/
noncomputable def countWindow (k : Kind) (vs : List Vert) : Res (List ℕ) :=
  Res.foldl (fun win v =>
    if k.accepts v ∧ v.isDensity = false then do
      let win := win ++ [v.type]
      Res.assert (win.length - 1 < ([] : List ℕ).length)
      pure win
    else pure win) [] vs

/-- The double loop of `count_valid_vertex_pair` and `pick_up_valid_vertex_pair`, U_matrix.h 671-679 and 701-711: the pairs
    `(iv, iv2)` with `iv2 < iv` whose types have the flag set.  `nt` is the number of rows and columns of the table of flags. -/
noncomputable def flaggedPairs (flag : ℕ → ℕ → Bool) (nt : ℕ) (win : List ℕ) : Res (List (ℕ × ℕ)) :=
  Res.foldl (fun l iv => Res.foldl (fun l iv2 =>
    if iv ≤ iv2 then pure l
    else do
      let a ← Res.get win iv
      let b ← Res.get win iv2
      Res.assert (a < nt ∧ b < nt)
      pure (if flag a b then l ++ [(iv, iv2)] else l)) l (List.range win.length)) [] (List.range win.length)

/-- `count_valid_vertex_pair`, U_matrix.h 655-682. -/
noncomputable def countPairs (k : Kind) (flag : ℕ → ℕ → Bool) (nt : ℕ) (vs : List Vert) : Res ℕ := do
  let win ← countWindow k vs
  let l ← flaggedPairs flag nt win
  pure l.length

open Classical in
/-- The first loop of `pick_up_valid_vertex_pair`, U_matrix.h 690-697: `vs_win` and `pos`. -/
noncomputable def pairWindow (k : Kind) (vs : List Vert) : Res (List ℕ × List ℕ) :=
  Res.foldl (fun x idx => do
    let v ← Res.get vs idx
    pure (if k.accepts v ∧ v.isDensity = false then (x.1 ++ [v.type], x.2 ++ [idx]) else x)) ([], []) (List.range vs.length)

/-- `pick_up_valid_vertex_pair`, U_matrix.h 684-726: the positions, `N_valid_pair` and the next random number. -/
noncomputable def pickValidPair (k : Kind) (flag : ℕ → ℕ → Bool) (nt : ℕ) (vs : List Vert) (u : ℕ → ℝ) (p : ℕ) :
    Res (List ℕ × ℕ × ℕ) := do
  let x ← pairWindow k vs
  let l ← flaggedPairs flag nt x.1
  let l ← Res.mapM (fun q => do
    let a ← Res.get x.2 q.1
    let b ← Res.get x.2 q.2
    pure (a, b)) l
  if l.length = 0 then pure ([], 0, p)
  else do
    let q ← Res.get l ⌊u p * l.length⌋₊
    let v ← Res.get vs q.1
    Res.assert (v.isDensity = false)
    let w ← Res.get vs q.2
    Res.assert (w.isDensity = false)
    pure ([q.1, q.2], l.length, p + 1)

end CTInt
