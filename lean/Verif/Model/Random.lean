import Verif.Base.Run
import Verif.Base.Types
import Mathlib.Algebra.Order.Floor.Semiring
import Mathlib.Algebra.Order.Archimedean.Real.Basic
import Mathlib.Analysis.SpecialFunctions.Exp

/-!
# Models of the random selections (src/util.h, src/U_matrix.h, src/update_manager.hpp)

The random number generator is an infinite stream `u : ℕ → ℝ`; a call reads from position `p` and returns the next
position.  `double` is ℝ; a conversion to `int` is the floor of a non-negative number (overflow beyond `INT_MAX` is
not modelled).
-/

set_option linter.all false

namespace CTInt

open Classical in
/-- The inner `while` loop of `pickup_a_few_numbers`, util.h 65-71; `taken` are the indices with `flag != 0`. -/
noncomputable def pickOne (u : ℕ → ℝ) (N : ℕ) (taken : List ℕ) : ℕ → ℕ → Run (ℕ × ℕ)
  | 0, _ => .more
  | fuel + 1, p => do
    let x := ⌊u p * N⌋₊
    Run.assert (x < N)
    if x ∈ taken then pickOne u N taken fuel (p + 1) else pure (x, p + 1)

/-- The outer loop, util.h 63-77: `list` filled so far, number of entries still to fill. -/
noncomputable def pickLoop (u : ℕ → ℝ) (N fuel : ℕ) : List ℕ → ℕ → ℕ → Run (List ℕ × ℕ)
  | l, 0, p => .ok (l, p)
  | l, n + 1, p => do
    let (x, p) ← pickOne u N l fuel p
    pickLoop u N fuel (l ++ [x]) n p

/-- `pickup_a_few_numbers`, util.h 60-79. -/
noncomputable def pickNumbers (u : ℕ → ℝ) (fuel N n p : ℕ) : Run (List ℕ × ℕ) := pickLoop u N fuel [] n p

open Classical in
/-- `mymod`, util.h 254-261. -/
noncomputable def mymod (x beta : ℝ) : ℝ :=
  if 0 ≤ x then x - beta * ⌊x / beta⌋₊ else x + beta * (⌊-x / beta⌋₊ + 1)

/-- `SymmExpDist`, update_manager.hpp 29-42: the parameters. -/
structure PairDist where
  a : ℝ
  b : ℝ
  beta : ℝ

namespace PairDist

/-- `bare_value`, update_manager.hpp 37. -/
noncomputable def bare (d : PairDist) (t : ℝ) : ℝ :=
  Real.exp (-d.a * t) + Real.exp (-d.a * (d.beta - t)) + d.b

/-- `coeff_`, update_manager.hpp 33. -/
noncomputable def coeff (d : PairDist) : ℝ := 1 / (2 / d.a * (1 - Real.exp (-d.a * d.beta)) + d.b * d.beta)

/-- `coeffX_`, update_manager.hpp 34. -/
noncomputable def coeffX (d : PairDist) : ℝ := 2 * (1 - Real.exp (-d.a * d.beta)) / (d.a * d.beta) + d.b

/-- `operator()`, update_manager.hpp 36. -/
noncomputable def density (d : PairDist) (t : ℝ) : ℝ := d.coeff * d.bare t

end PairDist

open Classical in
/-- `gen_rand_rejection_method`, util.h 227-241. -/
noncomputable def rejection (P : ℝ → ℝ) (Pmax beta : ℝ) (u : ℕ → ℝ) : ℕ → ℕ → Run (ℝ × ℕ)
  | 0, _ => .more
  | fuel + 1, p => do
    let x := beta * u p
    Run.assert (P x ≤ Pmax)
    if u (p + 1) < 1 / Pmax * P x then pure (x, p + 2) else rejection P Pmax beta u fuel (p + 2)

/-- `non_density_type_in_window`, U_matrix.h 518-566. -/
structure Window where
  ts : ℝ
  w : ℝ
  beta : ℝ
  small1 : ℝ
  large1 : ℝ
  small2 : ℝ
  large2 : ℝ

namespace Window

open Classical in
/-- Constructor, U_matrix.h 528-542. -/
noncomputable def create (ts w beta : ℝ) : Res Window := do
  Res.assert (w ≤ beta)
  if ts + w ≤ beta then pure ⟨ts, w, beta, ts, ts + w, ts, ts + w⟩
  else pure ⟨ts, w, beta, ts, beta, 0, w + ts - beta⟩

/-- `operator()`, U_matrix.h 544-547. -/
def accepts (x : Window) (v : Vert) : Prop :=
  v.isDensity = false ∧ (x.small1 ≤ v.time ∧ v.time ≤ x.large1 ∨ x.small2 ≤ v.time ∧ v.time ≤ x.large2)

open Classical in
/-- `random_time`, U_matrix.h 549-556. -/
noncomputable def randomTime (x : Window) (r beta : ℝ) : Res ℝ := do
  Res.assert (0 ≤ r ∧ r ≤ 1)
  Res.assert (x.beta = beta)
  Res.assert (0 < x.w)
  let t := r * x.w + x.ts
  pure (if t > x.beta then t - x.beta else t)

end Window

/-- The loop of `pick_up_valid_vertex_pair2` that collects candidates, U_matrix.h 740-752: positions of the interacting
    vertices of the first type, and those of the second type among the others. -/
noncomputable def pairCandidates (vs : List Vert) (t1 t2 : ℕ) : List ℕ × List ℕ :=
  (List.range vs.length).foldl (fun (x : List ℕ × List ℕ) i =>
    let v := vs.getD i default
    if v.nonInt then x
    else if v.type = t1 then (x.1 ++ [i], x.2)
    else if v.type = t2 then (x.1, x.2 ++ [i])
    else x) ([], [])

/-- What `pick_up_valid_vertex_pair2` returns: the pair of positions, or `none` for `(-1,-1)`, and the weights. -/
structure PairPick where
  pair : Option (ℕ × ℕ)
  n : ℕ
  prob : List ℝ
  /-- The normalisation `F`; unset if there is no pair. -/
  F : Option ℝ

/-- `pick_up_valid_vertex_pair2`, U_matrix.h 730-776.  `draw` is `boost::random::discrete_distribution` applied to the
    generator: from a list of weights to an index. -/
noncomputable def pickPair (d : PairDist) (beta : ℝ) (draw : List ℝ → ℕ) (vs : List Vert) (t1 t2 : ℕ) : Res PairPick := do
  let (p1, p2) := pairCandidates vs t1 t2
  if p1.length * p2.length = 0 then pure ⟨none, 0, [], none⟩
  else do
    let prob := p1.flatMap fun i => p2.map fun j => d.bare (mymod ((vs.getD j default).time - (vs.getD i default).time) beta)
    let idx := draw prob
    let i ← Res.get p1 (idx / p2.length)
    let j ← Res.get p2 (idx % p2.length)
    pure ⟨some (i, j), p1.length * p2.length, prob, some prob.sum⟩

end CTInt
