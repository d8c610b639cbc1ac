import Verif.Model.Clustering
import Verif.Model.Green
import Verif.Base.Types

/-!
# Model of `make_quantum_numbers` (src/green_function.h) and `find_valid_pair_multi_vertex_update` (src/U_matrix.h)

The constructor of the update manager calls both when more than one vertex is inserted at a time (update_manager.hpp 191-203;
the number is fixed to 1 there).
-/

set_option linter.all false

namespace CTInt

open Classical in
/-- `is_zero(flavor, site1, site2, eps)`, green_function.h 236-239; the second operand of `&&` is only evaluated if the first
    holds. -/
noncomputable def Green.isZero {K : Type} [RCLike K] (g : Green K) (f s1 s2 : ℕ) (eps : ℝ) : Res Bool := do
  let a ← g.interpolate f s1 s2 (g.beta * 1e-5)
  if ‖a‖ < eps then do
    let b ← g.interpolate f s1 s2 (g.beta * (1 - 1e-5))
    pure (decide (‖b‖ < eps))
  else pure false

/-- The table `connected` of one flavor, green_function.h 327-331.  `zero a b c` is `gf.is_zero(a, b, c, eps)`; it is called
    with the sites first and the flavor last. -/
def connectedTable (zero : ℕ → ℕ → ℕ → Res Bool) (ns flavor : ℕ) : Res (List (List Bool)) :=
  Res.mapM (fun site1 => Res.mapM (fun site2 => do
    let z ← zero site1 site2 flavor
    pure (!z)) (List.range ns)) (List.range ns)

/-- `*std::max_element(...)`, green_function.h 337: the end of an empty list is not an element. -/
def maxElement : List ℕ → Res ℕ
  | [] => .ub
  | x :: l => .ok (l.foldl max x)

/-- What `make_quantum_numbers` computes: `n_dim`, `groups` and `group_map` of each flavor, and the quantum numbers of each
    vertex type and auxiliary-field state. -/
structure Quantum where
  dim : ℕ
  groups : List Groups
  qn : List (List (List ℤ))

open Classical in
/-- The contribution of one operator pair, green_function.h 348-367. -/
noncomputable def qnPair {K : Type} [RCLike K] (dim : ℕ) (gs : List Groups) (d : VDef K) (af : ℕ) (q : List ℤ) (r : ℕ) :
    Res (List ℤ) := do
  let flavor ← Res.get d.flavors r
  let site1 ← Res.get d.sites (2 * r)
  let site2 ← Res.get d.sites (2 * r + 1)
  let ph : ℤ := if site1 = site2 then (if ‖d.alpha af r‖ < ‖d.alpha af r - 1‖ then 1 else -1) else 1
  let g ← Res.get gs flavor
  let a ← Res.get g.map site1
  Res.assert (dim * flavor + a < q.length)
  let q := q.modify (dim * flavor + a) (· + ph)
  let b ← Res.get g.map site2
  Res.assert (dim * flavor + b < q.length)
  pure (q.modify (dim * flavor + b) (· - ph))

/-- `make_quantum_numbers`, green_function.h 310-373. -/
noncomputable def makeQuantumNumbers {K : Type} [RCLike K] (zero : ℕ → ℕ → ℕ → Res Bool) (ns nf : ℕ) (tbl : List (VDef K)) :
    Res Quantum := do
  let gs ← Res.mapM (fun flavor => do
    let t ← connectedTable zero ns flavor
    pure (makeGroups ns fun i j => (t.getD i []).getD j false)) (List.range nf)
  let dim ← maxElement (gs.map fun g => g.groups.length)
  let qn ← Res.mapM (fun d => Res.mapM (fun af =>
    Res.foldl (qnPair dim gs d af) (List.replicate (dim * nf) 0) (List.range d.rank)) (List.range d.numAf)) tbl
  pure ⟨dim, gs, qn⟩

/-- `is_all_zero`, util.h 211-223. -/
def allZero (q : List ℤ) : Bool := q.all fun x => decide (x = 0)

/-- The body of the two loops of `find_valid_pair_multi_vertex_update`, U_matrix.h 829-835. -/
def pairTurn (qn : List (List (List ℤ))) (v1 : ℕ) (a : List ℤ) (st : List (ℕ × ℕ) × (ℕ → ℕ → Bool)) (v2 : ℕ) :
    Res (List (ℕ × ℕ) × (ℕ → ℕ → Bool)) := do
  let q ← Res.get qn v2
  let b ← Res.get q 0
  if allZero b then pure st else do
    Res.assert (a.length = b.length)
    let flag := allZero (List.zipWith (· + ·) a b)
    pure (if v1 < v2 ∧ flag = true then st.1 ++ [(v1, v2)] else st.1,
      fun x y => if x = v1 ∧ y = v2 then flag else st.2 x y)

/-- `find_valid_pair_multi_vertex_update`, U_matrix.h 818-840: the pairs and the flags; `flag0` is what the table of flags
    holds before. -/
def findValidPairs (flag0 : ℕ → ℕ → Bool) (qn : List (List (List ℤ))) : Res (List (ℕ × ℕ) × (ℕ → ℕ → Bool)) := do
  let q ← Res.get qn 0
  let _ ← Res.get q 0
  Res.foldl (fun st v1 => do
    let q ← Res.get qn v1
    let a ← Res.get q 0
    if allZero a then pure st else Res.foldl (pairTurn qn v1 a) st (List.range qn.length)) ([], flag0) (List.range qn.length)

end CTInt
