import Verif.Model.Scratch
import Verif.Model.Manager

/-!
# Model of the global updates (src/update_manager.hpp)
-/

set_option linter.all false

namespace CTInt

variable {K : Type} [RCLike K] [DecidableEq K]

/-- One move of the input file, update_manager.hpp 247-264: the lines `src dst` are checked for the expected first
    column and the range of the second one.  A file that ends early is in `Model/GlobalText.lean`. -/
def readMove (n : ℕ) (lines : List (ℤ × ℤ)) : Res (List ℕ) :=
  Res.foldl (fun l iv => do
    let (src, dst) ← Res.get lines iv
    Res.throwIf (src ≠ iv ∨ dst < 0 ∨ dst ≥ n) .runtimeError
    pure (l ++ [dst.toNat])) [] (List.range n)

/-- The reverse move, update_manager.hpp 268-271: a vector of zeros, then `rev[map[iv]] = iv` for all `iv`. -/
def reverseMove (n : ℕ) (map : List ℕ) : List ℕ :=
  (List.range n).foldl (fun rev iv => rev.set (map.getD iv 0) iv) (List.replicate n 0)

/-- The list of moves, update_manager.hpp 245-274: every move of the file and its reverse, without repetitions.
    The order, which `std::set` makes lexicographic, is in `Model/GlobalText.lean`. -/
def readMoves (n : ℕ) (file : List (List (ℤ × ℤ))) : Res (List (List ℕ)) := do
  let l ← Res.foldl (fun (l : List (List ℕ)) lines => do
    let m ← readMove n lines
    pure (l ++ [m, reverseMove n m])) [] file
  pure l.dedup

/-- `DoTransform::operator()`, update_manager.hpp 823-827, for all vertices (lines 801-804). -/
def transformAll (map : List ℕ) : List Vert → Res (List Vert)
  | [] => .ok []
  | v :: l => do
    let t ← Res.get map v.type
    let r ← transformAll map l
    pure ({ v with type := t } :: r)

open Classical in
/-- `global_update_impl`, update_manager.hpp 797-816: the configuration afterwards and its weight.  A vanishing old weight,
    which makes the quotient infinite or undefined, is a failure of the model. -/
noncomputable def globalImpl (c : Ctx K) (map : List ℕ) (r : ℝ) (x : List Vert × K) : Res (List Vert × K) := do
  let new ← transformAll map x.1
  let w ← computeWeight c new
  Res.assert (x.2 ≠ 0)
  if r < ‖w / x.2‖ then pure (new, w) else pure x

/-- The loop of `global_updates`, update_manager.hpp 844-847. -/
noncomputable def globalLoop (c : Ctx K) (u : ℕ → ℝ) : List (List ℕ) → ℕ → List Vert × K → Res (List Vert × K)
  | [], _, x => .ok x
  | map :: l, p, x => do
    let x ← globalImpl c map (u p) x
    globalLoop c u l (p + 1) x

/-- The solver as far as `global_updates` can see it: the objects in memory and the pointer `submatrix_update` of
    `InteractionExpansion`. -/
structure Solver (K : Type) where
  heap : List (Sub K)
  ptr : ℕ

/-- The object a solver works with. -/
def Solver.walker (x : Solver K) : Option (Sub K) := x.heap[x.ptr]?

/-- `global_updates`, update_manager.hpp 835-856.  The parameter `submatrix` is a `boost::shared_ptr` passed by value:
    `arg` starts as a copy of the caller's pointer, and the final `swap` exchanges the two local pointers.  (The object
    that only local pointers refer to is destroyed at the end; it is kept here.) -/
noncomputable def globalUpdates (c : Ctx K) (moves : List (List ℕ)) (u : ℕ → ℝ) (p : ℕ) (x : Solver K) : Res (Solver K) :=
  if moves.length = 0 then pure x
  else do
    let arg := x.ptr
    let s ← Res.get x.heap arg
    let w ← computeWeight c s.verts
    let (vs, _) ← globalLoop c u moves p (s.verts, w)
    let s' ← Sub.create c vs
    let heap := x.heap ++ [s']
    let walkerNew := x.heap.length
    let (arg, walkerNew) := (walkerNew, arg)
    pure ⟨heap, x.ptr⟩

end CTInt
