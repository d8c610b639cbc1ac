import Verif.Spec.Config
import Mathlib.Analysis.RCLike.Basic

/-!
# Specification: global moves
-/

set_option linter.all false

namespace CTInt

/-- The configuration with the type `t` of every vertex replaced by `g t`. -/
def relabel (g : ℕ → ℕ) (vs : List Vert) : List Vert := vs.map fun v => { v with type := g v.type }

/-- `h` undoes `g` on {0,...,n-1}, from both sides. -/
def Undoes (n : ℕ) (g h : List ℕ) : Prop := ∀ t < n, h.getD (g.getD t 0) 0 = t ∧ g.getD (h.getD t 0) 0 = t

/-- A move of a file that is a permutation: line `iv` reads `iv g(iv)`, with `g` a permutation of {0,...,n-1}. -/
structure PermFile (n : ℕ) (lines : List (ℤ × ℤ)) (g : List ℕ) : Prop where
  len : g.length = n
  lt : ∀ t < n, g.getD t 0 < n
  inj : g.Nodup
  lines : ∀ t < n, lines[t]? = some ((t : ℤ), (g.getD t 0 : ℤ))

/-- The configurations `vs 0, vs 1, ...` met when the moves are tried one after the other: the `i`-th is taken exactly if its own
    random number `r i` is below the modulus of the ratio of the weights, and otherwise nothing changes. -/
structure TriedInTurn {K : Type} [RCLike K] (W : List Vert → K) (moves : List (List ℕ)) (r : ℕ → ℝ) (vs : ℕ → List Vert) : Prop where
  taken : ∀ i (h : i < moves.length), r i < ‖W (relabel (fun t => moves[i].getD t 0) (vs i)) / W (vs i)‖ →
    vs (i + 1) = relabel (fun t => moves[i].getD t 0) (vs i)
  left : ∀ i (h : i < moves.length), ¬ r i < ‖W (relabel (fun t => moves[i].getD t 0) (vs i)) / W (vs i)‖ → vs (i + 1) = vs i

end CTInt
