import Verif.Model.Quantum
import Verif.Model.UMatrix
import Verif.Model.PairGen

/-!
# Model of the pairs of types given by the user (src/update_manager.hpp 203-220)
-/

set_option linter.all false

namespace CTInt

/-- The body of the loop, update_manager.hpp 211-218: `N` is `N_vdef`. -/
def takePair (N : ℕ) (v1 v2 : ℤ) (st : List (ℕ × ℕ) × (ℕ → ℕ → Bool)) : Res (List (ℕ × ℕ) × (ℕ → ℕ → Bool)) := do
  Res.throwIf (v1 ≥ N ∨ v2 ≥ N ∨ v1 < 0 ∨ v2 < 0) .runtimeError
  if st.2 v1.toNat v2.toNat = true then pure st
  else pure (st.1 ++ [(v1.toNat, v2.toNat)], fun x y =>
    if (x = v1.toNat ∧ y = v2.toNat) ∨ (x = v2.toNat ∧ y = v1.toNat) then true else st.2 x y)

/-- The loop `while (ss >> v1)`, update_manager.hpp 209-219, over the words of the text: `old` is the value of `v2`, unset before
    the first number was read into it.  At the end of the text `ss >> v2` leaves `v2` as it is; a word that is no number stores 0 and
    makes the stream fail.  Simplification: numbers that do not fit an `int` are not treated. -/
def readPairs (N : ℕ) : List Tok → Option ℤ → List (ℕ × ℕ) × (ℕ → ℕ → Bool) → Res (List (ℕ × ℕ) × (ℕ → ℕ → Bool))
  | .int v1 :: .int v2 :: l, _, st => do
    let st ← takePair N v1 v2 st
    readPairs N l (some v2) st
  | .int v1 :: _ :: _, _, st => takePair N v1 0 st
  | [.int v1], some v2, st => takePair N v1 v2 st
  | [.int _], none, _ => .ub
  | _, _, st => pure st

/-- `find_valid_pair_multi_vertex_update` and the pairs of the user, update_manager.hpp 203-220. -/
def allPairs (flag0 : ℕ → ℕ → Bool) (qn : List (List (List ℤ))) (text : Option (List Tok)) :
    Res (List (ℕ × ℕ) × (ℕ → ℕ → Bool)) := do
  let st ← findValidPairs flag0 qn
  match text with
  | none => pure st
  | some l => readPairs qn.length l none st

end CTInt
