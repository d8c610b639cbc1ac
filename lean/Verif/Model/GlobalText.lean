import Verif.Model.Global
import Verif.Model.GreenText
import Mathlib.Data.List.Lex

/-!
# Reading the file of global updates word by word: src/update_manager.hpp

`Model/Global.lean` takes the lines of the file as given.  Here every variable is filled by its own extraction, as in
the code; a variable that has not been given a value yet is `none`, and its use is undefined.
-/

set_option linter.all false

namespace CTInt

/-- `std::set<std::vector<int> >::insert`, update_manager.hpp 245, 265 and 272: vectors are compared lexicographically. -/
def insertMove (g : List ℕ) : List (List ℕ) → List (List ℕ)
  | [] => [g]
  | h :: l => if g < h then g :: h :: l else if h < g then h :: insertMove g l else h :: l

/-- The stream `ss` and the local variables `src` and `dst`, update_manager.hpp 237 and 242. -/
structure MoveVars where
  s : TokS
  src : Option ℤ
  dst : Option ℤ

/-- One pass of the inner loop, update_manager.hpp 249-263. -/
def readLineM (n : ℕ) (st : MoveVars × List ℕ) (iv : ℕ) : Res (MoveVars × List ℕ) := do
  let (src, s) := Tok.into 0 Tok.asInt st.1.s st.1.src
  let (dst, s) := Tok.into 0 Tok.asInt s st.1.dst
  let x ← Res.val src
  let y ← Res.val dst
  Res.throwIf (x ≠ iv ∨ y < 0 ∨ y ≥ n) .runtimeError
  pure (⟨s, src, dst⟩, st.2 ++ [y.toNat])

/-- One pass of the outer loop, update_manager.hpp 247-272: a move and its reverse. -/
def readMoveM (n : ℕ) (st : MoveVars × List (List ℕ)) (_ : ℕ) : Res (MoveVars × List (List ℕ)) := do
  let (v, g) ← Res.foldl (readLineM n) (st.1, []) (List.range n)
  pure (v, insertMove (reverseMove n g) (insertMove g st.2))

/-- The part of the constructor that reads the file, update_manager.hpp 237-274, for `n` vertex types.  `none` is a file
    that cannot be opened: the stream has failed. -/
def readMovesText (n : ℕ) (file : TokS) : Res (List (List ℕ)) := do
  let (num, s) := Tok.into 0 Tok.asInt file none
  let num ← Res.val num
  let (_, moves) ← Res.foldl (readMoveM n) (⟨s, none, none⟩, []) (List.range num.toNat)
  pure moves

end CTInt
