import Verif.Base.Res
import Mathlib.Data.Nat.Notation

/-!
# Model of `permutation` and `comb_sort` (include/alps/fastupdate/detail/util.hpp)

Both are `while (true)` loops.  They take a number of iterations `fuel`; `none` means that the loop has not ended
after that many iterations, so "terminates" is "not `none` for some fuel" and "does not return" is "`none` for every
fuel".
-/

set_option linter.all false

namespace CTInt

/-! ## permutation -/

/-- One pass of the inner loop, util.hpp 26-32: compares neighbours from left to right on the current contents.
    `values[i]`, `values[i+1]` are the first two elements of the list; the element that stays at position `i` is final
    for this pass.  Returns the new contents, the factor by which `perm` changes and `exchanged`. -/
def bubblePass {α : Type} (lt : α → α → Bool) : List α → List α × Int × Bool
  | [] => ([], 1, false)
  | [a] => ([a], 1, false)
  | a :: b :: l =>
    if !(lt a b) then
      let r := bubblePass lt (a :: l)
      (b :: r.1, -1 * r.2.1, true)
    else
      let r := bubblePass lt (b :: l)
      (a :: r.1, r.2.1, r.2.2)
termination_by l => l.length

/-- The outer loop, util.hpp 24-34. -/
def bubbleLoop {α : Type} (lt : α → α → Bool) : ℕ → List α → Int → Option Int
  | 0, _, _ => none
  | fuel + 1, l, perm =>
    let r := bubblePass lt l
    if !r.2.2 then some (perm * r.2.1) else bubbleLoop lt fuel r.1 (perm * r.2.1)

/-- `permutation(begin, end)`, util.hpp 14-36. -/
def permutationSign {α : Type} (lt : α → α → Bool) (fuel : ℕ) (l : List α) : Option Int := bubbleLoop lt fuel l 1

/-! ## comb_sort -/

/-- The state of `comb_sort` inside a pass: the contents by position, `count_exchange`, `swapped`. -/
structure Comb (α : Type) where
  v : ℕ → α
  count : ℕ
  swapped : Bool

/-- Exchange two positions. -/
def exchange {α : Type} (v : ℕ → α) (i j : ℕ) : ℕ → α := fun k => if k = i then v j else if k = j then v i else v k

/-- Body of the `for` loop, util.hpp 168-174: `it1` is at `i`, `it2` at `i + gap`. -/
def combStep {α : Type} (cmp : α → α → Bool) (gap : ℕ) (s : Comb α) (i : ℕ) : Comb α :=
  if cmp (s.v (i + gap)) (s.v i) then ⟨exchange s.v i (i + gap), s.count + 1, true⟩ else s

/-- One pass, util.hpp 162-175; `i` runs while `i + gap < N`. -/
def combPass {α : Type} (cmp : α → α → Bool) (N gap : ℕ) (v : ℕ → α) (count : ℕ) : Comb α :=
  (List.range (N - gap)).foldl (combStep cmp gap) ⟨v, count, false⟩

/-- The `while` loop, util.hpp 161-183.  `shrink n` is `static_cast<int>(n/1.3)`.  Line 166 advances an iterator by
    `gap` from the start, undefined beyond the end of the range. -/
def combLoop {α : Type} (shrink : ℕ → ℕ) (cmp : α → α → Bool) (N : ℕ) :
    ℕ → ℕ → (ℕ → α) → ℕ → Option (Res ((ℕ → α) × ℕ))
  | 0, _, _, _ => none
  | fuel + 1, gap, v, count =>
    if ¬ gap ≤ N then some .ub
    else
      let s := combPass cmp N gap v count
      if !s.swapped && gap == 1 then some (.ok (s.v, s.count))
      else combLoop shrink cmp N fuel (max (shrink gap) 1) s.v s.count

/-- `comb_sort(first, end, compare)`, util.hpp 151-186: the sorted contents and the returned sign. -/
def combSort {α : Type} (shrink : ℕ → ℕ) (cmp : α → α → Bool) (fuel : ℕ) (v : ℕ → α) (N : ℕ) :
    Option (Res ((ℕ → α) × Int)) :=
  match combLoop shrink cmp N fuel (shrink N) v 0 with
  | none => none
  | some (.ok (w, c)) => some (.ok (w, if c % 2 = 0 then 1 else -1))
  | some (.throw e) => some (.throw e)
  | some .ub => some .ub

end CTInt
