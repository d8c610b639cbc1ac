import Verif.Base.Res
import Mathlib.Data.Nat.Notation

/-!
# Outcomes of calls that may not end

A call that contains a `while` loop is given `fuel : ℕ` loop iterations; `more` means that they were not enough.
-/

set_option linter.all false

namespace CTInt

/-- Outcome of a call with a limited number of loop iterations. -/
inductive Run (α : Type) where
  | ok (a : α)
  | throw (e : Exn)
  | ub
  | more

namespace Run

/-- Sequencing. -/
def bind {α β : Type} (x : Run α) (f : α → Run β) : Run β :=
  match x with
  | ok a => f a
  | throw e => throw e
  | ub => ub
  | more => more

instance : Monad Run where
  pure := ok
  bind := bind

/-- A call without unbounded loops. -/
def lift {α : Type} : Res α → Run α
  | .ok a => ok a
  | .throw e => throw e
  | .ub => ub

@[simp] theorem bind_ok {α β : Type} (a : α) (f : α → Run β) : (ok a >>= f) = f a := rfl
@[simp] theorem bind_throw {α β : Type} (e : Exn) (f : α → Run β) : ((throw e : Run α) >>= f) = throw e := rfl
@[simp] theorem bind_ub {α β : Type} (f : α → Run β) : ((ub : Run α) >>= f) = ub := rfl
@[simp] theorem bind_more {α β : Type} (f : α → Run β) : ((more : Run α) >>= f) = more := rfl
@[simp] theorem pure_eq {α : Type} (a : α) : (pure a : Run α) = ok a := rfl
@[simp] theorem lift_ok {α : Type} (a : α) : lift (.ok a) = ok a := rfl

theorem bind_eq_ok {α β : Type} {x : Run α} {f : α → Run β} {b : β} :
    (x >>= f) = ok b ↔ ∃ a, x = ok a ∧ f a = ok b := by
  cases x <;> simp

theorem lift_eq_ok {α : Type} {x : Res α} {a : α} : lift x = ok a ↔ x = .ok a := by
  cases x <;> simp [lift]

/-- `assert(p)`. -/
def assert (p : Prop) [Decidable p] : Run Unit := if p then ok () else ub

@[simp] theorem assert_true {p : Prop} [Decidable p] (h : p) : assert p = ok () := by simp [assert, h]

theorem assert_eq_ok {p : Prop} [Decidable p] {x : Unit} : assert p = ok x ↔ p := by
  unfold assert; split <;> simp_all

/-- A loop over a list. -/
def foldl {α β : Type} (f : β → α → Run β) : β → List α → Run β
  | b, [] => ok b
  | b, a :: l => f b a >>= fun b' => foldl f b' l

@[simp] theorem foldl_nil {α β : Type} (f : β → α → Run β) (b : β) : foldl f b [] = ok b := rfl
@[simp] theorem foldl_cons {α β : Type} (f : β → α → Run β) (b : β) (a : α) (l : List α) :
    foldl f b (a :: l) = f b a >>= fun b' => foldl f b' l := rfl

end Run
end CTInt
