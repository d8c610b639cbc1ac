/-!
# Outcomes of modelled C++ calls

`ok a`    : the call returns normally,
`throw e` : a C++ exception of class `e` leaves the call,
`ub`      : undefined behaviour (out-of-bounds access, use of an unset value, a failing `assert`
            which is compiled out under NDEBUG and then runs into undefined behaviour).
-/

namespace CTInt

/-- C++ exception classes thrown by the modelled code. -/
inductive Exn where
  | runtimeError
  | logicError
  | invalidArgument
  | outOfRange
  deriving DecidableEq, Repr

/-- Outcome of a modelled call. -/
inductive Res (α : Type) where
  | ok (a : α)
  | throw (e : Exn)
  | ub
  deriving Repr

namespace Res

/-- Sequencing: a call that throws or is undefined stops the rest. -/
def bind {α β : Type} (x : Res α) (f : α → Res β) : Res β :=
  match x with
  | ok a => f a
  | throw e => throw e
  | ub => ub

instance : Monad Res where
  pure := ok
  bind := bind

/-- `assert(p)`. -/
def assert (p : Prop) [Decidable p] : Res Unit := if p then ok () else ub

/-- `if (p) throw e`. -/
def throwIf (p : Prop) [Decidable p] (e : Exn) : Res Unit := if p then throw e else ok ()

@[simp] theorem bind_ok {α β : Type} (a : α) (f : α → Res β) : (ok a >>= f) = f a := rfl
@[simp] theorem bind_throw {α β : Type} (e : Exn) (f : α → Res β) :
    ((throw e : Res α) >>= f) = throw e := rfl
@[simp] theorem bind_ub {α β : Type} (f : α → Res β) : ((ub : Res α) >>= f) = ub := rfl
@[simp] theorem pure_eq {α : Type} (a : α) : (pure a : Res α) = ok a := rfl
@[simp] theorem assert_true {p : Prop} [Decidable p] (h : p) : assert p = ok () := by
  simp [assert, h]
@[simp] theorem assert_false {p : Prop} [Decidable p] (h : ¬ p) : assert p = ub := by
  simp [assert, h]
@[simp] theorem throwIf_false {p : Prop} [Decidable p] (h : ¬ p) (e : Exn) :
    throwIf p e = ok () := by simp [throwIf, h]
@[simp] theorem throwIf_true {p : Prop} [Decidable p] (h : p) (e : Exn) :
    throwIf p e = throw e := by simp [throwIf, h]

theorem bind_eq_ok {α β : Type} {x : Res α} {f : α → Res β} {b : β} :
    (x >>= f) = ok b ↔ ∃ a, x = ok a ∧ f a = ok b := by
  cases x with
  | ok a => simp
  | throw e => simp
  | ub => simp

theorem assert_eq_ok {p : Prop} [Decidable p] {u : Unit} : assert p = ok u ↔ p := by
  unfold assert; split <;> simp_all

theorem throwIf_eq_ok {p : Prop} [Decidable p] {e : Exn} {u : Unit} :
    throwIf p e = ok u ↔ ¬ p := by
  unfold throwIf; split <;> simp_all

/-- `v[i]` on a `std::vector`: out of range is undefined. -/
def get {α : Type} (l : List α) (i : Nat) : Res α :=
  match l[i]? with
  | some a => ok a
  | none => ub

theorem get_eq_ok {α : Type} {l : List α} {i : Nat} {a : α} : get l i = ok a ↔ l[i]? = some a := by
  unfold get; cases l[i]? <;> simp

theorem get_of_lt {α : Type} {l : List α} {i : Nat} (h : i < l.length) : get l i = ok l[i] := by
  unfold get; simp [h]

theorem get_of_le {α : Type} {l : List α} {i : Nat} (h : l.length ≤ i) : get l i = ub := by
  unfold get; simp [h]

/-- A `for` loop over the elements of a list that may throw or be undefined. -/
def foldl {α β : Type} (f : β → α → Res β) : β → List α → Res β
  | b, [] => ok b
  | b, a :: l => f b a >>= fun b' => foldl f b' l

@[simp] theorem foldl_nil {α β : Type} (f : β → α → Res β) (b : β) : foldl f b [] = ok b := rfl
@[simp] theorem foldl_cons {α β : Type} (f : β → α → Res β) (b : β) (a : α) (l : List α) :
    foldl f b (a :: l) = f b a >>= fun b' => foldl f b' l := rfl

theorem foldl_append {α β : Type} (f : β → α → Res β) (b : β) (l l' : List α) :
    foldl f b (l ++ l') = foldl f b l >>= fun b' => foldl f b' l' := by
  induction l generalizing b with
  | nil => rfl
  | cons a l ih =>
    simp only [List.cons_append, foldl_cons]
    cases h : f b a with
    | ok x => simp [ih]
    | throw e => rfl
    | ub => rfl

/-- Loop over a list collecting results. -/
def mapM {α β : Type} (f : α → Res β) : List α → Res (List β)
  | [] => ok []
  | a :: l => f a >>= fun b => mapM f l >>= fun bs => ok (b :: bs)

@[simp] theorem mapM_nil {α β : Type} (f : α → Res β) : mapM f [] = ok [] := rfl
@[simp] theorem mapM_cons {α β : Type} (f : α → Res β) (a : α) (l : List α) :
    mapM f (a :: l) = f a >>= fun b => mapM f l >>= fun bs => ok (b :: bs) := rfl

/-- A loop all of whose steps succeed. -/
theorem mapM_ok {α β : Type} {f : α → Res β} {g : α → β} {l : List α} (h : ∀ a ∈ l, f a = ok (g a)) :
    mapM f l = ok (l.map g) := by
  induction l with
  | nil => rfl
  | cons a l ih =>
    rw [mapM_cons, h a (by simp), ih fun b hb => h b (by simp [hb])]
    rfl

end Res
end CTInt
