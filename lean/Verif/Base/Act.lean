import Verif.Base.Res

/-!
# Member functions that may throw

`Act σ α`: a call on an object with members `σ`.  Unlike `Res` alone it also gives the members at the moment an
exception leaves the call.
-/

set_option linter.all false

namespace CTInt

/-- A call on an object. -/
def Act (σ α : Type) : Type := σ → Res α × σ

namespace Act

variable {σ α β : Type}

/-- Sequencing. -/
def bind (m : Act σ α) (f : α → Act σ β) : Act σ β := fun s =>
  match m s with
  | (.ok a, s') => f a s'
  | (.throw e, s') => (.throw e, s')
  | (.ub, s') => (.ub, s')

instance : Monad (Act σ) where
  pure a := fun s => (.ok a, s)
  bind := bind

/-- Read the members. -/
def get : Act σ σ := fun s => (.ok s, s)
/-- Change the members. -/
def modify (f : σ → σ) : Act σ Unit := fun s => (.ok (), f s)
/-- A computation that does not touch the members. -/
def lift (r : Res α) : Act σ α := fun s => (r, s)
/-- `if (p) throw e`. -/
def throwIf (p : Prop) [Decidable p] (e : Exn) : Act σ Unit := lift (Res.throwIf p e)
/-- `assert(p)`. -/
def assert (p : Prop) [Decidable p] : Act σ Unit := lift (Res.assert p)
/-- A `for` loop with an accumulator. -/
def fold (f : β → α → Act σ β) : β → List α → Act σ β
  | b, [] => pure b
  | b, a :: l => f b a >>= fun b' => fold f b' l

theorem run_bind (m : Act σ α) (f : α → Act σ β) (s : σ) : (m >>= f) s =
    match m s with
    | (.ok a, s') => f a s'
    | (.throw e, s') => (.throw e, s')
    | (.ub, s') => (.ub, s') := rfl

theorem bind_ok {m : Act σ α} {f : α → Act σ β} {s s' : σ} {a : α} (h : m s = (.ok a, s')) : (m >>= f) s = f a s' := by
  rw [run_bind, h]

theorem bind_throw {m : Act σ α} {f : α → Act σ β} {s s' : σ} {e : Exn} (h : m s = (.throw e, s')) :
    (m >>= f) s = (.throw e, s') := by
  rw [run_bind, h]

@[simp] theorem run_pure (a : α) (s : σ) : (pure a : Act σ α) s = (.ok a, s) := rfl
@[simp] theorem run_get (s : σ) : (get : Act σ σ) s = (.ok s, s) := rfl
@[simp] theorem run_modify (f : σ → σ) (s : σ) : modify f s = (.ok (), f s) := rfl
@[simp] theorem run_lift (r : Res α) (s : σ) : lift r s = (r, s) := rfl
@[simp] theorem get_bind (f : σ → Act σ β) (s : σ) : (get >>= f) s = f s s := rfl
@[simp] theorem modify_bind (g : σ → σ) (f : Unit → Act σ β) (s : σ) : (modify g >>= f) s = f () (g s) := rfl
@[simp] theorem pure_bind' (a : α) (f : α → Act σ β) : ((pure a : Act σ α) >>= f) = f a := rfl
@[simp] theorem lift_ok_bind (a : α) (f : α → Act σ β) (s : σ) : (lift (.ok a) >>= f) s = f a s := rfl
@[simp] theorem lift_throw_bind (e : Exn) (f : α → Act σ β) (s : σ) : (lift (.throw e) >>= f) s = (.throw e, s) := rfl
@[simp] theorem lift_ub_bind (f : α → Act σ β) (s : σ) : (lift (.ub) >>= f) s = (.ub, s) := rfl
@[simp] theorem fold_nil (f : β → α → Act σ β) (b : β) : fold f b [] = pure b := rfl
theorem fold_cons (f : β → α → Act σ β) (b : β) (a : α) (l : List α) :
    fold f b (a :: l) = (f b a >>= fun b' => fold f b' l) := rfl

theorem throwIf_neg {p : Prop} [Decidable p] (h : ¬ p) (e : Exn) (f : Unit → Act σ β) (s : σ) :
    (throwIf p e >>= f) s = f () s := by
  unfold throwIf; rw [Res.throwIf_false h]; rfl

theorem throwIf_pos {p : Prop} [Decidable p] (h : p) (e : Exn) (f : Unit → Act σ β) (s : σ) :
    (throwIf p e >>= f) s = (.throw e, s) := by
  unfold throwIf; rw [Res.throwIf_true h]; rfl

theorem assert_pos {p : Prop} [Decidable p] (h : p) (f : Unit → Act σ β) (s : σ) :
    (assert p >>= f) s = f () s := by
  unfold assert; rw [Res.assert_true h]; rfl

end Act
end CTInt
