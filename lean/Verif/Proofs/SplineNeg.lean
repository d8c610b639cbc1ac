import Verif.Props.Spline

/-!
# The spline depends linearly on the values: a change of sign
-/

set_option linter.all false

namespace CTInt

namespace Res

/-- Apply a function to a good outcome. -/
def map {α β : Type} (φ : α → β) : Res α → Res β
  | .ok a => .ok (φ a)
  | .throw e => .throw e
  | .ub => .ub

theorem foldl_map {α β γ : Type} (φ : β → γ) {f : β → α → Res β} {g : γ → α → Res γ}
    (h : ∀ s a, g (φ s) a = Res.map φ (f s a)) (s : β) (l : List α) :
    foldl g (φ s) l = Res.map φ (foldl f s l) := by
  induction l generalizing s with
  | nil => rfl
  | cons a l ih =>
    rw [foldl_cons, foldl_cons, h]
    cases f s a with
    | ok s' => exact ih s'
    | throw e => rfl
    | ub => rfl

theorem bind_map {α β γ δ : Type} (φ : β → δ) (ψ : α → γ) (x : Res α) (f : α → Res β) (g : γ → Res δ)
    (h : ∀ a, g (ψ a) = Res.map φ (f a)) : (Res.map ψ x >>= g) = Res.map φ (x >>= f) := by
  cases x with
  | ok a => exact h a
  | throw e => rfl
  | ub => rfl

theorem bind_same {α β δ : Type} (φ : β → δ) (x : Res α) (f : α → Res β) (g : α → Res δ)
    (h : ∀ a, g a = Res.map φ (f a)) : (x >>= g) = Res.map φ (x >>= f) := by
  cases x with
  | ok a => exact h a
  | throw e => rfl
  | ub => rfl

end Res

namespace Band

theorem sum_neg (A : Band) (x : ℕ → ℝ) (i : ℕ) (l : List ℕ) :
    Res.foldl (fun s j => do let a ← A.entry i j; pure (s + a * (-x) j)) 0 l =
      Res.map (fun s : ℝ => -s) (Res.foldl (fun s j => do let a ← A.entry i j; pure (s + a * x j)) 0 l) := by
  have := Res.foldl_map (fun s : ℝ => -s) (f := fun s j => do let a ← A.entry i j; pure (s + a * x j))
    (g := fun s j => do let a ← A.entry i j; pure (s + a * (-x) j)) ?_ 0 l
  · simpa using this
  · intro s j
    refine Res.bind_same _ _ _ _ fun a => ?_
    show Res.ok _ = Res.ok _
    congr 1
    simp; ring

theorem update_neg (x : ℕ → ℝ) (i : ℕ) (v : ℝ) : Function.update (-x) i (-v) = - Function.update x i v := by
  funext j
  by_cases h : j = i
  · subst h; simp
  · simp [h]

theorem lSolve_neg (A : Band) (b : ℕ → ℝ) : A.lSolve (-b) = Res.map (fun x => -x) (A.lSolve b) := by
  unfold lSolve
  have := Res.foldl_map (fun x : ℕ → ℝ => -x) (f := fun x i => do
      let sum ← Res.foldl (fun s j => do let a ← A.entry i j; pure (s + a * x j)) 0
        (List.range' (i - A.nl) (i - (i - A.nl)))
      let d ← A.saved i
      pure (Function.update x i (b i * d - sum))) (g := fun x i => do
      let sum ← Res.foldl (fun s j => do let a ← A.entry i j; pure (s + a * x j)) 0
        (List.range' (i - A.nl) (i - (i - A.nl)))
      let d ← A.saved i
      pure (Function.update x i ((-b) i * d - sum))) ?_ (fun _ => 0) (List.range A.dim)
  · simpa [Pi.neg_def] using this
  · intro x i
    rw [sum_neg]
    refine Res.bind_map _ _ _ _ _ fun s => ?_
    refine Res.bind_same _ _ _ _ fun d => ?_
    show Res.ok _ = Res.ok _
    congr 1
    show _ = -_
    rw [← update_neg]
    congr 1
    simp; ring

theorem rSolve_neg (A : Band) (b : ℕ → ℝ) : A.rSolve (-b) = Res.map (fun x => -x) (A.rSolve b) := by
  unfold rSolve
  have := Res.foldl_map (fun x : ℕ → ℝ => -x) (f := fun x i => do
      let sum ← Res.foldl (fun s j => do let a ← A.entry i j; pure (s + a * x j)) 0
        (List.range' (i + 1) (min (A.dim - 1) (i + A.nu) - i))
      let d ← A.entry i i
      pure (Function.update x i ((b i - sum) / d))) (g := fun x i => do
      let sum ← Res.foldl (fun s j => do let a ← A.entry i j; pure (s + a * x j)) 0
        (List.range' (i + 1) (min (A.dim - 1) (i + A.nu) - i))
      let d ← A.entry i i
      pure (Function.update x i (((-b) i - sum) / d))) ?_ (fun _ => 0) (List.range A.dim).reverse
  · simpa [Pi.neg_def] using this
  · intro x i
    rw [sum_neg]
    refine Res.bind_map _ _ _ _ _ fun s => ?_
    refine Res.bind_same _ _ _ _ fun d => ?_
    show Res.ok _ = Res.ok _
    congr 1
    show _ = -_
    rw [← update_neg]
    congr 1
    simp; ring

theorem luSolve_neg (A : Band) (b : ℕ → ℝ) : A.luSolve (-b) = Res.map (fun x => -x) (A.luSolve b) := by
  unfold luSolve
  refine Res.bind_same _ _ _ _ fun A' => ?_
  rw [lSolve_neg]
  refine Res.bind_map _ _ _ _ _ fun y => ?_
  exact rSolve_neg A' y

end Band

namespace Spline

/-- The spline with all values negated. -/
def neg (s : Spline) : Spline := ⟨s.n, s.x, -s.y, -s.a, -s.b, -s.c, -s.b0, -s.c0⟩

theorem setPoints_neg (xs ys : List ℝ) :
    setPoints .default xs (ys.map fun y => -y) true = Res.map neg (setPoints .default xs ys true) := by
  have hy : (fun i => (ys.map fun y => -y).getD i 0) = -(fun i => ys.getD i 0) := by
    funext i
    simp only [List.getD, List.getElem?_map, Pi.neg_apply]
    cases ys[i]? <;> simp
  have hy' : ∀ i, (ys.map fun y => -y).getD i 0 = -(ys.getD i 0) := fun i => congrFun hy i
  have hr : ∀ n x y, rhs .default n x (-y) = - rhs .default n x y := by
    intro n x y
    funext i
    simp only [rhs, SplineOpts.default, Pi.neg_apply]
    split
    · simp
    · split
      · simp
      · ring
  unfold setPoints
  simp only [hy, List.length_map]
  refine Res.bind_same _ _ _ _ fun _ => ?_
  refine Res.bind_same _ _ _ _ fun _ => ?_
  refine Res.bind_same _ _ _ _ fun _ => ?_
  simp only [if_true]
  refine Res.bind_same _ _ _ _ fun A => ?_
  rw [hr, Band.luSolve_neg]
  refine Res.bind_map _ _ _ _ _ fun b => ?_
  show Res.ok _ = Res.ok _
  congr 1
  simp only [neg, SplineOpts.default, Pi.neg_apply, hy']
  congr 1
  · rw [← Band.update_neg, neg_zero]; congr 1; funext i; simp; ring
  · rw [← Band.update_neg]; congr 1
    · funext i; simp; ring
    · ring
  · ring

theorem value_neg (s : Spline) (t : ℝ) : value s.neg t = - value s t := by
  have hl : s.neg.lowerBound t = s.lowerBound t := rfl
  unfold value
  simp only [hl]
  simp only [neg, Pi.neg_apply]
  by_cases h : t < s.x 0
  · simp only [h, if_true]; ring
  · simp only [h, if_false]
    by_cases h' : t > s.x (s.n - 1)
    · simp only [h', if_true]; ring
    · simp only [h', if_false]; ring

end Spline
end CTInt
