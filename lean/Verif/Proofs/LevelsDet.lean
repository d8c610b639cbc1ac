import Mathlib.LinearAlgebra.Matrix.Block
import Mathlib.LinearAlgebra.Matrix.Determinant.Basic
import Mathlib.Analysis.SpecialFunctions.Exp
import Mathlib.Tactic.LinearCombination

/-!
# The determinant for one level

Off the diagonal the matrix has one value for pairs in order and one for pairs out of order.
-/

set_option linter.all false

namespace CTInt

variable {ι : Type} [Fintype ι] [DecidableEq ι]

/-- Adding a constant to all entries changes the determinant by a multiple of the constant. -/
theorem det_affine (A : Matrix ι ι ℝ) : ∃ m : ℝ, ∀ t : ℝ, (A + Matrix.of fun _ _ => t).det = A.det + t * m := by
  rcases isEmpty_or_nonempty ι with h | ⟨⟨k⟩⟩
  · exact ⟨0, fun t => by rw [Matrix.det_isEmpty, Matrix.det_isEmpty]; ring⟩
  set B : Matrix ι ι ℝ := Matrix.of fun i j => A i j - A k j with hB
  have key : ∀ t : ℝ, (A + Matrix.of fun _ _ => t).det = (B.updateRow k fun j => A k j + t).det := by
    intro t
    refine Matrix.det_eq_of_forall_row_eq_smul_add_const (fun i => if i = k then 0 else 1) k (if_pos rfl) fun i j => ?_
    rw [Matrix.add_apply, Matrix.of_apply, Matrix.updateRow_self]
    by_cases hi : i = k
    · subst hi
      rw [Matrix.updateRow_self, if_pos rfl]
      ring
    · rw [Matrix.updateRow_ne hi, if_neg hi, hB, Matrix.of_apply]
      ring
  refine ⟨(B.updateRow k fun _ => 1).det, fun t => ?_⟩
  have e0 : A.det = (B.updateRow k fun j => A k j).det := by
    have := key 0
    rw [show (A + Matrix.of fun _ _ => (0 : ℝ)) = A by ext i j; simp] at this
    rw [this]
    simp only [add_zero]
  rw [key t, show (fun j => A k j + t) = (fun j => A k j) + t • fun _ => (1 : ℝ) by funext j; simp, Matrix.det_updateRow_add,
    Matrix.det_updateRow_smul, ← e0]

/-- Values `x` for pairs in order, `y` for pairs out of order. -/
theorem det_ordered_values {τ : ι → ℝ} (hτ : Function.Injective τ) (d : ι → ℝ) (x y : ℝ) :
    (y - x) * (Matrix.of fun i j => if i = j then d i else if τ i < τ j then x else y).det = y * ∏ i, (d i - x) - x * ∏ i, (d i - y) := by
  letI : LinearOrder ι := LinearOrder.lift' τ hτ
  have hlt : ∀ i j : ι, i < j ↔ τ i < τ j := fun i j => Iff.rfl
  set A : Matrix ι ι ℝ := Matrix.of fun i j => if i = j then d i else if τ i < τ j then x else y with hA
  obtain ⟨m, hm⟩ := det_affine A
  have h1 : (A + Matrix.of fun _ _ => -x).det = ∏ i, (d i - x) := by
    rw [Matrix.det_of_isLowerTriangular]
    · refine Finset.prod_congr rfl fun i _ => ?_
      rw [Matrix.add_apply, hA, Matrix.of_apply, if_pos rfl]
      rfl
    · intro i j hij
      have hij : i < j := hij
      rw [Matrix.add_apply, hA, Matrix.of_apply, if_neg hij.ne, if_pos ((hlt i j).1 hij), Matrix.of_apply]
      ring
  have h2 : (A + Matrix.of fun _ _ => -y).det = ∏ i, (d i - y) := by
    rw [Matrix.det_of_isUpperTriangular]
    · refine Finset.prod_congr rfl fun i _ => ?_
      rw [Matrix.add_apply, hA, Matrix.of_apply, if_pos rfl]
      rfl
    · intro i j hij
      have hij : j < i := hij
      rw [Matrix.add_apply, hA, Matrix.of_apply, if_neg hij.ne', if_neg (not_lt.2 ((hlt j i).1 hij).le), Matrix.of_apply]
      ring
  rw [hm] at h1 h2
  linear_combination y * h1 - x * h2

/-- Several levels: `p` the occupation of a level, `e` its energy, `b i` the level of operator pair `i`, `τ i` its time, `α i` its
    field.  The determinant is a product over the levels, and for every level the average over occupied and empty. -/
theorem det_levels {n : ℕ} {b : ι → ℕ} (hb : ∀ i, b i < n) {τ : ι → ℝ} (hd : ∀ i j, i ≠ j → b i = b j → τ i ≠ τ j) (α : ι → ℝ) (e p : ℕ → ℝ)
    {A : Matrix ι ι ℝ} (hA : ∀ i j, A i j = if b i = b j then
      Real.exp (-(e (b i) * (τ i - τ j))) * (if i = j then p (b i) - α i else if τ i < τ j then p (b i) else p (b i) - 1) else 0) :
    A.det = ∏ s ∈ Finset.range n, (p s * ∏ i with b i = s, (1 - α i) + (1 - p s) * ∏ i with b i = s, (0 - α i)) := by
  set C : Matrix ι ι ℝ := Matrix.of fun i j => if b i = b j then
    (if i = j then p (b i) - α i else if τ i < τ j then p (b i) else p (b i) - 1) else 0 with hC
  have h1 : A = Matrix.diagonal (fun i => Real.exp (-(e (b i) * τ i))) * C * Matrix.diagonal (fun i => Real.exp (e (b i) * τ i)) := by
    ext i j
    rw [Matrix.mul_diagonal, Matrix.diagonal_mul, hA, hC, Matrix.of_apply]
    by_cases hij : b i = b j
    · rw [if_pos hij, if_pos hij, ← hij, show -(e (b i) * (τ i - τ j)) = -(e (b i) * τ i) + e (b i) * τ j by ring, Real.exp_add]
      ring
    · rw [if_neg hij, if_neg hij]
      ring
  have h2 : A.det = C.det := by
    rw [h1, Matrix.det_mul, Matrix.det_mul, Matrix.det_diagonal, Matrix.det_diagonal, mul_right_comm, ← Finset.prod_mul_distrib]
    simp only [← Real.exp_add, neg_add_cancel, Real.exp_zero, Finset.prod_const_one, one_mul]
  have h3 : Matrix.BlockTriangular C b := by
    intro i j hij
    rw [hC, Matrix.of_apply, if_neg hij.ne']
  rw [h2, h3.det, Finset.prod_subset (s₂ := Finset.range n)]
  · refine Finset.prod_congr rfl fun s _ => ?_
    have h4 : C.toSquareBlock b s = Matrix.of fun i j : {i // b i = s} => if i = j then p s - α i.val else if τ i.val < τ j.val then p s else p s - 1 := by
      ext i j
      rw [Matrix.toSquareBlock_def, Matrix.of_apply, Matrix.of_apply, hC, Matrix.of_apply, if_pos (i.2.trans j.2.symm), i.2]
      simp only [Subtype.ext_iff]
    have h5 := det_ordered_values (τ := fun i : {i // b i = s} => τ i.val)
      (fun i j hij => by
        by_contra hc
        exact hd i.val j.val (fun h => hc (Subtype.ext h)) (i.2.trans j.2.symm) hij) (fun i => p s - α i.val) (p s) (p s - 1)
    rw [h4]
    have q1 : ∀ g : ι → ℝ, ∏ i : {i // b i = s}, g i.val = ∏ i with b i = s, g i := by
      intro g
      rw [Finset.prod_subtype (s := Finset.univ.filter fun i => b i = s) (p := fun i => b i = s) (fun i => by simp)]
    have q2 : ∏ i : {i // b i = s}, (p s - α i.val - p s) = ∏ i with b i = s, (0 - α i) := by
      rw [← q1 fun i => 0 - α i]
      exact Finset.prod_congr rfl fun i _ => by ring
    have q3 : ∏ i : {i // b i = s}, (p s - α i.val - (p s - 1)) = ∏ i with b i = s, (1 - α i) := by
      rw [← q1 fun i => 1 - α i]
      exact Finset.prod_congr rfl fun i _ => by ring
    rw [q2, q3] at h5
    linear_combination -h5
  · intro s hs
    obtain ⟨i, -, rfl⟩ := Finset.mem_image.1 hs
    exact Finset.mem_range.2 (hb i)
  · intro s _ hs
    have : IsEmpty { i // b i = s } := ⟨fun i => hs (Finset.mem_image.2 ⟨i.val, Finset.mem_univ _, i.2⟩)⟩
    exact Matrix.det_isEmpty

end CTInt
