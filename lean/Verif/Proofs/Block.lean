import Verif.Base.DMat

/-!
# Block-matrix identities (helper lemmas)
-/

set_option linter.all false

open Matrix

namespace CTInt

variable {K : Type} [Field K]
variable {m n o : Type} [Fintype m] [Fintype n] [Fintype o] [DecidableEq m] [DecidableEq n] [DecidableEq o]

theorem det_ne_zero_of_mul_eq_one {X A : Matrix n n K} (h : X * A = 1) : A.det ≠ 0 := by
  intro h0
  have := congrArg Matrix.det h
  rw [Matrix.det_mul, h0, mul_zero, Matrix.det_one] at this
  exact zero_ne_one this

theorem det_mul_det_of_mul_eq_one {X A : Matrix n n K} (h : X * A = 1) : X.det * A.det = 1 := by
  have := congrArg Matrix.det h
  rwa [Matrix.det_mul, Matrix.det_one] at this

theorem inv_eq_of_mul_eq_one {X A : Matrix n n K} (h : X * A = 1) : A⁻¹ = X :=
  Matrix.inv_eq_left_inv h

theorem mul_comm_one {X A : Matrix n n K} (h : X * A = 1) : A * X = 1 :=
  mul_eq_one_comm.mp h

/-- Growing: determinant. -/
theorem det_fromBlocks_of_inv {X A : Matrix n n K} (B : Matrix n m K) (C : Matrix m n K)
    (D : Matrix m m K) (h : X * A = 1) :
    (fromBlocks A B C D).det = A.det * (D - C * X * B).det := by
  have hAX := mul_comm_one h
  let _ : Invertible A := ⟨X, h, hAX⟩
  have := Matrix.det_fromBlocks₁₁ A B C D
  rw [this]; rfl

/-- Growing: inverse. -/
theorem inverse_up {X A : Matrix n n K} {B : Matrix n m K} {C : Matrix m n K}
    {D H : Matrix m m K} (h : X * A = 1) (hH : H * (D - C * X * B) = 1) :
    fromBlocks (X + X * B * H * (C * X)) (-(X * B * H)) (-(H * (C * X))) H *
      fromBlocks A B C D = 1 := by
  have hH2 : H * D = 1 + H * C * X * B := by
    have : H * D = H * (D - C * X * B) + H * C * X * B := by
      rw [Matrix.mul_sub]; simp [Matrix.mul_assoc]
    rw [this, hH]
  rw [Matrix.fromBlocks_multiply, ← Matrix.fromBlocks_one]
  congr 1
  · simp only [Matrix.add_mul, Matrix.neg_mul, Matrix.mul_assoc, h, Matrix.mul_one]
    abel
  · simp only [Matrix.add_mul, Matrix.neg_mul, Matrix.mul_assoc, hH2]
    simp only [Matrix.mul_add, Matrix.mul_one]
    abel
  · simp only [Matrix.neg_mul, Matrix.mul_assoc, h, Matrix.mul_one]
    abel
  · simp only [Matrix.neg_mul, hH2, Matrix.mul_assoc]
    abel

/-- Shrinking: determinant. -/
theorem det_down {E : Matrix n n K} {F : Matrix n m K} {G : Matrix m n K} {H : Matrix m m K}
    {A : Matrix n n K} {B : Matrix n m K} {C : Matrix m n K} {D : Matrix m m K}
    (h : fromBlocks E F G H * fromBlocks A B C D = 1) :
    A.det = H.det * (fromBlocks A B C D).det := by
  have h1 := h
  rw [Matrix.fromBlocks_multiply, ← Matrix.fromBlocks_one, Matrix.fromBlocks_inj] at h1
  obtain ⟨h11, _, h21, _⟩ := h1
  have h2 : fromBlocks E F G H * fromBlocks A 0 C 1 = fromBlocks 1 F 0 H := by
    rw [Matrix.fromBlocks_multiply, h11, h21]; simp
  have h3 := congrArg Matrix.det h2
  rw [Matrix.det_mul, Matrix.det_fromBlocks_zero₁₂, Matrix.det_fromBlocks_zero₂₁,
    Matrix.det_one, Matrix.det_one, mul_one, one_mul] at h3
  have h4 := det_mul_det_of_mul_eq_one h
  calc A.det = (fromBlocks E F G H).det * (fromBlocks A B C D).det * A.det := by rw [h4, one_mul]
    _ = ((fromBlocks E F G H).det * A.det) * (fromBlocks A B C D).det := by ring
    _ = _ := by rw [h3]

/-- Shrinking: inverse. -/
theorem inverse_down {E : Matrix n n K} {F : Matrix n m K} {G : Matrix m n K} {H Hi : Matrix m m K}
    {A : Matrix n n K} {B : Matrix n m K} {C : Matrix m n K} {D : Matrix m m K}
    (h : fromBlocks E F G H * fromBlocks A B C D = 1) (hH : Hi * H = 1) :
    (E - F * Hi * G) * A = 1 := by
  rw [Matrix.fromBlocks_multiply, ← Matrix.fromBlocks_one, Matrix.fromBlocks_inj] at h
  obtain ⟨h11, _, h21, _⟩ := h
  have h3 : Hi * G * A = - C := by
    have := congrArg (fun Z => Hi * Z) h21
    simp only [Matrix.mul_add, Matrix.mul_zero, ← Matrix.mul_assoc, hH, Matrix.one_mul] at this
    exact eq_neg_of_add_eq_zero_left this
  have : (E - F * Hi * G) * A = E * A - F * (Hi * G * A) := by
    rw [Matrix.sub_mul]; simp [Matrix.mul_assoc]
  rw [this, h3, Matrix.mul_neg, sub_neg_eq_add, h11]

/-- The matrix at the far end of the shrink formula is invertible iff the reduced matrix is. -/
theorem isUnit_H_of_down {E : Matrix n n K} {F : Matrix n m K} {G : Matrix m n K} {H : Matrix m m K}
    {A : Matrix n n K} {B : Matrix n m K} {C : Matrix m n K} {D : Matrix m m K}
    (h : fromBlocks E F G H * fromBlocks A B C D = 1) : A.det ≠ 0 ↔ H.det ≠ 0 := by
  rw [det_down h, mul_ne_zero_iff]
  exact ⟨fun h => h.1, fun h' => ⟨h', det_ne_zero_of_mul_eq_one h⟩⟩

end CTInt
