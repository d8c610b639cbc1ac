import Verif.Proofs.Removal
import Verif.Model.FastReplace
import Mathlib.Algebra.BigOperators.Field

/-!
# Replacing rows, columns and diagonal elements: helper lemmas for C15, C16, C17
-/

set_option linter.all false

open Matrix

namespace CTInt

variable {K : Type} [Field K]

theorem DMat.mul_assoc' (A B C : DMat K) : (A.mul B).mul C = A.mul (B.mul C) := by
  unfold DMat.mul
  congr 1
  funext i j
  simp only [Finset.sum_mul, Finset.mul_sum]
  rw [Finset.sum_comm]
  simp only [mul_assoc]

theorem IsInvOf.det_mul {X : DMat K} {n : ℕ} {g : ℕ → ℕ → K} (h : IsInvOf X n g) :
    X.det = 1 / detN n g := by
  rw [eq_div_iff h.det_ne_zero, DMat.det_eq h.1]
  exact det_mul_det_of_mul_eq_one h.2.2

/-- Entries of the inverse, as sums. -/
theorem IsInvOf.sum_left {X : DMat K} {n : ℕ} {g : ℕ → ℕ → K} (h : IsInvOf X n g) {i j : ℕ}
    (hi : i < n) (hj : j < n) :
    ∑ k ∈ Finset.range n, X.val i k * g k j = if i = j then 1 else 0 := by
  have := congrFun (congrFun h.2.2 ⟨i, hi⟩) ⟨j, hj⟩
  rw [Matrix.mul_apply] at this
  simp only [toM_apply] at this
  rw [Fin.sum_univ_eq_sum_range (fun k => X.val i k * g k j) n] at this
  rw [this, Matrix.one_apply]
  simp [Fin.ext_iff]

theorem IsInvOf.sum_right {X : DMat K} {n : ℕ} {g : ℕ → ℕ → K} (h : IsInvOf X n g) {i j : ℕ}
    (hi : i < n) (hj : j < n) :
    ∑ k ∈ Finset.range n, g i k * X.val k j = if i = j then 1 else 0 := by
  have := congrFun (congrFun (mul_comm_one h.2.2) ⟨i, hi⟩) ⟨j, hj⟩
  rw [Matrix.mul_apply] at this
  simp only [toM_apply] at this
  rw [Fin.sum_univ_eq_sum_range (fun k => g i k * X.val k j) n] at this
  rw [this, Matrix.one_apply]
  simp [Fin.ext_iff]

theorem isInvOf_of_sum_right {X : DMat K} {n : ℕ} {g : ℕ → ℕ → K} (hr : X.rows = n) (hc : X.cols = n)
    (h : ∀ i < n, ∀ j < n, ∑ k ∈ Finset.range n, g i k * X.val k j = if i = j then 1 else 0) :
    IsInvOf X n g := by
  refine ⟨hr, hc, mul_comm_one ?_⟩
  ext i j
  rw [Matrix.mul_apply]
  simp only [toM_apply]
  rw [Fin.sum_univ_eq_sum_range (fun k => g i k * X.val k j) n, h i i.2 j j.2, Matrix.one_apply]
  simp [Fin.ext_iff]

theorem isInvOf_of_sum_left {X : DMat K} {n : ℕ} {g : ℕ → ℕ → K} (hr : X.rows = n) (hc : X.cols = n)
    (h : ∀ i < n, ∀ j < n, ∑ k ∈ Finset.range n, X.val i k * g k j = if i = j then 1 else 0) :
    IsInvOf X n g := by
  refine ⟨hr, hc, ?_⟩
  ext i j
  rw [Matrix.mul_apply]
  simp only [toM_apply]
  rw [Fin.sum_univ_eq_sum_range (fun k => X.val i k * g k j) n, h i i.2 j j.2, Matrix.one_apply]
  simp [Fin.ext_iff]

theorem IsInvOf.transpose {X : DMat K} {n : ℕ} {g : ℕ → ℕ → K} (h : IsInvOf X n g) :
    IsInvOf ⟨n, n, fun i j => X.val j i⟩ n (fun i j => g j i) := by
  refine isInvOf_of_sum_left rfl rfl fun i hi j hj => ?_
  have := h.sum_right (i := j) (j := i) hj hi
  simp only [mul_comm (g _ _)] at this
  simp only [this, eq_comm]

theorem detN_transpose (n : ℕ) (g : ℕ → ℕ → K) : detN n (fun i j => g j i) = detN n g := by
  unfold detN
  rw [← Matrix.det_transpose]; rfl

/-- Row replacement: ratio. -/
theorem detN_replace_row {X : DMat K} {n m : ℕ} {g : ℕ → ℕ → K} (h : IsInvOf X n g) (hm : m < n)
    (b : ℕ → K) :
    detN n (fun i j => if i = m then b j else g i j) =
      (∑ k ∈ Finset.range n, b k * X.val k m) * detN n g := by
  unfold detN
  have e : toM n n (fun i j => if i = m then b j else g i j) =
      (toM n n g).updateRow ⟨m, hm⟩ (fun j => b j) := by
    ext i j
    simp only [toM_apply, Matrix.updateRow_apply, Fin.ext_iff]
  have hadj : (toM n n g).adjugate = (toM n n g).det • toM n n X.val := by
    have h1 : (toM n n g) * (toM n n X.val) = 1 := mul_comm_one h.2.2
    calc (toM n n g).adjugate = (toM n n g).adjugate * ((toM n n g) * (toM n n X.val)) := by
          rw [h1, Matrix.mul_one]
      _ = _ := by rw [← Matrix.mul_assoc, Matrix.adjugate_mul, Matrix.smul_mul, Matrix.one_mul]
  rw [e, ← Matrix.cramer_transpose_apply, Matrix.cramer_eq_adjugate_mulVec, ← Matrix.adjugate_transpose,
    hadj]
  simp only [Matrix.mulVec, dotProduct, Matrix.transpose_apply, Matrix.smul_apply, toM_apply, smul_eq_mul]
  rw [Finset.sum_mul, ← Fin.sum_univ_eq_sum_range (fun k => b k * X.val k m * (toM n n g).det) n]
  exact Finset.sum_congr rfl fun k _ => by ring

/-- Row replacement: inverse. -/
theorem replace_row_inverse {X Y : DMat K} {n m : ℕ} {g : ℕ → ℕ → K} (h : IsInvOf X n g) (hm : m < n)
    {b : ℕ → K} {lam : K} (hl : lam = ∑ k ∈ Finset.range n, b k * X.val k m) (h0 : lam ≠ 0)
    (hr : Y.rows = n) (hc : Y.cols = n)
    (hY : ∀ i < n, ∀ j < n, Y.val i j = if j = m then X.val i m / lam else
      X.val i j - X.val i m * (∑ k ∈ Finset.range n, b k * X.val k j) / lam) :
    IsInvOf Y n (fun i j => if i = m then b j else g i j) := by
  refine isInvOf_of_sum_right hr hc fun i hi j hj => ?_
  have e : ∀ a : ℕ → K, ∑ k ∈ Finset.range n, a k * Y.val k j = if j = m then
      (∑ k ∈ Finset.range n, a k * X.val k m) / lam else
      (∑ k ∈ Finset.range n, a k * X.val k j) - (∑ k ∈ Finset.range n, a k * X.val k m) *
        (∑ k ∈ Finset.range n, b k * X.val k j) / lam := by
    intro a
    split_ifs with hjm
    · rw [Finset.sum_div]
      refine Finset.sum_congr rfl fun k hk => ?_
      rw [hY k (Finset.mem_range.mp hk) j hj, if_pos hjm]; ring
    · rw [Finset.sum_mul, Finset.sum_div, ← Finset.sum_sub_distrib]
      refine Finset.sum_congr rfl fun k hk => ?_
      rw [hY k (Finset.mem_range.mp hk) j hj, if_neg hjm]; ring
  by_cases him : i = m
  · subst him
    simp only [if_true]
    rw [e b]
    split_ifs with hjm h2 h2
    · rw [← hl]; field_simp
    · omega
    · omega
    · rw [← hl]; field_simp; ring
  · simp only [if_neg him]
    rw [e (g i), h.sum_right hi hj, h.sum_right hi hm, if_neg him]
    split_ifs with hjm h2 h2 <;> first | omega | simp

/-- Reducing to the kept block and growing again, as the replacement helpers do. -/
theorem replace_mid {N Mo : ℕ} {g gold : ℕ → ℕ → K} {X Mm : DMat K}
    (hX : IsInvOf X (N + Mo) gold) (hg : ∀ i < N, ∀ j < N, g i j = gold i j) (h : detN N gold ≠ 0)
    (hr : Mm.rows = N) (hc : Mm.cols = N)
    (hm : ∀ i < N, ∀ j < N, Mm.val i j = X.val i j -
      (((X.block 0 N N Mo).mul (X.block N N Mo Mo).inv).mul (X.block N 0 Mo N)).val i j) :
    IsInvOf Mm N g :=
  (down_inverse hX h hr hc hm).congr fun i hi j hj => (hg i hi j hj).symm

theorem replace_ratio {N Mo M : ℕ} {g gold : ℕ → ℕ → K} {X Mm Q R S : DMat K}
    (hX : IsInvOf X (N + Mo) gold) (hg : ∀ i < N, ∀ j < N, g i j = gold i j) (h : detN N gold ≠ 0)
    (hb : UpBlocks N M g Q R S) (hM : IsInvOf Mm N g) :
    (X.block N N Mo Mo).det * (S.sub (R.mul (Mm.mul Q))).det =
      detN (N + M) g / detN (N + Mo) gold := by
  have e : detN N g = detN N gold := by unfold detN; rw [toM_congr hg]
  rw [detN_down hX, ← DMat.mul_assoc', detN_up hb hM, e]
  have := hX.det_ne_zero
  field_simp

theorem DMat.setBlock_block_same {A B : DMat K} {r c h w : ℕ} (hr : B.rows = h) (hc : B.cols = w) :
    ((A.setBlock r c B).block r c h w).mat h w = B.mat h w := by
  refine toM_congr fun i hi j hj => ?_
  rw [DMat.block_val, DMat.setBlock_in (by omega)]
  congr 1 <;> omega

theorem DMat.setBlock_block_disj {A B : DMat K} {r c r' c' h w : ℕ}
    (hd : r' + h ≤ r ∨ r + B.rows ≤ r' ∨ c' + w ≤ c ∨ c + B.cols ≤ c') :
    ((A.setBlock r c B).block r' c' h w).mat h w = (A.block r' c' h w).mat h w := by
  refine toM_congr fun i hi j hj => ?_
  rw [DMat.block_val, DMat.setBlock_out (by omega), DMat.block_val]

/-- Assembling the enlarged inverse, stated for the blocks of the result. -/
theorem up_assemble_mat {N M : ℕ} {g : ℕ → ℕ → K} {B C D X Y : DMat K} (hb : UpBlocks N M g B C D)
    (hX : IsInvOf X N g) (h : detN (N + M) g ≠ 0)
    (hYr : Y.rows = N + M) (hYc : Y.cols = N + M)
    (y22 : (Y.block N N M M).mat M M = ((D.sub ((C.mul X).mul B)).inv).mat M M)
    (y12 : (Y.block 0 N N M).mat N M = -(X.mat N N * B.mat N M * (Y.block N N M M).mat M M))
    (y21 : (Y.block N 0 M N).mat M N = -((Y.block N N M M).mat M M * (C.mat M N * X.mat N N)))
    (y11 : (Y.block 0 0 N N).mat N N =
      X.mat N N - X.mat N N * B.mat N M * (Y.block N 0 M N).mat M N) :
    IsInvOf Y (N + M) g := by
  have hHm := up_H hb hX h
  rw [← y22] at hHm
  have e11 : toM N N Y.val = (Y.block 0 0 N N).mat N N :=
    toM_congr fun i _ j _ => by simp [DMat.block_val]
  have e12 : (toM N M fun i j => Y.val i (N + j)) = (Y.block 0 N N M).mat N M :=
    toM_congr fun i _ j _ => by simp [DMat.block_val]
  have e21 : (toM M N fun i j => Y.val (N + i) j) = (Y.block N 0 M N).mat M N :=
    toM_congr fun i _ j _ => by simp [DMat.block_val]
  have e22 : (toM M M fun i j => Y.val (N + i) (N + j)) = (Y.block N N M M).mat M M := rfl
  refine mul_blocks_eq_one hYr hYc e11 e12 e21 e22 ?_
  have := inverse_up hX.2.2 hHm
  rw [y11, y12, y21]
  rw [hb.matB, hb.matC]
  rw [Matrix.mul_neg, sub_neg_eq_add]
  simp only [Matrix.mul_assoc] at this ⊢
  exact this

/-- Woodbury identity. -/
theorem woodbury {m n : Type} [Fintype m] [Fintype n] [DecidableEq m] [DecidableEq n]
    {X A : Matrix n n K} {U : Matrix n m K} {V : Matrix m n K} {C Ci W : Matrix m m K}
    (h : X * A = 1) (hC : Ci * C = 1) (hW : W * (Ci + V * X * U) = 1) :
    (X - X * U * W * (V * X)) * (A + U * C * V) = 1 := by
  have h1 : W * (V * X * U) = 1 - W * Ci := by
    rw [← hW, Matrix.mul_add]; abel
  have h2 : W * (V * X * U) * C = C - W := by
    rw [h1, Matrix.sub_mul, Matrix.one_mul, Matrix.mul_assoc, hC, Matrix.mul_one]
  have e1 : X * U * W * (V * X) * A = X * U * W * V := by
    rw [Matrix.mul_assoc, Matrix.mul_assoc V, h, Matrix.mul_one]
  have e2 : X * U * W * (V * X) * (U * C * V) = X * U * (W * (V * X * U) * C) * V := by
    simp only [Matrix.mul_assoc]
  rw [Matrix.sub_mul, Matrix.mul_add, Matrix.mul_add, h, e1, e2, h2]
  simp only [Matrix.mul_sub, Matrix.sub_mul, Matrix.mul_assoc]
  abel

/-- Determinant version. -/
theorem det_woodbury {m n : Type} [Fintype m] [Fintype n] [DecidableEq m] [DecidableEq n]
    {X A : Matrix n n K} {U : Matrix n m K} {V : Matrix m n K} (h : X * A = 1) :
    (A + U * V).det = A.det * (1 + V * X * U).det := by
  have hA := mul_comm_one h
  have : A + U * V = A * (1 + X * U * V) := by
    rw [Matrix.mul_add, Matrix.mul_one, ← Matrix.mul_assoc, ← Matrix.mul_assoc, hA, Matrix.one_mul]
  rw [this, Matrix.det_mul, Matrix.det_one_add_mul_comm, ← Matrix.mul_assoc]

theorem permOf_reverse (l : List (ℕ × ℕ)) : permOf l.reverse = (permOf l)⁻¹ := by
  induction l with
  | nil => simp
  | cons p l ih =>
    rw [List.reverse_cons, permOf_append, ih, permOf_cons, permOf_cons, permOf_nil, mul_one,
      _root_.mul_inv_rev, Equiv.swap_inv]

end CTInt
