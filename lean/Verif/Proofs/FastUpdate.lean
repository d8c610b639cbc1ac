import Verif.Proofs.Block
import Verif.Model.FastUpdate
import Verif.Spec.Inverse

/-!
# Growing and shrinking: helper lemmas for C11, C12
-/

set_option linter.all false

open Matrix

namespace CTInt

variable {K : Type} [Field K]

theorem IsInvOf.det_ne_zero {X : DMat K} {n : ℕ} {g : ℕ → ℕ → K} (h : IsInvOf X n g) :
    detN n g ≠ 0 := det_ne_zero_of_mul_eq_one h.2.2

theorem IsInvOf.congr {X : DMat K} {n : ℕ} {g g' : ℕ → ℕ → K} (h : IsInvOf X n g)
    (hg : ∀ i < n, ∀ j < n, g i j = g' i j) : IsInvOf X n g' := by
  refine ⟨h.1, h.2.1, ?_⟩
  rw [← toM_congr hg]; exact h.2.2

theorem IsInvOf.congr_left {X Y : DMat K} {n : ℕ} {g : ℕ → ℕ → K} (h : IsInvOf X n g)
    (hr : Y.rows = n) (hc : Y.cols = n)
    (hg : ∀ i < n, ∀ j < n, X.val i j = Y.val i j) : IsInvOf Y n g := by
  refine ⟨hr, hc, ?_⟩
  rw [← toM_congr hg]; exact h.2.2

/-- Blocks of an index function at split position `N`. -/
theorem isInvOf_add {X : DMat K} {N M : ℕ} {g : ℕ → ℕ → K} :
    IsInvOf X (N + M) g ↔ X.rows = N + M ∧ X.cols = N + M ∧
      Matrix.fromBlocks (toM N N X.val) (toM N M fun i j => X.val i (N + j))
          (toM M N fun i j => X.val (N + i) j) (toM M M fun i j => X.val (N + i) (N + j)) *
      Matrix.fromBlocks (toM N N g) (toM N M fun i j => g i (N + j))
          (toM M N fun i j => g (N + i) j) (toM M M fun i j => g (N + i) (N + j)) = 1 := by
  unfold IsInvOf
  rw [toM_add_mul]

theorem toM_zero_mul_eq_one (f g : ℕ → ℕ → K) : toM 0 0 f * toM 0 0 g = 1 := by
  ext i; exact i.elim0

/-- The four blocks of a matrix assembled by block assignments. -/
theorem mul_blocks_eq_one {X : DMat K} {N M : ℕ} {g : ℕ → ℕ → K}
    (hr : X.rows = N + M) (hc : X.cols = N + M)
    {E : Matrix (Fin N) (Fin N) K} {F : Matrix (Fin N) (Fin M) K} {G : Matrix (Fin M) (Fin N) K}
    {H : Matrix (Fin M) (Fin M) K}
    (hE : toM N N X.val = E) (hF : (toM N M fun i j => X.val i (N + j)) = F)
    (hG : (toM M N fun i j => X.val (N + i) j) = G)
    (hH : (toM M M fun i j => X.val (N + i) (N + j)) = H)
    (h : fromBlocks E F G H *
      Matrix.fromBlocks (toM N N g) (toM N M fun i j => g i (N + j))
          (toM M N fun i j => g (N + i) j) (toM M M fun i j => g (N + i) (N + j)) = 1) :
    IsInvOf X (N + M) g := by
  rw [isInvOf_add]
  refine ⟨hr, hc, ?_⟩
  rw [hE, hF, hG, hH]; exact h

namespace UpBlocks
variable {N M : ℕ} {g : ℕ → ℕ → K} {B C D : DMat K}

theorem matB (h : UpBlocks N M g B C D) : B.mat N M = toM N M fun i j => g i (N + j) :=
  toM_congr h.Bv
theorem matC (h : UpBlocks N M g B C D) : C.mat M N = toM M N fun i j => g (N + i) j :=
  toM_congr h.Cv
theorem matD (h : UpBlocks N M g B C D) : D.mat M M = toM M M fun i j => g (N + i) (N + j) :=
  toM_congr h.Dv
end UpBlocks

/-- Schur complement and determinant. -/
theorem detN_up {N M : ℕ} {g : ℕ → ℕ → K} {B C D X : DMat K} (hb : UpBlocks N M g B C D)
    (hX : IsInvOf X N g) :
    (D.sub ((C.mul X).mul B)).det = detN (N + M) g / detN N g := by
  have h0 := hX.det_ne_zero
  rw [eq_div_iff h0, DMat.det_eq (n := M) (by simp [hb.Dr]), DMat.mat_sub,
    DMat.mat_mul (m := N) (by simp [hX.2.1]), DMat.mat_mul (m := N) hb.Cc, hb.matB, hb.matC, hb.matD]
  unfold detN
  rw [det_toM_add, det_fromBlocks_of_inv _ _ _ hX.2.2, mul_comm]
  rfl

theorem detN_up_zero {M : ℕ} {g : ℕ → ℕ → K} {B C D : DMat K} (hb : UpBlocks 0 M g B C D) :
    D.det = detN (0 + M) g / detN 0 g := by
  have : detN 0 g = 1 := by simp [detN]
  rw [this, div_one, DMat.det_eq (n := M) hb.Dr, hb.matD, Nat.zero_add]
  simp only [Nat.zero_add, detN]

theorem isInvOf_zero_up {M : ℕ} {g : ℕ → ℕ → K} {B C D : DMat K} (hb : UpBlocks 0 M g B C D)
    (h : detN (0 + M) g ≠ 0) : IsInvOf D.inv (0 + M) g := by
  have hD : D.mat M M = toM M M g := by
    rw [hb.matD]; simp
  rw [Nat.zero_add] at *
  refine ⟨by simp [hb.Dr], by simp [hb.Dc], ?_⟩
  have : toM M M D.inv.val = (toM M M g)⁻¹ := by
    rw [← hD]; exact DMat.mat_inv hb.Dr
  rw [this]
  exact Matrix.nonsing_inv_mul _ (isUnit_iff_ne_zero.mpr h)

/-- `H` is the inverse of the Schur complement. -/
theorem up_H {N M : ℕ} {g : ℕ → ℕ → K} {B C D X : DMat K} (hb : UpBlocks N M g B C D)
    (hX : IsInvOf X N g) (h : detN (N + M) g ≠ 0) :
    ((D.sub ((C.mul X).mul B)).inv).mat M M *
      ((toM M M fun i j => g (N + i) (N + j)) - (toM M N fun i j => g (N + i) j) * toM N N X.val *
        (toM N M fun i j => g i (N + j))) = 1 := by
  have hr : (D.sub ((C.mul X).mul B)).rows = M := by simp [hb.Dr]
  have hm : (D.sub ((C.mul X).mul B)).mat M M =
      ((toM M M fun i j => g (N + i) (N + j)) - (toM M N fun i j => g (N + i) j) * toM N N X.val *
        (toM N M fun i j => g i (N + j))) := by
    rw [DMat.mat_sub, DMat.mat_mul (m := N) (by simp [hX.2.1]), DMat.mat_mul (m := N) hb.Cc,
      hb.matB, hb.matC, hb.matD]
    rfl
  rw [DMat.mat_inv hr, ← hm]
  apply Matrix.nonsing_inv_mul
  rw [isUnit_iff_ne_zero, ← DMat.det_eq hr, detN_up hb hX]
  exact div_ne_zero h hX.det_ne_zero

theorem one_div_det_inv {A : DMat K} : 1 / A.inv.det = A.det := by
  have h : A.inv.det = (A.det)⁻¹ := by
    rw [DMat.det_eq (A := A.inv) (n := A.rows) rfl, DMat.mat_inv rfl, Matrix.det_nonsing_inv,
      Ring.inverse_eq_inv']
    rfl
  rw [h, one_div, inv_inv]

/-- Assembling the enlarged inverse from the blocks as the code does. -/
theorem up_assemble {N M : ℕ} {g : ℕ → ℕ → K} {B C D X Y : DMat K} (hb : UpBlocks N M g B C D)
    (hX : IsInvOf X N g) (h : detN (N + M) g ≠ 0)
    {H C_invA invA_B G E F : DMat K}
    (hH : H = (D.sub ((C.mul X).mul B)).inv) (hCi : C_invA = C.mul X) (hiB : invA_B = X.mul B)
    (hG : G = (H.neg).mul C_invA) (hE : E = X.sub (invA_B.mul G)) (hF : F = (invA_B.neg).mul H)
    (hYr : Y.rows = N + M) (hYc : Y.cols = N + M)
    (y11 : ∀ i < N, ∀ j < N, Y.val i j = E.val i j)
    (y12 : ∀ i < N, ∀ j < M, Y.val i (N + j) = F.val i j)
    (y21 : ∀ i < M, ∀ j < N, Y.val (N + i) j = G.val i j)
    (y22 : ∀ i < M, ∀ j < M, Y.val (N + i) (N + j) = H.val i j) :
    IsInvOf Y (N + M) g := by
  have hHm := up_H hb hX h
  rw [← hH] at hHm
  have hXB : invA_B.mat N M = toM N N X.val * (toM N M fun i j => g i (N + j)) := by
    rw [hiB, DMat.mat_mul hX.2.1, hb.matB]; rfl
  have hCX : C_invA.mat M N = (toM M N fun i j => g (N + i) j) * toM N N X.val := by
    rw [hCi, DMat.mat_mul hb.Cc, hb.matC]; rfl
  have hHc : H.cols = M := by rw [hH]; simp [hb.Dc]
  have hGm : G.mat M N = - (H.mat M M * ((toM M N fun i j => g (N + i) j) * toM N N X.val)) := by
    rw [hG, DMat.mat_mul (m := M) (by simp [hHc]), hCX, DMat.mat_neg, Matrix.neg_mul]
  have hBc : invA_B.cols = M := by rw [hiB]; simp [hb.Bc]
  have hFm : F.mat N M = -(toM N N X.val * (toM N M fun i j => g i (N + j)) * H.mat M M) := by
    rw [hF, DMat.mat_mul (m := M) (by simp [hBc]), DMat.mat_neg, hXB, Matrix.neg_mul]
  have hEm : E.mat N N = toM N N X.val + toM N N X.val * (toM N M fun i j => g i (N + j)) *
      H.mat M M * ((toM M N fun i j => g (N + i) j) * toM N N X.val) := by
    rw [hE, DMat.mat_sub, DMat.mat_mul (m := M) hBc, hGm, hXB, Matrix.mul_neg, sub_neg_eq_add]
    simp only [Matrix.mul_assoc]; rfl
  refine mul_blocks_eq_one hYr hYc ((toM_congr y11).trans hEm) ((toM_congr y12).trans hFm)
    ((toM_congr y21).trans hGm) (toM_congr y22) ?_
  exact inverse_up hX.2.2 hHm

/-- Shrinking: ratio. -/
theorem detN_down {N M : ℕ} {g : ℕ → ℕ → K} {X : DMat K} (hX : IsInvOf X (N + M) g) :
    (X.block N N M M).det = detN N g / detN (N + M) g := by
  rw [eq_div_iff hX.det_ne_zero]
  have h := (isInvOf_add.mp hX).2.2
  have := det_down h
  rw [← det_toM_add] at this
  exact this.symm

/-- Shrinking: the lower right block of the inverse is invertible. -/
theorem down_H {N M : ℕ} {g : ℕ → ℕ → K} {X : DMat K} (hX : IsInvOf X (N + M) g)
    (h : detN N g ≠ 0) :
    (X.block N N M M).inv.mat M M * (toM M M fun i j => X.val (N + i) (N + j)) = 1 := by
  rw [DMat.mat_inv (A := X.block N N M M) (n := M) rfl]
  refine Matrix.nonsing_inv_mul (A := (X.block N N M M).mat M M) ?_
  rw [isUnit_iff_ne_zero, ← DMat.det_eq (A := X.block N N M M) (n := M) rfl, detN_down hX]
  exact div_ne_zero h hX.det_ne_zero

/-- Shrinking: the updated leading block is the inverse of the leading block. -/
theorem down_inverse {N M : ℕ} {g : ℕ → ℕ → K} {X Y : DMat K} (hX : IsInvOf X (N + M) g)
    (h : detN N g ≠ 0) (hr : Y.rows = N) (hc : Y.cols = N)
    (hY : ∀ i < N, ∀ j < N, Y.val i j = X.val i j -
      (((X.block 0 N N M).mul (X.block N N M M).inv).mul (X.block N 0 M N)).val i j) :
    IsInvOf Y N g := by
  refine ⟨hr, hc, ?_⟩
  have hm : toM N N Y.val = toM N N X.val - (toM N M fun i j => X.val i (N + j)) *
      (X.block N N M M).inv.mat M M * (toM M N fun i j => X.val (N + i) j) := by
    have h1 : toM N N Y.val = X.mat N N -
        (((X.block 0 N N M).mul (X.block N N M M).inv).mul (X.block N 0 M N)).mat N N :=
      toM_congr hY
    rw [h1, DMat.mat_mul (m := M) (by simp), DMat.mat_mul (m := M) rfl]
    have e1 : (X.block 0 N N M).mat N M = toM N M fun i j => X.val i (N + j) :=
      toM_congr fun i _ j _ => by simp [DMat.block_val]
    have e2 : (X.block N 0 M N).mat M N = toM M N fun i j => X.val (N + i) j :=
      toM_congr fun i _ j _ => by simp [DMat.block_val]
    rw [e1, e2]; rfl
  rw [hm]
  exact inverse_down (isInvOf_add.mp hX).2.2 (down_H hX h)

end CTInt
