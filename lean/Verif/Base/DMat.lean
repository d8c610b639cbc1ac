import Mathlib.LinearAlgebra.Matrix.SchurComplement
import Mathlib.LinearAlgebra.Matrix.NonsingularInverse
import Mathlib.Tactic.NoncommRing
import Mathlib.Tactic.FieldSimp
import Verif.Base.Res

/-!
# Run-time sized matrices

`DMat K` models `ResizableMatrix<T>` / `Eigen::Matrix<T,Dynamic,Dynamic>` as seen through its
logical size (include/alps/fastupdate/resizable_matrix.hpp); the allocated buffer is modelled separately in
`Verif.Model.Resizable`.  Only the entries `i < rows`, `j < cols` are meaningful.
Matrix product, determinant and inverse stand for the external Eigen calls and are exact.
-/

set_option linter.all false

open Matrix

namespace CTInt

variable {K : Type}

/-- The `n × m` Mathlib matrix of an index function. -/
def toM (n m : ℕ) (f : ℕ → ℕ → K) : Matrix (Fin n) (Fin m) K := Matrix.of fun i j => f i j

/-- Index function of a Mathlib matrix (0 outside). -/
def ofM [Zero K] {n m : ℕ} (X : Matrix (Fin n) (Fin m) K) : ℕ → ℕ → K :=
  fun i j => if h : i < n ∧ j < m then X ⟨i, h.1⟩ ⟨j, h.2⟩ else 0

@[simp] theorem toM_apply (n m : ℕ) (f : ℕ → ℕ → K) (i : Fin n) (j : Fin m) :
    toM n m f i j = f i j := rfl

@[simp] theorem toM_ofM [Zero K] {n m : ℕ} (X : Matrix (Fin n) (Fin m) K) :
    toM n m (ofM X) = X := by
  ext i j; simp [ofM]

theorem toM_congr {n m : ℕ} {f g : ℕ → ℕ → K} (h : ∀ i < n, ∀ j < m, f i j = g i j) :
    toM n m f = toM n m g := by
  ext i j; exact h i i.2 j j.2

theorem toM_eq_iff {n m : ℕ} {f g : ℕ → ℕ → K} :
    toM n m f = toM n m g ↔ ∀ i < n, ∀ j < m, f i j = g i j := by
  refine ⟨fun h i hi j hj => ?_, toM_congr⟩
  have := congrFun (congrFun h ⟨i, hi⟩) ⟨j, hj⟩
  simpa using this

/-- A run-time sized matrix. -/
structure DMat (K : Type) where
  rows : ℕ
  cols : ℕ
  val : ℕ → ℕ → K

namespace DMat

variable [Field K]

/-- The Mathlib matrix of a `DMat`, with sizes supplied by the caller. -/
def mat (A : DMat K) (n m : ℕ) : Matrix (Fin n) (Fin m) K := toM n m A.val

/-- Has the given size. -/
def HasSize (A : DMat K) (n m : ℕ) : Prop := A.rows = n ∧ A.cols = m

/-- Eigen's matrix product (external). -/
def mul (A B : DMat K) : DMat K :=
  ⟨A.rows, B.cols, fun i j => ∑ k ∈ Finset.range A.cols, A.val i k * B.val k j⟩
/-- Eigen's sum (external). -/
def add (A B : DMat K) : DMat K := ⟨A.rows, A.cols, fun i j => A.val i j + B.val i j⟩
/-- Eigen's difference (external). -/
def sub (A B : DMat K) : DMat K := ⟨A.rows, A.cols, fun i j => A.val i j - B.val i j⟩
/-- Eigen's negation (external). -/
def neg (A : DMat K) : DMat K := ⟨A.rows, A.cols, fun i j => - A.val i j⟩
/-- Scaling (external). -/
def smul (c : K) (A : DMat K) : DMat K := ⟨A.rows, A.cols, fun i j => c * A.val i j⟩
/-- Eigen's inverse of a square matrix (external, exact). -/
noncomputable def inv (A : DMat K) : DMat K :=
  ⟨A.rows, A.cols, ofM (toM A.rows A.rows A.val)⁻¹⟩
/-- Eigen's determinant of a square matrix (external, exact). -/
def det (A : DMat K) : K := (toM A.rows A.rows A.val).det
/-- `m.block(r,c,h,w)` as a value. -/
def block (A : DMat K) (r c h w : ℕ) : DMat K := ⟨h, w, fun i j => A.val (r + i) (c + j)⟩
/-- `m.block(r,c,B.rows,B.cols) = B`. -/
def setBlock (A : DMat K) (r c : ℕ) (B : DMat K) : DMat K :=
  ⟨A.rows, A.cols, fun i j =>
    if r ≤ i ∧ i < r + B.rows ∧ c ≤ j ∧ j < c + B.cols then B.val (i - r) (j - c)
    else A.val i j⟩
/-- `conservative_resize`: keeps the common entries, new entries are arbitrary (`junk`).
    resizable_matrix.hpp 114-125 (buffer details in `Verif.Model.Resizable`). -/
def conservativeResize (junk : ℕ → ℕ → K) (A : DMat K) (n m : ℕ) : DMat K :=
  ⟨n, m, fun i j => if i < A.rows ∧ j < A.cols then A.val i j else junk i j⟩
/-- `destructive_resize`: all entries arbitrary (`junk`).  resizable_matrix.hpp 128-138. -/
def destructiveResize (junk : ℕ → ℕ → K) (n m : ℕ) : DMat K := ⟨n, m, junk⟩
/-- `swap_row(r1,r2)`.  resizable_matrix.hpp 164-169. -/
def swapRow (A : DMat K) (a b : ℕ) : DMat K :=
  ⟨A.rows, A.cols, fun i j => A.val (Equiv.swap a b i) j⟩
/-- `swap_col(c1,c2)`.  resizable_matrix.hpp 172-177. -/
def swapCol (A : DMat K) (a b : ℕ) : DMat K :=
  ⟨A.rows, A.cols, fun i j => A.val i (Equiv.swap a b j)⟩
/-- single element write -/
def set (A : DMat K) (i j : ℕ) (x : K) : DMat K :=
  ⟨A.rows, A.cols, fun p q => if p = i ∧ q = j then x else A.val p q⟩

@[simp] theorem mul_rows (A B : DMat K) : (A.mul B).rows = A.rows := rfl
@[simp] theorem mul_cols (A B : DMat K) : (A.mul B).cols = B.cols := rfl
@[simp] theorem add_rows (A B : DMat K) : (A.add B).rows = A.rows := rfl
@[simp] theorem add_cols (A B : DMat K) : (A.add B).cols = A.cols := rfl
@[simp] theorem sub_rows (A B : DMat K) : (A.sub B).rows = A.rows := rfl
@[simp] theorem sub_cols (A B : DMat K) : (A.sub B).cols = A.cols := rfl
@[simp] theorem neg_rows (A : DMat K) : A.neg.rows = A.rows := rfl
@[simp] theorem neg_cols (A : DMat K) : A.neg.cols = A.cols := rfl
@[simp] theorem smul_rows (c : K) (A : DMat K) : (A.smul c).rows = A.rows := rfl
@[simp] theorem smul_cols (c : K) (A : DMat K) : (A.smul c).cols = A.cols := rfl
@[simp] theorem inv_rows (A : DMat K) : A.inv.rows = A.rows := rfl
@[simp] theorem inv_cols (A : DMat K) : A.inv.cols = A.cols := rfl
@[simp] theorem block_rows (A : DMat K) (r c h w : ℕ) : (A.block r c h w).rows = h := rfl
@[simp] theorem block_cols (A : DMat K) (r c h w : ℕ) : (A.block r c h w).cols = w := rfl
@[simp] theorem setBlock_rows (A B : DMat K) (r c : ℕ) : (A.setBlock r c B).rows = A.rows := rfl
@[simp] theorem setBlock_cols (A B : DMat K) (r c : ℕ) : (A.setBlock r c B).cols = A.cols := rfl
@[simp] theorem swapRow_rows (A : DMat K) (a b : ℕ) : (A.swapRow a b).rows = A.rows := rfl
@[simp] theorem swapRow_cols (A : DMat K) (a b : ℕ) : (A.swapRow a b).cols = A.cols := rfl
@[simp] theorem swapCol_rows (A : DMat K) (a b : ℕ) : (A.swapCol a b).rows = A.rows := rfl
@[simp] theorem swapCol_cols (A : DMat K) (a b : ℕ) : (A.swapCol a b).cols = A.cols := rfl
@[simp] theorem conservativeResize_rows (junk : ℕ → ℕ → K) (A : DMat K) (n m : ℕ) :
    (A.conservativeResize junk n m).rows = n := rfl
@[simp] theorem conservativeResize_cols (junk : ℕ → ℕ → K) (A : DMat K) (n m : ℕ) :
    (A.conservativeResize junk n m).cols = m := rfl
@[simp] theorem destructiveResize_rows (junk : ℕ → ℕ → K) (n m : ℕ) :
    (destructiveResize junk n m).rows = n := rfl
@[simp] theorem destructiveResize_cols (junk : ℕ → ℕ → K) (n m : ℕ) :
    (destructiveResize junk n m).cols = m := rfl

theorem setBlock_in {A B : DMat K} {r c i j : ℕ}
    (h : r ≤ i ∧ i < r + B.rows ∧ c ≤ j ∧ j < c + B.cols) :
    (A.setBlock r c B).val i j = B.val (i - r) (j - c) := by simp [setBlock, h]
theorem setBlock_out {A B : DMat K} {r c i j : ℕ}
    (h : ¬ (r ≤ i ∧ i < r + B.rows ∧ c ≤ j ∧ j < c + B.cols)) :
    (A.setBlock r c B).val i j = A.val i j := by simp [setBlock, h]
theorem block_val (A : DMat K) (r c h w i j : ℕ) : (A.block r c h w).val i j = A.val (r + i) (c + j) := rfl
theorem conservativeResize_val {junk : ℕ → ℕ → K} {A : DMat K} {n m i j : ℕ}
    (h : i < A.rows ∧ j < A.cols) :
    (A.conservativeResize junk n m).val i j = A.val i j := by simp [conservativeResize, h]
theorem sub_val (A B : DMat K) (i j : ℕ) : (A.sub B).val i j = A.val i j - B.val i j := rfl
theorem add_val (A B : DMat K) (i j : ℕ) : (A.add B).val i j = A.val i j + B.val i j := rfl
theorem neg_val (A : DMat K) (i j : ℕ) : A.neg.val i j = - A.val i j := rfl
theorem mul_val (A B : DMat K) (i j : ℕ) :
    (A.mul B).val i j = ∑ k ∈ Finset.range A.cols, A.val i k * B.val k j := rfl
/-- Products only see the entries inside the common size. -/
theorem mul_val_congr {A A' B B' : DMat K} {i j : ℕ} (hc : A.cols = A'.cols)
    (hA : ∀ k < A.cols, A.val i k = A'.val i k) (hB : ∀ k < A.cols, B.val k j = B'.val k j) :
    (A.mul B).val i j = (A'.mul B').val i j := by
  simp only [mul_val, ← hc]
  refine Finset.sum_congr rfl fun k hk => ?_
  rw [hA k (Finset.mem_range.mp hk), hB k (Finset.mem_range.mp hk)]

theorem mat_mul {A B : DMat K} {n m l : ℕ} (h : A.cols = m) :
    (A.mul B).mat n l = A.mat n m * B.mat m l := by
  ext i j
  simp only [mat, mul, toM_apply, Matrix.mul_apply, h]
  exact (Fin.sum_univ_eq_sum_range (fun k => A.val i k * B.val k j) m).symm

@[simp] theorem mat_add (A B : DMat K) (n m : ℕ) : (A.add B).mat n m = A.mat n m + B.mat n m := rfl
@[simp] theorem mat_sub (A B : DMat K) (n m : ℕ) : (A.sub B).mat n m = A.mat n m - B.mat n m := rfl
@[simp] theorem mat_neg (A : DMat K) (n m : ℕ) : A.neg.mat n m = - A.mat n m := rfl
@[simp] theorem mat_smul (c : K) (A : DMat K) (n m : ℕ) : (A.smul c).mat n m = c • A.mat n m := rfl

theorem mat_inv {A : DMat K} {n : ℕ} (h : A.rows = n) : A.inv.mat n n = (A.mat n n)⁻¹ := by
  subst h; simp [mat, inv]

theorem det_eq {A : DMat K} {n : ℕ} (h : A.rows = n) : A.det = (A.mat n n).det := by
  subst h; rfl

end DMat

/-- The block decomposition of a square index function at position `N`. -/
theorem toM_add (N M : ℕ) (g : ℕ → ℕ → K) :
    toM (N + M) (N + M) g =
      Matrix.reindex finSumFinEquiv finSumFinEquiv
        (Matrix.fromBlocks (toM N N g) (toM N M fun i j => g i (N + j))
          (toM M N fun i j => g (N + i) j) (toM M M fun i j => g (N + i) (N + j))) := by
  ext i j
  rw [Matrix.reindex_apply, Matrix.submatrix_apply]
  refine Fin.addCases (fun a => ?_) (fun a => ?_) i <;>
    refine Fin.addCases (fun b => ?_) (fun b => ?_) j <;> simp

theorem toM_add_mul [Semiring K] (N M : ℕ) (f g : ℕ → ℕ → K) :
    toM (N + M) (N + M) f * toM (N + M) (N + M) g = 1 ↔
      Matrix.fromBlocks (toM N N f) (toM N M fun i j => f i (N + j))
          (toM M N fun i j => f (N + i) j) (toM M M fun i j => f (N + i) (N + j)) *
      Matrix.fromBlocks (toM N N g) (toM N M fun i j => g i (N + j))
          (toM M N fun i j => g (N + i) j) (toM M M fun i j => g (N + i) (N + j)) = 1 := by
  rw [toM_add, toM_add]
  simp only [Matrix.reindex_apply]
  rw [Matrix.submatrix_mul_equiv]
  constructor
  · intro h
    have := congrArg (fun X => X.submatrix finSumFinEquiv finSumFinEquiv) h
    simpa using this
  · intro h
    rw [h]; simp

theorem det_toM_add [CommRing K] (N M : ℕ) (g : ℕ → ℕ → K) :
    (toM (N + M) (N + M) g).det =
      (Matrix.fromBlocks (toM N N g) (toM N M fun i j => g i (N + j))
          (toM M N fun i j => g (N + i) j) (toM M M fun i j => g (N + i) (N + j))).det := by
  rw [toM_add, Matrix.det_reindex_self]

end CTInt
